import Verif.Model.PackageVersion

/-! Lemmas about the version of the package. -/
namespace Verif.Pkg
open Verif.Versions (splitOn)

/-! ### `strip` -/

theorem dropWhile_head {p : Char → Bool} {s : Text} (h : ∀ c ∈ s.head?, p c = false) : s.dropWhile p = s := by
  cases s with
  | nil => rfl
  | cons a t => simp only [List.head?_cons, Option.mem_some_iff, forall_eq'] at h; simp [List.dropWhile, h]

theorem dropWhile_all {p : Char → Bool} {a s : Text} (ha : ∀ c ∈ a, p c = true) : (a ++ s).dropWhile p = s.dropWhile p := by
  induction a with
  | nil => rfl
  | cons c t ih =>
    simp only [List.cons_append, List.dropWhile, ha c (by simp)]
    exact ih (fun x hx => ha x (by simp [hx]))

theorem stripOf_around {p : Char → Bool} {a s b : Text} (ha : ∀ c ∈ a, p c = true) (hb : ∀ c ∈ b, p c = true)
    (h1 : ∀ c ∈ s.head?, p c = false) (h2 : ∀ c ∈ s.getLast?, p c = false) (hs : s ≠ []) : stripOf p (a ++ s ++ b) = s := by
  unfold stripOf
  rw [List.append_assoc, dropWhile_all ha]
  have e : (s ++ b).dropWhile p = s ++ b := by
    apply dropWhile_head
    intro c hc
    cases s with
    | nil => exact absurd rfl hs
    | cons x t => exact h1 c (by simpa using hc)
  rw [e, List.reverse_append, dropWhile_all (fun c hc => hb c (by simpa using hc)), dropWhile_head, List.reverse_reverse]
  intro c hc
  rw [List.head?_reverse] at hc
  exact h2 c hc

theorem stripOf_self {p : Char → Bool} {s : Text} (h1 : ∀ c ∈ s.head?, p c = false) (h2 : ∀ c ∈ s.getLast?, p c = false) :
    stripOf p s = s := by
  cases s with
  | nil => rfl
  | cons x t => simpa using stripOf_around (p := p) (a := []) (b := []) (s := x :: t) (by simp) (by simp) h1 h2 (by simp)

/-! ### Reading what `git describe` prints -/

theorem first_sep {c : Char} {x y x' y' : Text} (h : x ++ c :: y = x' ++ c :: y') (hx : c ∉ x) (hx' : c ∉ x') : x = x' ∧ y = y' := by
  induction x generalizing x' with
  | nil =>
    cases x' with
    | nil => exact ⟨rfl, by simpa using h⟩
    | cons d t => simp only [List.nil_append, List.cons_append, List.cons.injEq] at h; exact absurd (h.1 ▸ List.mem_cons_self) hx'
  | cons d t ih =>
    cases x' with
    | nil => simp only [List.nil_append, List.cons_append, List.cons.injEq] at h; exact absurd (h.1.symm ▸ List.mem_cons_self) hx
    | cons d' t' =>
      simp only [List.cons_append, List.cons.injEq] at h
      obtain ⟨h1, h2⟩ := ih h.2 (fun m => hx (List.mem_cons_of_mem _ m)) (fun m => hx' (List.mem_cons_of_mem _ m))
      exact ⟨by rw [h.1, h1], h2⟩

theorem last_sep {c : Char} {a b a' b' : Text} (h : a ++ c :: b = a' ++ c :: b') (hb : c ∉ b) (hb' : c ∉ b') : a = a' ∧ b = b' := by
  have e := congrArg List.reverse h
  simp only [List.reverse_append, List.reverse_cons, List.append_assoc, List.singleton_append] at e
  obtain ⟨h1, h2⟩ := first_sep e (by simpa using hb) (by simpa using hb')
  exact ⟨List.reverse_inj.1 h2, List.reverse_inj.1 h1⟩

/-- The end of what `git describe --long` prints. -/
def tailText (ds h : Text) : Text := '-' :: (ds ++ '-' :: 'g' :: h)

theorem takeWhile_append_stop {p : Char → Bool} {a : Text} {x : Char} {b : Text} (ha : ∀ c ∈ a, p c = true) (hx : p x = false) :
    (a ++ x :: b).takeWhile p = a ∧ (a ++ x :: b).dropWhile p = x :: b := by
  induction a with
  | nil => simp [hx]
  | cons c t ih =>
    have := ih (fun y hy => ha y (by simp [hy]))
    simp [ha c (by simp), this]

theorem matchTail_text {ds h : Text} (h1 : ds ≠ []) (h2 : ∀ c ∈ ds, isNum c = true) (h3 : h ≠ []) (h4 : ∀ c ∈ h, isHex c = true) :
    matchTail (tailText ds h) = some (ds, h) := by
  obtain ⟨e1, e2⟩ := takeWhile_append_stop (b := 'g' :: h) h2 (show isNum '-' = false by decide)
  simp only [matchTail, tailText, e1, e2]
  rw [if_pos ⟨h1, h3, by simpa using h4⟩]

theorem matchTail_sound {r ds h : Text} (e : matchTail r = some (ds, h)) :
    r = tailText ds h ∧ ds ≠ [] ∧ (∀ c ∈ ds, isNum c = true) ∧ h ≠ [] ∧ ∀ c ∈ h, isHex c = true := by
  unfold matchTail at e
  split at e
  · rename_i r
    split at e
    · rename_i h' hd
      split at e
      · rename_i hc
        simp only [Option.some.injEq, Prod.mk.injEq] at e
        obtain ⟨rfl, rfl⟩ := e
        refine ⟨?_, hc.1, ?_, hc.2.1, by simpa using hc.2.2⟩
        · unfold tailText
          rw [← hd, List.takeWhile_append_dropWhile]
        · intro c hm
          have := List.all_takeWhile (p := isNum) (l := r)
          rw [List.all_eq_true] at this
          exact this c hm
      · simp at e
    · simp at e
  · simp at e

theorem isNum_ne {c : Char} (h : isNum c = true) : c ≠ '-' ∧ c ≠ '+' ∧ c ≠ '.' ∧ isBlank c = false := by
  refine ⟨?_, ?_, ?_, ?_⟩
  · rintro rfl; revert h; decide
  · rintro rfl; revert h; decide
  · rintro rfl; revert h; decide
  · cases hb : isBlank c with
    | false => rfl
    | true =>
      simp only [isBlank, Bool.or_eq_true, beq_iff_eq] at hb
      rcases hb with ((((rfl | rfl) | rfl) | rfl) | rfl) | rfl <;> exact absurd h (by decide)

theorem isHex_ne {c : Char} (h : isHex c = true) : c ≠ '-' ∧ c ≠ '+' ∧ c ≠ '.' ∧ isBlank c = false ∧ c ≠ 'y' := by
  refine ⟨?_, ?_, ?_, ?_, ?_⟩
  · rintro rfl; revert h; decide
  · rintro rfl; revert h; decide
  · rintro rfl; revert h; decide
  · cases hb : isBlank c with
    | false => rfl
    | true =>
      simp only [isBlank, Bool.or_eq_true, beq_iff_eq] at hb
      rcases hb with ((((rfl | rfl) | rfl) | rfl) | rfl) | rfl <;> exact absurd h (by decide)
  · rintro rfl; revert h; decide

/-- The parts of what is printed are determined by the whole. -/
theorem tailText_inj {t ds h t' ds' h' : Text} (e : t ++ tailText ds h = t' ++ tailText ds' h')
    (h1 : ∀ c ∈ ds, isNum c = true) (h2 : ∀ c ∈ h, isHex c = true) (h1' : ∀ c ∈ ds', isNum c = true) (h2' : ∀ c ∈ h', isHex c = true) :
    t = t' ∧ ds = ds' ∧ h = h' := by
  unfold tailText at e
  have e1 : (t ++ '-' :: ds) ++ '-' :: 'g' :: h = (t' ++ '-' :: ds') ++ '-' :: 'g' :: h' := by simpa using e
  obtain ⟨e2, e3⟩ := last_sep e1 (by simp only [List.mem_cons, not_or]; exact ⟨by decide, fun m => (isHex_ne (h2 _ m)).1 rfl⟩)
    (by simp only [List.mem_cons, not_or]; exact ⟨by decide, fun m => (isHex_ne (h2' _ m)).1 rfl⟩)
  obtain ⟨e4, e5⟩ := last_sep e2 (fun m => (isNum_ne (h1 _ m)).1 rfl) (fun m => (isNum_ne (h1' _ m)).1 rfl)
  exact ⟨e4, e5, by simpa using e3⟩

theorem matchUpTo_sound {s : Text} {i : Nat} {t ds h : Text} (e : matchUpTo s i = some (t, ds, h)) :
    s = t ++ tailText ds h ∧ ds ≠ [] ∧ (∀ c ∈ ds, isNum c = true) ∧ h ≠ [] ∧ (∀ c ∈ h, isHex c = true) ∧ '\n' ∉ t := by
  induction i with
  | zero => simp [matchUpTo] at e
  | succ i ih =>
    simp only [matchUpTo] at e
    by_cases hn : '\n' ∈ s.take (i + 1)
    · simp only [if_pos hn] at e; exact ih e
    · simp only [if_neg hn] at e
      split at e
      · rename_i ds' h' hm
        simp only [Option.some.injEq, Prod.mk.injEq] at e
        obtain ⟨rfl, rfl, rfl⟩ := e
        obtain ⟨a, b, c, d, f⟩ := matchTail_sound hm
        exact ⟨by rw [← a, List.take_append_drop], b, c, d, f, hn⟩
      · exact ih e

theorem matchUpTo_complete {s : Text} {i : Nat} {t ds h : Text} (hs : s = t ++ tailText ds h) (ht : t ≠ []) (hn : '\n' ∉ t)
    (h1 : ds ≠ []) (h2 : ∀ c ∈ ds, isNum c = true) (h3 : h ≠ []) (h4 : ∀ c ∈ h, isHex c = true) (hi : t.length ≤ i) :
    (matchUpTo s i).isSome = true := by
  induction i with
  | zero =>
    have : t.length ≠ 0 := fun e => ht (List.length_eq_zero_iff.1 e)
    omega
  | succ i ih =>
    simp only [matchUpTo]
    by_cases e : t.length = i + 1
    · have e1 : s.take (i + 1) = t := by rw [hs, ← e]; simp
      have e2 : s.drop (i + 1) = tailText ds h := by rw [hs, ← e]; simp
      rw [e1, e2, if_neg hn, matchTail_text h1 h2 h3 h4]
      rfl
    · split
      · rfl
      · exact ih (by omega)

theorem matchDescribe_text {t ds h : Text} (ht : t ≠ []) (hn : '\n' ∉ t)
    (h1 : ds ≠ []) (h2 : ∀ c ∈ ds, isNum c = true) (h3 : h ≠ []) (h4 : ∀ c ∈ h, isHex c = true) :
    matchDescribe (t ++ tailText ds h) = some (t, ds, h) := by
  have hc := matchUpTo_complete (i := (t ++ tailText ds h).length) rfl ht hn h1 h2 h3 h4 (by simp)
  obtain ⟨⟨t', ds', h'⟩, e⟩ := Option.isSome_iff_exists.1 hc
  obtain ⟨a, _, c, _, f, _⟩ := matchUpTo_sound e
  obtain ⟨rfl, rfl, rfl⟩ := tailText_inj a h2 h4 c f
  exact e

theorem shown_num (n : Nat) : ∀ c ∈ shown n, isNum c = true :=
  fun _ hc => Nat.isDigit_of_mem_toDigits (by decide) (by decide) hc

theorem shown_ne (n : Nat) : shown n ≠ [] := Nat.toDigits_ne_nil

theorem shown_read (n : Nat) : Nat.ofDigitChars 10 (shown n) 0 = n :=
  Nat.ofDigitChars_toDigits (by decide) (by decide)

theorem shown_inj {m n : Nat} (h : shown m = shown n) : m = n := by
  rw [← shown_read m, h, shown_read]

end Verif.Pkg
