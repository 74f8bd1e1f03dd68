import Verif.Lemmas.PackageVersion
import Verif.Spec.PackageVersion
import Verif.Lemmas.Versions

/-! The version of the package (C116, C117). -/
namespace Verif.Props
open Verif.Pkg Verif.Spec

/-! ### C116 -/

theorem hexDigits_isHex {c : Char} (h : c ∈ hexDigits) : isHex c = true := by
  simp only [hexDigits, List.mem_cons, List.not_mem_nil, or_false] at h
  rcases h with rfl | rfl | rfl | rfl | rfl | rfl | rfl | rfl | rfl | rfl | rfl | rfl | rfl | rfl | rfl | rfl <;> decide

/-- `git` answers for the working tree `c`; commands end their output with an end of line. -/
structure Answers (g : Git) (c : Checkout) : Prop where
  inside : g.inside = true
  describe : g.describe = some (c.describe ++ ['\n'])
  head : g.head = some (c.hash ++ ['\n'])
  branch : g.branch ≠ none
  commits : ∀ n h f d, c = .untagged n h f d → g.commits = n

theorem strip_line {s : Text} (h0 : s ≠ []) (h1 : ∀ c ∈ s.head?, isBlank c = false) (h2 : ∀ c ∈ s.getLast?, isBlank c = false) :
    strip (s ++ ['\n']) = s := by
  have := stripOf_around (p := isBlank) (a := []) (s := s) (b := ['\n']) (by simp) (by simp; decide) h1 h2 h0
  simpa [strip] using this

theorem hash_head {h : Text} (hh : HashText h) : ∀ c ∈ h.head?, isBlank c = false := by
  intro c hc
  exact (isHex_ne (hexDigits_isHex (hh.2 c (List.mem_of_mem_head? hc)))).2.2.2.1

theorem hash_last {h : Text} (hh : HashText h) : ∀ c ∈ h.getLast?, isBlank c = false := by
  intro c hc
  exact (isHex_ne (hexDigits_isHex (hh.2 c (List.mem_of_getLast? hc)))).2.2.2.1

theorem strip_hash {h : Text} (hh : HashText h) : strip (h ++ ['\n']) = h := strip_line hh.1 (hash_head hh) (hash_last hh)

theorem last_of_append {s : Text} {h : Text} (hh : HashText h) (d : Bool) :
    ∀ c ∈ (s ++ (h ++ (if d then dirtyMark else []))).getLast?, isBlank c = false := by
  intro c hc
  cases d with
  | true =>
    rw [← List.append_assoc] at hc
    simp only [if_true, dirtyMark] at hc
    rw [List.getLast?_append] at hc
    simp at hc
    subst hc; decide
  | false =>
    simp only [Bool.false_eq_true, if_false, List.append_nil] at hc
    rw [List.getLast?_append] at hc
    cases e : h.getLast? with
    | none => exact absurd (List.getLast?_eq_none_iff.1 e) hh.1
    | some x =>
      rw [e] at hc
      simp at hc
      subst hc
      exact hash_last hh x (by simp [e])

/-- The mark is found exactly if it was added to a hash. -/
theorem dirty_suffix {s h : Text} (hh : HashText h) (d : Bool) : dirtyMark.isSuffixOf (s ++ (h ++ (if d then dirtyMark else []))) = d := by
  cases d with
  | true =>
    rw [List.isSuffixOf_iff_suffix]
    exact ⟨s ++ h, by simp⟩
  | false =>
    rw [Bool.eq_false_iff]
    intro hc
    rw [List.isSuffixOf_iff_suffix] at hc
    obtain ⟨x, hx⟩ := hc
    simp only [Bool.false_eq_true, if_false, List.append_nil] at hx
    have e : (x ++ dirtyMark).getLast? = some 'y' := by rw [List.getLast?_append]; rfl
    rw [hx, List.getLast?_append] at e
    cases e' : h.getLast? with
    | none => exact hh.1 (List.getLast?_eq_none_iff.1 e')
    | some y =>
      rw [e'] at e
      simp at e
      subst e
      exact (isHex_ne (hexDigits_isHex (hh.2 _ (List.mem_of_getLast? e')))).2.2.2.2 rfl

theorem cut_dirty (s : Text) (d : Bool) :
    (if d = true then (s ++ (if d then dirtyMark else [])).take ((s ++ (if d then dirtyMark else [])).length - dirtyMark.length)
      else s ++ (if d then dirtyMark else [])) = s := by
  cases d with
  | true => simp
  | false => simp

theorem describe_tagged (t : Text) (n : Nat) (h f : Text) (d : Bool) :
    Checkout.describe (.tagged t n h f d) = t ++ tailText (shown n) h ++ (if d then dirtyMark else []) := by
  simp [Checkout.describe, tailText, shown, dirtyMark]

/-- The pieces read for a working tree. -/
theorem pieces_checkout {g : Git} {c : Checkout} (hv : c.Valid) (ha : Answers g c) :
    gitPieces [] g = some (match c with
      | .tagged t n h f d => ⟨f, h, none, d, some t, n, isoDate g.date⟩
      | .untagged n _ f d => ⟨f, f.take 7, none, d, none, n, isoDate g.date⟩) := by
  obtain ⟨b, hb⟩ := Option.ne_none_iff_exists'.1 ha.branch
  have hf : HashText c.hash := by cases c with
    | tagged => exact hv.2.2
    | untagged => exact hv.2
  simp only [gitPieces, ha.inside, ha.describe, ha.head, hb, strip_hash hf]
  cases c with
  | tagged t n h f d =>
    obtain ⟨⟨⟨c0, r0, ht0, hc0⟩, htn⟩, hh, _⟩ := hv
    have htne : t ≠ [] := by rw [ht0]; simp
    have hh' : ∀ c ∈ h, isHex c = true := fun c hc => hexDigits_isHex (hh.2 c hc)
    have hs : strip (Checkout.describe (.tagged t n h f d) ++ ['\n']) = Checkout.describe (.tagged t n h f d) := by
      apply strip_line
      · simp [describe_tagged, tailText]
      · intro c hc
        rw [describe_tagged, ht0] at hc
        simp at hc
        subst hc
        exact (isNum_ne hc0).2.2.2
      · have e : Checkout.describe (.tagged t n h f d) =
            (t ++ '-' :: (shown n ++ ['-', 'g'])) ++ (h ++ (if d then dirtyMark else [])) := by simp [describe_tagged, tailText]
        rw [e]
        exact last_of_append hh d
    have hd : dirtyMark.isSuffixOf (Checkout.describe (.tagged t n h f d)) = d := by
      have e : Checkout.describe (.tagged t n h f d) =
            (t ++ '-' :: (shown n ++ ['-', 'g'])) ++ (h ++ (if d then dirtyMark else [])) := by simp [describe_tagged, tailText]
      rw [e]
      exact dirty_suffix hh d
    rw [hs, hd, describe_tagged, cut_dirty]
    have hm : '-' ∈ t ++ tailText (shown n) h := by simp [tailText]
    simp only [Bool.true_eq_false, if_false, if_pos hm]
    rw [matchDescribe_text htne (fun m => (htn _ m).2 rfl) (shown_ne n) (shown_num n) hh.1 hh']
    simp [shown_read, Checkout.hash]
  | untagged n h f d =>
    obtain ⟨hh, _⟩ := hv
    have e : Checkout.describe (.untagged n h f d) = [] ++ (h ++ (if d then dirtyMark else [])) := by
      simp [Checkout.describe, dirtyMark]
    have hs : strip (Checkout.describe (.untagged n h f d) ++ ['\n']) = Checkout.describe (.untagged n h f d) := by
      apply strip_line
      · rw [e]; simp [hh.1]
      · intro c hc
        rw [e] at hc
        obtain ⟨x, r, hx⟩ := List.exists_cons_of_ne_nil hh.1
        rw [hx] at hc
        simp at hc
        exact hash_head hh c (by rw [hx]; simp [hc])
      · rw [e]; exact last_of_append hh d
    have hd : dirtyMark.isSuffixOf (Checkout.describe (.untagged n h f d)) = d := by rw [e]; exact dirty_suffix hh d
    rw [hs, hd, e, List.nil_append, cut_dirty]
    have hm : '-' ∉ h := fun m => (isHex_ne (hexDigits_isHex (hh.2 _ m))).1 rfl
    simp only [Bool.true_eq_false, if_false, if_neg hm, ha.commits n h f d rfl, Checkout.hash]

/-- **C116**: in a working tree the version is the one described for its tag, distance, hash and changes, whatever the tag looks like; the full
hash and whether files are changed are reported along with it. -/
theorem C116_version_of_checkout (g : Git) (c : Checkout) (file : List (List Char)) (hv : c.Valid) (ha : Answers g c) :
    let i := getVersions unexpanded (some file) g
    i.version = c.version ∧ i.revision = some c.hash ∧ i.dirty = some c.changed ∧ i.error = none := by
  have hk : fromKeywords [] unexpanded = none := by decide
  simp only [getVersions, hk, pieces_checkout hv ha, render]
  cases c with
  | tagged t n h f d =>
    obtain ⟨⟨⟨c0, r0, ht0, _⟩, _⟩, _⟩ := hv
    have htne : t ≠ [] := by rw [ht0]; simp
    refine ⟨?_, rfl, rfl, rfl⟩
    simp only [renderPep440, Pieces.trueTag, Option.some.injEq, htne, if_false]
    by_cases hp : '+' ∈ t <;> cases n <;> cases d <;> simp [Checkout.version, plusOrDot, hp, shown, dirtyPart]
  | untagged n h f d =>
    refine ⟨?_, rfl, rfl, rfl⟩
    simp [renderPep440, Pieces.trueTag, Checkout.version, untagged, shown, dirtyPart]

/-- The other styles: `git-describe-long` prints what git printed. -/
theorem C116_describe_round_trip (g : Git) (t : List Char) (n : Nat) (h f : List Char) (d : Bool) (hv : (Checkout.tagged t n h f d).Valid)
    (ha : Answers g (.tagged t n h f d)) : (gitPieces [] g).map renderDescribeLong = some (Checkout.describe (.tagged t n h f d)) := by
  rw [pieces_checkout hv ha]
  obtain ⟨⟨⟨c0, r0, ht0, _⟩, _⟩, _⟩ := hv
  have htne : t ≠ [] := by rw [ht0]; simp
  simp only [Option.map_some, renderDescribeLong, Pieces.trueTag, Option.some.injEq, htne, if_false, describe_tagged, dirtyTail, tailText]
  simp

/-- The same without `--long`. -/
theorem C116_describe_short (g : Git) (t : List Char) (n : Nat) (h f : List Char) (d : Bool) (hv : (Checkout.tagged t n h f d).Valid)
    (ha : Answers g (.tagged t n h f d)) : (gitPieces [] g).map renderDescribe = some (Checkout.describeShort (.tagged t n h f d)) := by
  rw [pieces_checkout hv ha]
  obtain ⟨⟨⟨c0, r0, ht0, _⟩, _⟩, _⟩ := hv
  have htne : t ≠ [] := by rw [ht0]; simp
  simp only [Option.map_some, renderDescribe, Pieces.trueTag, Option.some.injEq, htne, if_false, dirtyTail]
  cases n with
  | zero => simp [Checkout.describeShort, dirtyMark]
  | succ n => simp [Checkout.describeShort, describe_tagged, tailText, dirtyMark]

theorem datePart_blank {s : Text} (h : DatePart s) {c : Char} (hc : c ∈ s) : isBlank c = false := by
  obtain ⟨h1, h2, h3, h4, h5, h6⟩ := h.2 c hc
  simp [isBlank, h1, h2, h3, h4, h5, h6]

theorem replaceOnce_at {c : Char} {new a b : Text} (h : c ∉ a) : replaceOnce c new (a ++ c :: b) = a ++ new ++ b := by
  induction a with
  | nil => simp [replaceOnce]
  | cons x a ih =>
    simp only [List.mem_cons, not_or] at h
    simp [replaceOnce, Ne.symm h.1, ih h.2]

/-- Blanks at the beginning are removed, what is left are lines again. -/
theorem lines_drop (b : Text) (hb : LinesBefore b) (s : Text) (hs : ∀ c ∈ s.head?, isBlank c = false) :
    ∃ b', LinesBefore b' ∧ (b ++ s).dropWhile isBlank = b' ++ s := by
  rcases hb with rfl | ⟨a, rfl⟩
  · exact ⟨[], .inl rfl, by simpa using dropWhile_head hs⟩
  · induction a with
    | nil => exact ⟨[], .inl rfl, by simp [List.dropWhile, show isBlank '\n' = true from rfl, dropWhile_head hs]⟩
    | cons x a ih =>
      by_cases hx : isBlank x = true
      · obtain ⟨b', h1, h2⟩ := ih
        exact ⟨b', h1, by simpa [List.dropWhile, hx] using h2⟩
      · exact ⟨x :: (a ++ ['\n']), .inr ⟨x :: a, rfl⟩, by simp [List.dropWhile, hx]⟩

/-- A date after other lines. -/
theorem isoDate_text {b day time zone : Text} (hb : LinesBefore b) (h1 : DatePart day) (h2 : DatePart time) (h3 : DatePart zone) :
    isoDate (b ++ (day ++ ' ' :: (time ++ ' ' :: (zone ++ ['\n'])))) = day ++ 'T' :: (time ++ zone) := by
  let s : Text := day ++ ' ' :: (time ++ ' ' :: zone)
  have hh : ∀ c ∈ s.head?, isBlank c = false := by
    intro c hc
    obtain ⟨x, r, rfl⟩ := List.exists_cons_of_ne_nil h1.1
    simp only [s, List.cons_append, List.head?_cons, Option.mem_some_iff] at hc
    exact datePart_blank h1 (by simp [← hc])
  have hl : ∀ c ∈ s.getLast?, isBlank c = false := by
    intro c hc
    have e : s.getLast? = zone.getLast? := by
      obtain ⟨x, r, rfl⟩ := List.exists_cons_of_ne_nil h3.1
      simp only [s, List.getLast?_append, List.getLast?_cons]
      simp
    rw [e] at hc
    exact datePart_blank h3 (List.mem_of_getLast? hc)
  have hn : '\n' ∉ s := by
    have : ∀ {x : Text}, DatePart x → '\n' ∉ x := fun hx hc => (hx.2 _ hc).2.2.1 rfl
    simp only [s, List.mem_append, List.mem_cons, not_or]
    exact ⟨this h1, by decide, this h2, by decide, this h3⟩
  have hsne : s ≠ [] := by simp [s]
  obtain ⟨b', hb', hd⟩ := lines_drop b hb (s ++ ['\n']) (by
    intro c hc
    obtain ⟨x, r, hx⟩ := List.exists_cons_of_ne_nil hsne
    rw [hx] at hc hh
    exact hh c (by simpa using hc))
  have e1 : strip (b ++ (day ++ ' ' :: (time ++ ' ' :: (zone ++ ['\n'])))) = b' ++ s := by
    have e0 : b ++ (day ++ ' ' :: (time ++ ' ' :: (zone ++ ['\n']))) = b ++ (s ++ ['\n']) := by simp [s]
    rw [e0, strip, stripOf, hd, ← List.append_assoc, List.reverse_append]
    simp only [List.reverse_cons, List.reverse_nil, List.nil_append, List.singleton_append]
    rw [List.dropWhile_cons_of_pos (by decide), dropWhile_head, List.reverse_reverse]
    intro c hc
    rw [List.head?_reverse, List.getLast?_append] at hc
    obtain ⟨x, hx⟩ := Option.ne_none_iff_exists'.1 (mt List.getLast?_eq_none_iff.1 hsne)
    rw [hx] at hc hl
    exact hl c (by simpa using hc)
  have e2 : (Versions.splitOn '\n' (b' ++ s)).getLastD [] = s := by
    rcases hb' with rfl | ⟨a, rfl⟩
    · rw [List.nil_append, Versions.splitOn_noSep _ hn]; rfl
    · rw [List.append_assoc, List.singleton_append, Versions.splitOn_last _ _ hn]
  have e3 : strip s = s := stripOf_self hh hl
  have nb : ∀ {x : Text}, DatePart x → ' ' ∉ x := fun hx hc => (hx.2 _ hc).1 rfl
  rw [isoDate, e1, e2, e3, replaceOnce_at (nb h1)]
  have : day ++ ['T'] ++ (time ++ ' ' :: zone) = (day ++ 'T' :: time) ++ ' ' :: zone := by simp
  rw [this, replaceOnce_at (by simp only [List.mem_append, List.mem_cons, not_or]; exact ⟨nb h1, by decide, nb h2⟩)]
  simp

/-- The date is that of the commit, also if git prints lines before it: `DAY TIME ZONE` becomes `DAYTTIMEZONE`. -/
theorem C116_date (g : Git) (c : Checkout) (file : List (List Char)) (hv : c.Valid) (ha : Answers g c) (b day time zone : List Char)
    (hb : LinesBefore b) (h1 : DatePart day) (h2 : DatePart time) (h3 : DatePart zone)
    (hd : g.date = b ++ (day ++ [' '] ++ time ++ [' '] ++ zone ++ ['\n'])) :
    (getVersions unexpanded (some file) g).date = some (day ++ ['T'] ++ time ++ zone) := by
  have hk : fromKeywords [] unexpanded = none := by decide
  have e := isoDate_text hb h1 h2 h3
  simp only [getVersions, hk, pieces_checkout hv ha, render]
  cases c <;> simp [hd, e]

/-- A text that is not of the form `TAG-NUM-gHEX` gives no version, and says so. -/
theorem C116_unparsable (g : Git) (file : List (List Char)) (x f : List Char) (h1 : g.inside = true) (h2 : g.describe = some (x ++ ['\n']))
    (h3 : g.head = some (f ++ ['\n'])) (hf : HashText f) (h4 : g.branch ≠ none) (h5 : '-' ∈ x) (h6 : ∀ c ∈ x, DatePart [c])
    (h7 : ¬ dirtyMark <:+ x)
    (h8 : ∀ t (ds h : List Char), (∀ c ∈ ds, c.isDigit = true) → x ≠ t ++ ['-'] ++ ds ++ ['-', 'g'] ++ h) :
    getVersions unexpanded (some file) g = ⟨['u', 'n', 'k', 'n', 'o', 'w', 'n'], some f, none, some .unparsable, none⟩ := by
  have hk : fromKeywords [] unexpanded = none := by decide
  have hb : ∀ c ∈ x, isBlank c = false := fun c hc => datePart_blank (h6 c hc) (by simp)
  have e1 : strip (x ++ ['\n']) = x := strip_line (List.ne_nil_of_mem h5) (fun c hc => hb c (List.mem_of_mem_head? hc))
    (fun c hc => hb c (List.mem_of_getLast? hc))
  have e2 : dirtyMark.isSuffixOf x = false := by
    rw [← Bool.not_eq_true, List.isSuffixOf_iff_suffix]; exact h7
  have e3 : matchDescribe x = none := by
    cases hm : matchDescribe x with
    | none => rfl
    | some r =>
      obtain ⟨t, ds, h⟩ := r
      obtain ⟨hs, -, hds, -⟩ := matchUpTo_sound hm
      exact absurd (by rw [hs]; simp [tailText]) (h8 t ds h hds)
  obtain ⟨br, hbr⟩ := Option.ne_none_iff_exists'.1 h4
  simp [getVersions, hk, gitPieces, h1, h2, h3, hbr, e1, e2, h5, e3, strip_hash hf, render, unknownText]

/-- **C116**, full claim: working trees with the same version are at the same commit. -/
def C116_full : Prop := ∀ c c' : Checkout, c.Valid → c'.Valid → ∀ g g' file, Answers g c → Answers g' c' →
  (getVersions unexpanded (some file) g).version = (getVersions unexpanded (some file) g').version → c.Same c'

theorem noPlus_rest {n : Nat} {h : Text} (hh : ∀ c ∈ h, isHex c = true) (d : Bool) :
    '+' ∉ shown n ++ ['.', 'g'] ++ h ++ (if d then ['.', 'd', 'i', 'r', 't', 'y'] else []) := by
  simp only [List.mem_append, not_or]
  refine ⟨⟨⟨fun m => (isNum_ne (shown_num n _ m)).2.1 rfl, by decide⟩, fun m => (isHex_ne (hh _ m)).2.1 rfl⟩, ?_⟩
  cases d <;> decide

theorem rest_inj {n n' : Nat} {h h' : Text} {d d' : Bool} (hh : ∀ c ∈ h, isHex c = true) (hh' : ∀ c ∈ h', isHex c = true)
    (e : shown n ++ ['.', 'g'] ++ h ++ (if d then ['.', 'd', 'i', 'r', 't', 'y'] else []) =
      shown n' ++ ['.', 'g'] ++ h' ++ (if d' then ['.', 'd', 'i', 'r', 't', 'y'] else [])) : n = n' ∧ h = h' ∧ d = d' := by
  have e1 : shown n ++ '.' :: ('g' :: (h ++ (if d then ['.', 'd', 'i', 'r', 't', 'y'] else []))) =
      shown n' ++ '.' :: ('g' :: (h' ++ (if d' then ['.', 'd', 'i', 'r', 't', 'y'] else []))) := by simpa using e
  obtain ⟨e2, e3⟩ := first_sep e1 (fun m => (isNum_ne (shown_num n _ m)).2.2.1 rfl) (fun m => (isNum_ne (shown_num n' _ m)).2.2.1 rfl)
  refine ⟨shown_inj e2, ?_⟩
  have e4 : h ++ (if d then ['.', 'd', 'i', 'r', 't', 'y'] else []) = h' ++ (if d' then ['.', 'd', 'i', 'r', 't', 'y'] else []) := by
    simpa using e3
  have hn : '.' ∉ h := fun m => (isHex_ne (hh _ m)).2.2.1 rfl
  have hn' : '.' ∉ h' := fun m => (isHex_ne (hh' _ m)).2.2.1 rfl
  cases d <;> cases d'
  · exact ⟨by simpa using e4, rfl⟩
  · simp only [Bool.false_eq_true, if_false, if_true, List.append_nil] at e4
    exact absurd (by rw [e4]; simp) hn
  · simp only [Bool.false_eq_true, if_false, if_true, List.append_nil] at e4
    exact absurd (by rw [← e4]; simp) hn'
  · exact ⟨by simpa using e4, rfl⟩

/-- The version of a tree with a tag without `+`: the tag, or the tag, `+` and the rest. -/
theorem version_tagged {t : Text} (hp : '+' ∉ t) (n : Nat) (h f : Text) (d : Bool) :
    (Checkout.tagged t n h f d).version = t ∧ n = 0 ∧ d = false ∨
    (Checkout.tagged t n h f d).version = t ++ '+' :: (shown n ++ ['.', 'g'] ++ h ++ (if d then ['.', 'd', 'i', 'r', 't', 'y'] else []))
      ∧ ¬ (n = 0 ∧ d = false) := by
  cases n <;> cases d <;> simp [Checkout.version, hp, shown]

/-- Working trees whose tags have no `+` and whose versions are equal are at the same commit. Missing: tags with `+`. -/
theorem C116_version_identifies_partial (g g' : Git) (c c' : Checkout) (file file' : List (List Char)) (hv : c.Valid) (hv' : c'.Valid)
    (hp : c.NoPlus) (hp' : c'.NoPlus) (ha : Answers g c) (ha' : Answers g' c')
    (e : (getVersions unexpanded (some file) g).version = (getVersions unexpanded (some file') g').version) : c.Same c' := by
  rw [(C116_version_of_checkout g c file hv ha).1, (C116_version_of_checkout g' c' file' hv' ha').1] at e
  have hex : ∀ {h : Text}, HashText h → ∀ c ∈ h, isHex c = true := fun hh c hc => hexDigits_isHex (hh.2 c hc)
  have untag : ∀ (n : Nat) (h f : Text) (d : Bool), (Checkout.untagged n h f d).version =
      ['0'] ++ '+' :: (['u', 'n', 't', 'a', 'g', 'g', 'e', 'd', '.'] ++ (shown n ++ ['.', 'g'] ++ f.take 7 ++ (if d then ['.', 'd', 'i', 'r', 't', 'y'] else []))) := by
    intro n h f d; simp [Checkout.version, shown]
  have noplus : ∀ (n : Nat) (f : Text) (d : Bool), HashText f →
      '+' ∉ ['u', 'n', 't', 'a', 'g', 'g', 'e', 'd', '.'] ++ (shown n ++ ['.', 'g'] ++ f.take 7 ++ (if d then ['.', 'd', 'i', 'r', 't', 'y'] else [])) := by
    intro n f d hf
    rw [List.mem_append, not_or]
    exact ⟨by decide, noPlus_rest (fun c hc => hex hf c (List.mem_of_mem_take hc)) d⟩
  -- a tag and no tag
  have mixed : ∀ (t : Text) (n : Nat) (h f : Text) (d : Bool) (n' : Nat) (h' f' : Text) (d' : Bool), '+' ∉ t → HashText h → HashText f' →
      (Checkout.tagged t n h f d).version ≠ (Checkout.untagged n' h' f' d').version := by
    intro t n h f d n' h' f' d' ht hh hf' e
    rw [untag] at e
    rcases version_tagged ht n h f d with ⟨e1, _⟩ | ⟨e1, _⟩
    · rw [e1] at e
      rw [e] at ht
      simp at ht
    · rw [e1] at e
      obtain ⟨_, e2⟩ := last_sep e (noPlus_rest (hex hh) d) (noplus n' f' d' hf')
      obtain ⟨x, r, hx⟩ := List.exists_cons_of_ne_nil (shown_ne n)
      rw [hx] at e2
      simp at e2
      have := shown_num n x (by rw [hx]; simp)
      rw [e2.1] at this
      exact absurd this (by decide)
  cases c with
  | tagged t n h f d =>
    cases c' with
    | tagged t' n' h' f' d' =>
      have hn := noPlus_rest (n := n) (hex hv.2.1) d
      have hn' := noPlus_rest (n := n') (hex hv'.2.1) d'
      rcases version_tagged hp n h f d with ⟨e1, a⟩ | ⟨e1, a⟩ <;> rcases version_tagged hp' n' h' f' d' with ⟨e2, b⟩ | ⟨e2, b⟩
      · rw [e1, e2] at e
        exact ⟨e, by rw [a.1, b.1], by rw [a.2, b.2], .inr a⟩
      · rw [e1, e2] at e
        exact absurd (show '+' ∈ t by rw [e]; simp) hp
      · rw [e1, e2] at e
        exact absurd (show '+' ∈ t' by rw [← e]; simp) hp'
      · rw [e1, e2] at e
        obtain ⟨x, y⟩ := last_sep e hn hn'
        obtain ⟨y1, y2, y3⟩ := rest_inj (hex hv.2.1) (hex hv'.2.1) y
        exact ⟨x, y1, y3, .inl y2⟩
    | untagged n' h' f' d' => exact absurd e (mixed t n h f d n' h' f' d' hp hv.2.1 hv'.2)
  | untagged n h f d =>
    cases c' with
    | tagged t' n' h' f' d' => exact absurd e.symm (mixed t' n' h' f' d' n h f d hp' hv'.2.1 hv.2)
    | untagged n' h' f' d' =>
      rw [untag, untag] at e
      obtain ⟨_, y⟩ := last_sep e (noplus n f d hv.2) (noplus n' f' d' hv'.2)
      have y' := List.append_cancel_left y
      obtain ⟨y1, y2, y3⟩ := rest_inj (fun c hc => hex hv.2 c (List.mem_of_mem_take hc)) (fun c hc => hex hv'.2 c (List.mem_of_mem_take hc)) y'
      exact ⟨y1, y2, y3⟩

theorem hash_take {f : Text} (hf : HashText f) : HashText (f.take 7) :=
  ⟨fun e => hf.1 ((List.take_eq_nil_iff.1 e).resolve_left (by decide)), fun c hc => hf.2 c (List.mem_of_mem_take hc)⟩

theorem not_dot_hex {h : Text} (hh : HashText h) : '.' ∉ h := fun m => (isHex_ne (hexDigits_isHex (hh.2 _ m))).2.2.1 rfl

/-- Texts with the same end: what is before it is the same too. -/
theorem end_inj {a a' : Text} {x x' : Char} {n n' : Nat} {h h' : Text} {d d' : Bool} (hx : x.isDigit = false) (hx' : x'.isDigit = false)
    (hh : HashText h) (hh' : HashText h')
    (e : a ++ x :: (shown n ++ ['.', 'g'] ++ h ++ (if d then ['.', 'd', 'i', 'r', 't', 'y'] else [])) =
      a' ++ x' :: (shown n' ++ ['.', 'g'] ++ h' ++ (if d' then ['.', 'd', 'i', 'r', 't', 'y'] else []))) :
    a = a' ∧ x = x' ∧ n = n' ∧ h = h' ∧ d = d' := by
  have hd : d = d' := by
    have last : ∀ (b : Text) (y : Char) (m : Nat) (k : Text) (q : Bool), HashText k →
        ((b ++ y :: (shown m ++ ['.', 'g'] ++ k ++ (if q then ['.', 'd', 'i', 'r', 't', 'y'] else []))).getLast? = some 'y' ↔ q = true) := by
      intro b y m k q hk
      obtain ⟨l, z, rfl⟩ : ∃ l z, k = l ++ [z] := ⟨k.dropLast, k.getLast hk.1, (List.dropLast_concat_getLast hk.1).symm⟩
      have hz : z ≠ 'y' := fun e => by
        have := hk.2 z (by simp); rw [e] at this; exact absurd this (by decide)
      cases q
      · have : b ++ y :: (shown m ++ ['.', 'g'] ++ (l ++ [z]) ++ (if false = true then ['.', 'd', 'i', 'r', 't', 'y'] else [])) =
            (b ++ y :: (shown m ++ ['.', 'g'] ++ l)) ++ [z] := by simp
        rw [this, List.getLast?_concat]
        simp [hz]
      · have : b ++ y :: (shown m ++ ['.', 'g'] ++ (l ++ [z]) ++ (if true = true then ['.', 'd', 'i', 'r', 't', 'y'] else [])) =
            (b ++ y :: (shown m ++ ['.', 'g'] ++ (l ++ [z]) ++ ['.', 'd', 'i', 'r', 't'])) ++ ['y'] := by simp
        rw [this, List.getLast?_concat]
        simp
    have h1 := last a x n h d hh
    have h2 := last a' x' n' h' d' hh'
    rw [e] at h1
    exact Bool.eq_iff_iff.2 (h1.symm.trans h2)
  subst hd
  have e1 : (a ++ x :: shown n) ++ '.' :: ('g' :: h) = (a' ++ x' :: shown n') ++ '.' :: ('g' :: h') := by
    refine List.append_cancel_right (bs := if d then ['.', 'd', 'i', 'r', 't', 'y'] else []) ?_
    simpa using e
  obtain ⟨e2, e3⟩ := last_sep e1 (by simpa using not_dot_hex hh) (by simpa using not_dot_hex hh')
  have e4 : (shown n).reverse ++ x :: a.reverse = (shown n').reverse ++ x' :: a'.reverse := by
    have := congrArg List.reverse e2
    simpa using this
  have num : ∀ m, ∀ c ∈ (shown m).reverse, c.isDigit = true := fun m c hc => shown_num m c (List.mem_reverse.1 hc)
  have w1 := takeWhile_append_stop (p := Char.isDigit) (b := a.reverse) (num n) hx
  have w2 := takeWhile_append_stop (p := Char.isDigit) (b := a'.reverse) (num n') hx'
  rw [e4] at w1
  have hs := List.reverse_inj.1 (w1.1.symm.trans w2.1)
  have ht := w1.2.symm.trans w2.2
  simp only [List.cons.injEq, List.reverse_inj] at ht
  exact ⟨ht.2, ht.1, shown_inj hs, by simpa using e3, rfl⟩

/-- Which working trees have the same version although they are not at the same commit: one of them is exactly at a tag, without changes, and this tag is
the version text of the other one; or one has the tag `0+untagged` and the other none. Missing: these trees. -/
theorem C116_collision_partial (g g' : Git) (c c' : Checkout) (file file' : List (List Char)) (hv : c.Valid) (hv' : c'.Valid)
    (ha : Answers g c) (ha' : Answers g' c')
    (e : (getVersions unexpanded (some file) g).version = (getVersions unexpanded (some file') g').version) :
    c.Same c' ∨ (∃ h f, c = .tagged c'.version 0 h f false) ∨ (∃ h f, c' = .tagged c.version 0 h f false) ∨
    (∃ n h f d h' f', (c = .tagged untaggedTag n h f d ∧ c' = .untagged n h' f' d ∨ c' = .tagged untaggedTag n h f d ∧ c = .untagged n h' f' d) ∧
      f'.take 7 = h) := by
  rw [(C116_version_of_checkout g c file hv ha).1, (C116_version_of_checkout g' c' file' hv' ha').1] at e
  have untag : ∀ (n : Nat) (h f : Text) (d : Bool), (Checkout.untagged n h f d).version =
      untaggedTag ++ '.' :: (shown n ++ ['.', 'g'] ++ f.take 7 ++ (if d then ['.', 'd', 'i', 'r', 't', 'y'] else [])) := by
    intro n h f d; simp [Checkout.version, shown, untaggedTag]
  have tag : ∀ (t : Text) (n : Nat) (h f : Text) (d : Bool), ((Checkout.tagged t n h f d).version = t ∧ n = 0 ∧ d = false) ∨
      (Checkout.tagged t n h f d).version = t ++ (if '+' ∈ t then '.' else '+') ::
        (shown n ++ ['.', 'g'] ++ h ++ (if d then ['.', 'd', 'i', 'r', 't', 'y'] else [])) := by
    intro t n h f d
    by_cases hp : '+' ∈ t <;> cases n <;> cases d <;> simp [Checkout.version, hp, shown]
  have sep : ∀ t : Text, (if '+' ∈ t then '.' else '+').isDigit = false := fun t => by split <;> rfl
  cases c with
  | tagged t n h f d =>
    cases c' with
    | tagged t' n' h' f' d' =>
      rcases tag t n h f d with ⟨e1, rfl, rfl⟩ | e1
      · exact .inr (.inl ⟨h, f, by rw [← e, e1]⟩)
      · rcases tag t' n' h' f' d' with ⟨e2, rfl, rfl⟩ | e2
        · exact .inr (.inr (.inl ⟨h', f', by rw [e, e2]⟩))
        · rw [e1, e2] at e
          obtain ⟨x, -, y1, y2, y3⟩ := end_inj (sep t) (sep t') hv.2.1 hv'.2.1 e
          exact .inl ⟨x, y1, y3, .inl y2⟩
    | untagged n' h' f' d' =>
      rcases tag t n h f d with ⟨e1, rfl, rfl⟩ | e1
      · exact .inr (.inl ⟨h, f, by rw [← e, e1]⟩)
      · rw [e1, untag] at e
        obtain ⟨x, -, rfl, y2, rfl⟩ := end_inj (sep t) (by rfl) hv.2.1 (hash_take hv'.2) e
        exact .inr (.inr (.inr ⟨n, h, f, d, h', f', .inl ⟨by rw [x], rfl⟩, y2.symm⟩))
  | untagged n h f d =>
    cases c' with
    | tagged t' n' h' f' d' =>
      rcases tag t' n' h' f' d' with ⟨e2, rfl, rfl⟩ | e2
      · exact .inr (.inr (.inl ⟨h', f', by rw [e, e2]⟩))
      · rw [e2, untag] at e
        obtain ⟨x, -, rfl, y2, rfl⟩ := end_inj (by rfl) (sep t') (hash_take hv.2) hv'.2.1 e
        exact .inr (.inr (.inr ⟨n, h', f', d, h, f, .inr ⟨by rw [x], rfl⟩, y2⟩))
    | untagged n' h' f' d' =>
      rw [untag, untag] at e
      obtain ⟨-, -, y1, y2, y3⟩ := end_inj (by rfl) (by rfl) (hash_take hv.2) (hash_take hv'.2) e
      exact .inl ⟨y1, y2, y3⟩

-- the tag `0+untagged` and no tag
example : (Checkout.tagged untaggedTag 3 ['a', 'b'] ['a', 'b'] true).version = (Checkout.untagged 3 ['a', 'b', 'c'] ['a', 'b'] true).version := by
  decide +kernel

/-- A repository with the tags `1` and `1+5.gab`. -/
def exPlus : Checkout × Checkout :=
  (.tagged ['1'] 5 ['a', 'b'] ['a', 'b', 'c'] false, .tagged ['1', '+', '5', '.', 'g', 'a', 'b'] 0 ['c', 'd'] ['c', 'd', 'e'] false)

def exAnswers (c : Checkout) : Git := ⟨true, some (c.describe ++ ['\n']), some (c.hash ++ ['\n']), some [], 0, []⟩

/-- A tag with a `+` can be the version of another commit. -/
theorem C116_violated : ¬ C116_full := by
  intro h
  have hx : Checkout.Valid exPlus.1 ∧ Checkout.Valid exPlus.2 := by
    simp only [exPlus, Checkout.Valid, VersionTag, HashText, hexDigits]
    refine ⟨⟨⟨⟨'1', [], rfl, by decide⟩, by decide⟩, by decide, by decide⟩, ⟨⟨'1', _, rfl, by decide⟩, by decide⟩, by decide, by decide⟩
  have := h exPlus.1 exPlus.2 hx.1 hx.2 (exAnswers exPlus.1) (exAnswers exPlus.2) [] ⟨rfl, rfl, rfl, by simp [exAnswers], by intro n h f d e; cases e⟩
    ⟨rfl, rfl, rfl, by simp [exAnswers], by intro n h f d e; cases e⟩ (by decide +kernel)
  exact absurd this.1 (by decide)

/-- The tag `1.0-rc1`, five commits, changed files. -/
example : (getVersions unexpanded (some []) (exAnswers (.tagged ['1', '.', '0', '-', 'r', 'c', '1'] 15 ['a', 'b'] ['a', 'b', 'c'] true))).version =
    ['1', '.', '0', '-', 'r', 'c', '1', '+', '1', '5', '.', 'g', 'a', 'b', '.', 'd', 'i', 'r', 't', 'y'] := by decide +kernel

/-- A tag that looks like the output of `git describe`. -/
example : (gitPieces [] (exAnswers (.tagged ['1', '-', '2', '-', 'g', 'a'] 3 ['b'] ['b', 'c'] false))).map (fun p => (p.tag, p.distance, p.short)) =
    some (some ['1', '-', '2', '-', 'g', 'a'], 3, ['b']) := by decide +kernel

/-! ### C117 -/

/-- The keywords in an archive of a commit with the given decorations. -/
def archived (rs : List GitRef) (full date : List Char) : Keywords := ⟨decorations rs, full, date⟩

/-- **C117**, full claim: the version of an archive is the first of the version tags of the commit, in the order of texts, and unknown if it has
no version tag. -/
def C117_full : Prop := ∀ (rs : List GitRef) (full date : List Char) (file : Option (List (List Char))) (g : Git),
  (∀ r ∈ rs, RefName r.name) →
  (∀ v, (getVersions (archived rs full date) file g).version = v →
    (IsVersionTag rs v ∧ ∀ t, IsVersionTag rs t → ¬ (t < v)) ∨ (v = unknownVersion ∧ ¬ ∃ t, IsVersionTag rs t))

theorem leText_iff (a b : Text) : leText a b = true ↔ ¬ (b < a) := by
  induction a generalizing b with
  | nil => simp [leText]
  | cons x s ih =>
    cases b with
    | nil => simp [leText]
    | cons y t =>
      have key : (y < x ↔ y.toNat < x.toNat) := by
        rw [Char.lt_def, UInt32.lt_iff_toNat_lt]; rfl
      have key' : x.toNat = y.toNat → x = y := fun h => Char.toNat_inj.1 h
      simp only [leText, List.cons_lt_cons_iff]
      split
      · rename_i h; simp only [true_iff, not_or, not_and]
        refine ⟨by rw [key]; omega, ?_⟩
        rintro rfl; omega
      · split
        · rename_i h1 h2; simp only [Bool.false_eq_true, false_iff, Classical.not_not]
          exact .inl (key.2 h2)
        · rename_i h1 h2
          have : x = y := key' (by omega)
          subst this
          rw [ih]
          simp

/-- Names that can be read back. -/
def Readable (rs : List GitRef) : Prop := ∀ r ∈ rs, RefName r.name ∧ PlainName r.name

theorem refText_ne {r : GitRef} (h : RefName r.name) : r.text ≠ [] := by
  cases r with
  | tag n => simp [GitRef.text]
  | current n => simp [GitRef.text]
  | branch n => exact h.1
  | head => simp [GitRef.text]

theorem refText_mem {r : GitRef} {c : Char} (h : c ∈ r.text) : c ∈ r.name ∨ c ∈ ['t', 'a', 'g', ':', ' ', 'H', 'E', 'A', 'D', '-', '>'] := by
  cases r <;> simp only [GitRef.text, GitRef.name, List.mem_append, List.mem_cons, List.not_mem_nil, or_false] at * <;> grind

theorem refText_head {r : GitRef} {c : Char} (h : c ∈ r.text.head?) : c ∈ r.name ∨ c = 't' ∨ c = 'H' := by
  cases r with
  | tag n => simp [GitRef.text] at h; exact .inr (.inl h.symm)
  | current n => simp [GitRef.text] at h; exact .inr (.inr h.symm)
  | branch n => exact .inl (List.mem_of_mem_head? h)
  | head => simp [GitRef.text] at h; exact .inr (.inr h.symm)

theorem refText_last {r : GitRef} (hn : RefName r.name) {c : Char} (h : c ∈ r.text.getLast?) : c ∈ r.name := by
  cases r with
  | tag n =>
    simp only [GitRef.text] at h
    rw [List.getLast?_append] at h
    cases e : n.getLast? with
    | none => exact absurd (List.getLast?_eq_none_iff.1 e) hn.1
    | some x => rw [e] at h; simp at h; subst h; exact List.mem_of_getLast? e
  | current n =>
    simp only [GitRef.text] at h
    rw [List.getLast?_append] at h
    cases e : n.getLast? with
    | none => exact absurd (List.getLast?_eq_none_iff.1 e) hn.1
    | some x => rw [e] at h; simp at h; subst h; exact List.mem_of_getLast? e
  | branch n => exact List.mem_of_getLast? h
  | head => exact List.mem_of_getLast? h

theorem refName_blank {n : Text} (h : RefName n) {c : Char} (hc : c ∈ n) : isBlank c = false := by
  have := h.2 c hc
  simp only [isBlank, Bool.or_eq_false_iff, beq_eq_false_iff_ne]
  exact ⟨⟨⟨⟨⟨this.1, this.2.2.1⟩, this.2.1⟩, this.2.2.2.1⟩, this.2.2.2.2.1⟩, this.2.2.2.2.2.1⟩

theorem refText_heads {r : GitRef} (h : RefName r.name ∧ PlainName r.name) :
    ∀ c ∈ r.text.head?, isBlank c = false ∧ (c == '(' || c == ')') = false := by
  intro c hc
  rcases refText_head hc with hm | rfl | rfl
  · exact ⟨refName_blank h.1 hm, by have := h.2 c hm; simp [this.2.1, this.2.2]⟩
  · decide
  · decide

theorem refText_lasts {r : GitRef} (h : RefName r.name ∧ PlainName r.name) :
    ∀ c ∈ r.text.getLast?, isBlank c = false ∧ (c == '(' || c == ')') = false := by
  intro c hc
  have hm := refText_last h.1 hc
  exact ⟨refName_blank h.1 hm, by have := h.2 c hm; simp [this.2.1, this.2.2]⟩

theorem refText_comma {r : GitRef} (h : PlainName r.name) : ',' ∉ r.text := by
  intro hc
  rcases refText_mem hc with hm | hm
  · exact (h _ hm).1 rfl
  · exact absurd hm (by decide)

theorem joinRefs_cons (r : GitRef) (r' : GitRef) (rs : List GitRef) :
    joinRefs (r :: r' :: rs) = r.text ++ ',' :: (' ' :: joinRefs (r' :: rs)) := by simp [joinRefs]

theorem strip_ref {pre : Text} (hpre : ∀ c ∈ pre, isBlank c = true) {r : GitRef} (hr : RefName r.name ∧ PlainName r.name) :
    strip (pre ++ r.text) = r.text := by
  have := stripOf_around (p := isBlank) (a := pre) (s := r.text) (b := []) hpre (by simp) (fun c hc => (refText_heads hr c hc).1)
    (fun c hc => (refText_lasts hr c hc).1) (refText_ne hr.1)
  simpa [strip] using this

theorem split_join (r : GitRef) (rs : List GitRef) (pre : Text) (hpre : ∀ c ∈ pre, isBlank c = true) (h : Readable (r :: rs)) :
    (Verif.Versions.splitOn ',' (pre ++ joinRefs (r :: rs))).map strip = (r :: rs).map GitRef.text := by
  have hcomma : ',' ∉ pre := fun m => absurd (hpre _ m) (by decide)
  induction rs generalizing r pre with
  | nil =>
    have hr := h r (by simp)
    simp only [joinRefs]
    rw [Verif.Versions.splitOn_noSep _ (by simp [hcomma, refText_comma hr.2])]
    simp [strip_ref hpre hr]
  | cons r' rs ih =>
    have hr := h r (by simp)
    rw [joinRefs_cons, ← List.append_assoc, Verif.Versions.splitOn_append _ _ (by simp [hcomma, refText_comma hr.2])]
    have := ih r' [' '] (by simp; decide) (fun x hx => h x (by simp [List.mem_cons.1 hx])) (by decide)
    simp only [List.map_cons, strip_ref hpre hr]
    simpa using this

theorem join_head (r : GitRef) (rs : List GitRef) (h : Readable (r :: rs)) : (joinRefs (r :: rs)).head? = r.text.head? := by
  cases rs with
  | nil => rfl
  | cons r' rs =>
    rw [joinRefs_cons]
    obtain ⟨x, t, hx⟩ := List.exists_cons_of_ne_nil (refText_ne (h r (by simp)).1)
    rw [hx]; rfl

theorem join_last (r : GitRef) (rs : List GitRef) (h : Readable (r :: rs)) :
    ∃ r' ∈ r :: rs, (joinRefs (r :: rs)).getLast? = r'.text.getLast? := by
  induction rs generalizing r with
  | nil => exact ⟨r, by simp, rfl⟩
  | cons r' rs ih =>
    obtain ⟨x, hx, e⟩ := ih r' (fun y hy => h y (by simp [List.mem_cons.1 hy]))
    refine ⟨x, by simp [List.mem_cons.1 hx], ?_⟩
    have hne := refText_ne (h x (by simp [List.mem_cons.1 hx])).1
    rw [joinRefs_cons, List.getLast?_append]
    have e2 : (',' :: ' ' :: joinRefs (r' :: rs)).getLast? = x.text.getLast? := by
      rw [← e]
      cases ej : joinRefs (r' :: rs) with
      | nil => rw [ej] at e; exact absurd (List.getLast?_eq_none_iff.1 e.symm) hne
      | cons a b => simp
    rw [e2]
    cases el : x.text.getLast? with
    | none => exact absurd (List.getLast?_eq_none_iff.1 el) hne
    | some y => rfl

/-- The decorations are read back. -/
theorem refs_read (rs : List GitRef) (h : Readable rs) :
    refsOf (strip (decorations rs)) = (if rs = [] then [[]] else rs.map GitRef.text) := by
  cases rs with
  | nil => rfl
  | cons r rs =>
    have hj : joinRefs (r :: rs) ≠ [] := by
      intro e
      have := join_head r rs h
      rw [e] at this
      exact refText_ne (h r (by simp)).1 (List.head?_eq_none_iff.1 this.symm)
    have e1 : strip (decorations (r :: rs)) = '(' :: (joinRefs (r :: rs) ++ [')']) := by
      have := stripOf_around (p := isBlank) (a := [' ']) (s := '(' :: (joinRefs (r :: rs) ++ [')'])) (b := []) (by simp; decide) (by simp)
        (by simp; decide) (by rw [← List.cons_append, List.getLast?_append]; simp; decide) (by simp)
      simpa [strip, decorations] using this
    have e2 : stripOf (fun c => c == '(' || c == ')') ('(' :: (joinRefs (r :: rs) ++ [')'])) = joinRefs (r :: rs) := by
      have := stripOf_around (p := fun c => c == '(' || c == ')') (a := ['(']) (s := joinRefs (r :: rs)) (b := [')']) (by simp) (by simp)
        (by rw [join_head r rs h]; exact fun c hc => (refText_heads (h r (by simp)) c hc).2)
        (by obtain ⟨x, hx, e⟩ := join_last r rs h; rw [e]; exact fun c hc => (refText_lasts (h x hx) c hc).2) hj
      simpa using this
    rw [e1, refsOf, e2]
    have := split_join r rs [] (by simp) h
    simpa using this

theorem tagMark_text {r : GitRef} (h : RefName r.name) : tagMark.isPrefixOf r.text = true ↔ ∃ n, r = .tag n := by
  rw [List.isPrefixOf_iff_prefix]
  constructor
  · rintro ⟨x, hx⟩
    cases r with
    | tag n => exact ⟨n, rfl⟩
    | current n => simp [tagMark, GitRef.text] at hx
    | branch n =>
      simp only [GitRef.text] at hx
      exact absurd rfl (h.2 ':' (by simp only [GitRef.name]; rw [← hx]; simp [tagMark])).2.2.2.2.2.2
    | head => simp [tagMark, GitRef.text] at hx
  · rintro ⟨n, rfl⟩
    exact ⟨n, rfl⟩

/-- The names after `tag: `. -/
theorem tags_read (rs : List GitRef) (h : Readable rs) (t : Text) :
    t ∈ ((rs.map GitRef.text).filter (fun r => tagMark.isPrefixOf r)).map (fun r => r.drop tagMark.length) ↔ GitRef.tag t ∈ rs := by
  simp only [List.mem_map, List.mem_filter]
  constructor
  · rintro ⟨a, ⟨⟨r, hr, rfl⟩, hp⟩, rfl⟩
    obtain ⟨n, rfl⟩ := (tagMark_text (h r hr).1).1 hp
    simpa [GitRef.text, tagMark] using hr
  · intro ht
    exact ⟨(GitRef.tag t).text, ⟨⟨_, ht, rfl⟩, (tagMark_text (h _ ht).1).2 ⟨t, rfl⟩⟩, by simp [GitRef.text, tagMark]⟩

theorem startsNum_iff (t : Text) : startsNum t = true ↔ ∃ c r, t = c :: r ∧ c.isDigit = true := by
  cases t with
  | nil => simp [startsNum]
  | cons c r => simp [startsNum, isNum]

theorem leText_total (a b : Text) : (leText a b || leText b a) = true := by
  rw [Bool.or_eq_true, leText_iff, leText_iff]
  rcases Classical.em (b < a) with h | h
  · exact .inr (fun h' => List.lt_asymm h h')
  · exact .inl h

theorem leText_trans (a b c : Text) (h1 : leText a b = true) (h2 : leText b c = true) : leText a c = true := by
  rw [leText_iff] at *
  rw [List.not_lt] at *
  exact List.le_trans h1 h2

theorem mem_insertText {a t : Text} {l : List Text} : t ∈ insertText a l ↔ t = a ∨ t ∈ l := by
  induction l with
  | nil => simp [insertText]
  | cons b l ih => simp only [insertText]; split <;> simp [ih]; grind

theorem mem_sortTexts {t : Text} {l : List Text} : t ∈ sortTexts l ↔ t ∈ l := by
  induction l with
  | nil => simp [sortTexts]
  | cons a l ih => simp [sortTexts, mem_insertText, ih]

theorem sorted_insert {a : Text} {l : List Text} (h : l.Pairwise (fun x y => leText x y = true)) :
    (insertText a l).Pairwise (fun x y => leText x y = true) := by
  induction l with
  | nil => simp [insertText]
  | cons b l ih =>
    simp only [insertText]
    rw [List.pairwise_cons] at h
    split
    · rename_i hab
      refine List.pairwise_cons.2 ⟨fun y hy => ?_, List.pairwise_cons.2 h⟩
      rcases List.mem_cons.1 hy with rfl | hy
      · exact hab
      · exact leText_trans _ _ _ hab (h.1 y hy)
    · rename_i hab
      refine List.pairwise_cons.2 ⟨fun y hy => ?_, ih h.2⟩
      rcases mem_insertText.1 hy with rfl | hy
      · have := leText_total y b
        simpa [hab] using this
      · exact h.1 y hy

theorem sorted_sort (l : List Text) : (sortTexts l).Pairwise (fun x y => leText x y = true) := by
  induction l with
  | nil => exact List.Pairwise.nil
  | cons a l ih => exact sorted_insert ih

/-- The first in the sorted list. -/
theorem find_sorted {l : List Text} {p : Text → Bool} {v : Text} (h : (sortTexts l).find? p = some v) :
    v ∈ l ∧ p v = true ∧ ∀ t ∈ l, p t = true → leText v t = true := by
  have hm := List.mem_of_find?_eq_some h
  refine ⟨mem_sortTexts.1 hm, List.find?_some h, ?_⟩
  intro t ht hp
  have hs := sorted_sort l
  obtain ⟨_, as, bs, e, hn⟩ := List.find?_eq_some_iff_append.1 h
  have ht' : t ∈ as ++ v :: bs := by rw [← e]; exact mem_sortTexts.2 ht
  rw [e] at hs
  simp only [List.mem_append, List.mem_cons] at ht'
  rcases ht' with ha | rfl | hb
  · exact absurd hp (by simpa using hn t ha)
  · exact (by simpa using leText_total t t)
  · exact List.rel_of_pairwise_cons (List.pairwise_append.1 hs).2.1 hb

/-- Something is found if there is something. -/
theorem find_none {l : List Text} {p : Text → Bool} (h : (sortTexts l).find? p = none) : ∀ t ∈ l, p t = false := by
  intro t ht
  have := List.find?_eq_none.1 h t (mem_sortTexts.2 ht)
  simpa using this

/-- The decorations of a commit are not the unexpanded keyword. -/
theorem not_format (rs : List GitRef) : formatMark.isPrefixOf (strip (decorations rs)) = false := by
  cases rs with
  | nil => rfl
  | cons r rs =>
    have e1 : strip (decorations (r :: rs)) = '(' :: (joinRefs (r :: rs) ++ [')']) := by
      have := stripOf_around (p := isBlank) (a := [' ']) (s := '(' :: (joinRefs (r :: rs) ++ [')'])) (b := []) (by simp; decide) (by simp)
        (by simp; decide) (by rw [← List.cons_append, List.getLast?_append]; simp; decide) (by simp)
      simpa [strip, decorations] using this
    rw [e1]; rfl

/-- What is taken for a version, whatever names a commit has, if they contain no comma and no parenthesis: the first of its tags that start with a
digit, and if it has no tag at all the first of its other branches that start with a digit (not the one that is checked out). The version is unknown
if there is no such name. Missing: the branches should not count, and names with commas or parentheses. -/
theorem C117_names_partial (rs : List GitRef) (full date : List Char) (file : Option (List (List Char))) (g : Git) (h : Readable rs) (v : List Char)
    (hv : (getVersions (archived rs full date) file g).version = v) :
    (TakenForVersion rs v ∧ ∀ t, TakenForVersion rs t → ¬ (t < v)) ∨ (v = unknownVersion ∧ ¬ ∃ t, TakenForVersion rs t) := by
  have hf := not_format rs
  simp only [getVersions, fromKeywords, archived, hf, Bool.false_eq_true, if_false, refs_read rs h, List.isPrefixOf_nil_left,
    List.length_nil, List.drop_zero, Bool.true_and] at hv
  have htags : ∀ t, t ∈ tagsOf (if rs = [] then [[]] else rs.map GitRef.text) ∧ startsNum t = true ↔ TakenForVersion rs t := by
    intro t
    by_cases hrs : rs = []
    · subst hrs; simp [tagsOf, TakenForVersion, tagMark]
    · simp only [if_neg hrs, tagsOf, TakenForVersion, ← startsNum_iff]
      by_cases ht : ((rs.map GitRef.text).filter (fun r => tagMark.isPrefixOf r)).map (fun r => r.drop tagMark.length) = []
      · rw [if_pos ht]
        have hno : ∀ t, GitRef.tag t ∉ rs := by
          intro t hm
          have := (tags_read rs h t).2 hm
          rw [ht] at this
          simp at this
        constructor
        · rintro ⟨hm, hs⟩
          obtain ⟨hm, _⟩ := List.mem_filter.1 hm
          obtain ⟨r, hr, rfl⟩ := List.mem_map.1 hm
          obtain ⟨c, x, e, hd⟩ := (startsNum_iff _).1 hs
          refine ⟨.inr ⟨hno, ?_⟩, hs⟩
          cases r with
          | tag n => exact absurd hr (hno n)
          | branch n => exact hr
          | current n => simp only [GitRef.text, List.cons_append, List.cons.injEq] at e; rw [← e.1] at hd; exact absurd hd (by decide)
          | head => simp only [GitRef.text, List.cons.injEq] at e; rw [← e.1] at hd; exact absurd hd (by decide)
        · rintro ⟨hm | ⟨-, hm⟩, hs⟩
          · exact absurd hm (hno t)
          · refine ⟨List.mem_filter.2 ⟨List.mem_map.2 ⟨_, hm, rfl⟩, ?_⟩, hs⟩
            obtain ⟨c, x, e, hd⟩ := (startsNum_iff _).1 hs
            subst e
            simp [isNum, hd]
      · rw [if_neg ht, tags_read rs h t]
        have hsome : ∃ t, GitRef.tag t ∈ rs := by
          obtain ⟨x, l, hx⟩ := List.exists_cons_of_ne_nil ht
          exact ⟨x, (tags_read rs h x).1 (by rw [hx]; simp)⟩
        obtain ⟨x, hx⟩ := hsome
        exact ⟨fun ⟨a, b⟩ => ⟨.inl a, b⟩, fun ⟨a, b⟩ => ⟨a.resolve_right fun hn => hn.1 x hx, b⟩⟩
  split at hv
  · rename_i i hi
    split at hi
    · rename_i r hr
      simp only [Option.some.injEq] at hi
      subst hi; subst hv
      obtain ⟨h1, h2, h3⟩ := find_sorted hr
      refine .inl ⟨(htags r).1 ⟨h1, h2⟩, fun t ht => ?_⟩
      obtain ⟨ht1, ht2⟩ := (htags t).2 ht
      exact (leText_iff _ _).1 (h3 t ht1 ht2)
    · rename_i hr
      simp only [Option.some.injEq] at hi
      subst hi; subst hv
      refine .inr ⟨rfl, ?_⟩
      rintro ⟨t, ht⟩
      obtain ⟨ht1, ht2⟩ := (htags t).2 ht
      have := find_none hr t ht1
      rw [ht2] at this
      simp at this
  · rename_i hi
    split at hi <;> simp at hi

/-- The version of an archive is the first of the version tags of its commit, and unknown without one, if the names contain no comma and no
parenthesis and if the commit has a tag or no other name starts with a digit. Missing: commits without a tag that have a branch whose name starts with a
digit, and names with commas or parentheses. -/
theorem C117_archive_partial (rs : List GitRef) (full date : List Char) (file : Option (List (List Char))) (g : Git) (h : Readable rs)
    (hb : (∃ t, GitRef.tag t ∈ rs) ∨ ∀ r ∈ rs, ∀ c ∈ r.text.head?, c.isDigit = false) (v : List Char)
    (hv : (getVersions (archived rs full date) file g).version = v) :
    (IsVersionTag rs v ∧ ∀ t, IsVersionTag rs t → ¬ (t < v)) ∨ (v = unknownVersion ∧ ¬ ∃ t, IsVersionTag rs t) := by
  have key : ∀ t, TakenForVersion rs t ↔ IsVersionTag rs t := by
    refine fun t => ⟨?_, fun ⟨a, b⟩ => ⟨.inl a, b⟩⟩
    rintro ⟨a | ⟨hno, hm⟩, c, r, rfl, hd⟩
    · exact ⟨a, c, r, rfl, hd⟩
    · rcases hb with ⟨t', ht'⟩ | hb
      · exact absurd ht' (hno t')
      · rw [hb _ hm c rfl] at hd; cases hd
  have := C117_names_partial rs full date file g h v hv
  simpa only [key] using this

-- a branch named like a version, without a tag, with the tag of another kind, and with a version tag
example : ([[GitRef.current ['9'], .branch ['2', '.', 'x'], .branch ['1', '.', 'x']], [.tag ['v', '1'], .branch ['1', '.', 'x']],
      [.tag ['3'], .branch ['1', '.', 'x']]].map fun rs => (getVersions (archived rs [] []) none (exAnswers exPlus.1)).version) =
    [['1', '.', 'x'], unknownVersion, ['3']] := by decide +kernel

/-- An archive of a release and an unchanged checkout of it have the same version, namely the tag. -/
theorem C117_archive_and_checkout_agree (rs : List GitRef) (t full date hex : List Char) (file : Option (List (List Char))) (file' : List (List Char))
    (g g' : Git) (h : Readable rs) (ht : IsVersionTag rs t) (hone : ∀ t', IsVersionTag rs t' → t' = t)
    (hv : (Checkout.tagged t 0 hex full false).Valid) (ha : Answers g' (.tagged t 0 hex full false)) :
    (getVersions (archived rs full date) file g).version = t ∧ (getVersions unexpanded (some file') g').version = t := by
  refine ⟨?_, (C116_version_of_checkout g' _ file' hv ha).1⟩
  rcases C117_archive_partial rs full date file g h (.inl ⟨t, ht.1⟩) _ rfl with ⟨h1, _⟩ | ⟨_, h2⟩
  · exact hone _ h1
  · exact absurd ⟨t, ht⟩ h2

/-- The date of an archive is that of the commit. -/
theorem C117_date (rs : List GitRef) (full b day time zone : List Char) (file : Option (List (List Char))) (g : Git) (h : Readable rs)
    (ht : ∃ t, IsVersionTag rs t) (hb : LinesBefore b) (h1 : DatePart day) (h2 : DatePart time) (h3 : DatePart zone) :
    (getVersions (archived rs full (b ++ (day ++ [' '] ++ time ++ [' '] ++ zone ++ ['\n']))) file g).date =
      some (day ++ ['T'] ++ time ++ zone) := by
  have e := isoDate_text hb h1 h2 h3
  obtain ⟨t, ht⟩ := ht
  simp only [getVersions, fromKeywords, archived, not_format rs, Bool.false_eq_true, if_false, refs_read rs h, List.isPrefixOf_nil_left,
    List.length_nil, List.drop_zero, Bool.true_and]
  have hmem : t ∈ tagsOf (if rs = [] then [[]] else rs.map GitRef.text) := by
    have hrs : rs ≠ [] := List.ne_nil_of_mem ht.1
    have hm := (tags_read rs h t).2 ht.1
    simp only [if_neg hrs, tagsOf]
    rw [if_neg (List.ne_nil_of_mem hm)]
    exact hm
  cases hr : (sortTexts (tagsOf (if rs = [] then [[]] else rs.map GitRef.text))).find? (fun r => startsNum r) with
  | none =>
    have := find_none hr t hmem
    rw [(startsNum_iff t).2 ht.2] at this
    cases this
  | some r => simp [e]

/-- An archive tells the full hash and is never dirty, with and without a tag. -/
theorem C117_revision (rs : List GitRef) (full date : List Char) (file : Option (List (List Char))) (g : Git)
    (hf : ∀ c ∈ full, isBlank c = false) :
    (getVersions (archived rs full date) file g).revision = some full ∧ (getVersions (archived rs full date) file g).dirty = some false := by
  have e : strip full = full := by
    by_cases hne : full = []
    · subst hne; rfl
    · have := stripOf_around (p := isBlank) (a := []) (s := full) (b := []) (by simp) (by simp)
        (fun c hc => hf c (List.mem_of_mem_head? hc)) (fun c hc => hf c (List.mem_of_mem_getLast? hc)) hne
      simpa [strip] using this
  simp only [getVersions, fromKeywords, archived, not_format rs, Bool.false_eq_true, if_false]
  split
  · rename_i i hi
    split at hi <;> (simp only [Option.some.injEq] at hi; subst hi; exact ⟨by simp [e], rfl⟩)
  · rename_i hi
    split at hi <;> cases hi

/-- In a source distribution the directory is looked for up to three levels above; the innermost whose name begins with `unidist-` gives the
version, nothing is known of the commit. -/
theorem C117_directory_search (g : Git) (hg : g.inside = false) (dirs : List (List Char)) (name package : List Char) :
    (∀ (i : Nat) (v : List Char), i < 3 → dirs[i]? = some (['u', 'n', 'i', 'd', 'i', 's', 't', '-'] ++ v) →
        (∀ j < i, ∀ d, dirs[j]? = some d → ¬ ['u', 'n', 'i', 'd', 'i', 's', 't', '-'] <+: d) →
        getVersions unexpanded (some (name :: package :: dirs)) g = ⟨v, none, some false, none, none⟩) ∧
    ((∀ j < 3, ∀ d, dirs[j]? = some d → ¬ ['u', 'n', 'i', 'd', 'i', 's', 't', '-'] <+: d) →
        getVersions unexpanded (some (name :: package :: dirs)) g =
          ⟨['0', '+', 'u', 'n', 'k', 'n', 'o', 'w', 'n'], none, none, some .noMethod, none⟩) := by
  have hk : fromKeywords [] unexpanded = none := by decide
  have hp : ∀ d : List Char, parentPrefix.isPrefixOf d = true ↔ ['u', 'n', 'i', 'd', 'i', 's', 't', '-'] <+: d :=
    fun d => List.isPrefixOf_iff_prefix
  have hit : ∀ (n i : Nat) (dirs : List (List Char)) (v : List Char), i < n → dirs[i]? = some (['u', 'n', 'i', 'd', 'i', 's', 't', '-'] ++ v) →
      (∀ j < i, ∀ d, dirs[j]? = some d → ¬ ['u', 'n', 'i', 'd', 'i', 's', 't', '-'] <+: d) →
      fromParentDir parentPrefix n dirs = some ⟨v, none, some false, none, none⟩ := by
    intro n
    induction n with
    | zero => intro i dirs v hi; omega
    | succ n ih =>
      intro i dirs v hi hv hno
      cases dirs with
      | nil => simp at hv
      | cons d dirs =>
        cases i with
        | zero =>
          simp only [List.getElem?_cons_zero, Option.some.injEq] at hv
          subst hv
          simp [fromParentDir, parentPrefix]
        | succ i =>
          have hd : parentPrefix.isPrefixOf d = false := by
            rw [Bool.eq_false_iff]; exact fun h => hno 0 (by omega) d rfl ((hp d).1 h)
          simp only [fromParentDir, List.headD_cons, hd, Bool.false_eq_true, if_false, List.tail_cons]
          exact ih i dirs v (by omega) (by simpa using hv) (fun j hj d' hd' => hno (j + 1) (by omega) d' (by simpa using hd'))
  have miss : ∀ (n : Nat) (dirs : List (List Char)), (∀ j < n, ∀ d, dirs[j]? = some d → ¬ ['u', 'n', 'i', 'd', 'i', 's', 't', '-'] <+: d) →
      fromParentDir parentPrefix n dirs = none := by
    intro n
    induction n with
    | zero => intro dirs _; rfl
    | succ n ih =>
      intro dirs hno
      cases dirs with
      | nil =>
        have := ih [] (by simp)
        simpa [fromParentDir, parentPrefix] using this
      | cons d dirs =>
        have hd : parentPrefix.isPrefixOf d = false := by
          rw [Bool.eq_false_iff]; exact fun h => hno 0 (by omega) d rfl ((hp d).1 h)
        simp only [fromParentDir, List.headD_cons, hd, Bool.false_eq_true, if_false, List.tail_cons]
        exact ih dirs (fun j hj d' hd' => hno (j + 1) (by omega) d' (by simpa using hd'))
  constructor
  · intro i v hi hv hno
    simp [getVersions, hk, gitPieces, hg, hit 3 i dirs v hi hv hno]
  · intro hno
    simp only [getVersions, hk, gitPieces, hg, List.drop_succ_cons, List.drop_zero]
    simp [miss 3 dirs hno, unknownVersion, unknownText]

/-- In a source distribution the version is what follows `unidist-` in the name of its directory. -/
theorem C117_source_directory (g : Git) (hg : g.inside = false) (v : List Char) (above : List (List Char)) (name package : List Char) :
    (getVersions unexpanded (some (name :: package :: (['u', 'n', 'i', 'd', 'i', 's', 't', '-'] ++ v) :: above)) g).version = v := by
  have hk : fromKeywords [] unexpanded = none := by decide
  simp [getVersions, hk, gitPieces, hg, fromParentDir, parentPrefix]

/-- The branch `1.x` of a commit without tags. -/
def exBranch : List GitRef := [.current ['m', 'a', 'i', 'n'], .branch ['1', '.', 'x']]

/-- A branch is taken for a tag. -/
theorem C117_branch_violated : ¬ C117_full := by
  intro h
  have hr : ∀ r ∈ exBranch, RefName r.name := by
    intro r hr
    simp only [exBranch, List.mem_cons, List.not_mem_nil, or_false] at hr
    rcases hr with rfl | rfl <;> (simp only [RefName, GitRef.name]; decide)
  have hno : ∀ t, ¬ IsVersionTag exBranch t := by rintro t ⟨h1, _⟩; simp [exBranch] at h1
  rcases h exBranch [] [] none (exAnswers exPlus.1) hr ['1', '.', 'x'] (by decide +kernel) with ⟨h1, _⟩ | ⟨h1, _⟩
  · exact hno _ h1
  · exact absurd h1 (by decide)

/-- The tag `1,2` is read as `1`. -/
theorem C117_comma_violated : ∃ (rs : List GitRef) (t : List Char), IsVersionTag rs t ∧ (∀ t', IsVersionTag rs t' → t' = t) ∧
    (∀ r ∈ rs, RefName r.name) ∧ (getVersions (archived rs [] []) none (exAnswers exPlus.1)).version ≠ t := by
  refine ⟨[.tag ['1', ',', '2']], ['1', ',', '2'], ⟨by simp, '1', _, rfl, by decide⟩, ?_, ?_, ?_⟩
  · rintro t' ⟨h1, _⟩; simpa using h1
  · intro r hr
    simp only [List.mem_cons, List.not_mem_nil, or_false] at hr
    subst hr
    simp only [RefName, GitRef.name]; decide
  · decide +kernel

/-- A date after the lines of a signature check. -/
example : (getVersions (archived [.tag ['2']] [] "gpg: ok\n2023-01-02 03:04:05 +0100\n".toList) none (exAnswers exPlus.1)).date =
    some "2023-01-02T03:04:05+0100".toList := by decide +kernel

/-- A text of git without a number of commits. -/
example : (getVersions unexpanded (some []) ⟨true, some "a-b\n".toList, some "ab\n".toList, some [], 0, []⟩).error = some .unparsable := by
  decide +kernel

/-- The directory of a source distribution two levels up. -/
example : (getVersions unexpanded (some [['v'], ['p'], ['s', 'r', 'c'], "unidist-1.2".toList, "unidist-9".toList])
    ⟨false, none, none, none, 0, []⟩).version = "1.2".toList := by decide +kernel

/-- The revision of an archive. -/
example : (getVersions (archived [.current ['m']] "abc".toList []) none (exAnswers exPlus.1)).revision = some "abc".toList := by decide +kernel

/-- Two tags, a release candidate and the release. -/
example : (getVersions (archived [.current ['m'], .tag ['2', '.', '0', 'r', 'c'], .tag ['2', '.', '0'], .tag ['v']] ['a'] []) none (exAnswers exPlus.1)).version
    = ['2', '.', '0'] := by decide +kernel

end Verif.Props
