import Verif.Spec.Arguments

/-! Helper lemmas about arguments. -/
namespace Verif.Args
open Verif.Spec

theorem unwrapList_eq (xs : List Obj) : unwrapList xs = xs.map unwrap := by
  induction xs with
  | nil => rfl
  | cons x xs ih => simp [unwrapList, ih]

theorem withValuesList_eq (val : Nat → Obj) (xs : List Obj) : withValuesList val xs = xs.map (withValues val) := by
  induction xs with
  | nil => rfl
  | cons x xs ih => simp [withValuesList, ih]

theorem noRawList_iff (xs : List Obj) : noRawList xs = true ↔ ∀ x ∈ xs, noRaw x = true := by
  induction xs with
  | nil => simp [noRawList]
  | cons x xs ih => simp [noRawList, ih]

theorem noWrapList_iff (xs : List Obj) : noWrapList xs = true ↔ ∀ x ∈ xs, noWrap x = true := by
  induction xs with
  | nil => simp [noWrapList]
  | cons x xs ih => simp [noWrapList, ih]

mutual
/-- Replacement of raw references only (what the worker does). -/
def fill (val : Nat → Obj) : Obj → Obj
  | .ref id => val id
  | .wrap id => .wrap id
  | .other n => .other n
  | .box b xs => .box b (fillList val xs)
/-- Replacement in the elements. -/
def fillList (val : Nat → Obj) : List Obj → List Obj
  | [] => []
  | x :: xs => fill val x :: fillList val xs
end

theorem fillList_eq (val : Nat → Obj) (xs : List Obj) : fillList val xs = xs.map (fill val) := by
  induction xs with
  | nil => rfl
  | cons x xs ih => simp [fillList, ih]

mutual
theorem fill_noRaw (val : Nat → Obj) : ∀ o : Obj, noRaw o = true → fill val o = o
  | .ref id, h => by simp [noRaw] at h
  | .wrap id, _ => rfl
  | .other n, _ => rfl
  | .box b xs, h => by rw [fill, fillList_noRaw val xs (by simpa [noRaw] using h)]
theorem fillList_noRaw (val : Nat → Obj) : ∀ xs : List Obj, noRawList xs = true → fillList val xs = xs
  | [], _ => rfl
  | x :: xs, h => by
    simp only [noRawList, Bool.and_eq_true] at h
    rw [fillList, fill_noRaw val x h.1, fillList_noRaw val xs h.2]
end

mutual
theorem fill_unwrap (val : Nat → Obj) : ∀ o : Obj, fill val (unwrap o) = withValues val o
  | .ref id => rfl
  | .wrap id => rfl
  | .other n => rfl
  | .box b xs => by rw [unwrap, fill, withValues, fillList_unwrap val xs]
theorem fillList_unwrap (val : Nat → Obj) : ∀ xs : List Obj, fillList val (unwrapList xs) = withValuesList val xs
  | [] => rfl
  | x :: xs => by rw [unwrapList, fillList, withValuesList, fill_unwrap val x, fillList_unwrap val xs]
end

mutual
theorem unwrap_noWrap : ∀ o : Obj, noWrap o = true → unwrap o = o
  | .ref id, _ => rfl
  | .wrap id, h => by simp [noWrap] at h
  | .other n, _ => rfl
  | .box b xs, h => by rw [unwrap, unwrapList_noWrap xs (by simpa [noWrap] using h)]
theorem unwrapList_noWrap : ∀ xs : List Obj, noWrapList xs = true → unwrapList xs = xs
  | [], _ => rfl
  | x :: xs, h => by
    simp only [noWrapList, Bool.and_eq_true] at h
    rw [unwrapList, unwrap_noWrap x h.1, unwrapList_noWrap xs h.2]
end

mutual
theorem noWrap_unwrap : ∀ o : Obj, noWrap (unwrap o) = true
  | .ref id => rfl
  | .wrap id => rfl
  | .other n => rfl
  | .box b xs => by rw [unwrap, noWrap, noWrapList_unwrap xs]
theorem noWrapList_unwrap : ∀ xs : List Obj, noWrapList (unwrapList xs) = true
  | [] => rfl
  | x :: xs => by rw [unwrapList, noWrapList, noWrap_unwrap x, noWrapList_unwrap xs]; rfl
end

/-- Every reference is known to be somewhere, and values are the right ones. -/
def Consistent (val : Nat → Obj) (look : Nat → Look) : Prop := ∀ id, look id = .value (val id) ∨ look id = .pending

mutual
/-- One traversal: it does not fail, it does not change what the object will finally be, and if nothing is pending the result
is final. -/
theorem materialize_spec {val : Nat → Obj} {look : Nat → Look} (hc : Consistent val look) (hv : ∀ id, noRaw (val id) = true) :
    ∀ (o : Obj) (p : Bool), ∃ o' q, materialize look p o = some (o', q) ∧ fill val o' = fill val o ∧
      (q = false → p = false ∧ noRaw o' = true) ∧ ((∀ id, look id ≠ .pending) → q = p) ∧
      (∀ b xs, o = .box b xs → ∃ ys, o' = .box b ys ∧ ys.length = xs.length)
  | .ref id, p => by
    rcases hc id with h | h
    · refine ⟨val id, p || false, by simp [materialize, unwrapLocal, h], ?_, ?_, by simp, by simp⟩
      · rw [fill_noRaw val _ (hv id)]; rfl
      · intro hp; exact ⟨by simpa using hp, hv id⟩
    · exact ⟨.ref id, p || true, by simp [materialize, unwrapLocal, h], rfl, by simp, fun hn => absurd h (hn id), by simp⟩
  | .wrap id, p => ⟨.wrap id, p || false, by simp [materialize, unwrapLocal], rfl, by simp [noRaw], by simp, by simp⟩
  | .other n, p => ⟨.other n, p || false, by simp [materialize, unwrapLocal], rfl, by simp [noRaw], by simp, by simp⟩
  | .box b xs, p => by
    obtain ⟨ys, q, h1, h2, h3, h4, h5⟩ := materializeList_spec hc hv xs p
    refine ⟨.box b ys, q, by simp [materialize, h1], ?_, ?_, h4, ?_⟩
    · simp [fill, h2]
    · intro hq
      exact ⟨(h3 hq).1, by simpa [noRaw] using (h3 hq).2⟩
    · intro b' xs' e
      cases e
      exact ⟨ys, rfl, h5⟩
theorem materializeList_spec {val : Nat → Obj} {look : Nat → Look} (hc : Consistent val look)
    (hv : ∀ id, noRaw (val id) = true) :
    ∀ (xs : List Obj) (p : Bool), ∃ ys q, materializeList look p xs = some (ys, q) ∧ fillList val ys = fillList val xs ∧
      (q = false → p = false ∧ noRawList ys = true) ∧ ((∀ id, look id ≠ .pending) → q = p) ∧ ys.length = xs.length
  | [], p => ⟨[], p, rfl, rfl, fun h => ⟨h, rfl⟩, fun _ => rfl, rfl⟩
  | x :: xs, p => by
    obtain ⟨u, p1, h1, h2, h3, h4, -⟩ := materialize_spec hc hv x p
    -- the second unwrapping
    have hsec : ∃ v q, unwrapLocal look u = some (v, q) ∧ fill val v = fill val u ∧ (q = false → p1 = false → noRaw v = true) ∧
        ((∀ id, look id ≠ .pending) → q = false) := by
      cases u with
      | ref id =>
        rcases hc id with h | h
        · refine ⟨val id, false, by simp [unwrapLocal, h], ?_, fun _ _ => hv id, fun _ => rfl⟩
          rw [fill_noRaw val _ (hv id)]; rfl
        · exact ⟨.ref id, true, by simp [unwrapLocal, h], rfl, by simp, fun hn => absurd h (hn id)⟩
      | wrap id => exact ⟨_, false, rfl, rfl, fun _ hp => (h3 hp).2, fun _ => rfl⟩
      | other n => exact ⟨_, false, rfl, rfl, fun _ hp => (h3 hp).2, fun _ => rfl⟩
      | box b ys => exact ⟨_, false, rfl, rfl, fun _ hp => (h3 hp).2, fun _ => rfl⟩
    obtain ⟨v, q, g1, g2, g3, g4⟩ := hsec
    obtain ⟨ys, r, k1, k2, k3, k4, k5⟩ := materializeList_spec hc hv xs (p1 || q)
    refine ⟨v :: ys, r, by simp [materializeList, h1, g1, k1], ?_, ?_, ?_, by simp [k5]⟩
    · simp [fillList, k2, g2, h2]
    · intro hr
      have := k3 hr
      simp only [Bool.or_eq_false_iff] at this
      refine ⟨(h3 this.1.1).1, ?_⟩
      simp [noRawList, g3 this.1.2 this.1.1, this.2]
    · intro hn
      rw [k4 hn, h4 hn, g4 hn]; simp
end

theorem attempt_spec {val : Nat → Obj} {look : Nat → Look} (hc : Consistent val look) (hv : ∀ id, noRaw (val id) = true)
    (args : List Obj) :
    attempt look args = .runs (fillList val args) ∨
      (¬ (∀ id, look id ≠ .pending) ∧ ∃ args', attempt look args = .waits args' ∧ fillList val args' = fillList val args) := by
  obtain ⟨ys, q, h1, h2, h3, h4, -⟩ := materializeList_spec hc hv args false
  cases q with
  | false =>
    left
    have : ys = fillList val args := by rw [← h2, fillList_noRaw val ys (h3 rfl).2]
    simp [attempt, materialize, h1, this]
  | true =>
    right
    exact ⟨fun hn => by simpa using h4 hn, ys, by simp [attempt, materialize, h1], h2⟩

theorem attempts_spec {val : Nat → Obj} (hv : ∀ id, noRaw (val id) = true) (looks : List (Nat → Look))
    (hc : ∀ look ∈ looks, Consistent val look) (args : List Obj) :
    attempts looks args = .runs (fillList val args) ∨
      ((∀ look ∈ looks, ∃ id, look id = .pending) ∧ ∃ args', attempts looks args = .waits args') := by
  induction looks generalizing args with
  | nil => exact Or.inr ⟨by simp, args, rfl⟩
  | cons look looks ih =>
    rcases attempt_spec (hc look (by simp)) hv args with h | ⟨hp, args', h, hf⟩
    · left; simp [attempts, h]
    · simp only [attempts, h]
      have hex : ∃ id, look id = .pending := by
        apply Classical.byContradiction
        intro hne
        exact hp fun id hid => hne ⟨id, hid⟩
      rcases ih (fun l hl => hc l (by simp [hl])) args' with h2 | ⟨h2, h3⟩
      · left; rw [h2, hf]
      · right
        refine ⟨?_, h3⟩
        intro l hl
        simp only [List.mem_cons] at hl
        rcases hl with rfl | hl
        · exact hex
        · exact h2 l hl

theorem find_unwrap (o : Obj) (path : List Nat) : find (unwrap o) path = (find o path).map unwrap := by
  induction path generalizing o with
  | nil => simp [find]
  | cons i path ih =>
    cases o with
    | box b xs =>
      simp only [unwrap, unwrapList_eq, find, List.getElem?_map]
      cases xs[i]? with
      | none => rfl
      | some x => exact ih x
    | other n => rfl
    | wrap id => rfl
    | ref id => rfl

end Verif.Args
