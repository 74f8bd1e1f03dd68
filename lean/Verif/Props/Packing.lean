import Verif.Spec.Packing

/-! Everything that can be pickled can be stored and sent (C121). -/
namespace Verif.Props
open Verif.Packing Verif.Spec

/-- **C121**, full claim: every object can be serialized and comes back. -/
def C121_full : Prop := ∀ o : Packing.Obj, ∃ w, encode o = some w ∧ decode w = o

/-- A tuple with a function made in a function; in a list the same function can be stored. -/
theorem C121_tuple_violated : ¬ C121_full ∧ encode (.list [.local 1]) = some (.arr [.cloud (.local 1)]) := by
  refine ⟨fun h => ?_, rfl⟩
  obtain ⟨w, h1, _⟩ := h (.pickledSeq [.local 1])
  exact absurd h1 (by simp [encode, encodeCustom, isPickle5, isCloud, pickles, picklesAll])

/-- A data frame with such an object in a cell. -/
theorem C121_frame_violated : encode (.frame [.int 1, .local 1]) = none := rfl

/-- A text with a surrogate, which `pickle` can store: in a tuple the text can be stored. -/
theorem C121_text_violated : encode (.text [97, 0xDC80]) = none ∧
    encode (.pickledSeq [.text [97, 0xDC80]]) = some (.pickled (.pickledSeq [.text [97, 0xDC80]])) := ⟨rfl, rfl⟩

theorem inside_iff {x o : Packing.Obj} : Inside x o ↔ x = o ∨ ∃ y ∈ contents o, Inside x y := by
  constructor
  · rintro (_ | ⟨h, hx⟩)
    · exact .inl rfl
    · exact .inr ⟨_, h, hx⟩
  · rintro (rfl | ⟨y, h, hx⟩)
    · exact .self
    · exact .deeper h hx

mutual
theorem pickles_iff : ∀ o : Packing.Obj, pickles o = true ↔ ∀ f, ¬ Inside (.local f) o
  | .int _ => by simp [pickles, inside_iff (o := .int _), contents]
  | .text _ => by simp [pickles, inside_iff (o := .text _), contents]
  | .importable .. => by simp [pickles, inside_iff (o := .importable ..), contents]
  | .local n => by
      simp only [pickles, Bool.false_eq_true, false_iff]
      exact fun h => h n .self
  | .list xs => by rw [pickles, picklesAll_iff xs]; simp [inside_iff (o := .list xs), contents]
  | .dict xs => by rw [pickles, picklesAll_iff xs]; simp [inside_iff (o := .dict xs), contents]
  | .pickledSeq xs => by rw [pickles, picklesAll_iff xs]; simp [inside_iff (o := .pickledSeq xs), contents]
  | .frame xs => by rw [pickles, picklesAll_iff xs]; simp [inside_iff (o := .frame xs), contents]
theorem picklesAll_iff : ∀ xs : List Packing.Obj, picklesAll xs = true ↔ ∀ f, ∀ y ∈ xs, ¬ Inside (.local f) y
  | [] => by simp [picklesAll]
  | x :: xs => by
      simp only [picklesAll, Bool.and_eq_true, pickles_iff x, picklesAll_iff xs, List.mem_cons, forall_eq_or_imp]
      exact ⟨fun h f => ⟨h.1 f, h.2 f⟩, fun h => ⟨fun f => (h f).1, fun f => (h f).2⟩⟩
end

/-- An object that makes `serialize` fail wherever it occurs openly. -/
def Unfit : Packing.Obj → Prop
  | .text s => ∃ c ∈ s, 0xD800 ≤ c ∧ c ≤ 0xDFFF
  | .pickledSeq xs => ∃ f, ∃ y ∈ xs, Inside (.local f) y
  | .frame xs => ∃ f, ∃ y ∈ xs, Inside (.local f) y
  | _ => False

theorem open_iff {x o : Packing.Obj} : Open x o ↔ x = o ∨ (∃ xs, (o = .list xs ∨ o = .dict xs) ∧ ∃ y ∈ xs, Open x y) := by
  constructor
  · rintro (_ | ⟨h, hx⟩ | ⟨h, hx⟩)
    · exact .inl rfl
    · exact .inr ⟨_, .inl rfl, _, h, hx⟩
    · exact .inr ⟨_, .inr rfl, _, h, hx⟩
  · rintro (rfl | ⟨xs, rfl | rfl, y, h, hx⟩)
    · exact .self
    · exact .inList h hx
    · exact .inDict h hx

theorem picklesAll_false (xs : List Packing.Obj) : picklesAll xs = false ↔ ∃ f, ∃ y ∈ xs, Inside (.local f) y := by
  rw [← Bool.not_eq_true, picklesAll_iff]
  simp

mutual
theorem encode_none : ∀ o : Packing.Obj, encode o = none ↔ ∃ x, Open x o ∧ Unfit x
  | .int z => by
      have : encode (.int z) ≠ none := by
        simp only [encode]; split <;> simp [encodeCustom, isPickle5, isCloud, pickles]
      simp [this, open_iff (o := .int z), Unfit]
  | .text s => by
      simp only [encode, open_iff (o := .text s), Unfit, reduceCtorEq, or_false, false_and, exists_false, exists_eq_left]
      rw [show (∃ c ∈ s, 0xD800 ≤ c ∧ c ≤ 0xDFFF) ↔ s.any surrogate = true by simp [surrogate]]
      cases s.any surrogate <;> simp
  | .importable n b => by
      have : encode (.importable n b) ≠ none := by
        simp only [encode, encodeCustom, isPickle5, isCloud, pickles]; cases b <;> simp
      simp [this, open_iff (o := .importable n b), Unfit]
  | .local n => by
      have : encode (.local n) ≠ none := by simp [encode, encodeCustom, isPickle5, isCloud]
      simp [this, open_iff (o := .local n), Unfit]
  | .pickledSeq xs => by
      simp only [encode, encodeCustom, isPickle5, isCloud, pickles, open_iff (o := .pickledSeq xs), reduceCtorEq, or_false, false_and,
        exists_false, exists_eq_left, Unfit, ← picklesAll_false, Bool.false_eq_true, if_false]
      by_cases h : picklesAll xs = true
      · simp [h]
      · simp [Bool.not_eq_true] at h; simp [h]
  | .frame xs => by
      simp only [encode, encodeCustom, isPickle5, isCloud, pickles, open_iff (o := .frame xs), reduceCtorEq, or_false, false_and,
        exists_false, exists_eq_left, Unfit, ← picklesAll_false, if_true]
      by_cases h : picklesAll xs = true
      · simp [h]
      · simp [Bool.not_eq_true] at h; simp [h]
  | .list xs => by
      rw [encode, Option.map_eq_none_iff, encodeAll_none xs]
      constructor
      · rintro ⟨y, hy, x, h, hu⟩; exact ⟨x, .inList hy h, hu⟩
      · rintro ⟨x, h, hu⟩
        rcases open_iff.1 h with rfl | ⟨ys, h | h, y, hy, hx⟩
        · exact hu.elim
        · cases h; exact ⟨y, hy, x, hx, hu⟩
        · cases h
  | .dict xs => by
      rw [encode, Option.map_eq_none_iff, encodeAll_none xs]
      constructor
      · rintro ⟨y, hy, x, h, hu⟩; exact ⟨x, .inDict hy h, hu⟩
      · rintro ⟨x, h, hu⟩
        rcases open_iff.1 h with rfl | ⟨ys, h | h, y, hy, hx⟩
        · exact hu.elim
        · cases h
        · cases h; exact ⟨y, hy, x, hx, hu⟩
theorem encodeAll_none : ∀ xs : List Packing.Obj, encodeAll xs = none ↔ ∃ y ∈ xs, ∃ x, Open x y ∧ Unfit x
  | [] => by simp [encodeAll]
  | y :: ys => by
      have h1 := encode_none y
      have h2 := encodeAll_none ys
      rw [show (∃ z ∈ y :: ys, ∃ x, Open x z ∧ Unfit x) ↔ (∃ x, Open x y ∧ Unfit x) ∨ ∃ z ∈ ys, ∃ x, Open x z ∧ Unfit x by simp, ← h1, ← h2]
      simp only [encodeAll]
      cases encode y <;> cases encodeAll ys <;> simp
end

mutual
theorem decode_encode : ∀ (o : Packing.Obj) (w : Packing.Wire), encode o = some w → decode w = o
  | .int z, w, h => by
      simp only [encode, encodeCustom, isPickle5, isCloud, pickles] at h
      split at h <;> (simp at h; subst h; rfl)
  | .text s, w, h => by
      simp only [encode] at h
      split at h
      · cases h
      · cases h; rfl
  | .importable n b, w, h => by
      simp only [encode, encodeCustom, isPickle5, isCloud, pickles] at h
      cases b <;> (simp at h; subst h; rfl)
  | .local n, w, h => by
      simp only [encode, encodeCustom, isPickle5, isCloud] at h
      simp at h; subst h; rfl
  | .pickledSeq xs, w, h => by
      simp only [encode, encodeCustom, isPickle5, isCloud] at h
      simp at h
      rw [← h.2]; rfl
  | .frame xs, w, h => by
      simp only [encode, encodeCustom, isPickle5] at h
      simp at h
      rw [← h.2]; rfl
  | .list xs, w, h => by
      rw [encode, Option.map_eq_some_iff] at h
      obtain ⟨ws, h, rfl⟩ := h
      rw [decode, decodeAll_encodeAll xs ws h]
  | .dict xs, w, h => by
      rw [encode, Option.map_eq_some_iff] at h
      obtain ⟨ws, h, rfl⟩ := h
      rw [decode, decodeAll_encodeAll xs ws h]
theorem decodeAll_encodeAll : ∀ (xs : List Packing.Obj) (ws : List Packing.Wire), encodeAll xs = some ws → decodeAll ws = xs
  | [], ws, h => by simp [encodeAll] at h; subst h; rfl
  | x :: xs, ws, h => by
      simp only [encodeAll] at h
      split at h
      · rename_i w ws' h1 h2
        cases h
        rw [decodeAll, decode_encode x w h1, decodeAll_encodeAll xs ws' h2]
      · cases h
end

/-- An object cannot be serialized exactly if somewhere in it, with nothing but lists and dictionaries around, there is a text with a surrogate, or a
tuple, set or data frame that has a local function or class (or an instance of one) at any depth. Missing: these objects. -/
theorem C121_refused_exactly_partial (o : Packing.Obj) :
    encode o = none ↔
      (∃ s, Open (.text s) o ∧ ∃ c ∈ s, 0xD800 ≤ c ∧ c ≤ 0xDFFF) ∨
      (∃ xs f, (Open (.pickledSeq xs) o ∨ Open (.frame xs) o) ∧ ∃ y ∈ xs, Inside (.local f) y) := by
  rw [encode_none]
  constructor
  · rintro ⟨x, hx, hu⟩
    cases x with
    | text s => exact .inl ⟨s, hx, hu⟩
    | pickledSeq xs => obtain ⟨f, hu⟩ := hu; exact .inr ⟨xs, f, .inl hx, hu⟩
    | frame xs => obtain ⟨f, hu⟩ := hu; exact .inr ⟨xs, f, .inr hx, hu⟩
    | _ => exact hu.elim
  · rintro (⟨s, h, hs⟩ | ⟨xs, f, h | h, hu⟩)
    · exact ⟨_, h, hs⟩
    · exact ⟨_, h, f, hu⟩
    · exact ⟨_, h, f, hu⟩

/-- What is serialized comes back as it was. -/
theorem C121_comes_back_partial (o : Packing.Obj) (w : Packing.Wire) (h : encode o = some w) : decode w = o := decode_encode o w h

/-- Without local objects and texts with surrogates everything can be serialized, whatever is inside of what. -/
theorem C121_importable_partial (o : Packing.Obj) (h1 : ∀ f, ¬ Inside (.local f) o)
    (h2 : ∀ s, Inside (.text s) o → ∀ c ∈ s, c < 0xD800 ∨ 0xDFFF < c) : ∃ w, encode o = some w ∧ decode w = o := by
  have oi : ∀ {x o : Packing.Obj}, Open x o → Inside x o := by
    intro x o h
    induction h with
    | self => exact .self
    | inList h _ ih => exact .deeper h ih
    | inDict h _ ih => exact .deeper h ih
  have it : ∀ {x y z : Packing.Obj}, Inside x y → Inside y z → Inside x z := by
    intro x y z hxy hyz
    induction hyz with
    | self => exact hxy
    | deeper h _ ih => exact .deeper h ih
  cases h : encode o with
  | some w => exact ⟨w, rfl, decode_encode o w h⟩
  | none =>
    rcases (C121_refused_exactly_partial o).1 h with ⟨s, hs, c, hc, hr⟩ | ⟨xs, f, ho, y, hy, hf⟩
    · have := h2 s (oi hs) c hc; omega
    · rcases ho with ho | ho
      · exact absurd (it (.deeper (by exact hy) hf) (oi ho)) (h1 f)
      · exact absurd (it (.deeper (by exact hy) hf) (oi ho)) (h1 f)

example : encode (.dict [.text [97], .list [.int (2 ^ 70), .pickledSeq [.frame [.int 1]], .local 3]]) =
    some (.map [.text [97], .arr [.pickled (.int (2 ^ 70)), .pickled (.pickledSeq [.frame [.int 1]]), .cloud (.local 3)]]) := rfl

end Verif.Props
