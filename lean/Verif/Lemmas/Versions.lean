import Verif.Model.Versions
import Verif.Spec.Versions
import Verif.Lemmas.DataIds

/-! Helper lemmas about texts and versions. -/
namespace Verif.Versions

open Verif.Ids (Str parseInt decimal)
open Verif.Spec

theorem splitOn_noSep {sep : Char} (a : Str) (h : sep ∉ a) : splitOn sep a = [a] := by
  induction a with
  | nil => rfl
  | cons c t ih =>
    simp only [List.mem_cons, not_or] at h
    have hc : c ≠ sep := fun e => h.1 e.symm
    simp [splitOn, hc, ih h.2]

theorem splitOn_append {sep : Char} (a b : Str) (h : sep ∉ a) : splitOn sep (a ++ sep :: b) = a :: splitOn sep b := by
  induction a with
  | nil => simp [splitOn]
  | cons c t ih =>
    simp only [List.mem_cons, not_or] at h
    have hc : c ≠ sep := fun e => h.1 e.symm
    simp [splitOn, hc, ih h.2]

theorem splitOn_ne_nil {sep : Char} (a : Str) : splitOn sep a ≠ [] := by
  cases a with
  | nil => simp [splitOn]
  | cons c t =>
    simp only [splitOn]
    split
    · simp
    · split <;> simp

/-- The last piece after a separator. -/
theorem splitOn_last {sep : Char} (a b : Str) (h : sep ∉ b) : (splitOn sep (a ++ sep :: b)).getLastD [] = b := by
  induction a with
  | nil => simp [splitOn, splitOn_noSep b h]
  | cons c t ih =>
    simp only [List.cons_append, splitOn]
    split
    · cases hs : splitOn sep (t ++ sep :: b) with
      | nil => exact absurd hs (splitOn_ne_nil _)
      | cons w ws => rw [hs] at ih; simpa using ih
    · cases hs : splitOn sep (t ++ sep :: b) with
      | nil => exact absurd hs (splitOn_ne_nil _)
      | cons w ws =>
        rw [hs] at ih
        simp only
        cases ws with
        | nil =>
          exfalso
          -- the separator makes at least two pieces
          have : ∀ t : Str, (splitOn sep (t ++ sep :: b)).length ≥ 2 := by
            intro t
            induction t with
            | nil => simp [splitOn, splitOn_noSep b h]
            | cons d t iht =>
              simp only [List.cons_append, splitOn]
              split
              · simp; omega
              · split
                · rename_i h0; simp [h0] at iht
                · rename_i h0; simpa [h0] using iht
          have := this t
          simp [hs] at this
        | cons x xs => simpa using ih

theorem splitOn_lines (ls : List Str) (hne : ls ≠ []) (h : ∀ l ∈ ls, '\n' ∉ l) : splitOn '\n' (lines ls) = ls := by
  induction ls with
  | nil => exact absurd rfl hne
  | cons l ls ih =>
    cases ls with
    | nil => exact splitOn_noSep _ (h l (by simp))
    | cons m ls =>
      simp only [lines]
      rw [splitOn_append _ _ (h l (by simp)), ih (by simp) fun x hx => h x (by simp [hx])]

theorem hasPart_iff (p t : Str) : hasPart p t = true ↔ p <:+: t := by
  induction t with
  | nil => simp [hasPart, List.isEmpty_iff]
  | cons c t ih =>
    simp only [hasPart, Bool.or_eq_true, List.isPrefixOf_iff_prefix, ih]
    exact (List.infix_cons_iff).symm

theorem decimal_no {n : Nat} {c : Char} (h : c.toNat < 48 ∨ 57 < c.toNat) : c ∉ decimal n := by
  intro hc
  have := Ids.decimal_digits n c hc
  omega

theorem versionText_no {v : List Nat} {c : Char} (h : c.toNat < 48 ∨ 57 < c.toNat) (hd : c ≠ '.') : c ∉ versionText v := by
  induction v with
  | nil => simp [versionText]
  | cons n v ih =>
    cases v with
    | nil => exact decimal_no h
    | cons m v =>
      simp only [versionText, List.mem_append, List.mem_cons, not_or]
      exact ⟨decimal_no h, hd, ih⟩

theorem versionTuple_text (v : List Nat) (hv : v ≠ []) : versionTuple (versionText v) = some v := by
  induction v with
  | nil => exact absurd rfl hv
  | cons n v ih =>
    cases v with
    | nil =>
      simp only [versionTuple, versionText]
      rw [splitOn_noSep _ (decimal_no (by decide))]
      simp [Ids.parseInt_decimal]
    | cons m v =>
      have := ih (by simp)
      simp only [versionTuple, versionText] at this ⊢
      rw [splitOn_append _ _ (decimal_no (by decide))]
      simp [Ids.parseInt_decimal, this]

theorem getD_cons_succ {a : Nat} {as : List Nat} {i : Nat} : (a :: as).getD (i + 1) 0 = as.getD i 0 := by simp

theorem older_cons {a b : Nat} {as bs : List Nat} : Older (a :: as) (b :: bs) ↔ a < b ∨ (a = b ∧ Older as bs) := by
  constructor
  · rintro ⟨i, hi, hj⟩
    cases i with
    | zero => left; simpa using hi
    | succ i =>
      right
      refine ⟨by simpa using hj 0 (by omega), i, by simpa using hi, fun j hji => ?_⟩
      simpa using hj (j + 1) (by omega)
  · rintro (h | ⟨rfl, i, hi, hj⟩)
    · exact ⟨0, by simpa using h, fun j hj => by omega⟩
    · refine ⟨i + 1, by simpa using hi, fun j hji => ?_⟩
      cases j with
      | zero => simp
      | succ j => simpa using hj j (by omega)

theorem older_nil_right (a : List Nat) : ¬ Older a [] := by
  rintro ⟨i, hi, -⟩
  simp at hi

theorem older_nil_left_cons {b : Nat} {bs : List Nat} : Older [] (b :: bs) ↔ 0 < b ∨ (0 = b ∧ Older [] bs) := by
  constructor
  · rintro ⟨i, hi, hj⟩
    cases i with
    | zero => left; simpa using hi
    | succ i =>
      right
      refine ⟨by simpa using hj 0 (by omega), i, by simpa using hi, fun j hji => ?_⟩
      simpa using hj (j + 1) (by omega)
  · rintro (h | ⟨rfl, i, hi, hj⟩)
    · exact ⟨0, by simpa using h, fun j hj => by omega⟩
    · refine ⟨i + 1, by simpa using hi, fun j hji => ?_⟩
      cases j with
      | zero => simp
      | succ j => simpa using hj j (by omega)

theorem tupleGe_iff (a b : List Nat) (h : b.length ≤ a.length) : tupleGe a b = true ↔ ¬ Older a b := by
  induction b generalizing a with
  | nil => simp [tupleGe, older_nil_right]
  | cons y b ih =>
    cases a with
    | nil => simp at h
    | cons x a =>
      simp only [List.length_cons, Nat.add_le_add_iff_right] at h
      simp only [tupleGe, older_cons]
      split
      · rename_i e
        subst e
        rw [ih a h]
        simp
      · rename_i e
        simp only [decide_eq_true_eq]
        constructor
        · rintro hlt (h1 | ⟨h1, -⟩) <;> omega
        · intro hn
          have : ¬ x < y := fun hx => hn (Or.inl hx)
          omega

theorem versionLt_nil_right (a : List Nat) : versionLt a [] = false := by
  induction a with
  | nil => simp [versionLt]
  | cons x a ih => simp [versionLt, ih]

theorem versionLt_iff (a b : List Nat) : versionLt a b = true ↔ Older a b := by
  induction b generalizing a with
  | nil => simp [versionLt_nil_right, older_nil_right]
  | cons y b ih =>
    cases a with
    | nil =>
      rw [older_nil_left_cons]
      simp only [versionLt, Bool.or_eq_true, decide_eq_true_eq, ih]
      constructor
      · rintro (h | h)
        · exact Or.inl h
        · by_cases hy : 0 < y
          · exact Or.inl hy
          · exact Or.inr ⟨by omega, h⟩
      · rintro (h | ⟨-, h⟩)
        · exact Or.inl h
        · exact Or.inr h
    | cons x a => simp [versionLt, older_cons, ih]

end Verif.Versions
