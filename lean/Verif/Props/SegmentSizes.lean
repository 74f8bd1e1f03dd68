import Verif.Model.SegmentSizes
import Verif.Lemmas.Float
import Mathlib.Tactic.Ring
import Mathlib.Tactic.Linarith

/-! Properties C12 and C13: sizes of the shared memory segments. -/
namespace Verif.Props
open Verif.SegmentSizes

theorem ediv_bounds {a b : Int} (hb : 0 < b) : b * (a / b) ≤ a ∧ a < b * (a / b) + b := by
  have h1 := Int.mul_ediv_add_emod a b
  have h2 := Int.emod_nonneg a (by omega : b ≠ 0)
  have h3 := Int.emod_lt_of_pos a hb
  omega

/-- Below 64 TiB the rounding of the product does not matter. -/
theorem allowed_eq {avail : Int} (h0 : 0 ≤ avail) (h1 : avail < 2 ^ 46) : allowed avail = avail * 95 / 100 := by
  unfold allowed
  rw [Verif.Float.scaled_95 (n := avail.toNat) (by omega)]
  omega

theorem share_eq {a : Int} (h0 : 0 ≤ a) (h1 : a < 2 ^ 46) :
    (Verif.Float.scaled 8917127262193582 53 a.toNat : Int) = a * 99 / 100 ∧
    (Verif.Float.scaled 5764607523034235 59 a.toNat : Int) = a / 100 := by
  rw [Verif.Float.scaled_99 (n := a.toNat) (by omega), Verif.Float.scaled_01 (n := a.toNat) (by omega)]
  omega

/-- Meaningful configurations: sizes and threshold are not negative. -/
def SaneConfig (c : Config) : Prop :=
  (∀ o, c.objMem = some o → 0 ≤ o) ∧ (∀ s, c.svcMem = some s → 0 ≤ s) ∧ 0 ≤ c.threshold

/-- C12, sizes: whatever options are set, a successful start has non-negative segments that together fit in 95% of the
available memory, and a configured size is used as configured. The memory is less than 64 TiB, so that the rounding of the
floating point products does not matter. -/
theorem C12_segments_fit (c : Config) (avail x y : Int) (hc : SaneConfig c) (ha : 0 ≤ avail) (hm : avail < 2 ^ 46)
    (h : allocate c avail = some (x, y)) :
    0 ≤ x ∧ 0 ≤ y ∧ 100 * (x + y) ≤ 95 * avail ∧
    (∀ o, c.objMem = some o → x = o) ∧ (∀ s, c.svcMem = some s → y = s) := by
  obtain ⟨om, sm, th⟩ := c
  obtain ⟨h1, h2, h3⟩ := hc
  simp only at h1 h2 h3
  unfold allocate at h
  have he := allowed_eq ha hm
  have hA : 0 ≤ allowed avail := by omega
  have hA' : 100 * allowed avail ≤ 95 * avail := by omega
  obtain ⟨e1, e2⟩ := share_eq (a := allowed avail) hA (by omega)
  generalize allowed avail = a at *
  simp only at h
  split at h
  · simp at h
  split at h
  · simp at h
  split at h
  · simp at h
  rename_i g1 g2 g3
  simp only [Option.some.injEq] at h
  rw [h] at g1 g2 g3
  simp only at g1 g2 g3
  have key : 0 ≤ x ∧ 0 ≤ y ∧ (∀ o, om = some o → x = o) ∧ (∀ s, sm = some s → y = s) := by
    cases om with
    | some o =>
      have ho := h1 o rfl
      cases sm with
      | some s =>
        have hs := h2 s rfl
        simp only [choose, Prod.mk.injEq] at h
        obtain ⟨rfl, rfl⟩ := h
        simp [ho, hs]
      | none =>
        simp only [choose] at h
        split at h
        · rename_i ht
          simp only [Prod.mk.injEq] at h
          obtain ⟨rfl, h⟩ := h
          have : 0 ≤ o / th := Int.ediv_nonneg ho h3
          simp only [recordBytes] at h
          refine ⟨ho, by omega, by simp, by simp⟩
        · simp only [Prod.mk.injEq] at h
          obtain ⟨rfl, h⟩ := h
          refine ⟨ho, by omega, by simp, by simp⟩
    | none =>
      cases sm with
      | some s =>
        have hs := h2 s rfl
        simp only [choose, Prod.mk.injEq] at h
        obtain ⟨h, rfl⟩ := h
        refine ⟨by omega, hs, by simp, by simp⟩
      | none =>
        simp only [choose] at h
        split at h
        · simp only [Prod.mk.injEq, recordBytes] at h
          have q1 : 0 ≤ a * th / (th + 32) := Int.ediv_nonneg (Int.mul_nonneg hA h3) (by omega)
          have q2 : 0 ≤ a * 32 / (th + 32) := Int.ediv_nonneg (by omega) (by omega)
          refine ⟨by omega, by omega, by simp, by simp⟩
        · simp only [Prod.mk.injEq, e1, e2] at h
          refine ⟨by omega, by omega, by simp, by simp⟩
  refine ⟨key.1, key.2.1, by omega, key.2.2⟩

theorem allocate_none_iff (c : Config) (avail : Int) : allocate c avail = none ↔
    (allowed avail < (choose c (allowed avail)).1 ∨ allowed avail < (choose c (allowed avail)).2 ∨
      allowed avail < (choose c (allowed avail)).1 + (choose c (allowed avail)).2) := by
  unfold allocate
  simp only
  generalize allowed avail = a
  generalize choose c a = p
  split
  · simp; omega
  split
  · simp; omega
  split
  · simp; omega
  · simp; omega

/-- C12, refusal: start-up is refused exactly if the configured sizes do not fit. -/
theorem C12_refused_iff_does_not_fit (c : Config) (avail : Int) (hc : SaneConfig c) (ha : 0 ≤ avail) (hm : avail < 2 ^ 46) :
    allocate c avail = none ↔
      avail * 95 / 100 < c.objMem.getD 0 + c.svcMem.getD 0 := by
  rw [allocate_none_iff]
  rw [← allowed_eq ha hm]
  obtain ⟨om, sm, th⟩ := c
  obtain ⟨h1, h2, h3⟩ := hc
  simp only at h1 h2 h3
  have he := allowed_eq ha hm
  have hA : 0 ≤ allowed avail := by omega
  obtain ⟨e1, e2⟩ := share_eq (a := allowed avail) hA (by omega)
  generalize allowed avail = a at *
  cases om with
  | some o =>
    have ho := h1 o rfl
    cases sm with
    | some s =>
      have hs := h2 s rfl
      simp only [choose, Option.getD_some]
      omega
    | none =>
      have : 0 ≤ o / th := Int.ediv_nonneg ho h3
      simp only [choose, Option.getD_some, Option.getD_none, recordBytes]
      split <;> simp only <;> omega
  | none =>
    cases sm with
    | some s =>
      have hs := h2 s rfl
      simp only [choose, Option.getD_some, Option.getD_none]
      omega
    | none =>
      simp only [choose, Option.getD_none]
      split
      · rename_i ht
        simp only [recordBytes] at ht ⊢
        have b1 := @ediv_bounds (a * th) (th + 32) (by omega)
        have b2 := @ediv_bounds (a * 32) (th + 32) (by omega)
        have q1 : 0 ≤ a * th / (th + 32) := Int.ediv_nonneg (Int.mul_nonneg hA h3) (by omega)
        have q2 : 0 ≤ a * 32 / (th + 32) := Int.ediv_nonneg (by omega) (by omega)
        have hs : a * th / (th + 32) + a * 32 / (th + 32) ≤ a := by
          generalize a * th / (th + 32) = u at *
          generalize a * 32 / (th + 32) = v at *
          by_contra hcon
          have : (th + 32) * (a + 1) ≤ (th + 32) * (u + v) :=
            Int.mul_le_mul_of_nonneg_left (by omega) (by omega)
          nlinarith
        omega
      · simp only [e1, e2]
        omega

example : SaneConfig ⟨none, none, 100000⟩ ∧ allocate ⟨none, none, 100000⟩ 2000000 = some (1899392, 607) ∧
    allocate ⟨some 10, some 20, 5⟩ 30 = none ∧ allocate ⟨some 1000, none, 5⟩ 100000 = some (1000, 6400) := by
  refine ⟨⟨by simp, by simp, by decide⟩, by decide +kernel, by decide +kernel, by decide +kernel⟩

theorem length_mul_le {th : Int} {sizes : List Int} (hbig : ∀ n ∈ sizes, th < n) : (sizes.length : Int) * (th + 1) ≤ sizes.sum := by
  induction sizes with
  | nil => simp
  | cons s t ih =>
    have := hbig s (by simp)
    have := ih (fun n hn => hbig n (by simp [hn]))
    simp only [List.length_cons, List.sum_cons]
    push_cast
    have e : ((t.length : Int) + 1) * (th + 1) = (t.length : Int) * (th + 1) + (th + 1) := by ring
    omega

/-- C13: with the default split and a threshold above 99 records, if objects that are all larger than the
threshold fit into the object segment together, there are metadata slots for all of them. -/
theorem C13_slots_suffice (c : Config) (avail x y : Int) (sizes : List Int) (ha : 0 ≤ avail) (hm : avail < 2 ^ 46)
    (hdef : c.objMem = none ∧ c.svcMem = none) (ht : c.threshold > 99 * 32)
    (h : allocate c avail = some (x, y))
    (hbig : ∀ n ∈ sizes, c.threshold < n) (hfit : sizes.sum ≤ x) : (sizes.length : Int) ≤ slots y := by
  obtain ⟨om, sm, th⟩ := c
  obtain ⟨h1, h2⟩ := hdef
  simp only at h1 h2 ht hbig
  subst h1; subst h2
  have hA : 0 ≤ allowed avail := by have := allowed_eq ha hm; omega
  have hch : choose ⟨none, none, th⟩ (allowed avail) =
      (allowed avail * th / (th + 32), allowed avail * 32 / (th + 32)) := by
    unfold choose
    exact if_pos ht
  unfold allocate at h
  simp only at h
  rw [hch] at h
  generalize allowed avail = a at *
  have hxy : a * th / (th + 32) = x ∧ a * 32 / (th + 32) = y := by
    simp only at h
    split at h
    · simp at h
    split at h
    · simp at h
    split at h
    · simp at h
    · simpa using h
  obtain ⟨rfl, rfl⟩ := hxy
  have hsum := length_mul_le hbig
  unfold slots recordBytes
  generalize (sizes.length : Int) = k at *
  have b1 := @ediv_bounds (a * th) (th + 32) (by omega)
  have hk : (th + 32) * (k * (th + 1)) ≤ a * th := by
    have : (th + 32) * (k * (th + 1)) ≤ (th + 32) * (a * th / (th + 32)) :=
      Int.mul_le_mul_of_nonneg_left (by omega) (by omega)
    omega
  -- k * (th + 32) ≤ a, hence k * 32 ≤ a * 32 / (th + 32)
  have hk2 : k * (th + 32) ≤ a := by
    by_contra hcon
    have h0 : 0 ≤ a * th := Int.mul_nonneg hA (by omega)
    by_cases hk0 : k ≤ 0
    · have : k * (th + 32) ≤ 0 := Int.mul_nonpos_of_nonpos_of_nonneg hk0 (by omega)
      omega
    · have h4 : (a + 1) * (th + 1) ≤ (k * (th + 32)) * (th + 1) :=
        Int.mul_le_mul_of_nonneg_right (by omega) (by omega)
      nlinarith
  have h5 : k * 32 ≤ a * 32 / (th + 32) := by
    apply (Int.le_ediv_iff_mul_le (by omega)).2
    nlinarith
  exact (Int.le_ediv_iff_mul_le (by omega)).2 h5

/-- C13 with a configured object store: if the memory left is enough for a record for every threshold bytes of the object store, there
are metadata slots for all objects above the threshold that fit into it. -/
theorem C13_slots_suffice_configured (th o : Int) (avail x y : Int) (sizes : List Int) (ha : 0 ≤ avail) (hm : avail < 2 ^ 46)
    (ht : 0 < th) (hleft : o + o / th * 32 ≤ avail * 95 / 100)
    (h : allocate ⟨some o, none, th⟩ avail = some (x, y))
    (hbig : ∀ n ∈ sizes, th < n) (hfit : sizes.sum ≤ x) : x = o ∧ (sizes.length : Int) ≤ slots y := by
  have he := allowed_eq ha hm
  unfold allocate at h
  have hch : choose ⟨some o, none, th⟩ (allowed avail) = (o, o / th * 32) := by
    simp only [choose, if_pos (show th > 0 by omega), recordBytes, Prod.mk.injEq, true_and]
    omega
  simp only [hch] at h
  have hxy : o = x ∧ o / th * 32 = y := by
    split at h
    · simp at h
    split at h
    · simp at h
    split at h
    · simp at h
    · simpa using h
  obtain ⟨rfl, rfl⟩ := hxy
  refine ⟨rfl, ?_⟩
  have hsum := length_mul_le hbig
  unfold slots recordBytes
  rw [Int.mul_ediv_cancel _ (by decide)]
  refine (Int.le_ediv_iff_mul_le ht).2 ?_
  have : (sizes.length : Int) * (th + 1) = sizes.length * th + sizes.length := by ring
  omega

/-- A store of 1000000 bytes and a threshold of 100000: nine objects of 100001 bytes need nine of the ten slots. -/
example : allocate ⟨some 1000000, none, 100000⟩ 2100000 = some (1000000, 320) ∧
    (List.replicate 9 (100001 : Int)).length ≤ slots 320 :=
  ⟨by decide +kernel, (C13_slots_suffice_configured 100000 1000000 2100000 1000000 320 (List.replicate 9 100001) (by decide) (by decide)
    (by decide) (by decide) (by decide +kernel) (by decide) (by decide)).2⟩

/-- Ten objects of 100001 bytes: they fit and need 10 of 19 slots. -/
example : allocate ⟨none, none, 100000⟩ 2100000 = some (1994361, 638) ∧
    (List.replicate 10 (100001 : Int)).sum ≤ 1994361 ∧ slots 638 = 19 := by decide +kernel

end Verif.Props
