import Verif.Props.SegmentSizes

/-!
# C108 The shared store starts or says why not
-/
namespace Verif.Props
open Verif.SegmentSizes

/-- No configuration of sizes and threshold makes the start fail without an explanation. -/
def C108_full : Prop :=
  ∀ (c : Config) (avail : Int), SaneConfig c → 0 ≤ avail → avail < 2 ^ 46 → start c avail ≠ .failed

/-- The object store is configured to be smaller than the threshold: no service memory is left. -/
theorem C108_violated : ¬ C108_full := fun h =>
  h ⟨some 50000, none, 100000⟩ 1000000000 ⟨by simp, by simp, by decide⟩ (by decide) (by decide) (by decide +kernel)

/-- The object store is configured to take all memory that is allowed. -/
theorem C108_all_violated : ¬ C108_full := fun h =>
  h ⟨some 950000000, none, 100000⟩ 1000000000 ⟨by simp, by simp, by decide⟩ (by decide) (by decide) (by decide +kernel)

/-- The service memory is configured to be smaller than one record. -/
theorem C108_service_violated : ¬ C108_full := fun h =>
  h ⟨none, some 16, 100000⟩ 1000000000 ⟨by simp, by simp, by decide⟩ (by decide) (by decide) (by decide +kernel)

/-- What the configured service memory, or the memory left for it, must be. -/
def RoomForRecord (c : Config) (avail : Int) : Prop :=
  match c.objMem, c.svcMem with
  | _, some s => 32 ≤ s
  | some o, none => o + 32 ≤ avail * 95 / 100 ∧ c.threshold ≤ o
  | none, none => if 3168 < c.threshold then c.threshold + 32 ≤ avail * 95 / 100 else 3200 ≤ avail * 95 / 100

/-- Exactly when the start succeeds: the configured sizes fit together, and there is room for one record: the service memory is at least one
record, or an object of the size of the threshold fits. Missing: an explanation in the other cases (`C108_violated`). -/
theorem C108_starts_partial (c : Config) (avail : Int) (hc : SaneConfig c) (ha : 0 ≤ avail) (hm : avail < 2 ^ 46) :
    (∃ x y, start c avail = .running x y) ↔
      c.objMem.getD 0 + c.svcMem.getD 0 ≤ avail * 95 / 100 ∧ RoomForRecord c avail := by
  have hr := C12_refused_iff_does_not_fit c avail hc ha hm
  have he := allowed_eq ha hm
  cases hal : allocate c avail with
  | none =>
    have := hr.1 hal
    simp only [start, hal, reduceCtorEq, exists_false, false_iff, not_and]
    omega
  | some p =>
    obtain ⟨x, y⟩ := p
    have hfit : ¬ avail * 95 / 100 < c.objMem.getD 0 + c.svcMem.getD 0 := fun h => by rw [hr.2 h] at hal; simp at hal
    have hy : (choose c (allowed avail)).2 = y := by
      unfold allocate at hal
      simp only at hal
      split at hal
      · simp at hal
      split at hal
      · simp at hal
      split at hal
      · simp at hal
      simp only [Option.some.injEq] at hal
      rw [hal]
    have hs : (∃ u v, start c avail = .running u v) ↔ 32 ≤ y := by
      have e0 : slots y = y / 32 := rfl
      simp only [start, hal]
      by_cases e : slots y ≤ 0
      · simp only [if_pos e]
        simp only [reduceCtorEq, exists_false, false_iff]; omega
      · simp only [if_neg e, Start.running.injEq]
        exact ⟨fun _ => by omega, fun _ => ⟨x, y, rfl, rfl⟩⟩
    rw [hs, ← hy]
    simp only [Int.not_lt.1 hfit, true_and]
    obtain ⟨h1, h2, h3⟩ := hc
    obtain ⟨om, sm, th⟩ := c
    simp only at h1 h2 h3
    have hA : 0 ≤ allowed avail := by omega
    obtain ⟨e1, e2⟩ := share_eq (a := allowed avail) hA (by omega)
    cases om with
    | some o =>
      cases sm with
      | some s => simp [choose, RoomForRecord]
      | none =>
        have ho := h1 o rfl
        simp only [choose, RoomForRecord, recordBytes, ← he]
        split
        · rename_i ht
          have := @ediv_bounds o th ht
          have hq : 32 ≤ o / th * 32 ↔ th ≤ o := by
            rw [show (32 ≤ o / th * 32) ↔ 1 ≤ o / th by omega, Int.le_ediv_iff_mul_le ht, Int.one_mul]
          simp only
          constructor
          · intro h; exact ⟨by omega, hq.1 (by omega)⟩
          · rintro ⟨h, h'⟩; have := hq.2 h'; omega
        · simp only; omega
    | none =>
      cases sm with
      | some s => simp [choose, RoomForRecord]
      | none =>
        have e0 : recordBytes = 32 := rfl
        simp only [choose, RoomForRecord, ← he]
        by_cases ht : th > 99 * recordBytes
        · simp only [if_pos ht, if_pos (by omega : 3168 < th)]
          simp only [e0]
          rw [Int.le_ediv_iff_mul_le (by omega)]
          omega
        · simp only [if_neg ht, if_neg (by omega : ¬ 3168 < th), e2]
          omega

/-- Exactly when the start is refused with an explanation, and exactly when it fails without one: the configured sizes do not fit together; they
do, but there is no room for a record. -/
theorem C108_exactly_partial (c : Config) (avail : Int) (hc : SaneConfig c) (ha : 0 ≤ avail) (hm : avail < 2 ^ 46) :
    (start c avail = .refused ↔ avail * 95 / 100 < c.objMem.getD 0 + c.svcMem.getD 0) ∧
    (start c avail = .failed ↔ c.objMem.getD 0 + c.svcMem.getD 0 ≤ avail * 95 / 100 ∧ ¬ RoomForRecord c avail) := by
  have hs := C108_starts_partial c avail hc ha hm
  have h1 : start c avail = .refused ↔ avail * 95 / 100 < c.objMem.getD 0 + c.svcMem.getD 0 := by
    rw [← C12_refused_iff_does_not_fit c avail hc ha hm]
    simp only [start]
    cases hal : allocate c avail with
    | none => simp
    | some p =>
      obtain ⟨x, y⟩ := p
      by_cases e : slots y ≤ 0 <;> simp [e]
  refine ⟨h1, ?_⟩
  cases hst : start c avail with
  | refused =>
    have := h1.1 hst
    simp only [reduceCtorEq, false_iff, not_and]
    omega
  | failed =>
    rw [hst] at h1 hs
    simp only [reduceCtorEq, false_iff, exists_false, true_iff, not_and] at h1 hs ⊢
    have hf := Int.not_lt.1 h1
    exact ⟨hf, hs hf⟩
  | running x y =>
    rw [hst] at hs
    have := hs.1 ⟨x, y, rfl⟩
    simp only [reduceCtorEq, false_iff, not_and, Classical.not_not]
    exact fun _ => this.2

/-- With the default values, the store starts if and only if `/dev/shm` has 105297 bytes free or more. -/
example (avail : Int) (ha : 0 ≤ avail) (hm : avail < 2 ^ 46) :
    (∃ x y, start ⟨none, none, 100000⟩ avail = .running x y) ↔ 105297 ≤ avail := by
  rw [C108_starts_partial _ _ ⟨by simp, by simp, by decide⟩ ha hm]
  simp only [RoomForRecord, Option.getD_none, if_pos (show (3168 : Int) < 100000 by decide)]
  omega

example : start ⟨none, none, 100000⟩ 105297 = .running 100000 32 ∧ start ⟨none, none, 100000⟩ 105296 = .failed ∧
    start ⟨some 1000, some 1000, 100000⟩ 2000 = .refused := by decide +kernel

end Verif.Props
