import Verif.Lemmas.Memcopy

/-! Property C16: the parallel memory copy. -/
namespace Verif.Props
open Verif.Memcopy

/-- The destination after an exact copy of `n` bytes. -/
def ExactCopy (n : Int) (s d d' : Buf) : Prop := ∀ j, d' j = if 0 ≤ j ∧ j < n then s j else d j

/-- C16, full statement: for every non-empty buffer at every address and every order of the copies, the result is the
exact copy. -/
def C16_full : Prop :=
  ∀ (addr n : Int) (threads : Nat) (s d : Buf) (order : List Copy), 1 ≤ threads → 0 ≤ addr → 1 ≤ n →
    addr + n < 2 ^ 63 → order.Perm (copies addr n threads) → ∃ d', runCopies n s order d = some d' ∧ ExactCopy n s d d'

/-- The code violates C16: one byte at address 1, six threads as in the library. -/
theorem C16_violated : ¬ C16_full := by
  intro h
  obtain ⟨d', h1, -⟩ := h 1 1 6 (fun _ => 0) (fun _ => 0) _ (by decide) (by decide) (by decide) (by decide) (List.Perm.refl _)
  have e : copies 1 1 6 = [⟨63, 63, -42⟩, ⟨21, 21, -42⟩, ⟨-21, -21, -42⟩, ⟨-63, -63, -42⟩, ⟨-105, -105, -42⟩,
      ⟨-147, -147, -42⟩, ⟨0, 0, 63⟩, ⟨-189, -193, 194⟩] := by decide
  rw [e] at h1
  simp [runCopies, Copy.run, Copy.inBounds] at h1

/-- C16, proved part: if some multiple of 64 lies in the buffer (always true from 63 bytes on), then for any number of
threads and every order in which the copies take effect, no access leaves the buffers and exactly the `n` bytes are
copied. Missing: shorter buffers without an aligned address (see `C16_violated`). -/
theorem C16_exact_copy_partial (addr n : Int) (threads : Nat) (s d : Buf) (order : List Copy) (ht : 1 ≤ threads)
    (ha : 0 ≤ addr) (hn : addr + n < 2 ^ 63) (hal : 63 ≤ n ∨ left addr ≤ right0 addr n)
    (hp : order.Perm (copies addr n threads)) :
    ∃ d', runCopies n s order d = some d' ∧ ExactCopy n s d d' := by
  have hal : left addr ≤ right0 addr n := by
    rcases hal with h | h
    · simp only [left, right0, alignDown, block]; omega
    · exact h
  obtain ⟨q, hq, hc, hp0, hr, hs0, hsum⟩ := memcopy_values ht ha hn hal
  have hmem : ∀ c ∈ copies addr n threads, c.dst = c.src ∧ 0 ≤ c.len ∧ 0 ≤ c.dst ∧ c.dst + c.len ≤ n := by
    intro c hcm
    unfold copies at hcm
    rw [hc, hr] at hcm
    simp only [List.mem_append, List.mem_map, List.mem_range, List.mem_cons, List.not_mem_nil, or_false] at hcm
    rcases hcm with ⟨i, hi, rfl⟩ | rfl | rfl
    · have h1 : 0 ≤ (i : Int) * (64 * q) := Int.mul_nonneg (by omega) (by omega)
      have h2 : (i : Int) * (64 * q) + 64 * q ≤ threads * (64 * q) := by
        have : ((i : Int) + 1) * (64 * q) ≤ threads * (64 * q) := Int.mul_le_mul_of_nonneg_right (by omega) (by omega)
        rw [Int.add_mul] at this
        omega
      unfold prefixLen at *
      simp only
      omega
    · have h1 : 0 ≤ (threads : Int) * (64 * q) := Int.mul_nonneg (by omega) (by omega)
      refine ⟨rfl, hp0, by simp, ?_⟩
      simp only
      omega
    · have h1 : 0 ≤ (threads : Int) * (64 * q) := Int.mul_nonneg (by omega) (by omega)
      unfold prefixLen at *
      simp only
      omega
  obtain ⟨d', r1, r2⟩ := runCopies_exact (s := s) order d (fun c hcm => hmem c (hp.mem_iff.1 hcm))
  refine ⟨d', r1, ?_⟩
  intro j
  by_cases hj : 0 ≤ j ∧ j < n
  · rw [if_pos hj]
    apply (r2 j).1
    have key : ∃ c ∈ copies addr n threads, c.dst ≤ j ∧ j < c.dst + c.len := by
      unfold copies
      rw [hc, hr]
      by_cases h1 : j < prefixLen addr
      · refine ⟨⟨0, 0, prefixLen addr⟩, by simp, ?_⟩
        simp only
        omega
      · by_cases h2 : prefixLen addr + threads * (64 * q) ≤ j
        · refine ⟨⟨prefixLen addr + threads * (64 * q), left addr + threads * (64 * q) - addr, suffixLen addr n threads⟩,
            by simp, ?_⟩
          simp only
          omega
        · have hqpos : 0 < q := by
            rcases Int.lt_or_eq_of_le hq with h | h
            · exact h
            · subst h; simp at h2; omega
          have hb := Int.mul_ediv_add_emod (j - prefixLen addr) (64 * q)
          have hm0 := Int.emod_nonneg (j - prefixLen addr) (by omega : (64 * q) ≠ 0)
          have hm1 := Int.emod_lt_of_pos (j - prefixLen addr) (by omega : 0 < 64 * q)
          have hi0 : 0 ≤ (j - prefixLen addr) / (64 * q) := Int.ediv_nonneg (by omega) (by omega)
          have hi1 : (j - prefixLen addr) / (64 * q) < threads :=
            Int.ediv_lt_of_lt_mul (by omega) (by omega)
          obtain ⟨i, hi⟩ := Int.eq_ofNat_of_zero_le hi0
          refine ⟨⟨prefixLen addr + i * (64 * q), left addr + i * (64 * q) - addr, 64 * q⟩, ?_, ?_⟩
          · apply List.mem_append_left
            rw [List.mem_map]
            exact ⟨i, by rw [List.mem_range]; omega, rfl⟩
          · rw [hi] at hb
            rw [Int.mul_comm] at hb
            simp only
            omega
    obtain ⟨c, h1, h2⟩ := key
    exact ⟨c, hp.mem_iff.2 h1, h2⟩
  · rw [if_neg hj]
    apply (r2 j).2
    intro c hcm hh
    have := hmem c (hp.mem_iff.1 hcm)
    omega

/-- A buffer of 1000 bytes at address 5 with six threads: two blocks for each thread. -/
example : copies 5 1000 6 = [⟨59, 59, 128⟩, ⟨187, 187, 128⟩, ⟨315, 315, 128⟩, ⟨443, 443, 128⟩, ⟨571, 571, 128⟩,
    ⟨699, 699, 128⟩, ⟨0, 0, 59⟩, ⟨827, 827, 173⟩] := by decide

private theorem runCopies_none (n : Int) (s : Buf) {c : Copy} (hc : c.inBounds n = false) :
    ∀ (order : List Copy) (d : Buf), c ∈ order → runCopies n s order d = none
  | [], _, h => by cases h
  | x :: t, d, h => by
    simp only [runCopies]
    rcases List.mem_cons.1 h with rfl | h
    · simp [Copy.run, hc]
    · cases hx : x.run n s d with
      | none => rfl
      | some d' => exact runCopies_none n s hc t d' h

/-- C16, exactly: the copy is exact if and only if the buffer contains a multiple of 64 (its end counts); otherwise some access leaves
the buffers, for every number of threads and every order of the copies. -/
theorem C16_exactly_partial (addr n : Int) (threads : Nat) (s d : Buf) (order : List Copy) (ht : 1 ≤ threads)
    (ha : 0 ≤ addr) (hn : addr + n < 2 ^ 63) (hp : order.Perm (copies addr n threads)) :
    ((∃ d', runCopies n s order d = some d' ∧ ExactCopy n s d d') ↔ ∃ m, addr ≤ 64 * m ∧ 64 * m ≤ addr + n) ∧
    ((¬ ∃ m, addr ≤ 64 * m ∧ 64 * m ≤ addr + n) → runCopies n s order d = none) := by
  have hiff : (∃ m, addr ≤ 64 * m ∧ 64 * m ≤ addr + n) ↔ left addr ≤ right0 addr n := by
    simp only [left, right0, alignDown, block]
    constructor
    · rintro ⟨m, h1, h2⟩; omega
    · intro h; exact ⟨(addr + 63) / 64, by omega, by omega⟩
  have hno : ¬ left addr ≤ right0 addr n → runCopies n s order d = none := by
    intro h
    refine runCopies_none n s (c := ⟨0, 0, prefixLen addr⟩) ?_ order d (hp.mem_iff.2 (by simp [copies]))
    simp only [left, right0, alignDown, block] at h
    have : n < prefixLen addr := by simp only [prefixLen, left, alignDown, block]; omega
    simp only [Copy.inBounds, Bool.and_eq_false_iff, decide_eq_false_iff_not]
    omega
  rw [hiff]
  refine ⟨⟨?_, fun h => C16_exact_copy_partial addr n threads s d order ht ha hn (.inr h) hp⟩, hno⟩
  rintro ⟨d', h, -⟩
  apply Classical.byContradiction
  intro hc
  rw [hno hc] at h
  cases h

/-- Sixty-two bytes at address 1: no multiple of 64 inside and the copy is undefined; at address 2 the end is a multiple. -/
example (s d : Buf) : runCopies 62 s (copies 1 62 6) d = none :=
  (C16_exactly_partial 1 62 6 s d _ (by decide) (by decide) (by decide) (List.Perm.refl _)).2 (by rintro ⟨m, h1, h2⟩; omega)
example (s d : Buf) : ∃ d', runCopies 62 s (copies 2 62 6) d = some d' ∧ ExactCopy 62 s d d' :=
  (C16_exactly_partial 2 62 6 s d _ (by decide) (by decide) (by decide) (List.Perm.refl _)).1.2 ⟨1, by decide, by decide⟩

/-- C16: which copies are defined behaviour: they have an effect if and only if none of them has a negative length or touches
a byte before or behind one of the buffers. -/
theorem C16_defined_exactly (n : Int) (s d : Buf) (order : List Copy) :
    (∃ d', runCopies n s order d = some d') ↔
      ∀ c ∈ order, 0 ≤ c.len ∧ 0 ≤ c.dst ∧ c.dst + c.len ≤ n ∧ 0 ≤ c.src ∧ c.src + c.len ≤ n := by
  induction order generalizing d with
  | nil => simp [runCopies]
  | cons c rest ih =>
    simp only [runCopies, List.mem_cons, forall_eq_or_imp]
    by_cases hc : 0 ≤ c.len ∧ 0 ≤ c.dst ∧ c.dst + c.len ≤ n ∧ 0 ≤ c.src ∧ c.src + c.len ≤ n
    · have hb : c.inBounds n = true := by simp [Copy.inBounds, hc]
      simp only [Copy.run, hb, if_true, Option.bind_some, hc, true_and, and_true]
      rw [ih]
    · have hb : c.inBounds n = false := by
        rw [← Bool.not_eq_true]
        simp only [Copy.inBounds, Bool.and_eq_true, decide_eq_true_eq]
        rintro ⟨⟨⟨⟨h1, h2⟩, h3⟩, h4⟩, h5⟩
        exact hc ⟨h1, h2, h3, h4, h5⟩
      simp [Copy.run, hb, hc]

/-- C16 (part): no byte outside the two buffers is read or written. Missing: buffers without an aligned address. -/
theorem C16_bounds_partial (addr n : Int) (threads : Nat) (ht : 1 ≤ threads) (ha : 0 ≤ addr) (hn : addr + n < 2 ^ 63)
    (hal : 63 ≤ n ∨ left addr ≤ right0 addr n) :
    ∀ c ∈ copies addr n threads, 0 ≤ c.len ∧ 0 ≤ c.dst ∧ c.dst + c.len ≤ n ∧ 0 ≤ c.src ∧ c.src + c.len ≤ n := by
  obtain ⟨d', h, -⟩ := C16_exact_copy_partial addr n threads (fun _ => 0) (fun _ => 0) _ ht ha hn hal (List.Perm.refl _)
  exact (C16_defined_exactly n _ _ _).1 ⟨d', h⟩

example : copies 100 300 2 = [⟨28, 28, 128⟩, ⟨156, 156, 128⟩, ⟨0, 0, 28⟩, ⟨284, 284, 16⟩] := by decide

end Verif.Props
