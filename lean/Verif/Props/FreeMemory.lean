import Verif.Lemmas.FreeMemoryRun

/-!
# C01, C02: the shared memory segment of a host
-/
namespace Verif.Props
open Verif.FreeMemory Verif.Spec

/-- **C01** For every segment size and every history of reservations (of positive sizes) and releases,
ranges that are held at the same time are disjoint and lie inside the segment. -/
theorem C01_live_ranges_disjoint (len : Nat) (ops : List Op)
    (hpos : ∀ n, Op.reserve n ∈ ops → 1 ≤ n) :
    (run len ops).live.Pairwise DisjointRanges ∧
      ∀ p ∈ (run len ops).live, InSegment len p := by
  rcases inv_run len ops hpos with h | h
  · exact ⟨h.disj, h.within⟩
  · rw [h.2.2]; simp

/-- **C01** (size part) A reservation of `n` bytes either adds one range of exactly `n` bytes to the held
ranges, disjoint from all of them, or leaves the held ranges unchanged. -/
theorem C01_reserve_grants_exact_size (len : Nat) (ops : List Op) (n : Nat) (hn : 1 ≤ n)
    (hpos : ∀ n, Op.reserve n ∈ ops → 1 ≤ n) :
    (∃ a, (run len (ops ++ [.reserve n])).live = (a, a + n) :: (run len ops).live ∧
        FreeGap len (run len ops).live a n) ∨
      (run len (ops ++ [.reserve n])).live = (run len ops).live := by
  have hrun : run len (ops ++ [.reserve n]) = step (run len ops) (.reserve n) := by
    simp [run, List.foldl_append]
  rw [hrun]
  rcases inv_run len ops hpos with h | h
  · simp only [step]
    split
    · rename_i p f ho
      obtain ⟨a, b⟩ := p
      obtain ⟨rfl, h1, -⟩ := occupy_some hn h.canon ho
      left
      refine ⟨a, rfl, ?_, ?_⟩
      · have := ((h.cover (a + n - 1)).1 (h1 _ (by omega) (by omega))).1
        omega
      · intro x hx hx'
        exact ((h.cover x).1 (h1 x hx hx')).2
    · right; rfl
  · right
    have := invZ_step (len := len) (op := .reserve n) (by rintro m ⟨⟩; exact hn) h
    rw [this.2.2, h.2.2]

/-- **C02** A reservation of `n` bytes succeeds whenever `n` consecutive bytes are free. -/
theorem C02_first_fit_complete (len : Nat) (ops : List Op) (n : Nat) (hn : 1 ≤ n)
    (hpos : ∀ n, Op.reserve n ∈ ops → 1 ≤ n)
    (hgap : ∃ a, FreeGap len (run len ops).live a n) :
    ∃ a, (run len (ops ++ [.reserve n])).live = (a, a + n) :: (run len ops).live := by
  have hrun : run len (ops ++ [.reserve n]) = step (run len ops) (.reserve n) := by
    simp [run, List.foldl_append]
  obtain ⟨a, ha1, ha2⟩ := hgap
  rw [hrun]
  rcases inv_run len ops hpos with h | h
  · simp only [step]
    split
    · rename_i p f ho
      obtain ⟨a, b⟩ := p
      obtain ⟨rfl, -⟩ := occupy_some hn h.canon ho
      exact ⟨a, rfl⟩
    · rename_i f ho
      exfalso
      obtain ⟨-, hno⟩ := occupy_none ho
      obtain ⟨p, hp, hp1, hp2⟩ := covers_run h.canon hn (a := a) (fun x hx hx' =>
        (h.cover x).2 ⟨by omega, ha2 x hx hx'⟩)
      have := hno p hp
      omega
  · exfalso; have := h.1; omega

/-- **C02** When everything has been released the whole segment can be reserved as one block again. -/
theorem C02_whole_segment_after_release (len : Nat) (ops : List Op) (hlen : 1 ≤ len)
    (hpos : ∀ n, Op.reserve n ∈ ops → 1 ≤ n) (hall : (run len ops).live = []) :
    (run len (ops ++ [.reserve len])).live = [(0, len)] := by
  obtain ⟨a, ha⟩ := C02_first_fit_complete len ops len hlen hpos
    ⟨0, by simp [FreeGap, hall]⟩
  have hw := (C01_live_ranges_disjoint len (ops ++ [.reserve len]) (by
    intro n hn
    rcases List.mem_append.1 hn with h | h
    · exact hpos n h
    · simp only [List.mem_singleton, Op.reserve.injEq] at h; omega)).2 (a, a + len)
      (by rw [ha]; simp)
  rw [ha, hall]
  have : a = 0 := by have := hw.2; simp only at this; omega
  simp [this]

-- Non-vacuity: a history with splits, merges in the middle and a refusal.
example : (run 10 [.reserve 3, .reserve 3, .reserve 3, .release 1, .reserve 2, .reserve 9]).live
    = [(3, 5), (6, 9), (0, 3)] := by decide
example : ∀ n, Op.reserve n ∈ [Op.reserve 3, .reserve 3, .release 1] → 1 ≤ n := by simp
example : FreeGap 10 (run 10 [.reserve 3, .reserve 3, .reserve 3, .release 1]).live 3 3 := by
  refine ⟨by omega, ?_⟩
  have : (run 10 [.reserve 3, .reserve 3, .reserve 3, .release 1]).live = [(6, 9), (0, 3)] := by decide
  rw [this]; simp; omega
example : (run 10 [.reserve 3, .reserve 7, .release 1, .release 0]).live = [] := by decide

end Verif.Props
