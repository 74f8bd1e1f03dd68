import Verif.Lemmas.FreeMemory
import Verif.Spec.Intervals

/-! Invariant of the segment over all histories. -/
namespace Verif.FreeMemory
open Verif.Spec

/-- Invariant: the free list is canonical and covers exactly the bytes of no live range. -/
structure Inv (len : Nat) (s : State) : Prop where
  canon : Canon s.free
  cover : ∀ x, Covers s.free x ↔ x < len ∧ ∀ p ∈ s.live, ¬ (p.1 ≤ x ∧ x < p.2)
  disj : s.live.Pairwise DisjointRanges
  within : ∀ p ∈ s.live, InSegment len p

/-- The degenerate segment of length zero, where the free list is `[(0, 0)]` for ever. -/
def InvZ (len : Nat) (s : State) : Prop := len = 0 ∧ s.free = [(0, 0)] ∧ s.live = []

theorem disjoint_symm {p q : Nat × Nat} (h : DisjointRanges p q) : DisjointRanges q p :=
  fun x hx => h x ⟨hx.2, hx.1⟩

theorem inv_init {len : Nat} (h : 0 < len) : Inv len { free := init len, live := [] } where
  canon := by simp [init, Canon, h]
  cover := by intro x; simp [init, Covers]
  disj := List.Pairwise.nil
  within := by simp

theorem inv_reserve {len n : Nat} {s : State} (hn : 1 ≤ n) (h : Inv len s) :
    Inv len (step s (.reserve n)) := by
  unfold step
  simp only
  split
  · rename_i p f ho
    obtain ⟨a, b⟩ := p
    obtain ⟨hb, h1, h2, h3, -⟩ := occupy_some hn h.canon ho
    refine ⟨h3, ?_, ?_, ?_⟩
    · intro x
      rw [h2, h.cover]
      simp only [List.mem_cons, forall_eq_or_imp]
      grind
    · simp only [List.pairwise_cons]
      refine ⟨?_, h.disj⟩
      intro q hq x hx
      have := (h.cover x).1 (h1 x hx.1.1 hx.1.2)
      exact this.2 q hq hx.2
    · intro q hq
      rcases List.mem_cons.1 hq with rfl | hq
      · have := (h.cover (b - 1)).1 (h1 (b - 1) (by omega) (by omega))
        unfold InSegment; simp only; omega
      · exact h.within q hq
  · rename_i f ho
    obtain ⟨rfl, -⟩ := occupy_none ho
    exact h

theorem inv_release {len k : Nat} {s : State} (h : Inv len s) :
    Inv len (step s (.release k)) := by
  unfold step
  simp only
  split
  · rename_i p hp
    have hmem : p ∈ s.live := List.mem_of_getElem? hp
    have hw := h.within p hmem
    obtain ⟨r1, r2⟩ := release_spec (r := s.free) (f := p.1) (l := p.2) hw.1 h.canon (by
      intro x hx hx' hcov
      exact ((h.cover x).1 hcov).2 p hmem ⟨hx, hx'⟩)
    have hdisj : ∀ q ∈ s.live.eraseIdx k, DisjointRanges p q := by
      intro q hq
      obtain ⟨hk, rfl⟩ := List.getElem?_eq_some_iff.1 hp
      obtain ⟨j, hj, rfl⟩ := List.getElem_of_mem hq
      have hpw := List.pairwise_iff_getElem.1 h.disj
      rw [List.getElem_eraseIdx]
      rw [List.length_eraseIdx] at hj
      split
      · exact disjoint_symm (hpw j k (by omega) hk (by omega))
      · exact hpw k (j + 1) hk (by grind) (by omega)
    refine ⟨r1, ?_, ?_, ?_⟩
    · intro x
      rw [r2, h.cover]
      have hsplit : ∀ q, q ∈ s.live ↔ q = p ∨ q ∈ s.live.eraseIdx k := by
        intro q
        obtain ⟨hk, rfl⟩ := List.getElem?_eq_some_iff.1 hp
        constructor
        · intro hq
          obtain ⟨j, hj, rfl⟩ := List.getElem_of_mem hq
          by_cases hjk : j = k
          · subst hjk; exact Or.inl rfl
          · right
            rw [List.mem_eraseIdx_iff_getElem]
            exact ⟨j, hj, hjk, rfl⟩
        · rintro (rfl | hq)
          · exact hmem
          · exact List.mem_of_mem_eraseIdx hq
      constructor
      · rintro (⟨h1, h2⟩ | h1)
        · exact ⟨h1, fun q hq => h2 q ((hsplit q).2 (Or.inr hq))⟩
        · refine ⟨by have := hw.2; omega, ?_⟩
          intro q hq hcon
          exact hdisj q hq x ⟨h1, hcon⟩
      · rintro ⟨h1, h2⟩
        by_cases hx : p.1 ≤ x ∧ x < p.2
        · exact Or.inr hx
        · left
          refine ⟨h1, ?_⟩
          intro q hq
          rcases (hsplit q).1 hq with rfl | hq
          · exact hx
          · exact h2 q hq
    · exact h.disj.sublist (List.eraseIdx_sublist _ _)
    · intro q hq; exact h.within q (List.mem_of_mem_eraseIdx hq)
  · exact h

theorem invZ_step {len : Nat} {s : State} {op : Op} (hn : ∀ n, op = .reserve n → 1 ≤ n)
    (h : InvZ len s) : InvZ len (step s op) := by
  obtain ⟨h1, h2, h3⟩ := h
  cases op with
  | reserve n =>
    have := hn n rfl
    have ho : occupy s.free n = (none, [(0, 0)]) := by
      rw [h2]; simp [occupy]; omega
    simp only [step, ho]
    exact ⟨h1, rfl, h3⟩
  | release k =>
    simp only [step, h3, List.getElem?_nil]
    exact ⟨h1, h2, h3⟩

theorem inv_foldl {len : Nat} (ops : List Op) :
    ∀ s, (Inv len s ∨ InvZ len s) → (∀ n, Op.reserve n ∈ ops → 1 ≤ n) →
      Inv len (ops.foldl step s) ∨ InvZ len (ops.foldl step s) := by
  induction ops with
  | nil => intro s h _; exact h
  | cons op ops ih =>
    intro s h hn
    rw [List.foldl_cons]
    apply ih
    · rcases h with h | h
      · left
        cases op with
        | reserve n => exact inv_reserve (hn n (by simp)) h
        | release k => exact inv_release h
      · right
        exact invZ_step (by rintro n rfl; exact hn n (by simp)) h
    · intro n hm; exact hn n (by simp [hm])

theorem inv_run (len : Nat) (ops : List Op) (hn : ∀ n, Op.reserve n ∈ ops → 1 ≤ n) :
    Inv len (run len ops) ∨ InvZ len (run len ops) := by
  apply inv_foldl ops _ _ hn
  cases len with
  | zero => right; exact ⟨rfl, rfl, rfl⟩
  | succ n => left; exact inv_init (by omega)

end Verif.FreeMemory
