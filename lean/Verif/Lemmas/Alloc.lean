import Verif.Lemmas.FreeMemory
import Verif.Model.Basic
import Verif.Spec.Intervals

/-! Allocator invariant for a map from ids to ranges (allows leaked bytes). -/
namespace Verif.FreeMemory
open Verif.Spec

/-- Canonical list, or the degenerate list of an empty segment. -/
def Good (len : Nat) (r : Ranges) : Prop := Canon r ∨ (len = 0 ∧ r = [(0, 0)])

/-- Safety invariant: live ranges are inside the segment, disjoint, and no free byte is live. -/
structure AInv (len : Nat) (free : Ranges) (live : DataId → Option (Nat × Nat)) : Prop where
  good : Good len free
  cov : ∀ x, Covers free x → x < len ∧ ∀ id p, live id = some p → ¬ (p.1 ≤ x ∧ x < p.2)
  within : ∀ id p, live id = some p → InSegment len p
  disj : ∀ i j p q, i ≠ j → live i = some p → live j = some q → DisjointRanges p q

theorem ainv_init (len : Nat) : AInv len (init len) (fun _ => none) where
  good := by
    cases len with
    | zero => right; exact ⟨rfl, rfl⟩
    | succ n => left; simp [init, Canon]
  cov := by intro x h; simp [init, Covers] at h; simp [h]
  within := by simp
  disj := by simp

theorem occupy_good_none {n : Nat} {r r' : Ranges} (h : occupy r n = (none, r')) : r' = r :=
  (occupy_none h).1

theorem not_covers_degenerate {x : Nat} : ¬ Covers [(0, 0)] x := by simp [Covers]

theorem occupy_degenerate {n : Nat} (hn : 1 ≤ n) : occupy [(0, 0)] n = (none, [(0, 0)]) := by
  simp [occupy]; omega

theorem ainv_leak {len n : Nat} {r : Ranges} {live : DataId → Option (Nat × Nat)} (hn : 1 ≤ n)
    (h : AInv len r live) : AInv len (occupy r n).2 live := by
  generalize ho : occupy r n = o
  obtain ⟨res, r'⟩ := o
  cases res with
  | none => rw [(occupy_none ho).1]; exact h
  | some p =>
    obtain ⟨a, b⟩ := p
    rcases h.good with hc | ⟨-, rfl⟩
    · obtain ⟨-, -, h2, h3, -⟩ := occupy_some hn hc ho
      exact ⟨Or.inl h3, fun x hx => h.cov x ((h2 x).1 hx).1, h.within, h.disj⟩
    · rw [occupy_degenerate hn] at ho; simp at ho

theorem ainv_occupy {len n a b : Nat} {r r' : Ranges} {live : DataId → Option (Nat × Nat)}
    {id : DataId} (hn : 1 ≤ n) (h : AInv len r live) (ho : occupy r n = (some (a, b), r')) :
    b = a + n ∧ AInv len r' (upd live id (some (a, b))) := by
  rcases h.good with hc | ⟨-, rfl⟩
  · obtain ⟨hb, h1, h2, h3, -⟩ := occupy_some hn hc ho
    refine ⟨hb, Or.inl h3, ?_, ?_, ?_⟩
    · intro x hx
      have hx' := (h2 x).1 hx
      refine ⟨(h.cov x hx'.1).1, ?_⟩
      intro j p hj
      rw [upd_apply] at hj
      split at hj
      · simp only [Option.some.injEq] at hj; subst hj; exact hx'.2
      · exact (h.cov x hx'.1).2 j p hj
    · intro j p hj
      rw [upd_apply] at hj
      split at hj
      · simp only [Option.some.injEq] at hj; subst hj
        have := (h.cov (b - 1) (h1 _ (by omega) (by omega))).1
        exact ⟨by simp only; omega, by simp only; omega⟩
      · exact h.within j p hj
    · intro i j p q hij hi hj
      rw [upd_apply] at hi hj
      split at hi
      · split at hj
        · simp_all
        · simp only [Option.some.injEq] at hi; subst hi
          intro x hx
          exact (h.cov x (h1 x hx.1.1 hx.1.2)).2 j q hj hx.2
      · split at hj
        · simp only [Option.some.injEq] at hj; subst hj
          intro x hx
          exact (h.cov x (h1 x hx.2.1 hx.2.2)).2 i p hi hx.1
        · exact h.disj i j p q hij hi hj
  · rw [occupy_degenerate hn] at ho; simp at ho

theorem ainv_release {len : Nat} {r : Ranges} {live : DataId → Option (Nat × Nat)}
    {id : DataId} {p : Nat × Nat} (h : AInv len r live) (hid : live id = some p) :
    AInv len (release r p.1 p.2) (upd live id none) := by
  have hw := h.within id p hid
  rcases h.good with hc | ⟨h0, -⟩
  · obtain ⟨r1, r2⟩ := release_spec (r := r) (f := p.1) (l := p.2) hw.1 hc (by
      intro x hx hx' hcov
      exact (h.cov x hcov).2 id p hid ⟨hx, hx'⟩)
    refine ⟨Or.inl r1, ?_, ?_, ?_⟩
    · intro x hx
      rcases (r2 x).1 hx with hx | hx
      · refine ⟨(h.cov x hx).1, ?_⟩
        intro j q hj
        rw [upd_apply] at hj
        split at hj
        · simp at hj
        · exact (h.cov x hx).2 j q hj
      · refine ⟨by have := hw.2; omega, ?_⟩
        intro j q hj
        rw [upd_apply] at hj
        split at hj
        · simp at hj
        · rename_i hne
          intro hcon
          exact h.disj id j p q (fun e => hne e.symm) hid hj x ⟨hx, hcon⟩
    · intro j q hj
      rw [upd_apply] at hj
      split at hj
      · simp at hj
      · exact h.within j q hj
    · intro i j q q' hij hi hj
      rw [upd_apply] at hi hj
      split at hi
      · simp at hi
      · split at hj
        · simp at hj
        · exact h.disj i j q q' hij hi hj
  · exfalso; have := hw.1; have := hw.2; omega

/-- All free ranges start at a multiple of `k`. -/
def Aligned (k : Nat) (r : Ranges) : Prop := ∀ p ∈ r, k ∣ p.1

theorem start_iff {r : Ranges} (hc : Canon r) (x : Nat) :
    (∃ p ∈ r, p.1 = x) ↔ Covers r x ∧ ∀ y, y + 1 = x → ¬ Covers r y := by
  induction r with
  | nil => simp [Covers]
  | cons q t ih =>
    rw [canon_cons] at hc
    obtain ⟨c1, c2, c3⟩ := hc
    have ih := ih c3
    simp only [List.mem_cons, exists_eq_or_imp, covers_cons]
    have key : ∀ y, Covers t y → q.2 < y := by
      rintro y ⟨p, hp, h1, h2⟩; have := c2 p hp; omega
    constructor
    · rintro (rfl | h)
      · refine ⟨Or.inl ⟨Nat.le_refl _, c1⟩, ?_⟩
        rintro y hy (h | h)
        · omega
        · have := key y h; omega
      · have h' := ih.1 h
        refine ⟨Or.inr h'.1, ?_⟩
        rintro y hy (h2 | h2)
        · have := key x h'.1; omega
        · exact h'.2 y hy h2
    · rintro ⟨h1 | h1, h2⟩
      · left
        by_cases hx : q.1 = x
        · exact hx
        · exfalso
          exact h2 (x - 1) (by omega) (Or.inl ⟨by omega, by omega⟩)
      · right
        exact ih.2 ⟨h1, fun y hy hcov => h2 y hy (Or.inr hcov)⟩

theorem occupy_start {r r' : Ranges} {n a b : Nat} (h : occupy r n = (some (a, b), r')) :
    ∃ p ∈ r, p.1 = a := by
  induction r generalizing r' with
  | nil => simp [occupy] at h
  | cons p tl ih =>
    obtain ⟨lo, hi⟩ := p
    simp only [occupy] at h
    split at h
    · refine ⟨(lo, hi), by simp, ?_⟩
      split at h <;> simp at h <;> simp [h]
    · generalize ho : occupy tl n = o at h
      obtain ⟨res, tl'⟩ := o
      simp only [Prod.mk.injEq] at h
      obtain ⟨rfl, rfl⟩ := h
      obtain ⟨q, hq, rfl⟩ := ih ho
      exact ⟨q, by simp [hq], rfl⟩

theorem aligned_occupy {k n len : Nat} {r : Ranges} (hn : 1 ≤ n) (hk : k ∣ n) (hg : Good len r)
    (ha : Aligned k r) :
    Aligned k (occupy r n).2 ∧ ∀ a b, (occupy r n).1 = some (a, b) → k ∣ a := by
  generalize ho : occupy r n = o
  obtain ⟨res, r'⟩ := o
  cases res with
  | none => rw [(occupy_none ho).1]; exact ⟨ha, by simp⟩
  | some p =>
    obtain ⟨a, b⟩ := p
    rcases hg with hc | ⟨-, rfl⟩
    · obtain ⟨p0, hp0, hp0a⟩ := occupy_start ho
      have hka : k ∣ a := hp0a ▸ ha p0 hp0
      obtain ⟨rfl, h1, h2, h3, -⟩ := occupy_some hn hc ho
      refine ⟨?_, by intro a' b' h; simp at h; rw [← h.1]; exact hka⟩
      intro p hp
      obtain ⟨s1, s2⟩ := (start_iff h3 p.1).1 ⟨p, hp, rfl⟩
      have s1' := (h2 _).1 s1
      by_cases hst : ∀ y, y + 1 = p.1 → ¬ Covers r y
      · obtain ⟨q, hq, hqe⟩ := (start_iff hc p.1).2 ⟨s1'.1, hst⟩
        rw [← hqe]; exact ha q hq
      · have hst' := Classical.not_forall.1 hst
        obtain ⟨y, hy⟩ := hst'
        have hy1 : y + 1 = p.1 := Classical.byContradiction fun h => hy (fun e => absurd e h)
        have hy2 : Covers r y := Classical.byContradiction fun h => hy (fun _ => h)
        have hnc := s2 y hy1
        rw [h2] at hnc
        have hyin : a ≤ y ∧ y < a + n := Classical.byContradiction fun h => hnc ⟨hy2, h⟩
        have : p.1 = a + n := by
          have := s1'.2
          omega
        rw [this]
        exact Nat.dvd_add hka hk
    · rw [occupy_degenerate hn] at ho; simp at ho

theorem aligned_release {k f l : Nat} {r : Ranges} (hfl : f < l) (hc : Canon r)
    (hd : ∀ x, f ≤ x → x < l → ¬ Covers r x) (hk : k ∣ f) (ha : Aligned k r) :
    Aligned k (release r f l) := by
  obtain ⟨r1, r2⟩ := release_spec hfl hc hd
  intro p hp
  obtain ⟨s1, s2⟩ := (start_iff r1 p.1).1 ⟨p, hp, rfl⟩
  rcases (r2 _).1 s1 with h | h
  · obtain ⟨q, hq, hqe⟩ := (start_iff hc p.1).2
      ⟨h, fun y hy hcov => s2 y hy ((r2 y).2 (Or.inl hcov))⟩
    rw [← hqe]; exact ha q hq
  · by_cases hpf : p.1 = f
    · rw [hpf]; exact hk
    · exfalso
      exact s2 (p.1 - 1) (by omega) ((r2 _).2 (Or.inr ⟨by omega, by omega⟩))

end Verif.FreeMemory
