import Verif.Lemmas.WaitBackends

/-! `wait` for finished references gives the same on every backend (C137). -/
namespace Verif.Props
open Verif.WaitBackends

/-- C137, the full statement: for different references that have all finished, and a number of wanted references that is possible, `wait`
gives the same two lists on the MPI, Multiprocessing, Sequential and Dask backends. -/
def C137_full : Prop := ∀ (has : Nat → Bool) (reported : List Nat) (order : List Nat → List Nat) (ids : List Nat) (k : Nat), ids.Nodup →
  (∀ x ∈ ids, has x = true ∨ x ∈ reported) → (∀ l, (order l).Perm l) → 1 ≤ k → k ≤ ids.length →
  mpi has reported ids k = pyseq ids k ∧ pymp ids k = pyseq ids k ∧ dask order ids k = pyseq ids k

/-- C137 is violated on the MPI backend: the result of a task stands before data that the process has put, and the data comes out as
ready. -/
theorem C137_order_violated : ¬ C137_full := by
  intro h
  exact absurd (h (fun x => x == 7) [3] id [3, 7] 1 (by decide) (by decide) (fun l => List.Perm.refl l) (by decide) (by decide)).1 (by decide)

example : mpi (fun x => x == 7) [3] [3, 7] 1 = .result [7] [3] ∧ pyseq [3, 7] 1 = .result [3] [7] := by decide

/-- C137 is violated on the multiprocessing backend: for two finished references and `num_returns=2` it raises, where the other backends
return both. -/
theorem C137_raises_violated : ¬ C137_full ∧ pymp [3, 7] 2 = .raises ∧ pyseq [3, 7] 2 = .result [3, 7] [] ∧
    mpi (fun _ => false) [3, 7] [3, 7] 2 = .result [3, 7] [] ∧ dask id [3, 7] 2 = .result [3, 7] [] := by
  refine ⟨fun h => ?_, by decide, by decide, by decide, by decide⟩
  exact absurd (h (fun _ => false) [3, 7] id [3, 7] 2 (by decide) (by decide) (fun l => List.Perm.refl l) (by decide) (by decide)).2.1 (by decide)

/-- C137 is violated on the multiprocessing backend: also where it does not raise, it gives every second reference. -/
theorem C137_skips_violated : ¬ C137_full ∧ pymp [3, 7, 9] 2 = .result [3, 9] [7] ∧ pyseq [3, 7, 9] 2 = .result [3, 7] [9] := by
  refine ⟨fun h => ?_, by decide, by decide⟩
  exact absurd (h (fun _ => true) [] id [3, 7, 9] 2 (by decide) (by decide) (fun l => List.Perm.refl l) (by decide) (by decide)).2.1 (by decide)

/-- C137 is violated on the Dask backend: the order is that of a set. -/
theorem C137_set_violated : ¬ C137_full ∧ dask List.reverse [3, 7] 1 = .result [7] [3] := by
  refine ⟨fun h => ?_, by decide⟩
  exact absurd (h (fun _ => true) [] List.reverse [3, 7] 1 (by decide) (by decide) (fun l => List.reverse_perm l) (by decide) (by decide)).2.2
    (by decide)

/-- **C137**, how it ends, for every number: the Sequential backend always returns; MPI returns exactly for a possible number and otherwise
waits for ever; the multiprocessing backend returns exactly if the number is one or the list is long enough for the jumps (or both are
zero), and otherwise raises; Dask returns exactly if there are enough different references, and otherwise waits for ever. -/
theorem C137_ends_exactly_partial (has : Nat → Bool) (reported : List Nat) (order : List Nat → List Nat) (ids : List Nat) (k : Nat)
    (hn : ids.Nodup) (hf : ∀ x ∈ ids, has x = true ∨ x ∈ reported) (ho : ∀ l, (order l).Perm l) :
    (∃ r c, pyseq ids k = .result r c) ∧
    ((∃ r c, mpi has reported ids k = .result r c) ↔ 1 ≤ k ∧ k ≤ ids.length) ∧
    (mpi has reported ids k = .waits ↔ k = 0 ∨ ids.length < k) ∧
    ((∃ r c, pymp ids k = .result r c) ↔ k = 0 ∧ ids = [] ∨ 1 ≤ k ∧ 2 * (k - 1) < ids.length) ∧
    (pymp ids k = .raises ↔ ¬ (k = 0 ∧ ids = [] ∨ 1 ≤ k ∧ 2 * (k - 1) < ids.length)) ∧
    ((∃ r c, dask order ids k = .result r c) ↔ k ≤ ids.length) ∧ (dask order ids k = .waits ↔ ids.length < k) := by
  rw [mpi_exact has reported ids k hn hf, dask_exact order ho ids k, hn.dedup]
  refine ⟨⟨_, _, rfl⟩, ?_, ?_, ?_, ?_, ?_, ?_⟩
  · by_cases h : 1 ≤ k ∧ k ≤ ids.length
    · rw [if_pos h]; exact ⟨fun _ => h, fun _ => ⟨_, _, rfl⟩⟩
    · rw [if_neg h]; exact ⟨(fun ⟨_, _, e⟩ => by cases e), fun h' => absurd h' h⟩
  · by_cases h : 1 ≤ k ∧ k ≤ ids.length
    · rw [if_pos h]; exact ⟨(fun e => by cases e), fun h' => by omega⟩
    · rw [if_neg h]; exact ⟨fun _ => by omega, fun _ => rfl⟩
  · by_cases h0 : k = 0 ∧ ids = []
    · refine ⟨fun _ => Or.inl h0, fun _ => ?_⟩
      obtain ⟨h1, h2⟩ := h0
      subst h1 h2
      exact ⟨[], [], by decide⟩
    · by_cases h1 : 1 ≤ k ∧ 2 * (k - 1) < ids.length
      · obtain ⟨r, c, h, -⟩ := pymp_result ids k h1.1 h1.2
        exact ⟨fun _ => Or.inr h1, fun _ => ⟨r, c, h⟩⟩
      · rw [pymp_raises ids k ⟨h0, h1⟩]
        exact ⟨(fun ⟨_, _, e⟩ => by cases e), fun h => absurd h (by simp only [h0, h1, or_false, not_false_iff])⟩
  · by_cases h0 : k = 0 ∧ ids = []
    · refine ⟨fun h => ?_, fun h => absurd (Or.inl h0) h⟩
      obtain ⟨h1, h2⟩ := h0
      subst h1 h2
      exact absurd h (by decide)
    · by_cases h1 : 1 ≤ k ∧ 2 * (k - 1) < ids.length
      · obtain ⟨r, c, h, -⟩ := pymp_result ids k h1.1 h1.2
        rw [h]
        exact ⟨(fun e => by cases e), fun h' => absurd (Or.inr h1) h'⟩
      · rw [pymp_raises ids k ⟨h0, h1⟩]
        simp only [h0, h1, or_false, not_false_iff]
  · by_cases h : k ≤ ids.length
    · rw [if_pos h]; exact ⟨fun _ => h, fun _ => ⟨_, _, rfl⟩⟩
    · rw [if_neg h]; exact ⟨(fun ⟨_, _, e⟩ => by cases e), fun h' => absurd h' h⟩
  · by_cases h : k ≤ ids.length
    · rw [if_pos h]; exact ⟨(fun e => by cases e), fun h' => by omega⟩
    · rw [if_neg h]; exact ⟨fun _ => by omega, fun _ => rfl⟩

example : mpi (fun _ => true) [] [3, 7] 3 = .waits ∧ dask id [3, 7] 3 = .waits ∧ pymp [3, 7] 3 = .raises ∧
    pyseq [3, 7] 3 = .result [3, 7] [] := by decide

private theorem sorted_iff (has : Nat → Bool) : ∀ (ids : List Nat) (k : Nat),
    ((ids.filter has ++ ids.filter fun x => !has x).take k = ids.take k ↔
      ∀ (i j x y : Nat), i < j → i < k → ids[i]? = some x → ids[j]? = some y → has y = true → has x = true)
  | _, 0 => by simp
  | [], k + 1 => by simp
  | a :: t, k + 1 => by
    by_cases ha : has a = true
    · rw [List.filter_cons, if_pos ha, List.filter_cons, if_neg (by simp [ha]), List.cons_append, List.take_succ_cons, List.take_succ_cons,
        List.cons.injEq]
      simp only [true_and]
      rw [sorted_iff has t k]
      constructor
      · intro h i j x y hij hik hi hj hy
        cases j with
        | zero => omega
        | succ j =>
          cases i with
          | zero => simp at hi; rw [← hi]; exact ha
          | succ i => exact h i j x y (by omega) (by omega) (by simpa using hi) (by simpa using hj) hy
      · intro h i j x y hij hik hi hj hy
        exact h (i + 1) (j + 1) x y (by omega) (by omega) (by simpa using hi) (by simpa using hj) hy
    · rw [List.filter_cons, if_neg ha]
      have hside : (∀ (i j x y : Nat), i < j → i < k + 1 → (a :: t)[i]? = some x → (a :: t)[j]? = some y → has y = true → has x = true) ↔
          t.filter has = [] := by
        rw [List.filter_eq_nil_iff]
        constructor
        · intro h y hy hc
          obtain ⟨j, hj⟩ := List.getElem?_of_mem hy
          exact ha (h 0 (j + 1) a y (by omega) (by omega) rfl (by simpa using hj) hc)
        · intro h i j x y hij _ _ hj hy
          cases j with
          | zero => omega
          | succ j => exact absurd hy (h y (List.mem_of_getElem? (by simpa using hj)))
      rw [hside]
      constructor
      · intro h
        cases hf : t.filter has with
        | nil => rfl
        | cons b l =>
          rw [hf, List.cons_append, List.take_succ_cons, List.take_succ_cons, List.cons.injEq] at h
          have hb : b ∈ t.filter has := by rw [hf]; simp
          exact absurd (h.1 ▸ (List.mem_filter.1 hb).2) ha
      · intro h
        have hall : ((a :: t).filter fun x => !has x) = a :: t := by
          rw [List.filter_eq_self]
          intro x hx
          rcases List.mem_cons.1 hx with rfl | hx
          · simpa using ha
          · simpa using List.filter_eq_nil_iff.1 h x hx
        rw [h, List.nil_append, hall]

private theorem filter_not_take (ids : List Nat) (k : Nat) (hn : ids.Nodup) : (ids.filter fun x => x ∉ ids.take k) = ids.drop k := by
  have h5 : ids = ids.take k ++ ids.drop k := (List.take_append_drop k ids).symm
  have h6 : (ids.take k ++ ids.drop k).Nodup := by rw [← h5]; exact hn
  have hd := List.nodup_append.1 h6
  conv => lhs; arg 2; rw [h5]
  rw [List.filter_append, List.filter_eq_nil_iff.2 (by intro x hx; simpa using hx), List.nil_append, List.filter_eq_self]
  intro x hx
  simp only [decide_eq_true_eq]
  exact fun hc => hd.2.2 x hc x hx rfl

/-- **C137** on the MPI backend, exactly: it gives the same as the Sequential backend if and only if the number is possible and no reference
whose object is elsewhere stands among the first `k` and before one whose object is in the store of the process. -/
theorem C137_mpi_exactly_partial (has : Nat → Bool) (reported ids : List Nat) (k : Nat) (hn : ids.Nodup)
    (hf : ∀ x ∈ ids, has x = true ∨ x ∈ reported) :
    mpi has reported ids k = pyseq ids k ↔ (1 ≤ k ∧ k ≤ ids.length) ∧
      ∀ (i j x y : Nat), i < j → i < k → ids[i]? = some x → ids[j]? = some y → has y = true → has x = true := by
  rw [mpi_exact has reported ids k hn hf, ← sorted_iff]
  by_cases h : 1 ≤ k ∧ k ≤ ids.length
  · rw [if_pos h]
    simp only [pyseq, Pyseq.wait, Ends.result.injEq, h, true_and]
    refine ⟨fun h' => h'.1, fun h' => ⟨h', ?_⟩⟩
    rw [h']
    exact filter_not_take ids k hn
  · rw [if_neg h]
    exact ⟨(fun e => by cases e), fun h' => absurd h'.1 h⟩

/-- **C137** on the multiprocessing backend, exactly: it gives the same as the Sequential backend if and only if one reference is wanted and
there is one, or none is wanted and there is none. -/
theorem C137_pymp_exactly_partial (ids : List Nat) (k : Nat) (hn : ids.Nodup) :
    pymp ids k = pyseq ids k ↔ k = 0 ∧ ids = [] ∨ k = 1 ∧ ids ≠ [] := by
  by_cases h0 : k = 0 ∧ ids = []
  · obtain ⟨h1, h2⟩ := h0
    subst h1 h2
    simp
    decide
  · by_cases h1 : 1 ≤ k ∧ 2 * (k - 1) < ids.length
    · obtain ⟨r, c, hr, hl, hi, hp⟩ := pymp_result ids k h1.1 h1.2
      have hne : ids ≠ [] := by rintro rfl; simp at h1
      rw [hr]
      simp only [pyseq, Pyseq.wait, Ends.result.injEq, hne, and_false, false_or, ne_eq, not_false_iff, and_true]
      constructor
      · rintro ⟨e1, -⟩
        apply Classical.byContradiction
        intro hk
        have h2 := hi 1 (by omega)
        rw [e1, List.getElem?_take_of_lt (by omega)] at h2
        have := (List.getElem?_inj (by omega) hn).1 h2
        omega
      · rintro rfl
        cases ids with
        | nil => simp at hne
        | cons x t =>
          have h2 := hi 0 (by omega)
          simp only [Nat.mul_zero, List.getElem?_cons_zero] at h2
          cases r with
          | nil => simp at hl
          | cons b r' =>
            simp at h2 hl
            subst h2 hl
            have : pymp (b :: t) 1 = .result [b] t := by
              cases t <;> simp [pymp, Pymp.wait, Pymp.scan, Pymp.drain]
            rw [this] at hr
            simp only [Ends.result.injEq] at hr
            simp [← hr.2]
    · rw [pymp_raises ids k ⟨h0, h1⟩]
      constructor
      · intro e; cases e
      · rintro (h | ⟨rfl, h⟩)
        · exact absurd h h0
        · exact absurd ⟨Nat.le_refl _, by simpa using List.length_pos_of_ne_nil h⟩ h1

/-- **C137** on the Dask backend, exactly: it gives the same as the Sequential backend if and only if the number is possible and the set
happens to be iterated with the first `k` in their order and the others in the opposite order. -/
theorem C137_dask_exactly_partial (order : List Nat → List Nat) (ho : ∀ l, (order l).Perm l) (ids : List Nat) (k : Nat) (hn : ids.Nodup) :
    dask order ids k = pyseq ids k ↔ k ≤ ids.length ∧ order ids = ids.take k ++ (ids.drop k).reverse := by
  rw [dask_exact order ho, hn.dedup]
  by_cases h : k ≤ ids.length
  · rw [if_pos h]
    simp only [pyseq, Pyseq.wait, Ends.result.injEq, h, true_and]
    have hl : (order ids).length = ids.length := (ho ids).length_eq
    constructor
    · rintro ⟨e1, e2⟩
      rw [← e1, ← e2, List.reverse_reverse, List.take_append_drop]
    · intro e
      have hk : (ids.take k).length = k := by simp; omega
      rw [e, List.take_left' hk, List.drop_left' hk, List.reverse_reverse]
      exact ⟨rfl, rfl⟩
  · rw [if_neg h]
    exact ⟨(fun e => by cases e), fun h' => absurd h'.1 h⟩

/-- **C137**, the rest: where they return at all, all backends give the wanted number of ready references and together with the others each
reference once; and for one wanted reference, MPI with all or none of the objects in the store of the process, Multiprocessing and
Sequential give the same. -/
theorem C137_contract_partial (has : Nat → Bool) (reported : List Nat) (order : List Nat → List Nat) (ids : List Nat) (k : Nat)
    (hn : ids.Nodup) (hf : ∀ x ∈ ids, has x = true ∨ x ∈ reported) (ho : ∀ l, (order l).Perm l) (h1 : 1 ≤ k) (h2 : k ≤ ids.length) :
    (∀ e, e = pyseq ids k ∨ e = mpi has reported ids k ∨ e = pymp ids k ∨ e = dask order ids k →
      e = .raises ∧ ids.length ≤ 2 * (k - 1) ∨ ∃ r c, e = .result r c ∧ r.length = k ∧ (r ++ c).Perm ids) ∧
    (k = 1 → (∀ x ∈ ids, ∀ y ∈ ids, has x = has y) → mpi has reported ids k = pyseq ids k ∧ pymp ids k = pyseq ids k) := by
  refine ⟨?_, fun hk hsame => ⟨?_, ?_⟩⟩
  · rintro e (rfl | rfl | rfl | rfl)
    · exact Or.inr ⟨_, _, rfl, by simp [Pyseq.wait]; omega, by simp [Pyseq.wait]⟩
    · rw [mpi_exact has reported ids k hn hf, if_pos ⟨h1, h2⟩]
      have hp : (ids.filter has ++ ids.filter fun x => !has x).Perm ids := List.filter_append_perm has ids
      have hn' := hp.nodup_iff.2 hn
      have hlen := hp.length_eq
      generalize (ids.filter has ++ ids.filter fun x => !has x) = M at hp hn' hlen
      refine Or.inr ⟨_, _, rfl, by simp; omega, ?_⟩
      have : (ids.filter fun x => decide (x ∉ M.take k)).Perm (M.drop k) := by
        have := hp.symm.filter fun x => decide (x ∉ M.take k)
        rwa [filter_not_take M k hn'] at this
      refine (List.Perm.append_left _ this).trans ?_
      rw [List.take_append_drop]
      exact hp
    · by_cases h : 2 * (k - 1) < ids.length
      · obtain ⟨r, c, a1, a2, -, a3⟩ := pymp_result ids k h1 h
        exact Or.inr ⟨r, c, a1, a2, a3⟩
      · exact Or.inl ⟨pymp_raises ids k ⟨by omega, by omega⟩, by omega⟩
    · rw [dask_exact order ho, hn.dedup, if_pos h2]
      have hl : (order ids).length = ids.length := (ho ids).length_eq
      refine Or.inr ⟨_, _, rfl, by simp; omega, ?_⟩
      refine (List.Perm.append_left _ (List.reverse_perm _)).trans ?_
      rw [List.take_append_drop]
      exact ho ids
  · rw [C137_mpi_exactly_partial has reported ids k hn hf]
    refine ⟨⟨h1, h2⟩, fun i j x y _ _ hi hj hy => ?_⟩
    rw [hsame x (List.mem_of_getElem? hi) y (List.mem_of_getElem? hj)]
    exact hy
  · rw [C137_pymp_exactly_partial ids k hn]
    refine Or.inr ⟨hk, ?_⟩
    rintro rfl
    simp at h2
    omega

example : mpi (fun x => x == 9) [3, 7] [3, 7, 9] 2 = .result [9, 3] [7] ∧ pymp [3, 7, 9] 2 = .result [3, 9] [7] ∧
    dask List.reverse [3, 7, 9] 2 = .result [9, 7] [3] ∧ pyseq [3, 7, 9] 2 = .result [3, 7] [9] := by decide

end Verif.Props
