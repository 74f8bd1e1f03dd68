import Verif.Model.WaitBackends
import Verif.Lemmas.PympWait
import Verif.Props.Dask
import Verif.Props.Pymp

/-! Lemmas about `wait` for finished references on the different backends. -/
namespace Verif.WaitBackends
open Verif.Wait (localLoop Monitor)

/-- The loop of the main process on different references: `P` are those it has passed over. -/
theorem localLoop_exact (has : Nat → Bool) (k : Nat) : ∀ (l ready P : List Nat), (P ++ l).Nodup → ready.length < k →
    localLoop has k l ready (P ++ l) =
      if k ≤ ready.length + (l.filter has).length then
        (true, ready ++ (l.filter has).take (k - ready.length), (P ++ l).filter fun x => x ∉ (l.filter has).take (k - ready.length))
      else (false, ready ++ l.filter has, P ++ l.filter fun x => !has x)
  | [], ready, P, _, hk => by
    rw [if_neg (by simp; omega)]
    simp [localLoop]
  | x :: l, ready, P, hn, hk => by
    simp only [localLoop]
    have hx : x ∉ P ++ l := (List.nodup_middle.1 hn).notMem
    have hn' : (P ++ l).Nodup := (List.nodup_middle.1 hn).of_cons
    by_cases h : has x = true
    · have herase : (P ++ x :: l).erase x = P ++ l := by
        rw [List.erase_append_right _ (fun hc => hx (by simp [hc])), List.erase_cons_head]
      rw [if_pos h, List.filter_cons, if_pos h, herase]
      have hsucc : k - ready.length = (k - (ready ++ [x]).length) + 1 := by simp; omega
      have hfil : ∀ T : List Nat, ((P ++ x :: l).filter fun y => y ∉ x :: T) = (P ++ l).filter fun y => y ∉ T := by
        intro T
        have e : ∀ q : List Nat, x ∉ q → (q.filter fun y => decide (y ∉ x :: T)) = q.filter fun y => decide (y ∉ T) := by
          intro q hq
          apply List.filter_congr
          intro y hy
          have : y ≠ x := fun h => hq (h ▸ hy)
          simp [this]
        rw [List.filter_append, List.filter_append, List.filter_cons, if_neg (by simp), e P (fun hc => hx (by simp [hc])),
          e l (fun hc => hx (by simp [hc]))]
      by_cases hl : ((ready ++ [x]).length : Int) = k
      · have hl' : (ready ++ [x]).length = k := by omega
        rw [if_pos hl, if_pos (by simp at hl' ⊢; omega), hsucc, List.take_succ_cons, hfil]
        simp only [hl', Nat.sub_self, List.take_zero]
        simp
      · rw [if_neg hl, localLoop_exact has k l (ready ++ [x]) P hn' (by simp at hl ⊢; omega)]
        by_cases hc : k ≤ (ready ++ [x]).length + (l.filter has).length
        · rw [if_pos hc, if_pos (by simp at hc ⊢; omega), hsucc, List.take_succ_cons, hfil]
          simp
        · rw [if_neg hc, if_neg (by simp at hc ⊢; omega)]
          simp [h]
    · rw [if_neg h, List.filter_cons, if_neg h]
      have := localLoop_exact has k l ready (P ++ [x]) (by simpa using hn) hk
      simp only [List.append_assoc, List.singleton_append] at this
      rw [this]
      simp [h]

/-- With nothing wanted, the loop never returns early. -/
theorem localLoop_zero (has : Nat → Bool) : ∀ (l ready P : List Nat), (P ++ l).Nodup →
    localLoop has 0 l ready (P ++ l) = (false, ready ++ l.filter has, P ++ l.filter fun x => !has x)
  | [], _, _, _ => by simp [localLoop]
  | x :: l, ready, P, hn => by
    simp only [localLoop]
    by_cases h : has x = true
    · have hx : x ∉ P ++ l := (List.nodup_middle.1 hn).notMem
      rw [if_pos h, if_neg (by simp; omega), List.erase_append_right _ (fun hc => hx (by simp [hc])), List.erase_cons_head,
        localLoop_zero has l _ P (List.nodup_middle.1 hn).of_cons]
      simp [h]
    · have := localLoop_zero has l ready (P ++ [x]) (by simpa using hn)
      simp only [List.append_assoc, List.singleton_append] at this
      rw [if_neg h, this]
      simp [h]

/-- The loop of the monitor on references that are all completed. -/
theorem loop_completed : ∀ (f : Nat) (m : Monitor), m.awaited.length ≤ f → (∀ x ∈ m.awaited, x ∈ m.completed) →
    (Monitor.loop f 0 m).2 = if (m.ready.length : Int) < m.num ∧ m.num ≤ m.ready.length + m.awaited.length then
      [(m.ready ++ m.awaited.take (m.num.toNat - m.ready.length), m.awaited.drop (m.num.toNat - m.ready.length))] else []
  | 0, m, hl, _ => by
    rw [if_neg (by omega)]
    rfl
  | f + 1, m, hl, hc => by
    cases ha : m.awaited with
    | nil =>
      rw [if_neg (by simp)]
      simp [Monitor.loop, ha]
    | cons x t =>
      have hx : x ∈ m.completed := hc x (by simp [ha])
      simp only [Monitor.loop, ha, List.getElem?_cons_zero, if_pos hx, List.erase_cons_head]
      by_cases hn : ((m.ready ++ [x]).length : Int) = m.num
      · rw [if_pos hn]
        have hend : Monitor.loop f 0 { m with ready := [], awaited := [] } = ({ m with ready := [], awaited := [] }, []) := by
          cases f <;> simp [Monitor.loop]
        rw [hend, if_pos (by simp at hn ⊢; omega)]
        have : m.num.toNat - m.ready.length = 1 := by simp at hn; omega
        simp [this]
      · rw [if_neg hn, loop_completed f _ (by simp [ha] at hl ⊢; omega) (by simp only; intro y hy; exact hc y (by simp [ha, hy]))]
        simp only
        by_cases h : (m.ready.length : Int) < m.num ∧ m.num ≤ m.ready.length + (x :: t).length
        · have e : m.num.toNat - m.ready.length = (m.num.toNat - (m.ready ++ [x]).length) + 1 := by simp at hn ⊢; omega
          rw [if_pos h, if_pos (by simp at h hn ⊢; omega), e, List.take_succ_cons, List.drop_succ_cons]
          simp
        · rw [if_neg h, if_neg (by simp at h hn ⊢; omega)]

/-- What `wait` gives on the MPI backend: the references in the store of the process first. -/
theorem mpi_exact (has : Nat → Bool) (reported ids : List Nat) (k : Nat) (hn : ids.Nodup) (hf : ∀ x ∈ ids, has x = true ∨ x ∈ reported) :
    mpi has reported ids k = if 1 ≤ k ∧ k ≤ ids.length then
      .result (((ids.filter has) ++ ids.filter fun x => !has x).take k)
        (ids.filter fun x => x ∉ ((ids.filter has) ++ ids.filter fun x => !has x).take k) else .waits := by
  have hreply : ∀ (rest : List Nat) (q : Int), (∀ x ∈ rest, x ∈ reported) →
      (({ Monitor.init with completed := reported } : Monitor).waitRequest rest q).2 =
        if 0 < q ∧ q ≤ rest.length then [(rest.take q.toNat, rest.drop q.toNat)] else [] := by
    intro rest q hr
    simp only [Monitor.waitRequest, Monitor.process]
    split
    · rename_i he
      subst he
      rw [if_neg (by simp only [List.length_nil]; omega)]
    · rw [loop_completed rest.length ⟨reported, rest, Monitor.init.ready, q⟩ (Nat.le_refl _) hr]
      simp [Monitor.init]
  have hlen : (ids.filter has).length + (ids.filter fun x => !has x).length = ids.length := by
    have := (List.filter_append_perm has ids).length_eq
    simpa using this
  have hrest : ∀ x ∈ ids.filter fun x => !has x, x ∈ reported := by
    intro x hx
    obtain ⟨h1, h2⟩ := List.mem_filter.1 hx
    rcases hf x h1 with h | h
    · simp [h] at h2
    · exact h
  by_cases hk : 1 ≤ k
  · have e := localLoop_exact has k ids [] [] (by simpa using hn) (by simp only [List.length_nil]; omega)
    simp only [List.nil_append, List.length_nil, Nat.zero_add, Nat.sub_zero] at e
    unfold mpi
    rw [e]
    by_cases h1 : k ≤ (ids.filter has).length
    · rw [if_pos h1, if_pos (by omega), List.take_append_of_le_length h1]
    · rw [if_neg h1]
      simp only
      rw [hreply _ _ hrest]
      by_cases h2 : k ≤ ids.length
      · rw [if_pos (by omega), if_pos ⟨hk, h2⟩]
        simp only
        have ht : ((k : Int) - (ids.filter has).length).toNat = k - (ids.filter has).length := by omega
        rw [ht, List.take_append, List.take_of_length_le (l := ids.filter has) (by omega)]
        congr 1
        -- the rest: the references that are neither stored nor among the first of the others
        have key : ∀ (l : List Nat) (j : Nat), l.Nodup → (l.filter fun x => !has x).drop j =
            l.filter fun x => x ∉ l.filter has ++ (l.filter fun x => !has x).take j := by
          intro l j hl
          have h3 : (l.filter fun x => decide (x ∉ l.filter has ++ (l.filter fun x => !has x).take j)) =
              (l.filter fun x => !has x).filter fun x => decide (x ∉ (l.filter fun x => !has x).take j) := by
            rw [List.filter_filter]
            apply List.filter_congr
            intro x hx
            by_cases h : has x = true
            · simp [h, hx]
            · simp [h]
          rw [h3]
          have h4 : (l.filter fun x => !has x).Nodup := hl.filter _
          generalize (l.filter fun x => !has x) = N at h4
          have h5 : N = N.take j ++ N.drop j := (List.take_append_drop j N).symm
          have h6 : (N.take j ++ N.drop j).Nodup := by rw [← h5]; exact h4
          have hd := List.nodup_append.1 h6
          conv => rhs; arg 2; rw [h5]
          rw [List.filter_append, List.filter_eq_nil_iff.2 (by intro x hx; simpa using hx), List.nil_append, eq_comm, List.filter_eq_self]
          intro x hx
          simp only [decide_eq_true_eq]
          intro hc
          exact hd.2.2 x hc x hx rfl
        exact key ids _ hn
      · rw [if_neg (by omega), if_neg (by omega)]
  · have hk0 : k = 0 := by omega
    subst hk0
    rw [if_neg (by omega)]
    unfold mpi
    have h0 := localLoop_zero has ids [] [] (by simpa using hn)
    simp only [List.nil_append] at h0
    rw [show ((0 : Nat) : Int) = 0 from rfl, h0]
    simp only
    rw [hreply _ _ hrest, if_neg (by omega)]

/-- The first loop of the multiprocessing backend when everything is ready: `O` are the references that were jumped over. -/
theorem scan_jumps (k : Nat) : ∀ (m : Nat) (copy O D R : List Nat), R.length + (m + 1) = k → m + 1 ≤ copy.length → 2 * m < D.length →
    ∃ r c, Pymp.scan (fun _ => true) k copy O.length R (O ++ D) = some (R ++ r, c) ∧ r.length = m + 1 ∧
      (∀ i, i ≤ m → r[i]? = D[2 * i]?) ∧ (r ++ c).Perm (O ++ D)
  | m, [], _, _, _, _, h, _ => by simp at h
  | m, _ :: _, _, [], _, _, _, h => by simp at h
  | 0, y :: copy, O, d :: D, R, hk, _, _ => by
    refine ⟨[d], O ++ D, ?_, rfl, ?_, ?_⟩
    · simp [Pymp.scan, ← hk]
      rw [List.eraseIdx_append_of_length_le (Nat.le_refl _)]
      simp
    · intro i hi
      have : i = 0 := by omega
      subst this
      rfl
    · simpa using (List.perm_middle (a := d) (l₁ := O) (l₂ := D)).symm
  | m + 1, y :: copy, O, [d], R, _, _, h => by simp at h
  | m + 1, y :: copy, O, d :: e :: D, R, hk, hc, hd => by
    obtain ⟨r, c, h1, h2, h3, h4⟩ := scan_jumps k m copy (O ++ [e]) D (R ++ [d]) (by simp; omega) (by simp at hc ⊢; omega) (by simp at hd; omega)
    refine ⟨d :: r, c, ?_, by simp [h2], ?_, ?_⟩
    · have he : (O ++ d :: e :: D).eraseIdx O.length = O ++ [e] ++ D := by
        rw [List.eraseIdx_append_of_length_le (Nat.le_refl _)]
        simp
      have hg : (O ++ d :: e :: D)[O.length]? = some d := by simp
      simp only [Pymp.scan, if_true, hg, he]
      rw [if_neg (by simp; omega)]
      simp only [List.length_append, List.length_singleton] at h1
      rw [h1]
      simp
    · intro i hi
      cases i with
      | zero => rfl
      | succ i =>
        rw [List.getElem?_cons_succ, h3 i (by omega), show 2 * (i + 1) = 2 * i + 1 + 1 by omega]
        rfl
    · have : (d :: (r ++ c)).Perm (d :: (O ++ [e] ++ D)) := h4.cons d
      refine this.trans ?_
      simp only [List.append_assoc, List.singleton_append]
      exact List.perm_middle.symm

/-- What `wait` gives on the multiprocessing backend: every second reference, as long as the list lasts. -/
theorem pymp_result (ids : List Nat) (k : Nat) (hk : 1 ≤ k) (h : 2 * (k - 1) < ids.length) :
    ∃ ready rest, pymp ids k = .result ready rest ∧ ready.length = k ∧ (∀ i, i < k → ready[i]? = ids[2 * i]?) ∧ (ready ++ rest).Perm ids := by
  obtain ⟨r, c, h1, h2, h3, h4⟩ := scan_jumps k (k - 1) ids [] ids [] (by simp; omega) (by omega) h
  simp only [List.nil_append, List.length_nil] at h1 h4
  have hl : r.length = k := by omega
  refine ⟨r, c, ?_, hl, fun i hi => h3 i (by omega), h4⟩
  unfold pymp Pymp.wait
  rw [h1]
  simp only
  cases c <;> simp [Pymp.drain, hl]

theorem drain_ends (k : Nat) : ∀ (c r : List Nat), Pymp.drain (fun _ => some (.ok (.data 0))) k r c = .indexError ∨
    ∃ a b, Pymp.drain (fun _ => some (.ok (.data 0))) k r c = .result a b ∧ a.length = k ∧ (a ++ b).Perm (r ++ c) ∧ (r.length ≤ k)
  | [], r => by
    simp only [Pymp.drain]
    by_cases h : r.length = k
    · rw [if_pos h]; exact Or.inr ⟨_, _, rfl, h, List.Perm.refl _, by omega⟩
    · rw [if_neg h]; exact Or.inl rfl
  | x :: c, r => by
    simp only [Pymp.drain]
    by_cases h : r.length = k
    · rw [if_pos h]; exact Or.inr ⟨_, _, rfl, h, List.Perm.refl _, by omega⟩
    · rw [if_neg h]
      rcases drain_ends k c (r ++ [x]) with h1 | ⟨a, b, h1, h2, h3, h4⟩
      · exact Or.inl h1
      · refine Or.inr ⟨a, b, h1, h2, h3.trans (by simp), by simp at h4; omega⟩

theorem scan_grows (k : Nat) : ∀ (copy : List Nat) (pos : Nat) (r c a b : List Nat), Pymp.scan (fun _ => true) k copy pos r c = some (a, b) →
    (a ++ b).Perm (r ++ c) ∧ (copy ≠ [] → r.length < a.length) ∧ r.length ≤ a.length
  | [], pos, r, c, a, b, h => by
    simp only [Pymp.scan, Option.some.injEq, Prod.mk.injEq] at h
    rw [h.1, h.2]
    exact ⟨List.Perm.refl _, by simp, Nat.le_refl _⟩
  | x :: copy, pos, r, c, a, b, h => by
    simp only [Pymp.scan, if_true] at h
    cases hy : c[pos]? with
    | none => simp [hy] at h
    | some y =>
      simp only [hy] at h
      have hp : (r ++ [y] ++ c.eraseIdx pos).Perm (r ++ c) := by
        rw [List.append_assoc]
        refine List.Perm.append_left _ ?_
        obtain ⟨hlt, he⟩ := List.getElem?_eq_some_iff.1 hy
        rw [← he]
        exact List.getElem_cons_eraseIdx_perm hlt
      by_cases hk : (r ++ [y]).length = k
      · rw [if_pos hk] at h
        simp only [Option.some.injEq, Prod.mk.injEq] at h
        rw [← h.1, ← h.2]
        exact ⟨hp, by simp, by simp⟩
      · rw [if_neg hk] at h
        obtain ⟨h1, -, h3⟩ := scan_grows k copy (pos + 1) _ _ a b h
        simp only [List.length_append, List.length_singleton] at h3
        exact ⟨h1.trans hp, fun _ => by omega, by omega⟩

/-- When `wait` on the multiprocessing backend raises. -/
theorem pymp_raises (ids : List Nat) (k : Nat) (h : ¬ (k = 0 ∧ ids = []) ∧ ¬ (1 ≤ k ∧ 2 * (k - 1) < ids.length)) : pymp ids k = .raises := by
  have hcase : pymp ids k = .raises ∨ ∃ a b, pymp ids k = .result a b ∧ a.length = k ∧ (a ++ b).Perm ids ∧
      Pymp.wait (fun _ => true) (fun _ => some (.ok (.data 0))) ids k = .result a b ∧ (ids ≠ [] → 0 < k) := by
    unfold pymp Pymp.wait
    cases hs : Pymp.scan (fun _ => true) k ids 0 [] ids with
    | none => exact Or.inl rfl
    | some p =>
      obtain ⟨r, c⟩ := p
      obtain ⟨h1, h2, h3⟩ := scan_grows k ids 0 [] ids r c hs
      simp only
      rcases drain_ends k c r with hd | ⟨a, b, hd, e1, e2, e3⟩
      · rw [hd]; exact Or.inl rfl
      · rw [hd]
        refine Or.inr ⟨a, b, rfl, e1, e2.trans (by simpa using h1), rfl, fun hne => ?_⟩
        have := h2 hne
        simp at this
        omega
  rcases hcase with hc | ⟨a, b, hr, hl, hp, hw, hpos⟩
  · exact hc
  · exfalso
    have hle : k ≤ ids.length := by
      have := hp.length_eq
      simp at this
      omega
    by_cases hne : ids = []
    · subst hne
      simp at hle
      exact h.1 ⟨hle, rfl⟩
    · have hk := hpos hne
      have := (Props.C67_exactly_partial (fun _ => true) (fun _ => some (.ok (.data 0))) ids k hk hle (fun _ _ => ⟨_, rfl⟩)).2
      rw [hw] at this
      refine absurd (this ?_) (by simp)
      intro hall
      have hlt : k - 1 < ids.length := by omega
      have := hall (k - 1) ids[k - 1] (List.getElem?_eq_getElem hlt) rfl (by simp; omega)
      simp at this
      exact h.2 ⟨hk, by omega⟩

/-- What `wait` gives on the Dask backend: the last futures in the order of the set are moved back. -/
theorem dask_exact (order : List Nat → List Nat) (ho : ∀ l, (order l).Perm l) (ids : List Nat) (k : Nat) :
    dask order ids k = if k ≤ ids.dedup.length then .result ((order ids.dedup).take k) ((order ids.dedup).drop k).reverse else .waits := by
  have hnil : order [] = [] := List.perm_nil.1 (ho [])
  have hfirst : ∃ t, Dask.waitFirst (fun _ => some 0) 0 0 ids = some (t, ids.dedup, []) := by
    unfold Dask.waitFirst
    have hall : ∀ t, ids.dedup.filter (Dask.finishedBy (fun _ => some 0) t) = ids.dedup := fun t => by
      rw [List.filter_eq_self]; intro a _; simp [Dask.finishedBy]
    have hnone : ∀ t, (ids.dedup.filter fun f => !Dask.finishedBy (fun _ => some 0) t f) = [] := fun t => by
      rw [List.filter_eq_nil_iff]; intro a _; simp [Dask.finishedBy]
    cases hm : (ids.filterMap fun _ => some 0).min? with
    | none =>
      have : ids = [] := by
        rw [List.min?_eq_none_iff] at hm
        cases ids with
        | nil => rfl
        | cons x t => simp at hm
      subst this
      exact ⟨_, rfl⟩
    | some t => exact ⟨max 0 t + 0, by simp only [hall, hnone]⟩
  obtain ⟨t, hfirst⟩ := hfirst
  unfold dask Dask.wait
  rw [hfirst]
  simp only [List.length_nil]
  unfold Dask.collect
  by_cases h : k ≤ ids.dedup.length
  · have hl : (order ids.dedup).length = ids.dedup.length := (ho _).length_eq
    rw [if_pos h, if_pos h]
    simp only
    rw [Dask.moveBack_eq _ _ _ (by omega) (by omega), hnil]
    simp
  · rw [if_neg h, if_neg h]

end Verif.WaitBackends
