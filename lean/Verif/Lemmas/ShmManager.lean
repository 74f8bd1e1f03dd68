import Verif.Lemmas.Alloc
import Verif.Spec.Reservation

/-! Invariants of the shared memory manager. -/
namespace Verif.Shm
open Verif.FreeMemory Verif.Spec

theorem ainv_congr {len : Nat} {r : Ranges} {live live' : DataId → Option (Nat × Nat)}
    (h : AInv len r live) (e : ∀ x, live' x = live x) : AInv len r live' := by
  have : live' = live := funext e
  rw [this]; exact h

/-- Memory ranges in use. -/
def memLive (m : Mgr) : DataId → Option (Nat × Nat) := fun id => (m.resv id).map fun r => (r.first, r.last)

/-- Metadata ranges in use. -/
def svcLive (m : Mgr) : DataId → Option (Nat × Nat) := fun id => (m.resv id).map fun r => (r.svc, r.svc + infoSize)

structure MInv (memLen svcLen : Nat) (m : Mgr) : Prop where
  mem : AInv memLen m.mem (memLive m)
  svc : AInv svcLen m.svc (svcLive m)
  alig : Aligned 4 m.svc
  slot : ∀ id r, m.resv id = some r → 4 ∣ r.svc

theorem minv_init (memLen svcLen : Nat) : MInv memLen svcLen (Mgr.init memLen svcLen) where
  mem := ainv_init memLen
  svc := ainv_init svcLen
  alig := by simp [Mgr.init, Aligned, FreeMemory.init]
  slot := by simp [Mgr.init]

theorem minv_put {memLen svcLen n : Nat} {m : Mgr} {id : DataId} (hn : 1 ≤ n)
    (h : MInv memLen svcLen m) : MInv memLen svcLen (m.put id n).2 := by
  have al := aligned_occupy (k := 4) (n := infoSize) (by decide) (by decide) h.svc.good h.alig
  have lmem := ainv_leak hn h.mem
  have lsvc := ainv_leak (n := infoSize) (by decide) h.svc
  unfold Mgr.put
  simp only
  generalize ho : occupy m.mem n = o at *
  generalize hq : occupy m.svc infoSize = q at *
  obtain ⟨o1, o2⟩ := o
  obtain ⟨q1, q2⟩ := q
  cases o1 with
  | none => exact ⟨lmem, lsvc, al.1, h.slot⟩
  | some p =>
    obtain ⟨a, b⟩ := p
    cases q1 with
    | none => exact ⟨lmem, lsvc, al.1, h.slot⟩
    | some p2 =>
      obtain ⟨s, t⟩ := p2
      obtain ⟨hb, i1⟩ := ainv_occupy (id := id) hn h.mem ho
      obtain ⟨ht, i2⟩ := ainv_occupy (id := id) (by decide) h.svc hq
      simp only at al
      refine ⟨?_, ?_, al.1, ?_⟩
      · refine ainv_congr i1 ?_
        intro x; simp only [memLive, upd_apply]; split <;> simp_all
      · refine ainv_congr i2 ?_
        intro x; simp only [svcLive, upd_apply]; split <;> simp_all
      · intro j r hj
        simp only [upd_apply] at hj
        split at hj
        · simp only [Option.some.injEq] at hj; subst hj; exact al.2 s t rfl
        · exact h.slot j r hj

theorem minv_reserve {memLen svcLen n : Nat} {m : Mgr} {id : DataId} (hn : 1 ≤ n)
    (h : MInv memLen svcLen m) : MInv memLen svcLen (m.reserve id n).2 := by
  unfold Mgr.reserve
  split
  · exact h
  · have := minv_put (id := id) hn h
    split <;> (rename_i heq; rw [heq] at this; exact this)

theorem minv_clearOne {memLen svcLen n : Nat} {h h' : Host} {id : DataId}
    (hi : MInv memLen svcLen h.mgr) (hc : h.clearOne id n = .ok h') : MInv memLen svcLen h'.mgr := by
  unfold Host.clearOne at hc
  split at hc
  · split at hc
    · rename_i r hr
      split at hc
      · simp at hc
      · simp only [Except.ok.injEq] at hc
        subst hc
        have e1 : memLive h.mgr id = some (r.first, r.last) := by simp [memLive, hr]
        have e2 : svcLive h.mgr id = some (r.svc, r.svc + infoSize) := by simp [svcLive, hr]
        have i1 := ainv_release hi.mem e1
        have i2 := ainv_release hi.svc e2
        refine ⟨?_, ?_, ?_, ?_⟩
        · refine ainv_congr i1 ?_
          intro x; simp only [memLive, upd_apply]; split <;> simp_all
        · refine ainv_congr i2 ?_
          intro x; simp only [svcLive, upd_apply]; split <;> simp_all
        · rcases hi.svc.good with hg | ⟨h0, -⟩
          · apply aligned_release (by simp [infoSize]) hg ?_ (hi.slot id r hr) hi.alig
            intro x hx hx' hcov
            exact (hi.svc.cov x hcov).2 id _ e2 ⟨hx, hx'⟩
          · have := (hi.svc.within id _ e2)
            unfold InSegment at this; simp only [infoSize] at this; omega
        · intro j r' hj
          simp only [upd_apply] at hj
          split at hj
          · simp at hj
          · exact hi.slot j r' hj
    · simp only [Except.ok.injEq] at hc; subst hc; exact hi
  · simp only [Except.ok.injEq] at hc; subst hc
    exact ⟨hi.mem, hi.svc, hi.alig, hi.slot⟩

theorem minv_clearLoop {memLen svcLen : Nat} (l : List (DataId × Nat)) :
    ∀ {h h' : Host}, MInv memLen svcLen h.mgr → h.clearLoop l = .ok h' →
      MInv memLen svcLen h'.mgr := by
  induction l with
  | nil => intro h h' hi hc; simp [Host.clearLoop] at hc; subst hc; exact hi
  | cons p t ih =>
    intro h h' hi hc
    obtain ⟨id, n⟩ := p
    simp only [Host.clearLoop] at hc
    split at hc
    · simp at hc
    · rename_i h1 h1e
      exact ih (minv_clearOne hi h1e) hc

theorem minv_clear {memLen svcLen : Nat} {h h' : Host} {l : List DataId} {refs : List Nat}
    (hi : MInv memLen svcLen h.mgr) (hc : h.clear l refs = .ok h') : MInv memLen svcLen h'.mgr :=
  minv_clearLoop _ (h := { h with mgr := { h.mgr with pending := [] } })
    ⟨hi.mem, hi.svc, hi.alig, hi.slot⟩ hc

/-- All reservation requests of a history have positive size. -/
def Positive (ops : List HostOp) : Prop := ∀ id n, HostOp.reserve id n ∈ ops → 1 ≤ n

theorem minv_step {memLen svcLen : Nat} {h h' : Host} {op : HostOp} {ev : List Event}
    (hpos : ∀ id n, op = .reserve id n → 1 ≤ n)
    (hi : MInv memLen svcLen h.mgr) (hs : h.step op = some (h', ev)) : MInv memLen svcLen h'.mgr := by
  cases op with
  | reserve id n =>
    simp only [Host.step] at hs
    have := minv_reserve (id := id) (hpos id n rfl) hi
    split at hs
    · rename_i heq
      simp only [Option.some.injEq, Prod.mk.injEq] at hs
      rw [heq] at this
      rw [← hs.1]; exact this
    · simp at hs
  | clear l refs =>
    simp only [Host.step] at hs
    split at hs
    · rename_i heq
      simp only [Option.some.injEq, Prod.mk.injEq] at hs
      rw [← hs.1]; exact minv_clear hi heq
    · simp at hs
  | poke i v =>
    simp only [Host.step, Option.some.injEq, Prod.mk.injEq] at hs
    rw [← hs.1]; exact hi

theorem minv_run {memLen svcLen : Nat} (ops : List HostOp) :
    ∀ {h h' : Host} {ev : List Event}, Positive ops → MInv memLen svcLen h.mgr →
      h.run ops = some (h', ev) → MInv memLen svcLen h'.mgr := by
  induction ops with
  | nil =>
    intro h h' ev _ hi hr
    simp only [Host.run, Option.some.injEq, Prod.mk.injEq] at hr
    rw [← hr.1]; exact hi
  | cons op ops ih =>
    intro h h' ev hp hi hr
    simp only [Host.run] at hr
    split at hr
    · simp at hr
    · rename_i h1 ev1 hs
      split at hr
      · simp at hr
      · rename_i h2 ev2 hs2
        simp only [Option.some.injEq, Prod.mk.injEq] at hr
        rw [← hr.1]
        exact ih (fun id n hm => hp id n (by simp [hm]))
          (minv_step (fun id n he => hp id n (by simp [he])) hi hs) hs2

/-- Reservations after one element of the cleanup loop. -/
theorem clearOne_resv {h h' : Host} {id : DataId} {n : Nat} (hc : h.clearOne id n = .ok h') (x : DataId) :
    h'.mgr.resv x = if x = id ∧ n = 0 then none else h.mgr.resv x := by
  unfold Host.clearOne at hc
  split at hc
  · rename_i hn
    split at hc
    · split at hc
      · simp at hc
      · simp only [Except.ok.injEq] at hc
        subst hc
        simp only [upd_apply, hn, and_true]
    · rename_i hr
      simp only [Except.ok.injEq] at hc; subst hc
      split
      · rename_i hx; rw [hx.1, hr]
      · rfl
  · rename_i hn
    simp only [Except.ok.injEq] at hc; subst hc
    simp [hn]

theorem clearOne_pending {h h' : Host} {id : DataId} {n : Nat} (hc : h.clearOne id n = .ok h') :
    h'.mgr.pending = if n = 0 then h.mgr.pending else h.mgr.pending ++ [id] := by
  unfold Host.clearOne at hc
  split at hc
  · rename_i hn
    split at hc
    · split at hc
      · simp at hc
      · simp only [Except.ok.injEq] at hc
        subst hc
        simp [hn]
    · simp only [Except.ok.injEq] at hc; subst hc; simp [hn]
  · rename_i hn
    simp only [Except.ok.injEq] at hc; subst hc
    simp [hn]

theorem clearLoop_resv (l : List (DataId × Nat)) :
    ∀ {h h' : Host}, h.clearLoop l = .ok h' → ∀ x, h'.mgr.resv x =
      if (x, 0) ∈ l then none else h.mgr.resv x := by
  induction l with
  | nil => intro h h' hc x; simp [Host.clearLoop] at hc; subst hc; simp
  | cons p t ih =>
    intro h h' hc x
    obtain ⟨id, n⟩ := p
    simp only [Host.clearLoop] at hc
    split at hc
    · simp at hc
    · rename_i h1 h1e
      rw [ih hc x, clearOne_resv h1e x]
      simp only [List.mem_cons, Prod.mk.injEq]
      by_cases hm : (x, 0) ∈ t
      · simp [hm]
      · simp only [hm, if_false, or_false]
        by_cases hx : x = id ∧ n = 0
        · simp [hx]
        · rw [if_neg hx, if_neg (by rintro ⟨a, b⟩; exact hx ⟨a, b.symm⟩)]

theorem clearLoop_pending (l : List (DataId × Nat)) :
    ∀ {h h' : Host}, h.clearLoop l = .ok h' → h'.mgr.pending =
      h.mgr.pending ++ (l.filter fun p => p.2 ≠ 0).map (·.1) := by
  induction l with
  | nil => intro h h' hc; simp [Host.clearLoop] at hc; subst hc; simp
  | cons p t ih =>
    intro h h' hc
    obtain ⟨id, n⟩ := p
    simp only [Host.clearLoop] at hc
    split at hc
    · simp at hc
    · rename_i h1 h1e
      rw [ih hc, clearOne_pending h1e]
      by_cases hn : n = 0
      · simp [hn]
      · simp [hn, List.append_assoc]

theorem clear_resv {h h' : Host} {l : List DataId} {refs : List Nat} (hc : h.clear l refs = .ok h')
    (x : DataId) : h'.mgr.resv x =
      if (x, 0) ∈ (h.mgr.pending ++ l).zip refs then none else h.mgr.resv x := by
  exact clearLoop_resv _ hc x

theorem clear_pending {h h' : Host} {l : List DataId} {refs : List Nat} (hc : h.clear l refs = .ok h') :
    h'.mgr.pending = (((h.mgr.pending ++ l).zip refs).filter fun p => p.2 ≠ 0).map (·.1) := by
  have := clearLoop_pending _ hc
  simpa [Host.cleanupList] using this

end Verif.Shm
