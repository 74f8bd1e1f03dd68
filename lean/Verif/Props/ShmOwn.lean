import Verif.Lemmas.ShmLog
import Verif.Lemmas.ShmSystem
import Verif.Props.ShmManager

/-! What a host can rely on when cleanup requests arrive in different orders (C07). -/
namespace Verif.Props
open Verif.Shm Verif.FreeMemory Verif.Spec

private theorem maxVec_ge : ∀ {a b c : List Nat}, maxVec a b = some c →
    c.length = a.length ∧ c.length = b.length ∧ ∀ (j x : Nat), c[j]? = some x → (∀ y : Nat, a[j]? = some y → y ≤ x) ∧ ∀ y : Nat, b[j]? = some y → y ≤ x
  | [], [], c, h => by simp only [maxVec, Option.some.injEq] at h; subst h; simp
  | a :: as, b :: bs, c, h => by
      simp only [maxVec, Option.map_eq_some_iff] at h
      obtain ⟨c', h1, rfl⟩ := h
      obtain ⟨i1, i2, i3⟩ := maxVec_ge h1
      refine ⟨by simp [i1], by simp [i2], fun j x hx => ?_⟩
      cases j with
      | zero =>
        simp only [List.getElem?_cons_zero, Option.some.injEq] at hx ⊢
        subst hx
        exact ⟨fun y hy => hy ▸ Nat.le_max_left _ _, fun y hy => hy ▸ Nat.le_max_right _ _⟩
      | succ j => simp only [List.getElem?_cons_succ] at hx ⊢; exact i3 j x hx
  | [], _ :: _, _, h => by simp [maxVec] at h
  | _ :: _, [], _, h => by simp [maxVec] at h

private theorem allreduce_ge : ∀ {vs : List (List Nat)} {c : List Nat}, allreduceMax vs = some c →
    ∀ v ∈ vs, v.length = c.length ∧ ∀ (j x y : Nat), c[j]? = some x → v[j]? = some y → y ≤ x
  | [], _, h => by simp [allreduceMax] at h
  | [v], c, h => by
      simp only [allreduceMax, Option.some.injEq] at h
      subst h
      intro w hw
      rw [List.mem_singleton.1 hw]
      exact ⟨rfl, fun j x y h1 h2 => by rw [h1, Option.some.injEq] at h2; omega⟩
  | v :: v2 :: vs, c, h => by
      simp only [allreduceMax, Option.bind_eq_some_iff] at h
      obtain ⟨c', h1, h2⟩ := h
      obtain ⟨l1, l2, l3⟩ := maxVec_ge h2
      intro w hw
      rcases List.mem_cons.1 hw with rfl | hw
      · exact ⟨l1.symm, fun j x y hx hy => (l3 j x hx).1 y hy⟩
      · obtain ⟨k1, k2⟩ := allreduce_ge h1 w hw
        refine ⟨by omega, fun j x y hx hy => ?_⟩
        have hj : j < c'.length := by rw [← k1]; exact (List.getElem?_eq_some_iff.1 hy).1
        have hz : c'[j]? = some c'[j] := List.getElem?_eq_getElem hj
        exact Nat.le_trans (k2 j _ y hz hy) ((l3 j x hx).2 _ hz)

/-- A host refers to an object and no metadata of another object overlaps with the object's. -/
private theorem clearOne_refers {h h' : Host} {x id : DataId} {n memLen svcLen : Nat} (hi : MInv memLen svcLen h.mgr) (hc : h.clearOne x n = .ok h')
    (hn : x = id → n ≠ 0) (hr : HostRefers h id) : HostRefers h' id := by
  have hres := clearOne_resv hc id
  obtain ⟨r, h1, h2, h3, h4⟩ := hr
  refine ⟨r, by rw [hres, if_neg, h1]; rintro ⟨e, e'⟩; exact hn e.symm e', ?_⟩
  unfold Host.clearOne at hc
  split at hc
  · rename_i hz
    split at hc
    · rename_i q hq
      split at hc
      · simp at hc
      · rename_i w hw
        simp only [Except.ok.injEq] at hc
        subst hc
        have hne : x ≠ id := fun e => hn e hz
        have hd := hi.svc.disj x id _ _ hne (by simp [svcLive, hq]; rfl) (by simp [svcLive, h1]; rfl)
        have a0 := hd r.svc
        have a1 := hd (r.svc + 1)
        have a3 := hd (r.svc + 3)
        simp [infoSize] at a0 a1 a3
        unfold deleteInfo at hw
        split at hw
        · simp only [Except.ok.injEq] at hw
          subst hw
          have : ∀ k, (k < q.svc ∨ q.svc + 4 ≤ k) →
              upd (upd (upd (upd h.words q.svc (-1)) (q.svc + 1) (-1)) (q.svc + 2) (-1)) (q.svc + 3) (-1) k = h.words k := by
            intro k hk
            simp only [upd]
            rw [if_neg (by omega), if_neg (by omega), if_neg (by omega), if_neg (by omega)]
          simp only
          rw [this _ (by omega), this _ (by omega), this _ (by omega)]
          exact ⟨h2, h3, h4⟩
        · simp at hw
    · simp only [Except.ok.injEq] at hc; subst hc; exact ⟨h2, h3, h4⟩
  · simp only [Except.ok.injEq] at hc; subst hc; exact ⟨h2, h3, h4⟩

private theorem clearLoop_refers {memLen svcLen : Nat} {id : DataId} : ∀ (l : List (DataId × Nat)) {h h' : Host}, MInv memLen svcLen h.mgr →
    (∀ p ∈ l, p.1 = id → p.2 ≠ 0) → h.clearLoop l = .ok h' → HostRefers h id → HostRefers h' id
  | [], h, h', _, _, hc, hr => by
      simp only [Host.clearLoop, Except.ok.injEq] at hc
      exact hc ▸ hr
  | (x, n) :: l, h, h', hi, hn, hc, hr => by
      simp only [Host.clearLoop] at hc
      split at hc
      · simp at hc
      · rename_i h1 e1
        exact clearLoop_refers l (minv_clearOne hi e1) (fun p hp => hn p (List.mem_cons_of_mem _ hp)) hc
          (clearOne_refers hi e1 (hn _ List.mem_cons_self) hr)

/-- One round with any lists. -/
private theorem round_refers {ps : List (Host × List DataId)} {hs' : List Host} (hc : clearRound ps = some hs') :
    hs'.length = ps.length ∧ ∀ (i : Nat) (p : Host × List DataId) (h' : Host), ps[i]? = some p → hs'[i]? = some h' →
      (∀ a b, MInv a b p.1.mgr → MInv a b h'.mgr) ∧ ∀ id, HostRefers p.1 id →
      ((∃ a b, MInv a b p.1.mgr) → HostRefers h' id) ∧ h'.mgr.get id = p.1.mgr.get id ∧
      (id ∈ p.1.mgr.pending ∨ id ∈ p.2 → id ∈ h'.mgr.pending) := by
  unfold clearRound at hc
  split at hc
  · simp at hc
  · rename_i refs hall
    split at hc
    · rename_i hs1 e1
      simp only [Option.some.injEq] at hc
      subst hc
      obtain ⟨i1, i2⟩ := mapHosts_ok _ e1
      refine ⟨i1, fun i p h' hp hh => ?_⟩
      have hcl := i2 i p h' hp hh
      refine ⟨fun a b hi => minv_clear hi hcl, fun id hr => ?_⟩
      obtain ⟨k1, k2⟩ := allreduce_ge hall (p.1.hasRefs p.2) (List.mem_map.2 ⟨p, List.mem_of_getElem? hp, rfl⟩)
      have hpos : ∀ q ∈ (p.1.cleanupList p.2).zip refs, q.1 = id → q.2 ≠ 0 := by
        intro q hq he h0
        obtain ⟨j, hj⟩ := List.mem_iff_getElem?.1 hq
        rw [List.getElem?_zip_eq_some] at hj
        have := k2 j q.2 (p.1.hasRef id) hj.2 (by simp [Host.hasRefs, hj.1, he])
        have hz : p.1.hasRef id = 0 := by omega
        exact hasRef_zero.1 hz hr
      refine ⟨?_, ?_, ?_⟩
      · rintro ⟨a, b, hi⟩
        exact clearLoop_refers (memLen := a) (svcLen := b) _ (h := { p.1 with mgr := { p.1.mgr with pending := [] } })
          ⟨hi.mem, hi.svc, hi.alig, hi.slot⟩ hpos hcl hr
      · simp only [Mgr.get]
        rw [clear_resv hcl id, if_neg]
        intro hm
        exact hpos (id, 0) hm rfl rfl
      · intro hm
        rw [clear_pending hcl]
        have hm' : id ∈ p.1.cleanupList p.2 := List.mem_append.2 hm
        obtain ⟨j, hj⟩ := List.mem_iff_getElem?.1 hm'
        have hlen : j < refs.length := by
          rw [← k1]; simp only [Host.hasRefs, List.length_map]; exact (List.getElem?_eq_some_iff.1 hj).1
        have hin : (id, refs[j]) ∈ (p.1.cleanupList p.2).zip refs :=
          List.mem_iff_getElem?.2 ⟨j, by rw [List.getElem?_zip_eq_some]; exact ⟨hj, List.getElem?_eq_getElem hlen⟩⟩
        exact List.mem_map.2 ⟨(id, refs[j]), List.mem_filter.2 ⟨hin, by simpa using hpos _ hin rfl⟩, rfl⟩
    · simp at hc

private theorem queues_refers (id : DataId) : ∀ (n : Nat) {ps : List (Host × List (List DataId))} {hs' : List Host},
    runQueues n ps = some hs' → ∀ (i : Nat) (p : Host × List (List DataId)) (h' : Host), ps[i]? = some p → hs'[i]? = some h' →
      (∃ a b, MInv a b p.1.mgr) → HostRefers p.1 id →
      HostRefers h' id ∧ h'.mgr.get id = p.1.mgr.get id ∧ (id ∈ p.1.mgr.pending ∨ (∃ l ∈ p.2.take n, id ∈ l) → id ∈ h'.mgr.pending)
  | 0, ps, hs', hr, i, p, h', hp, hh, hi, hid => by
      simp only [runQueues, Option.some.injEq] at hr
      subst hr
      simp only [List.getElem?_map, hp, Option.map_some, Option.some.injEq] at hh
      subst hh
      exact ⟨hid, rfl, by simp⟩
  | n + 1, ps, hs', hr, i, p, h', hp, hh, hi, hid => by
      simp only [runQueues] at hr
      split at hr
      · simp at hr
      · rename_i hs1 e1
        obtain ⟨c1, c2⟩ := round_refers e1
        simp only [List.length_map] at c1
        have hlt : i < hs1.length := by rw [c1]; exact (List.getElem?_eq_some_iff.1 hp).1
        have hm : hs1[i]? = some hs1[i] := List.getElem?_eq_getElem hlt
        obtain ⟨d1, d2⟩ := c2 i (p.1, p.2.headD []) hs1[i] (by simp [hp]) hm
        obtain ⟨d3, d4, d5⟩ := d2 id hid
        obtain ⟨a, b, hab⟩ := hi
        have hz : (hs1.zip (ps.map fun p => p.2.tail))[i]? = some (hs1[i], p.2.tail) := by
          rw [List.getElem?_zip_eq_some]; exact ⟨hm, by simp [hp]⟩
        obtain ⟨f1, f2, f3⟩ := queues_refers id n hr i (hs1[i], p.2.tail) h' hz hh ⟨a, b, d1 a b hab⟩ (d3 ⟨a, b, hab⟩)
        refine ⟨f1, f2.trans d4, fun hm' => f3 ?_⟩
        rcases hm' with hm' | ⟨l, hl, hid'⟩
        · exact Or.inl (d5 (Or.inl hm'))
        · cases hp2 : p.2 with
          | nil => rw [hp2] at hl; simp at hl
          | cons l0 ls =>
            rw [hp2, List.take_succ_cons] at hl
            rcases List.mem_cons.1 hl with rfl | hl
            · exact Or.inl (d5 (Or.inr (by simpa [hp2] using hid')))
            · exact Or.inr ⟨l, by simpa using hl, hid'⟩

/-- What holds of C07 whatever the orders in which cleanup lists arrive, even different lists: a host never reclaims an object that it refers to
itself, the object stays where it is, and if cleanup of it was requested it is kept for a later round. So only references from other hosts can be
overlooked. Missing: those (`C07_referenced_object_freed_violated`). -/
theorem C07_own_references_partial (ps : List (Host × List (List DataId))) (n : Nat) (hs' : List Host)
    (hreach : ∀ p ∈ ps, ∃ memLen svcLen ops ev, Positive ops ∧ (Host.init memLen svcLen).run ops = some (p.1, ev))
    (hr : runQueues n ps = some hs') (i : Nat) (p : Host × List (List DataId)) (h' : Host) (hp : ps[i]? = some p) (hh : hs'[i]? = some h')
    (id : DataId) (hid : HostRefers p.1 id) :
    HostRefers h' id ∧ h'.mgr.get id = p.1.mgr.get id ∧
    (id ∈ p.1.mgr.pending ∨ (∃ l ∈ p.2.take n, id ∈ l) → id ∈ h'.mgr.pending) := by
  obtain ⟨a, b, ops, ev, h1, h2⟩ := hreach p (List.mem_of_getElem? hp)
  exact queues_refers id n hr i p h' hp hh ⟨a, b, minv_run ops h1 (minv_init a b) h2⟩ hid

/-- Two hosts that both hold x and y, each referring to one of them; the requests to clean up x and y arrive in opposite orders. Each host keeps the
object it refers to and loses the other one, to which the other host refers. -/
example : ∃ a b a' b' : Host, ∃ ea eb,
    (Host.init 10 8).run [.reserve ⟨0, 1⟩ 5, .reserve ⟨1, 1⟩ 5, .poke 0 0, .poke 1 1, .poke 3 1, .poke 4 1, .poke 5 1, .poke 7 0] = some (a, ea) ∧
    (Host.init 10 8).run [.reserve ⟨0, 1⟩ 5, .reserve ⟨1, 1⟩ 5, .poke 0 0, .poke 1 1, .poke 3 0, .poke 4 1, .poke 5 1, .poke 7 1] = some (b, eb) ∧
    runQueues 1 [(a, [[⟨1, 1⟩], [⟨0, 1⟩]]), (b, [[⟨0, 1⟩], [⟨1, 1⟩]])] = some [a', b'] ∧
    (a'.mgr.get ⟨0, 1⟩, a'.mgr.get ⟨1, 1⟩, b'.mgr.get ⟨0, 1⟩, b'.mgr.get ⟨1, 1⟩) = (some ⟨0, 5, 0⟩, none, none, some ⟨5, 10, 4⟩) :=
  ⟨_, _, _, _, _, _, rfl, rfl, rfl, rfl⟩

end Verif.Props
