import Verif.Lemmas.ShmManager

/-! No memory is lost in histories without refused reservations: every byte is free or belongs to an object. -/
namespace Verif.Shm
open Verif.FreeMemory Verif.Spec

/-- Every byte that no object holds is free. -/
def Exact (len : Nat) (free : Ranges) (live : DataId → Option (Nat × Nat)) : Prop :=
  ∀ x, x < len → (∀ id p, live id = some p → ¬ (p.1 ≤ x ∧ x < p.2)) → Covers free x

theorem exact_init (len : Nat) : Exact len (FreeMemory.init len) (fun _ => none) := by
  intro x hx _
  simp [FreeMemory.init, Covers, hx]

theorem exact_occupy {len n a b : Nat} {r r' : Ranges} {live : DataId → Option (Nat × Nat)} {id : DataId} (hn : 1 ≤ n)
    (h : AInv len r live) (e : Exact len r live) (hid : live id = none) (ho : occupy r n = (some (a, b), r')) :
    Exact len r' (upd live id (some (a, b))) := by
  rcases h.good with hc | ⟨-, rfl⟩
  · obtain ⟨-, -, h2, -, -⟩ := occupy_some hn hc ho
    intro x hx hno
    refine (h2 x).2 ⟨e x hx ?_, ?_⟩
    · intro j p hj
      refine hno j p ?_
      rw [upd_apply, if_neg]
      · exact hj
      · rintro rfl; rw [hid] at hj; simp at hj
    · exact hno id (a, b) (by simp [upd_apply])
  · rw [occupy_degenerate hn] at ho; simp at ho

theorem exact_release {len : Nat} {r : Ranges} {live : DataId → Option (Nat × Nat)} {id : DataId} {p : Nat × Nat}
    (h : AInv len r live) (e : Exact len r live) (hid : live id = some p) :
    Exact len (release r p.1 p.2) (upd live id none) := by
  have hw := h.within id p hid
  rcases h.good with hc | ⟨h0, -⟩
  · obtain ⟨-, r2⟩ := release_spec (r := r) (f := p.1) (l := p.2) hw.1 hc (by
      intro x hx hx' hcov
      exact (h.cov x hcov).2 id p hid ⟨hx, hx'⟩)
    intro x hx hno
    by_cases hp : p.1 ≤ x ∧ x < p.2
    · exact (r2 x).2 (Or.inr hp)
    · refine (r2 x).2 (Or.inl (e x hx ?_))
      intro j q hj
      by_cases hji : j = id
      · subst hji; rw [hid, Option.some.injEq] at hj; subst hj; exact hp
      · exact hno j q (by rw [upd_apply, if_neg hji]; exact hj)
  · intro x hx; omega

theorem exact_congr {len : Nat} {r : Ranges} {live live' : DataId → Option (Nat × Nat)} (e : Exact len r live)
    (h : ∀ id, live' id = live id) : Exact len r live' := by
  intro x hx hno
  exact e x hx (fun id p hp => hno id p (by rw [h]; exact hp))

/-- Both areas of a manager are exact. -/
structure MExact (memLen svcLen : Nat) (m : Mgr) : Prop where
  mem : Exact memLen m.mem (memLive m)
  svc : Exact svcLen m.svc (svcLive m)

theorem mexact_reserve {memLen svcLen n : Nat} {m m' : Mgr} {id : DataId} {x : Resv × Bool} (hn : 1 ≤ n)
    (h : MInv memLen svcLen m) (e : MExact memLen svcLen m) (hr : m.reserve id n = (.ok x, m')) : MExact memLen svcLen m' := by
  simp only [Mgr.reserve] at hr
  split at hr
  · simp only [Prod.mk.injEq] at hr
    obtain ⟨-, rfl⟩ := hr
    exact e
  · rename_i hg
    simp only [Mgr.get] at hg
    split at hr
    · rename_i r m1 hp
      simp only [Prod.mk.injEq] at hr
      obtain ⟨-, rfl⟩ := hr
      unfold Mgr.put at hp
      simp only at hp
      generalize ho : occupy m.mem n = o at hp
      generalize hq : occupy m.svc infoSize = q at hp
      obtain ⟨o1, o2⟩ := o
      obtain ⟨q1, q2⟩ := q
      cases o1 with
      | none => simp at hp
      | some p =>
        cases q1 with
        | none => simp at hp
        | some p2 =>
          obtain ⟨a, b⟩ := p
          obtain ⟨s, t⟩ := p2
          simp only [Prod.mk.injEq] at hp
          obtain ⟨-, rfl⟩ := hp
          have h1 := exact_occupy hn h.mem e.mem (id := id) (by simp [memLive, hg]) ho
          have h2 := exact_occupy (n := infoSize) (by decide) h.svc e.svc (id := id) (by simp [svcLive, hg]) hq
          have ht := (ainv_occupy (n := infoSize) (id := id) (by decide) h.svc hq).1
          constructor
          · refine exact_congr h1 ?_
            intro x; simp only [memLive, upd_apply]; split <;> simp_all
          · refine exact_congr h2 ?_
            intro x; simp only [svcLive, upd_apply]; split <;> simp_all
    · simp at hr

theorem mexact_clearOne {memLen svcLen n : Nat} {h h' : Host} {id : DataId} (hi : MInv memLen svcLen h.mgr)
    (e : MExact memLen svcLen h.mgr) (hc : h.clearOne id n = .ok h') : MExact memLen svcLen h'.mgr := by
  unfold Host.clearOne at hc
  split at hc
  · split at hc
    · rename_i r hr
      split at hc
      · simp at hc
      · simp only [Except.ok.injEq] at hc
        subst hc
        have e1 : memLive h.mgr id = some (r.first, r.last) := by simp [memLive, hr]
        have e2 : svcLive h.mgr id = some (r.svc, r.svc + infoSize) := by simp [svcLive, hr]
        constructor
        · refine exact_congr (exact_release hi.mem e.mem e1) ?_
          intro x; simp only [memLive, upd_apply]; split <;> simp_all
        · refine exact_congr (exact_release hi.svc e.svc e2) ?_
          intro x; simp only [svcLive, upd_apply]; split <;> simp_all
    · simp only [Except.ok.injEq] at hc; subst hc; exact e
  · simp only [Except.ok.injEq] at hc; subst hc
    exact ⟨e.mem, e.svc⟩

theorem mexact_clearLoop {memLen svcLen : Nat} : ∀ (l : List (DataId × Nat)) {h h' : Host}, MInv memLen svcLen h.mgr →
    MExact memLen svcLen h.mgr → h.clearLoop l = .ok h' → MExact memLen svcLen h'.mgr
  | [], h, h', _, e, hc => by simp [Host.clearLoop] at hc; subst hc; exact e
  | (id, n) :: t, h, h', hi, e, hc => by
    simp only [Host.clearLoop] at hc
    split at hc
    · simp at hc
    · rename_i h1 h1e
      exact mexact_clearLoop t (minv_clearOne hi h1e) (mexact_clearOne hi e h1e) hc

theorem mexact_run {memLen svcLen : Nat} : ∀ (ops : List HostOp) {h h' : Host} {ev : List Event}, Positive ops →
    MInv memLen svcLen h.mgr → MExact memLen svcLen h.mgr → h.run ops = some (h', ev) → MExact memLen svcLen h'.mgr
  | [], h, h', ev, _, _, e, hr => by
    simp only [Host.run, Option.some.injEq, Prod.mk.injEq] at hr
    rw [← hr.1]; exact e
  | op :: ops, h, h', ev, hp, hi, e, hr => by
    simp only [Host.run] at hr
    split at hr
    · simp at hr
    · rename_i h1 ev1 hs
      split at hr
      · simp at hr
      · rename_i h2 ev2 hs2
        simp only [Option.some.injEq, Prod.mk.injEq] at hr
        rw [← hr.1]
        refine mexact_run ops (fun id n hm => hp id n (by simp [hm]))
          (minv_step (fun id n he => hp id n (by simp [he])) hi hs) ?_ hs2
        cases op with
        | reserve id n =>
          simp only [Host.step] at hs
          split at hs
          · rename_i heq
            simp only [Option.some.injEq, Prod.mk.injEq] at hs
            rw [← hs.1]
            exact mexact_reserve (hp id n (by simp)) hi e heq
          · simp at hs
        | clear l refs =>
          simp only [Host.step] at hs
          split at hs
          · rename_i heq
            simp only [Option.some.injEq, Prod.mk.injEq] at hs
            rw [← hs.1]
            exact mexact_clearLoop _ (h := { h with mgr := { h.mgr with pending := [] } })
              ⟨hi.mem, hi.svc, hi.alig, hi.slot⟩ ⟨e.mem, e.svc⟩ heq
          · simp at hs
        | poke i v =>
          simp only [Host.step, Option.some.injEq, Prod.mk.injEq] at hs
          rw [← hs.1]; exact ⟨e.mem, e.svc⟩

theorem mexact_init (memLen svcLen : Nat) : MExact memLen svcLen (Mgr.init memLen svcLen) :=
  ⟨exact_init memLen, exact_init svcLen⟩

/-- A gap is found. -/
theorem occupy_of_gap {len n a : Nat} {r : Ranges} {live : DataId → Option (Nat × Nat)} (hn : 1 ≤ n) (h : AInv len r live)
    (e : Exact len r live) (ha : a + n ≤ len)
    (hgap : ∀ id p x, live id = some p → a ≤ x → x < a + n → ¬ (p.1 ≤ x ∧ x < p.2)) :
    ∃ f l r', occupy r n = (some (f, l), r') := by
  generalize ho : occupy r n = o
  obtain ⟨res, r'⟩ := o
  cases res with
  | some p => exact ⟨p.1, p.2, r', rfl⟩
  | none =>
    exfalso
    rcases h.good with hc | ⟨h0, -⟩
    · obtain ⟨-, hno⟩ := occupy_none ho
      obtain ⟨p, hp, hp1, hp2⟩ := covers_run hc hn (a := a) (fun x hx hx' =>
        e x (by omega) (fun id p hp => hgap id p x hp hx hx'))
      have := hno p hp
      omega
    · omega

/-- What an object freed by the loop had in its metadata slot. -/
theorem clearOne_freed {h h' : Host} {id x : DataId} {n : Nat} (hc : h.clearOne id n = .ok h') :
    (∀ r, h.mgr.resv x = some r → h'.mgr.resv x = none → x = id ∧ checkInfo h.words id r.svc = true) ∧
    (h'.words = h.words ∨ ∃ r, h.mgr.resv id = some r ∧ h'.mgr.resv id = none ∧
      ∀ i, (i < r.svc ∨ r.svc + 4 ≤ i) → h'.words i = h.words i) := by
  unfold Host.clearOne at hc
  split at hc
  · split at hc
    · rename_i r hr
      split at hc
      · simp at hc
      · rename_i w hw
        simp only [deleteInfo] at hw
        split at hw
        · rename_i hchk
          simp only [Except.ok.injEq] at hc hw
          subst hc
          subst hw
          refine ⟨?_, Or.inr ⟨r, hr, by simp [upd_apply], ?_⟩⟩
          · intro r' hr' hn
            simp only [upd_apply] at hn
            split at hn
            · rename_i he
              subst he
              rw [hr, Option.some.injEq] at hr'
              subst hr'
              exact ⟨rfl, hchk⟩
            · rw [hr'] at hn; simp at hn
          · intro i hi
            simp only [upd_apply]
            repeat (rw [if_neg (by omega)])
        · simp at hw
    · simp only [Except.ok.injEq] at hc
      subst hc
      exact ⟨fun r h1 h2 => by rw [h1] at h2; simp at h2, Or.inl rfl⟩
  · simp only [Except.ok.injEq] at hc
    subst hc
    exact ⟨fun r h1 h2 => by simp only at h2; rw [h1] at h2; simp at h2, Or.inl rfl⟩

theorem clearOne_keeps {h h' : Host} {id x : DataId} {n : Nat} (hc : h.clearOne id n = .ok h') :
    h'.mgr.resv x = none ∨ h'.mgr.resv x = h.mgr.resv x := by
  rw [clearOne_resv hc x]
  split
  · exact Or.inl rfl
  · exact Or.inr rfl

/-- The loop does not touch the metadata of objects that keep their reservation, and frees only objects whose slot holds
their identity. -/
theorem clearLoop_freed {memLen svcLen : Nat} : ∀ (l : List (DataId × Nat)) {h h' : Host}, MInv memLen svcLen h.mgr →
    h.clearLoop l = .ok h' → (∀ x r, h.mgr.resv x = some r → h'.mgr.resv x = some r →
      ∀ i, r.svc ≤ i → i < r.svc + 4 → h'.words i = h.words i) ∧
    (∀ x r, h.mgr.resv x = some r → h'.mgr.resv x = none → checkInfo h.words x r.svc = true)
  | [], h, h', _, hc => by
    simp only [Host.clearLoop, Except.ok.injEq] at hc
    subst hc
    exact ⟨fun _ _ _ _ _ _ _ => rfl, fun x r h1 h2 => by rw [h1] at h2; simp at h2⟩
  | (id, n) :: t, h, h', hi, hc => by
    simp only [Host.clearLoop] at hc
    split at hc
    · simp at hc
    · rename_i h1 h1e
      have hi1 := minv_clearOne hi h1e
      obtain ⟨a1, a2⟩ := clearLoop_freed t hi1 hc
      have mono : ∀ (l : List (DataId × Nat)) {g g' : Host} {x : DataId}, g.mgr.resv x = none → g.clearLoop l = .ok g' →
          g'.mgr.resv x = none := by
        intro l
        induction l with
        | nil => intro g g' x hg hl; simp only [Host.clearLoop, Except.ok.injEq] at hl; subst hl; exact hg
        | cons p t ih =>
          intro g g' x hg hl
          obtain ⟨i, k⟩ := p
          simp only [Host.clearLoop] at hl
          split at hl
          · simp at hl
          · rename_i g1 hg1
            refine ih ?_ hl
            rcases clearOne_keeps (x := x) hg1 with h | h
            · exact h
            · rw [h]; exact hg
      have step : ∀ x r, h.mgr.resv x = some r → h1.mgr.resv x = some r → ∀ i, r.svc ≤ i → i < r.svc + 4 →
          h1.words i = h.words i := by
        intro x r hx hx1 i hi1' hi2'
        obtain ⟨b1, b2⟩ := clearOne_freed (x := x) h1e
        rcases b2 with b2 | ⟨r', c1, c2, c3⟩
        · rw [b2]
        · apply c3
          have hne : x ≠ id := by rintro rfl; rw [c2] at hx1; simp at hx1
          have := hi.svc.disj x id _ _ hne (show svcLive h.mgr x = some (r.svc, r.svc + infoSize) by simp [svcLive, hx])
            (show svcLive h.mgr id = some (r'.svc, r'.svc + infoSize) by simp [svcLive, c1]) i
          simp only [infoSize] at this
          omega
      constructor
      · intro x r hx hx' i hi1' hi2'
        have hx1 : h1.mgr.resv x = some r := by
          rcases clearOne_keeps (x := x) h1e with h | h
          · rw [mono t h hc] at hx'; simp at hx'
          · rw [h]; exact hx
        rw [a1 x r hx1 hx' i hi1' hi2', step x r hx hx1 i hi1' hi2']
      · intro x r hx hx'
        rcases clearOne_keeps (x := x) h1e with h2 | h2
        · obtain ⟨b1, b2⟩ := (clearOne_freed (x := x) h1e).1 r hx h2
          subst b1; exact b2
        · have hx1 : h1.mgr.resv x = some r := by rw [h2]; exact hx
          have h3 := a2 x r hx1 hx'
          simp only [checkInfo] at h3 ⊢
          rw [← step x r hx hx1 r.svc (by omega) (by omega), ← step x r hx hx1 (r.svc + 1) (by omega) (by omega)]
          exact h3

end Verif.Shm
