import Verif.Lemmas.SharedSystem

/-! Invariant of all hosts together. -/
namespace Verif.SharedSystem
open Verif.Shm Verif.SharedBuffer Verif.Spec

/-! ## Cleanup on one host -/

theorem deleteInfo_ok {w w' : Words} {id : DataId} {s : Nat} (h : deleteInfo w id s = .ok w') :
    checkInfo w id s = true ∧ OnlyCell w w' s ∧ w' s = -1 := by
  unfold deleteInfo at h
  split at h
  · rename_i hc
    simp only [Except.ok.injEq] at h
    subst h
    refine ⟨hc, ?_, ?_⟩
    · intro i hi
      rw [upd_other _ _ (by omega), upd_other _ _ (by omega), upd_other _ _ (by omega), upd_other _ _ (by omega)]
    · rw [upd_other _ _ (by omega), upd_other _ _ (by omega), upd_other _ _ (by omega), upd_same]
  · simp at h

theorem ninv_host_pending {memLen svcLen : Nat} {objs : DataId → Option Serialized} {n : Node} {ps : List DataId}
    (h : NInv memLen svcLen objs n) :
    NInv memLen svcLen objs { n with host := ⟨⟨n.host.mgr.mem, n.host.mgr.svc, n.host.mgr.resv, ps⟩, n.host.words⟩ } :=
  ⟨⟨h.minv.mem, h.minv.svc, h.minv.alig, h.minv.slot⟩, h.pendResv, h.pendNo, h.pendUniq, h.cover, h.ident, h.size, h.job,
    h.filled, h.pub, h.hold, h.chk⟩

theorem ninv_clearOne {memLen svcLen k : Nat} {objs : DataId → Option Serialized} {n : Node} {h' : Host} {id : DataId}
    (h : NInv memLen svcLen objs n) (hk : k = 0 → (∀ g ∈ n.holders, g.id ≠ id) ∧ ∀ g ∈ n.checked, g.id ≠ id)
    (hc : n.host.clearOne id k = .ok h') : NInv memLen svcLen objs { n with host := h' } := by
  have hm := minv_clearOne h.minv hc
  unfold Host.clearOne at hc
  split at hc
  · rename_i hk0
    obtain ⟨nh, nc⟩ := hk hk0
    split at hc
    · rename_i r hr
      split at hc
      · simp at hc
      · rename_i w hd
        obtain ⟨d1, d2, d3⟩ := deleteInfo_ok hd
        simp only [Except.ok.injEq] at hc
        subst hc
        have h4 := h.minv.slot _ _ hr
        have hback : ∀ y ry, upd n.host.mgr.resv id none y = some ry → y ≠ id ∧ n.host.mgr.resv y = some ry ∧
            ry.svc ≠ r.svc ∧ 4 ∣ ry.svc := by
          intro y ry hy
          rw [upd_apply] at hy
          split at hy
          · simp at hy
          · rename_i hne
            exact ⟨hne, hy, fun e => hne (slot_inj h.minv hy hr e), h.minv.slot _ _ hy⟩
        have hfwd : ∀ y ry, y ≠ id → n.host.mgr.resv y = some ry → upd n.host.mgr.resv id none y = some ry := by
          intro y ry hne hy
          rw [upd_other _ _ hne]; exact hy
        have hlive : ∀ y s, y ≠ id → Live n y s → ∃ ry, upd n.host.mgr.resv id none y = some ry ∧ ry.svc = s ∧
            checkInfo w y s = true := by
          rintro y s hne ⟨ry, a, b, c⟩
          refine ⟨ry, hfwd y ry hne a, b, ?_⟩
          obtain ⟨-, -, e1, e2⟩ := hback y ry (hfwd y ry hne a)
          rw [← b, onlyCell_check d2 h4 e2 e1, b]
          exact c
        have hpne : ∀ q ∈ n.pend, q.id ≠ id := by
          intro q hq e
          have a := h.pendResv q hq
          have b := h.pendNo q hq
          rw [e, hr] at a
          simp only [Option.some.injEq] at a
          rw [← a, e, d1] at b
          simp at b
        refine ⟨hm, ?_, ?_, h.pendUniq, ?_, ?_, ?_, h.job, h.filled, ?_, ?_, ?_⟩
        · intro q hq
          exact hfwd _ _ (hpne q hq) (h.pendResv q hq)
        · intro q hq
          obtain ⟨-, -, e1, e2⟩ := hback q.id q.resv (hfwd _ _ (hpne q hq) (h.pendResv q hq))
          simp only
          rw [onlyCell_check d2 h4 e2 e1]
          exact h.pendNo q hq
        · intro y ry hy
          obtain ⟨a, b, e1, e2⟩ := hback y ry hy
          simp only
          rw [onlyCell_check d2 h4 e2 e1]
          exact h.cover y ry b
        · intro y s hs hck
          simp only at hck ⊢
          have hsne : s ≠ r.svc := by
            rintro rfl
            rw [checkInfo_iff, d3] at hck
            omega
          rw [onlyCell_check d2 h4 hs hsne] at hck
          obtain ⟨ry, a, b⟩ := h.ident y s hs hck
          refine ⟨ry, hfwd y ry ?_ a, b⟩
          rintro rfl
          rw [hr] at a
          simp only [Option.some.injEq] at a
          rw [← a] at b
          exact hsne b.symm
        · intro y ry hy
          exact h.size y ry (hback y ry hy).2.1
        · intro y ry hy hck
          obtain ⟨a, b, e1, e2⟩ := hback y ry hy
          simp only at hck ⊢
          rw [onlyCell_check d2 h4 e2 e1] at hck
          obtain ⟨p1, p2, p3⟩ := h.pub y ry b hck
          refine ⟨p1, ?_, ?_⟩
          · rw [onlyCell_word d2 h4 e2 e1 (by omega)]; exact p2
          · rw [onlyCell_word d2 h4 e2 e1 (by omega)]; exact p3
        · intro g hg; exact hlive _ _ (nh g hg) (h.hold g hg)
        · intro g hg; exact hlive _ _ (nc g hg) (h.chk g hg)
    · simp only [Except.ok.injEq] at hc; subst hc; exact h
  · simp only [Except.ok.injEq] at hc
    subst hc
    exact ninv_host_pending h

theorem ninv_clearLoop {memLen svcLen : Nat} {objs : DataId → Option Serialized} (l : List (DataId × Nat)) :
    ∀ {n : Node} {h' : Host}, NInv memLen svcLen objs n →
      (∀ id, (id, 0) ∈ l → (∀ g ∈ n.holders, g.id ≠ id) ∧ ∀ g ∈ n.checked, g.id ≠ id) →
      n.host.clearLoop l = .ok h' → NInv memLen svcLen objs { n with host := h' } := by
  induction l with
  | nil => intro n h' h _ hc; simp only [Host.clearLoop, Except.ok.injEq] at hc; subst hc; exact h
  | cons p t ih =>
    intro n h' h hl hc
    obtain ⟨id, k⟩ := p
    simp only [Host.clearLoop] at hc
    split at hc
    · simp at hc
    · rename_i h1 e1
      have i1 := ninv_clearOne h (fun hk => hl id (by simp [hk])) e1
      exact ih (n := { n with host := h1 }) i1 (fun x hx => hl x (by simp [hx])) hc

/-- Every host runs its loop over the same list with the reference flags of all hosts. -/
theorem clearAll_loop {hs hs' : List Host} {l L : List DataId} (hL : ∀ h ∈ hs, h.mgr.pending = L)
    (hc : clearAll hs l = some hs') (i : Nat) (h h' : Host) (hi : hs[i]? = some h) (hi' : hs'[i]? = some h') :
    Host.clearLoop ⟨⟨h.mgr.mem, h.mgr.svc, h.mgr.resv, []⟩, h.words⟩ ((L ++ l).map fun x => (x, gmax hs x)) = .ok h' := by
  unfold clearAll clearRound at hc
  have hne : hs ≠ [] := by
    rintro rfl
    simp [allreduceMax] at hc
  have hmap : (hs.map fun h => (h, l)).map (fun p => p.1.hasRefs p.2) =
      hs.map fun h => (L ++ l).map h.hasRef := by
    rw [List.map_map]
    apply List.map_congr_left
    intro h hh
    simp [Host.hasRefs, Host.cleanupList, hL h hh]
  rw [hmap, allreduce_map _ _ hne] at hc
  simp only at hc
  split at hc
  · rename_i hs1 e1
    simp only [Option.some.injEq] at hc
    subst hc
    obtain ⟨i1, i2⟩ := mapHosts_ok _ e1
    have hcl := i2 i (h, l) h' (by simp [hi]) hi'
    have hm : h ∈ hs := List.mem_of_getElem? hi
    have hz : ∀ (M : List DataId) (g : DataId → Nat), M.zip (M.map g) = M.map fun x => (x, g x) := by
      intro M g
      induction M with
      | nil => rfl
      | cons a t ih => simp [ih]
    simp only [Host.clear, Host.cleanupList, hL h hm, hz] at hcl
    exact hcl
  · simp at hc

/-! ## All hosts -/

/-- Nobody has the object any more and nobody can get it back. -/
def Dead (s : Sys) (id : DataId) : Prop :=
  s.objs id ≠ none ∧ ∀ n ∈ s.nodes, (∀ r, n.host.mgr.resv id = some r → checkInfo n.host.words id r.svc = false) ∧
    ∀ q ∈ n.pend, q.id = id → q.job = .sync ∧ q.filled = false

/-- The value is at the place of its object. -/
def Placed (n : Node) (v : View) : Prop :=
  ∃ r, n.host.mgr.resv v.id = some r ∧ checkInfo n.host.words v.id r.svc = true ∧ r.first = v.first

structure SInv (s : Sys) : Prop where
  node : ∀ n ∈ s.nodes, ∃ memLen svcLen, NInv memLen svcLen s.objs n
  pos : ∀ id d, s.objs id = some d → 1 ≤ dataSize d
  pending : SamePending (s.nodes.map (·.host))
  view : ∀ n ∈ s.nodes, ∀ v ∈ n.views, (∃ d t, s.objs v.id = some d ∧ v.info = infoOf d t) ∧ (Placed n v ∨ Dead s v.id)

/-- What every operation of a process on a host guarantees for the other objects and hosts. -/
structure Keeps (id : DataId → Prop) (n n' : Node) : Prop where
  pending : n'.host.mgr.pending = n.host.mgr.pending
  placed : ∀ x r, n.host.mgr.resv x = some r → checkInfo n.host.words x r.svc = true →
    n'.host.mgr.resv x = some r ∧ checkInfo n'.host.words x r.svc = true
  dead : ∀ x, id x → (∀ r, n.host.mgr.resv x = some r → checkInfo n.host.words x r.svc = false) →
    (∀ q ∈ n.pend, q.id = x → q.job = .sync ∧ q.filled = false) →
    (∀ r, n'.host.mgr.resv x = some r → checkInfo n'.host.words x r.svc = false) ∧
    (∀ q ∈ n'.pend, q.id = x → q.job = .sync ∧ q.filled = false)

theorem keeps_refl (n : Node) : Keeps (fun _ => True) n n := ⟨rfl, fun _ _ a b => ⟨a, b⟩, fun _ _ a b => ⟨a, b⟩⟩

/-- Lifts one operation on one host to the system. -/
theorem sinv_set {s : Sys} {k : Nat} {n n' : Node} (h : SInv s) (hk : s.nodes[k]? = some n)
    (hn : ∃ memLen svcLen, NInv memLen svcLen s.objs n') (hK : Keeps (fun x => Dead s x) n n')
    (hv : ∀ v ∈ n'.views, v ∈ n.views ∨ ((∃ d t, s.objs v.id = some d ∧ v.info = infoOf d t) ∧ Placed n' v)) :
    SInv { s with nodes := s.nodes.set k n' } := by
  have hmem : n ∈ s.nodes := List.mem_of_getElem? hk
  have hdead : ∀ x, Dead s x → Dead { s with nodes := s.nodes.set k n' } x := by
    intro x hx
    refine ⟨hx.1, ?_⟩
    intro m hm
    rcases List.mem_or_eq_of_mem_set hm with hm | rfl
    · exact hx.2 m hm
    · exact hK.dead x hx (hx.2 n hmem).1 (hx.2 n hmem).2
  refine ⟨?_, h.pos, ?_, ?_⟩
  · intro m hm
    rcases List.mem_or_eq_of_mem_set hm with hm | rfl
    · exact h.node m hm
    · exact hn
  · obtain ⟨L, hL⟩ := h.pending
    refine ⟨L, ?_⟩
    intro x hx
    obtain ⟨m, hm, rfl⟩ := List.mem_map.1 hx
    rcases List.mem_or_eq_of_mem_set hm with hm | rfl
    · exact hL _ (List.mem_map.2 ⟨m, hm, rfl⟩)
    · rw [hK.pending]
      exact hL _ (List.mem_map.2 ⟨n, hmem, rfl⟩)
  · intro m hm v hvm
    rcases List.mem_or_eq_of_mem_set hm with hm | rfl
    · obtain ⟨a, b⟩ := h.view m hm v hvm
      exact ⟨a, b.imp id (hdead _)⟩
    · rcases hv v hvm with hvn | ⟨a, b⟩
      · obtain ⟨a, b⟩ := h.view n hmem v hvn
        refine ⟨a, b.imp ?_ (hdead _)⟩
        rintro ⟨r, c1, c2, c3⟩
        obtain ⟨e1, e2⟩ := hK.placed _ r c1 c2
        exact ⟨r, e1, e2, c3⟩
      · exact ⟨a, Or.inl b⟩

theorem keeps_request {memLen svcLen p : Nat} {objs : DataId → Option Serialized} {n n' : Node} {id : DataId} {len : Nat}
    {job : Job} {P : DataId → Prop} (h : NInv memLen svcLen objs n) (hn : 1 ≤ len) (hP : job = .sync ∨ ¬ P id)
    (hr : n.request p id len job = some n') : Keeps P n n' ∧ n'.views = n.views := by
  unfold Node.request at hr
  split at hr
  · rename_i r b m heq
    obtain ⟨i1, i2, i3⟩ := reserve_cases hn h.minv heq
    simp only [Option.some.injEq] at hr
    subst hr
    refine ⟨⟨i2, ?_, ?_⟩, rfl⟩
    · intro x rx hx hc
      refine ⟨?_, hc⟩
      rcases i3 with ⟨-, rfl, -⟩ | ⟨-, hnone, -, hupd⟩
      · exact hx
      · simp only
        rw [hupd, upd_other]
        · exact hx
        · rintro rfl; rw [hnone] at hx; simp at hx
    · intro x hx h1 h2
      refine ⟨?_, ?_⟩
      · intro rx hrx
        simp only at hrx ⊢
        rcases i3 with ⟨-, rfl, -⟩ | ⟨-, hnone, -, hupd⟩
        · exact h1 rx hrx
        · rw [hupd, upd_apply] at hrx
          split at hrx
          · rename_i e
            subst e
            simp only [Option.some.injEq] at hrx
            subst hrx
            cases hc : checkInfo n.host.words x r.svc with
            | false => rfl
            | true =>
              obtain ⟨r0, h0, -⟩ := h.ident x r.svc (i1.slot x r (by rw [hupd, upd_same])) hc
              rw [hnone] at h0; simp at h0
          · exact h1 rx hrx
      · intro q hq hid
        simp only at hq
        split at hq
        · rcases List.mem_append.1 hq with hq | hq
          · exact h2 q hq hid
          · rw [List.mem_singleton.1 hq] at hid ⊢
            simp only at hid ⊢
            rcases hP with e | e
            · exact ⟨e, trivial⟩
            · rw [hid] at e; exact absurd hx e
        · exact h2 q hq hid
  · simp at hr

theorem keeps_fill {n : Node} {q : Pend} {m : Mem} {P : DataId → Prop} (hP : ¬ P q.id) :
    Keeps P n { n with mem := m, pend := markFilled n.pend q.id } := by
  refine ⟨rfl, fun _ _ a b => ⟨a, b⟩, ?_⟩
  intro x hx h1 h2
  refine ⟨h1, ?_⟩
  intro g hg hid
  obtain ⟨g0, a, b, c, d, e⟩ := markFilled_mem hg
  have hne : g.id ≠ q.id := by
    intro he
    rw [← he, hid] at hP
    exact hP hx
  rw [← e hne]
  exact h2 g0 a (by rw [b, hid])

theorem keeps_publish {memLen svcLen : Nat} {objs : DataId → Option Serialized} {n : Node} {id : DataId}
    {P : DataId → Prop} (h : NInv memLen svcLen objs n)
    (hP : ∀ q ∈ n.pend, q.id = id → q.filled = true → ¬ P id) :
    Keeps P n (n.publish id) ∧ (n.publish id).views = n.views := by
  unfold Node.publish
  split
  · rename_i p x r jb hf
    obtain ⟨hm, hid⟩ := find_mem hf
    simp only at hid
    subst hid
    have hPx := hP _ hm rfl rfl
    have hres := h.pendResv _ hm
    have hno := h.pendNo _ hm
    simp only at hres hno
    have h4 := h.minv.slot _ _ hres
    have hoc := onlyCell_publish n.host.words x r.svc r.first
    have hck : ∀ y ry, n.host.mgr.resv y = some ry → y ≠ x →
        checkInfo (publishWords n.host.words x r.svc r.first) y ry.svc = checkInfo n.host.words y ry.svc := by
      intro y ry hy hne
      exact onlyCell_check hoc h4 (h.minv.slot _ _ hy) (fun e => hne (slot_inj h.minv hy hres e)) y
    refine ⟨⟨rfl, ?_, ?_⟩, rfl⟩
    · intro y ry hy hc
      refine ⟨hy, ?_⟩
      simp only
      rw [hck y ry hy]
      · exact hc
      · rintro rfl
        rw [hres] at hy
        simp only [Option.some.injEq] at hy
        subst hy
        rw [hno] at hc
        simp at hc
    · intro y hPy h1 h2
      have hyx : y ≠ x := by rintro rfl; exact hPx hPy
      refine ⟨?_, ?_⟩
      · intro ry hry
        simp only at hry ⊢
        rw [hck y ry hry hyx]
        exact h1 ry hry
      · intro q hq
        exact h2 q (List.mem_filter.1 hq).1
  · exact ⟨⟨rfl, fun _ _ a b => ⟨a, b⟩, fun _ _ a b => ⟨a, b⟩⟩, rfl⟩

theorem keeps_addRef {memLen svcLen s : Nat} {objs : DataId → Option Serialized} {n : Node} {id : DataId} {k : Int}
    {hl cl : List Hold} {P : DataId → Prop} (h : NInv memLen svcLen objs n) (hid : Live n id s) :
    Keeps P n ⟨⟨n.host.mgr, addRef n.host.words s k⟩, n.mem, n.pend, cl, hl, n.views⟩ := by
  obtain ⟨r, hr, rfl, hck⟩ := hid
  have h4 := h.minv.slot _ _ hr
  refine ⟨rfl, ?_, ?_⟩
  · intro y ry hy hc
    refine ⟨hy, ?_⟩
    simp only
    rw [addRef_check _ _ _ _ _ h4 (h.minv.slot _ _ hy)]
    exact hc
  · intro y _ h1 h2
    refine ⟨?_, h2⟩
    intro ry hry
    simp only at hry ⊢
    rw [addRef_check _ _ _ _ _ h4 (h.minv.slot _ _ hry)]
    exact h1 ry hry

/-- The dead objects of a system are published nowhere. -/
theorem not_dead_of_pub {s : Sys} {n : Node} {id : DataId} {r : Resv} (hn : n ∈ s.nodes)
    (hr : n.host.mgr.resv id = some r) (hc : checkInfo n.host.words id r.svc = true) : ¬ Dead s id := by
  intro hd
  have := (hd.2 n hn).1 r hr
  rw [hc] at this
  simp at this

theorem onNode_cases {s s' : Sys} {k : Nat} {f : Node → Option Node} (h : s.onNode k f = some s') :
    s' = s ∨ ∃ n n', s.nodes[k]? = some n ∧ f n = some n' ∧ s' = { s with nodes := s.nodes.set k n' } := by
  unfold Sys.onNode at h
  split at h
  · simp only [Option.some.injEq] at h; exact Or.inl h.symm
  · rename_i n hn
    rw [Option.map_eq_some_iff] at h
    obtain ⟨n', hf, rfl⟩ := h
    exact Or.inr ⟨n, n', hn, hf, rfl⟩

theorem dead_objs {s : Sys} {id : DataId} {d : Serialized} (hid : s.objs id = none) (x : DataId) :
    Dead s x → Dead { s with objs := upd s.objs id (some d) } x := by
  rintro ⟨a, b⟩
  refine ⟨?_, b⟩
  simp only
  rw [upd_other]
  · exact a
  · rintro rfl; exact a hid

/-- A new object is announced. -/
theorem sinv_objs {s : Sys} {id : DataId} {d : Serialized} (h : SInv s) (hid : s.objs id = none) (hd : 1 ≤ dataSize d) :
    SInv { s with objs := upd s.objs id (some d) } := by
  refine ⟨?_, ?_, h.pending, ?_⟩
  · intro n hn
    obtain ⟨a, b, i⟩ := h.node n hn
    exact ⟨a, b, ninv_objs i hid⟩
  · intro x d' hx
    simp only at hx
    rw [upd_apply] at hx
    split at hx
    · simp only [Option.some.injEq] at hx; subst hx; exact hd
    · exact h.pos x d' hx
  · intro n hn v hv
    obtain ⟨⟨d', t, a1, a2⟩, b⟩ := h.view n hn v hv
    refine ⟨⟨d', t, ?_, a2⟩, b.imp (fun x => x) (dead_objs hid _)⟩
    simp only
    rw [upd_other]
    · exact a1
    · intro e; rw [e, hid] at a1; simp at a1

theorem hasRef_of_hold {memLen svcLen : Nat} {objs : DataId → Option Serialized} {n : Node} {g : Hold}
    (h : NInv memLen svcLen objs n) (hg : g ∈ n.holders) : n.host.hasRef g.id ≠ 0 := by
  obtain ⟨r, a, b, c⟩ := h.hold g hg
  rw [← b] at c
  obtain ⟨-, -, p3⟩ := h.pub _ r a c
  have hpos : 0 < cnt n.holders g.id := by
    unfold cnt
    rw [List.countP_pos_iff]
    exact ⟨g, hg, by simp⟩
  unfold Host.hasRef
  rw [a]
  simp only [refNumber, c, if_true, p3]
  rw [if_pos (by omega)]
  omega

theorem sinv_cleanup {s s' : Sys} {l : List DataId} (h : SInv s)
    (hq : ∀ n ∈ s.nodes, ∀ c ∈ n.checked, Held s c.id) (hs : s.step (.cleanup l) = some s') : SInv s' := by
  simp only [Sys.step] at hs
  rw [Option.map_eq_some_iff] at hs
  obtain ⟨hs1, hc, rfl⟩ := hs
  obtain ⟨L, hL⟩ := h.pending
  obtain ⟨hlen, heff⟩ := clearAll_effect hL hc
  rw [List.length_map] at hlen
  -- objects with registrations are kept
  have hheld : ∀ x, Held s x → gmax (s.nodes.map (·.host)) x ≠ 0 := by
    rintro x ⟨n, hn, g, hg, rfl⟩ hz
    rw [gmax_zero] at hz
    obtain ⟨a, b, i⟩ := h.node n hn
    exact hasRef_of_hold i hg (hz _ (List.mem_map.2 ⟨n, hn, rfl⟩))
  -- nodes after the round
  have hnode : ∀ m ∈ List.zipWith (fun (n : Node) (h : Host) => { n with host := h }) s.nodes hs1, ∃ n ∈ s.nodes, ∃ h1,
      m = { n with host := h1 } ∧
      (∀ x, h1.mgr.resv x = if x ∈ L ++ l ∧ gmax (s.nodes.map (·.host)) x = 0 then none else n.host.mgr.resv x) ∧
      ∃ memLen svcLen, NInv memLen svcLen s.objs n ∧ NInv memLen svcLen s.objs { n with host := h1 } := by
    intro m hm
    obtain ⟨i, hi, hmi⟩ := List.getElem_of_mem hm
    rw [List.length_zipWith] at hi
    rw [List.getElem_zipWith] at hmi
    have hi1 : i < s.nodes.length := by omega
    have hi2 : i < hs1.length := by omega
    have hn : s.nodes[i] ∈ s.nodes := List.getElem_mem hi1
    refine ⟨s.nodes[i], hn, hs1[i], hmi.symm, ?_, ?_⟩
    · exact (heff i s.nodes[i].host hs1[i] (by simp [hi1]) (by simp [hi2])).1
    · obtain ⟨a, b, inv⟩ := h.node _ hn
      have hloop := clearAll_loop hL hc i s.nodes[i].host hs1[i] (by simp [hi1]) (by simp [hi2])
      refine ⟨a, b, inv, ?_⟩
      have i0 := ninv_host_pending (ps := []) inv
      have key := ninv_clearLoop ((L ++ l).map fun x => (x, gmax (s.nodes.map (·.host)) x)) (h' := hs1[i]) i0
      refine key ?_ hloop
      intro x hx
      obtain ⟨y, -, hy⟩ := List.mem_map.1 hx
      simp only [Prod.mk.injEq] at hy
      obtain ⟨rfl, hz⟩ := hy
      refine ⟨?_, ?_⟩
      · rintro g hg rfl
        exact hheld _ ⟨_, hn, g, hg, rfl⟩ hz
      · rintro g hg rfl
        exact hheld _ (hq _ hn g hg) hz
  have hdead : ∀ x, Dead s x →
      Dead { s with nodes := List.zipWith (fun (n : Node) (h : Host) => { n with host := h }) s.nodes hs1 } x := by
    rintro x ⟨hx1, hx2⟩
    refine ⟨hx1, ?_⟩
    intro m hm
    obtain ⟨n, hn, h1, rfl, hr, a, b, i, i'⟩ := hnode m hm
    refine ⟨?_, (hx2 n hn).2⟩
    intro r hrr
    simp only at hrr ⊢
    have hrn : n.host.mgr.resv x = some r := by
      rw [hr x] at hrr
      split at hrr
      · simp at hrr
      · exact hrr
    rcases i.cover x r hrn with ⟨q, hq1, hq2⟩ | hck
    · have e1 := i'.pendResv q hq1
      have e2 := i'.pendNo q hq1
      rw [hq2] at e1 e2
      simp only at e1 e2
      rw [hrr] at e1
      simp only [Option.some.injEq] at e1
      rw [e1]
      exact e2
    · have := (hx2 n hn).1 r hrn
      rw [hck] at this
      simp at this
  refine ⟨?_, h.pos, ?_, ?_⟩
  · intro m hm
    obtain ⟨n, hn, h1, rfl, -, a, b, -, i'⟩ := hnode m hm
    exact ⟨a, b, i'⟩
  · have hp := samePending_clearAll ⟨L, hL⟩ hc
    have he : (List.zipWith (fun (n : Node) (h : Host) => { n with host := h }) s.nodes hs1).map (·.host) = hs1 := by
      apply List.ext_getElem
      · simp; omega
      · intro i h1 h2; simp
    simp only
    rw [he]
    exact hp
  · intro m hm v hv
    obtain ⟨n, hn, h1, rfl, hr, a, b, i, i'⟩ := hnode m hm
    obtain ⟨v1, v2⟩ := h.view n hn v hv
    refine ⟨v1, ?_⟩
    rcases v2 with ⟨r, c1, c2, c3⟩ | hd
    · by_cases hfree : v.id ∈ L ++ l ∧ gmax (s.nodes.map (·.host)) v.id = 0
      · right
        obtain ⟨d, t, hd, -⟩ := v1
        refine ⟨by simp [hd], ?_⟩
        intro m' hm'
        obtain ⟨n', hn', h1', rfl, hr', a', b', -, j'⟩ := hnode m' hm'
        have hnone := hr' v.id
        rw [if_pos hfree] at hnone
        refine ⟨?_, ?_⟩
        · intro r' hr''
          simp only at hr''
          rw [hnone] at hr''
          simp at hr''
        · intro q hq hqid
          have := j'.pendResv q hq
          rw [hqid] at this
          simp only at this
          rw [hnone] at this
          simp at this
      · left
        have hkeep := hr v.id
        rw [if_neg hfree, c1] at hkeep
        refine ⟨r, hkeep, ?_, c3⟩
        rcases i'.cover v.id r hkeep with ⟨q, hq1, hq2⟩ | hck
        · have e1 := i.pendResv q hq1
          have e2 := i.pendNo q hq1
          rw [hq2] at e1 e2
          rw [c1] at e1
          simp only [Option.some.injEq] at e1
          rw [← e1, c2] at e2
          simp at e2
        · exact hck
    · exact Or.inr (hdead _ hd)

theorem sinv_step {s s' : Sys} {op : Op} (h : SInv s)
    (hq : ∀ l, op = .cleanup l → ∀ n ∈ s.nodes, ∀ c ∈ n.checked, Held s c.id) (hs : s.step op = some s') : SInv s' := by
  cases op with
  | cleanup l => exact sinv_cleanup h (hq l rfl) hs
  | put k p id d =>
    simp only [Sys.step] at hs
    split at hs
    · rename_i hg
      obtain ⟨g1, g2, g3⟩ := hg
      rw [Option.map_eq_some_iff] at hs
      obtain ⟨s1, h1, rfl⟩ := hs
      rcases onNode_cases h1 with rfl | ⟨n, n', hn, hf, rfl⟩
      · exact sinv_objs h g1 g2
      · have h' := sinv_objs h g1 g2
        have hmem : n ∈ s.nodes := List.mem_of_getElem? hn
        obtain ⟨a, b, i⟩ := h'.node n hmem
        have hnone : n.host.mgr.resv id = none := by
          obtain ⟨a, b, i⟩ := h.node n hmem
          cases hr : n.host.mgr.resv id with
          | none => rfl
          | some r =>
            obtain ⟨d', hd', -⟩ := i.size id r hr
            rw [g1] at hd'; simp at hd'
        have hi' := ninv_request i (id := id) (d := d) (by simp) g2 (Or.inr ⟨rfl, hnone⟩) hf
        obtain ⟨hK, hv⟩ := keeps_request (P := fun x => Dead s x) i g2 (Or.inr (fun hd => hd.1 g1)) hf
        -- views of old objects are not of the new id
        have hK' : Keeps (fun x => Dead { s with objs := upd s.objs id (some d) } x ∧ x ≠ id) n n' := by
          refine ⟨hK.pending, hK.placed, ?_⟩
          rintro x ⟨⟨-, hx⟩, hne⟩ e1 e2
          obtain ⟨c1, c2⟩ := keeps_request (P := fun x => x ≠ id) i g2 (Or.inr (by simp)) hf
          exact c1.dead x hne e1 e2
        have hmem' : ∀ m ∈ s.nodes.set k n', m ∈ s.nodes ∨ m = n' := fun m hm => List.mem_or_eq_of_mem_set hm
        have hdead : ∀ x, x ≠ id → Dead { s with objs := upd s.objs id (some d) } x →
            Dead { nodes := s.nodes.set k n', objs := upd s.objs id (some d) } x := by
          intro x hne hx
          refine ⟨hx.1, ?_⟩
          intro m hm
          rcases hmem' m hm with hm | rfl
          · exact hx.2 m hm
          · exact hK'.dead x ⟨hx, hne⟩ (hx.2 n hmem).1 (hx.2 n hmem).2
        have hvid : ∀ m ∈ s.nodes, ∀ v ∈ m.views, v.id ≠ id := by
          intro m hm v hv e
          obtain ⟨⟨d', t, a1, -⟩, -⟩ := h.view m hm v hv
          rw [e, g1] at a1
          simp at a1
        refine ⟨?_, h'.pos, ?_, ?_⟩
        · intro m hm
          rcases hmem' m hm with hm | rfl
          · exact h'.node m hm
          · exact ⟨a, b, hi'⟩
        · obtain ⟨L, hL⟩ := h.pending
          refine ⟨L, ?_⟩
          intro x hx
          obtain ⟨m, hm, rfl⟩ := List.mem_map.1 hx
          rcases hmem' m hm with hm | rfl
          · exact hL _ (List.mem_map.2 ⟨m, hm, rfl⟩)
          · rw [hK.pending]
            exact hL _ (List.mem_map.2 ⟨n, hmem, rfl⟩)
        · intro m hm v hvm
          rcases hmem' m hm with hm | rfl
          · obtain ⟨c1, c2⟩ := h'.view m hm v hvm
            exact ⟨c1, c2.imp (fun x => x) (hdead _ (hvid m hm v hvm))⟩
          · rw [hv] at hvm
            obtain ⟨c1, c2⟩ := h'.view n hmem v hvm
            refine ⟨c1, c2.imp ?_ (hdead _ (hvid n hmem v hvm))⟩
            rintro ⟨r, e1, e2, e3⟩
            obtain ⟨f1, f2⟩ := hK.placed _ r e1 e2
            exact ⟨r, f1, f2, e3⟩
    · simp only [Option.some.injEq] at hs; subst hs; exact h
  | write k id =>
    rcases onNode_cases hs with rfl | ⟨n, n', hn, hf, rfl⟩
    · exact h
    · have hmem : n ∈ s.nodes := List.mem_of_getElem? hn
      obtain ⟨a, b, i⟩ := h.node n hmem
      have hi' := ninv_write i hf
      have hKv : Keeps (fun x => Dead s x) n n' ∧ n'.views = n.views := by
        unfold Node.write at hf
        split at hf
        · rename_i p x r d hfind
          obtain ⟨hm, hid⟩ := find_mem hfind
          simp only at hid
          subst hid
          split at hf
          · simp only [Option.some.injEq] at hf
            subst hf
            refine ⟨keeps_fill (q := ⟨p, x, r, .put d, false⟩) ?_, rfl⟩
            intro hd
            have := ((hd.2 n hmem).2 _ hm rfl).1
            simp at this
          · simp at hf
        · simp only [Option.some.injEq] at hf
          subst hf
          exact ⟨⟨rfl, fun _ _ a b => ⟨a, b⟩, fun _ _ a b => ⟨a, b⟩⟩, rfl⟩
      exact sinv_set h hn ⟨a, b, hi'⟩ hKv.1 (fun v hv => Or.inl (hKv.2 ▸ hv))
  | ask k p id q =>
    simp only [Sys.step] at hs
    split at hs
    · simp only [Option.some.injEq] at hs; subst hs; exact h
    · rename_i d hd
      rcases onNode_cases hs with rfl | ⟨n, n', hn, hf, rfl⟩
      · exact h
      · have hmem : n ∈ s.nodes := List.mem_of_getElem? hn
        obtain ⟨a, b, i⟩ := h.node n hmem
        split at hf
        · simp only [Option.some.injEq] at hf
          subst hf
          exact sinv_set h hn ⟨a, b, i⟩ ⟨rfl, fun _ _ a b => ⟨a, b⟩, fun _ _ a b => ⟨a, b⟩⟩ (fun v hv => Or.inl hv)
        · have hi' := ninv_request i hd (h.pos _ _ hd) (Or.inl rfl) hf
          obtain ⟨hK, hv⟩ := keeps_request (P := fun x => Dead s x) i (h.pos _ _ hd) (Or.inl rfl) hf
          exact sinv_set h hn ⟨a, b, hi'⟩ hK (fun v hvm => Or.inl (hv ▸ hvm))
  | sync k id o =>
    simp only [Sys.step] at hs
    split at hs
    · simp only [Option.some.injEq] at hs; subst hs; exact h
    · rename_i no hno
      rcases onNode_cases hs with rfl | ⟨n, n', hn, hf, rfl⟩
      · exact h
      · have hmem : n ∈ s.nodes := List.mem_of_getElem? hn
        have hmo : no ∈ s.nodes := List.mem_of_getElem? hno
        obtain ⟨a, b, i⟩ := h.node n hmem
        obtain ⟨a', b', io⟩ := h.node no hmo
        have hi' := ninv_sync i io hf
        have hKv : Keeps (fun x => Dead s x) n n' ∧ n'.views = n.views := by
          unfold Node.sync at hf
          split at hf
          · rename_i p x r hfind
            obtain ⟨hm, hid⟩ := find_mem hfind
            simp only at hid
            subst hid
            split at hf
            · simp at hf
            · rename_i ro hro
              split at hf
              · rename_i hck
                simp only [Option.some.injEq] at hf
                subst hf
                exact ⟨keeps_fill (q := ⟨p, x, r, .sync, false⟩) (not_dead_of_pub hmo hro hck), rfl⟩
              · simp only [Option.some.injEq] at hf
                subst hf
                exact ⟨⟨rfl, fun _ _ a b => ⟨a, b⟩, fun _ _ a b => ⟨a, b⟩⟩, rfl⟩
          · simp only [Option.some.injEq] at hf
            subst hf
            exact ⟨⟨rfl, fun _ _ a b => ⟨a, b⟩, fun _ _ a b => ⟨a, b⟩⟩, rfl⟩
        exact sinv_set h hn ⟨a, b, hi'⟩ hKv.1 (fun v hv => Or.inl (hKv.2 ▸ hv))
  | publish k id =>
    rcases onNode_cases hs with rfl | ⟨n, n', hn, hf, rfl⟩
    · exact h
    · have hmem : n ∈ s.nodes := List.mem_of_getElem? hn
      obtain ⟨a, b, i⟩ := h.node n hmem
      simp only [Option.some.injEq] at hf
      subst hf
      obtain ⟨hK, hv⟩ := keeps_publish (P := fun x => Dead s x) (id := id) i (by
        intro q hq hid hfl hd
        have := ((hd.2 n hmem).2 q hq hid).2
        rw [hfl] at this
        simp at this)
      exact sinv_set h hn ⟨a, b, ninv_publish i⟩ hK (fun v hvm => Or.inl (hv ▸ hvm))
  | check k p id q =>
    rcases onNode_cases hs with rfl | ⟨n, n', hn, hf, rfl⟩
    · exact h
    · have hmem : n ∈ s.nodes := List.mem_of_getElem? hn
      obtain ⟨a, b, i⟩ := h.node n hmem
      simp only [Option.some.injEq] at hf
      have hi' := ninv_check (p := p) (q := q) (id := id) i
      rw [hf] at hi'
      unfold Node.check at hf
      refine sinv_set h hn ⟨a, b, hi'⟩ ?_ ?_
      · split at hf <;> subst hf <;> exact ⟨rfl, fun _ _ a b => ⟨a, b⟩, fun _ _ a b => ⟨a, b⟩⟩
      · split at hf <;> subst hf <;> exact fun v hv => Or.inl hv
  | incr k p id q =>
    rcases onNode_cases hs with rfl | ⟨n, n', hn, hf, rfl⟩
    · exact h
    · have hmem : n ∈ s.nodes := List.mem_of_getElem? hn
      obtain ⟨a, b, i⟩ := h.node n hmem
      simp only [Option.some.injEq] at hf
      have hi' := ninv_incr (p := p) (s := infoSize * q) (id := id) i
      rw [hf] at hi'
      unfold Node.incr at hf
      split at hf
      · rename_i hm
        subst hf
        exact sinv_set h hn ⟨a, b, hi'⟩ (keeps_addRef i (i.chk _ hm)) (fun v hv => Or.inl hv)
      · subst hf
        exact sinv_set h hn ⟨a, b, hi'⟩ ⟨rfl, fun _ _ a b => ⟨a, b⟩, fun _ _ a b => ⟨a, b⟩⟩ (fun v hv => Or.inl hv)
  | read k p id q =>
    simp only [Sys.step] at hs
    split at hs
    · simp only [Option.some.injEq] at hs; subst hs; exact h
    · rename_i d hd
      rcases onNode_cases hs with rfl | ⟨n, n', hn, hf, rfl⟩
      · exact h
      · have hmem : n ∈ s.nodes := List.mem_of_getElem? hn
        obtain ⟨a, b, i⟩ := h.node n hmem
        simp only [Option.some.injEq] at hf
        unfold Node.read at hf
        split at hf
        · rename_i hm
          subst hf
          refine sinv_set h hn ⟨a, b, ninv_views i⟩ ⟨rfl, fun _ _ a b => ⟨a, b⟩, fun _ _ a b => ⟨a, b⟩⟩ ?_
          intro v hv
          rcases List.mem_cons.1 hv with rfl | hv
          · right
            refine ⟨⟨d, _, hd, rfl⟩, ?_⟩
            obtain ⟨r, e1, e2, e3⟩ := i.hold _ hm
            simp only at e1 e2 e3
            rw [← e2] at e3
            obtain ⟨-, p2, -⟩ := i.pub id r e1 e3
            refine ⟨r, e1, e3, ?_⟩
            simp only
            rw [← e2, p2]
            simp
          · exact Or.inl hv
        · subst hf
          exact sinv_set h hn ⟨a, b, i⟩ ⟨rfl, fun _ _ a b => ⟨a, b⟩, fun _ _ a b => ⟨a, b⟩⟩ (fun v hv => Or.inl hv)
  | finalize k p id q =>
    rcases onNode_cases hs with rfl | ⟨n, n', hn, hf, rfl⟩
    · exact h
    · have hmem : n ∈ s.nodes := List.mem_of_getElem? hn
      obtain ⟨a, b, i⟩ := h.node n hmem
      simp only [Option.some.injEq] at hf
      have hi' := ninv_finalize (p := p) (s := infoSize * q) (id := id) i
      rw [hf] at hi'
      unfold Node.finalize at hf
      split at hf
      · rename_i hm
        have hl := i.hold _ hm
        have hc : checkInfo n.host.words id (infoSize * q) = true := by
          obtain ⟨r, e1, e2, e3⟩ := hl
          exact e3
        unfold dropRef at hf
        rw [if_pos hc] at hf
        subst hf
        exact sinv_set h hn ⟨a, b, hi'⟩ (keeps_addRef i hl) (fun v hv => Or.inl hv)
      · subst hf
        exact sinv_set h hn ⟨a, b, hi'⟩ ⟨rfl, fun _ _ a b => ⟨a, b⟩, fun _ _ a b => ⟨a, b⟩⟩ (fun v hv => Or.inl hv)
  | forget k v =>
    rcases onNode_cases hs with rfl | ⟨n, n', hn, hf, rfl⟩
    · exact h
    · have hmem : n ∈ s.nodes := List.mem_of_getElem? hn
      obtain ⟨a, b, i⟩ := h.node n hmem
      simp only [Option.some.injEq] at hf
      subst hf
      exact sinv_set h hn ⟨a, b, ninv_views i⟩ ⟨rfl, fun _ _ a b => ⟨a, b⟩, fun _ _ a b => ⟨a, b⟩⟩
        (fun v hv => Or.inl (List.mem_of_mem_erase hv))

theorem sinv_init (sizes : List (Nat × Nat)) : SInv (Sys.init sizes) where
  node := by
    intro n hn
    obtain ⟨p, -, rfl⟩ := List.mem_map.1 hn
    exact ⟨p.1, p.2, ninv_init p.1 p.2⟩
  pos := by simp [Sys.init]
  pending := by
    refine ⟨[], ?_⟩
    intro x hx
    simp only [Sys.init, List.map_map, List.mem_map] at hx
    obtain ⟨p, -, rfl⟩ := hx
    rfl
  view := by
    intro n hn v hv
    obtain ⟨p, -, rfl⟩ := List.mem_map.1 hn
    simp [Node.init] at hv

theorem sinv_run (ops : List Op) : ∀ {s s' : Sys}, SInv s → GuardedGets s ops → s.run ops = some s' → SInv s' := by
  induction ops with
  | nil => intro s s' h _ hr; simp only [Sys.run, Option.some.injEq] at hr; subst hr; exact h
  | cons op t ih =>
    intro s s' h hg hr
    simp only [Sys.run] at hr
    rw [Option.bind_eq_some_iff] at hr
    obtain ⟨s1, h1, h2⟩ := hr
    exact ih (sinv_step h hg.1 h1) (hg.2 s1 h1) h2

/-! ## Completion of a cleanup round -/

theorem step_length {s s' : Sys} {op : Op} (h : s.step op = some s') (hc : ∀ l, op = .cleanup l → s.nodes.length = s'.nodes.length) :
    s'.nodes.length = s.nodes.length := by
  have key : ∀ {k : Nat} {f : Node → Option Node} {s1 : Sys}, s.onNode k f = some s1 → s1.nodes.length = s.nodes.length := by
    intro k f s1 h1
    rcases onNode_cases h1 with rfl | ⟨n, n', -, -, rfl⟩
    · rfl
    · simp
  cases op with
  | cleanup l => exact (hc l rfl).symm
  | put k p id d =>
    simp only [Sys.step] at h
    split at h
    · rw [Option.map_eq_some_iff] at h
      obtain ⟨s1, h1, rfl⟩ := h
      have := key h1
      exact this
    · simp only [Option.some.injEq] at h; rw [h]
  | write k id => exact key h
  | ask k p id q =>
    simp only [Sys.step] at h
    split at h
    · simp only [Option.some.injEq] at h; rw [h]
    · exact key h
  | sync k id o =>
    simp only [Sys.step] at h
    split at h
    · simp only [Option.some.injEq] at h; rw [h]
    · exact key h
  | publish k id => exact key h
  | check k p id q => exact key h
  | incr k p id q => exact key h
  | read k p id q =>
    simp only [Sys.step] at h
    split at h
    · simp only [Option.some.injEq] at h; rw [h]
    · exact key h
  | finalize k p id q => exact key h
  | forget k v => exact key h

theorem clearAll_length {hs hs' : List Host} {l : List DataId} (h : clearAll hs l = some hs') : hs'.length = hs.length := by
  unfold clearAll clearRound at h
  split at h
  · simp at h
  · split at h
    · rename_i e
      simp only [Option.some.injEq] at h
      subst h
      simpa using (mapHosts_ok _ e).1
    · simp at h

theorem run_length (ops : List Op) : ∀ {s s' : Sys}, s.run ops = some s' → s'.nodes.length = s.nodes.length := by
  induction ops with
  | nil => intro s s' h; simp only [Sys.run, Option.some.injEq] at h; rw [h]
  | cons op t ih =>
    intro s s' h
    simp only [Sys.run] at h
    rw [Option.bind_eq_some_iff] at h
    obtain ⟨s1, h1, h2⟩ := h
    rw [ih h2]
    refine step_length h1 ?_
    rintro l rfl
    simp only [Sys.step] at h1
    rw [Option.map_eq_some_iff] at h1
    obtain ⟨hs, hc, rfl⟩ := h1
    have := clearAll_length hc
    rw [List.length_map] at this
    simp [this]

theorem clearLoop_ok {memLen svcLen : Nat} {objs : DataId → Option Serialized} (l : List (DataId × Nat)) :
    ∀ {n : Node}, NInv memLen svcLen objs n →
      (∀ id, (id, 0) ∈ l → (∀ g ∈ n.holders, g.id ≠ id) ∧ (∀ g ∈ n.checked, g.id ≠ id) ∧ ∀ q ∈ n.pend, q.id ≠ id) →
      ∃ h', n.host.clearLoop l = .ok h' := by
  induction l with
  | nil => intro n _ _; exact ⟨n.host, rfl⟩
  | cons p t ih =>
    intro n h hl
    obtain ⟨id, k⟩ := p
    have hone : ∃ h1, n.host.clearOne id k = .ok h1 := by
      unfold Host.clearOne
      split
      · rename_i hk
        split
        · rename_i r hr
          rcases h.cover id r hr with ⟨q, hq, e⟩ | hck
          · exact absurd e ((hl id (by simp [hk])).2.2 q hq)
          · simp [deleteInfo, hck]
        · exact ⟨_, rfl⟩
      · exact ⟨_, rfl⟩
    obtain ⟨h1, e1⟩ := hone
    have i1 := ninv_clearOne h (fun hk => ⟨(hl id (by simp [hk])).1, (hl id (by simp [hk])).2.1⟩) e1
    obtain ⟨h2, e2⟩ := ih (n := { n with host := h1 }) i1 (fun x hx => hl x (by simp [hx]))
    refine ⟨h2, ?_⟩
    simp only [Host.clearLoop, e1]
    exact e2

theorem mapHosts_total {f : Host × List DataId → Except Err Host} (ps : List (Host × List DataId))
    (h : ∀ p ∈ ps, ∃ h', f p = .ok h') : ∃ hs, mapHosts f ps = .ok hs := by
  induction ps with
  | nil => exact ⟨[], rfl⟩
  | cons p t ih =>
    obtain ⟨h1, e1⟩ := h p (by simp)
    obtain ⟨t1, e2⟩ := ih (fun q hq => h q (by simp [hq]))
    exact ⟨h1 :: t1, by simp [mapHosts, e1, e2]⟩

theorem clearAll_ok {s : Sys} {l : List DataId} (hi : SInv s) (hne : s.nodes ≠ [])
    (hc : ∀ n ∈ s.nodes, ∀ c ∈ n.checked, Held s c.id)
    (ht : ∀ n ∈ s.nodes, ∀ id ∈ n.host.mgr.pending ++ l, InTransfer s id → Held s id) :
    ∃ hs, clearAll (s.nodes.map (·.host)) l = some hs := by
  obtain ⟨L, hL⟩ := hi.pending
  have hmap : ((s.nodes.map (·.host)).map fun h => (h, l)).map (fun p => p.1.hasRefs p.2) =
      (s.nodes.map (·.host)).map fun h => (L ++ l).map h.hasRef := by
    rw [List.map_map]
    apply List.map_congr_left
    intro h hh
    simp [Host.hasRefs, Host.cleanupList, hL h hh]
  have hheld : ∀ x, Held s x → gmax (s.nodes.map (·.host)) x ≠ 0 := by
    rintro x ⟨n, hn, g, hg, rfl⟩ hz
    rw [gmax_zero] at hz
    obtain ⟨a, b, i⟩ := hi.node n hn
    exact hasRef_of_hold i hg (hz _ (List.mem_map.2 ⟨n, hn, rfl⟩))
  have hz : ∀ (M : List DataId) (g : DataId → Nat), M.zip (M.map g) = M.map fun x => (x, g x) := by
    intro M g
    induction M with
    | nil => rfl
    | cons a t ih => simp [ih]
  unfold clearAll clearRound
  rw [hmap, allreduce_map _ _ (by simpa using hne)]
  simp only
  obtain ⟨hs, e⟩ := mapHosts_total (f := fun p => p.1.clear p.2 ((L ++ l).map (gmax (s.nodes.map (·.host)))))
    ((s.nodes.map (·.host)).map fun h => (h, l)) (by
      intro p hp
      rw [List.map_map, List.mem_map] at hp
      obtain ⟨n, hn, rfl⟩ := hp
      have hp := hL n.host (List.mem_map.2 ⟨n, hn, rfl⟩)
      simp only [Function.comp, Host.clear, Host.cleanupList, hp, hz]
      obtain ⟨a, b, i⟩ := hi.node n hn
      have i0 := ninv_host_pending (ps := []) i
      refine clearLoop_ok _ i0 ?_
      intro x hx
      obtain ⟨y, hy1, hy⟩ := List.mem_map.1 hx
      simp only [Prod.mk.injEq] at hy
      obtain ⟨rfl, hzero⟩ := hy
      refine ⟨?_, ?_, ?_⟩
      · rintro g hg rfl
        exact hheld _ ⟨_, hn, g, hg, rfl⟩ hzero
      · rintro g hg rfl
        exact hheld _ (hc _ hn g hg) hzero
      · rintro q hq rfl
        exact hheld _ (ht n hn _ (by rw [hp]; exact hy1) ⟨n, hn, q, hq, rfl⟩) hzero)
  rw [e]
  exact ⟨hs, rfl⟩

theorem clearLoop_fails {memLen svcLen : Nat} {objs : DataId → Option Serialized} (l : List (DataId × Nat)) :
    ∀ {n : Node}, NInv memLen svcLen objs n →
      (∀ id, (id, 0) ∈ l → (∀ g ∈ n.holders, g.id ≠ id) ∧ (∀ g ∈ n.checked, g.id ≠ id)) →
      ∀ q ∈ n.pend, (q.id, 0) ∈ l → ∃ e, n.host.clearLoop l = .error e := by
  induction l with
  | nil => intro n _ _ q _ hq; cases hq
  | cons p t ih =>
    intro n h hl q hq hm
    obtain ⟨id, k⟩ := p
    simp only [Host.clearLoop]
    cases e1 : n.host.clearOne id k with
    | error e => exact ⟨e, rfl⟩
    | ok h1 =>
      simp only
      rcases List.mem_cons.1 hm with hm | hm
      · simp only [Prod.mk.injEq] at hm
        obtain ⟨rfl, rfl⟩ := hm
        simp [Host.clearOne, h.pendResv q hq, deleteInfo, h.pendNo q hq] at e1
      · exact ih (n := { n with host := h1 })
          (ninv_clearOne h (fun hk => ⟨(hl id (by simp [hk])).1, (hl id (by simp [hk])).2⟩) e1)
          (fun x hx => hl x (by simp [hx])) q hq hm

theorem mapHosts_fails {f : Host × List DataId → Except Err Host} (ps : List (Host × List DataId))
    (p : Host × List DataId) (hp : p ∈ ps) (h : ∃ e, f p = .error e) : ∃ e, mapHosts f ps = .error e := by
  induction ps with
  | nil => cases hp
  | cons a t ih =>
    simp only [mapHosts]
    cases ha : f a with
    | error e => exact ⟨e, rfl⟩
    | ok h1 =>
      rcases List.mem_cons.1 hp with rfl | hp
      · obtain ⟨e, he⟩ := h; rw [he] at ha; cases ha
      · obtain ⟨e, he⟩ := ih hp
        exact ⟨e, by simp [he]⟩

theorem clearAll_fails {s : Sys} {l : List DataId} (hi : SInv s)
    (hc : ∀ n ∈ s.nodes, ∀ c ∈ n.checked, Held s c.id) {n0 : Node} (hn0 : n0 ∈ s.nodes) {id : DataId}
    (hid : id ∈ n0.host.mgr.pending ++ l) (ht : InTransfer s id) (hh : ¬ Held s id) :
    clearAll (s.nodes.map (·.host)) l = none := by
  obtain ⟨L, hL⟩ := hi.pending
  have hmap : ((s.nodes.map (·.host)).map fun h => (h, l)).map (fun p => p.1.hasRefs p.2) =
      (s.nodes.map (·.host)).map fun h => (L ++ l).map h.hasRef := by
    rw [List.map_map]
    apply List.map_congr_left
    intro h hh
    simp [Host.hasRefs, Host.cleanupList, hL h hh]
  have hheld : ∀ x, Held s x → gmax (s.nodes.map (·.host)) x ≠ 0 := by
    rintro x ⟨n, hn, g, hg, rfl⟩ hz
    rw [gmax_zero] at hz
    obtain ⟨a, b, i⟩ := hi.node n hn
    exact hasRef_of_hold i hg (hz _ (List.mem_map.2 ⟨n, hn, rfl⟩))
  have hzero : gmax (s.nodes.map (·.host)) id = 0 := by
    rw [gmax_zero]
    intro h hm
    obtain ⟨n, hn, rfl⟩ := List.mem_map.1 hm
    obtain ⟨a, b, i⟩ := hi.node n hn
    unfold Host.hasRef
    split
    · rename_i r hres
      cases hck : checkInfo n.host.words id r.svc with
      | false => simp [refNumber, hck]
      | true =>
        have h3 := (i.pub id r hres hck).2.2
        have h0 : cnt n.holders id = 0 := cnt_zero (fun g hg e => hh ⟨n, hn, g, hg, e⟩)
        simp [refNumber, hck, h3, h0]
    · rfl
  have hz : ∀ (M : List DataId) (g : DataId → Nat), M.zip (M.map g) = M.map fun x => (x, g x) := by
    intro M g
    induction M with
    | nil => rfl
    | cons a t ih => simp [ih]
  unfold clearAll clearRound
  rw [hmap, allreduce_map _ _ (by simpa using List.ne_nil_of_mem hn0)]
  simp only
  obtain ⟨n, hn, q, hq, rfl⟩ := ht
  obtain ⟨e, he⟩ := mapHosts_fails (f := fun p => p.1.clear p.2 ((L ++ l).map (gmax (s.nodes.map (·.host)))))
    ((s.nodes.map (·.host)).map fun h => (h, l)) (n.host, l)
    (List.mem_map.2 ⟨n.host, List.mem_map.2 ⟨n, hn, rfl⟩, rfl⟩) (by
      have hp := hL n.host (List.mem_map.2 ⟨n, hn, rfl⟩)
      have hp0 := hL n0.host (List.mem_map.2 ⟨n0, hn0, rfl⟩)
      rw [hp0] at hid
      simp only [Host.clear, Host.cleanupList, hp, hz]
      obtain ⟨a, b, i⟩ := hi.node n hn
      have i0 := ninv_host_pending (ps := []) i
      refine clearLoop_fails _ i0 ?_ q hq (List.mem_map.2 ⟨q.id, hid, by rw [hzero]⟩)
      intro x hx
      obtain ⟨y, hy1, hy⟩ := List.mem_map.1 hx
      simp only [Prod.mk.injEq] at hy
      obtain ⟨rfl, hy0⟩ := hy
      refine ⟨?_, ?_⟩
      · rintro g hg rfl
        exact hheld _ ⟨_, hn, g, hg, rfl⟩ hy0
      · rintro g hg rfl
        exact hheld _ (hc _ hn g hg) hy0)
  rw [he]

end Verif.SharedSystem
