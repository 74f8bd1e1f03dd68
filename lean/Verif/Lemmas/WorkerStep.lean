import Verif.Lemmas.WorkerFrame

/-! The effect of one operation on a worker. -/
namespace Verif.Worker
open Verif.Spec

/-- Messages that may travel from `s` to `d`. -/
def MsgOK (x : Ctx) (s d : Nat) : Msg → Prop
  | .execute r => s = 0 ∧ Corr x d r
  | .get src id b => src = s ∧ x.own id = some d ∧ (b = true ↔ s = 0)
  | .putData id v => x.D id = some v ∧ d ≠ 0
  | .putOwner id o => x.own id = some o
  | .data id v => x.D id = some v ∧ d = 0 ∧ x.own id = some s
  | .taskDone _ => d = x.monitor
  | _ => False

/-- Tags of the tasks in a list of messages. -/
def execTags (l : List Msg) : List Nat :=
  l.filterMap fun
    | .execute r => some r.tag
    | _ => none

/-- References whose data a message brings. -/
def brings : Msg → List Nat
  | .putData id _ => [id]
  | _ => []

/-- References about which a message informs. -/
def informs : Msg → List Nat
  | .putData id _ => [id]
  | .putOwner id _ => [id]
  | _ => []

/-- A message arrives when the worker has stored `S` and knows `K`. -/
def Arrives (K S : Nat → Prop) : Msg → Prop
  | .execute r => (∀ i ∈ refsList r.args, K i) ∧ ∀ f, r.task = .fn f → S f
  | _ => True

theorem keep_known {x : Ctx} {d : Nat} {w w' : Worker} {r : Request} (hs : ∀ i, w.store i ≠ none → w'.store i ≠ none)
    (ho : ∀ i, w.owner i ≠ none → w'.owner i ≠ none) (h : Ready x d w r) : Ready x d w' r := by
  obtain ⟨h1, h2, h3⟩ := h
  refine ⟨h1, ?_, fun f hf => hs f (h3 f hf)⟩
  intro i hi
  rcases h2 i hi with hc | hc
  · exact Or.inl (hs i hc)
  · exact Or.inr (ho i hc)

/-- One operation. -/
theorem handle_spec {x : Ctx} (hx : x.OK) {s d : Nat} (hd : d ≠ 0) {s0 : List (Nat × Nat)} {w w' : Worker}
    (h : WI x d s0 w) (hp : ∀ r ∈ w.pending, Ready x d w r) {m : Msg} (hm : MsgOK x s d m)
    (ha : Arrives (fun i => w.store i ≠ none ∨ w.owner i ≠ none) (fun i => w.store i ≠ none) m)
    (hh : w.handle x.W m = .ok w') :
    WI x d s0 w' ∧ (∀ r ∈ w'.pending, Ready x d w' r) ∧
      (∀ i, w.store i ≠ none ∨ i ∈ brings m → w'.store i ≠ none) ∧
      (∀ i, w.owner i ≠ none → w'.owner i ≠ none) ∧
      (∀ i ∈ informs m, w'.store i ≠ none ∨ w'.owner i ≠ none) ∧
      (tags w'.log ++ tags w'.pending).Perm (tags w.log ++ tags w.pending ++ execTags [m]) ∧
      (tags w'.pending).Sublist (tags w.pending ++ execTags [m]) := by
  cases m with
  | execute r =>
    have hr : Ready x d w r := ⟨hm.2, ha.1, ha.2⟩
    simp only [Worker.handle] at hh
    split at hh
    · simp at hh
    · rename_i r' w1 h1
      simp only [Except.ok.injEq] at hh
      subst hh
      obtain ⟨i1, g1, p1⟩ := wi_process hx h hr h1
      obtain ⟨⟨su, -, -, c3, -⟩, hk, hf⟩ := hr
      rcases process_spec c3 (hf _ c3) (h.closed hx) hk h1 with ⟨ho, a, -⟩ | ⟨ho, -, he⟩
      · simp only [Option.some.injEq] at ho
        have hpe : w1.pending = w.pending := a.pending
        refine ⟨wi_congr i1 _ _, ?_, ?_, ?_, ?_, ?_, ?_⟩
        · intro q hq
          simp only [List.mem_append, List.mem_singleton] at hq
          rcases hq with hq | rfl
          · rw [hpe] at hq
            exact ready_grow (w := w) ⟨g1.store, g1.owner⟩ (hp q hq)
          · exact p1 _ rfl
        · intro i hi
          simp only [brings, List.not_mem_nil, or_false] at hi
          exact g1.store i hi
        · intro i hi; simp only; rw [g1.owner]; exact hi
        · intro i hi; simp [informs] at hi
        · simp only [hpe, a.log, ho]
          simp [tags, execTags]
        · simp only [hpe, ho]
          simp [tags, execTags]
      · simp at ho
    · rename_i w1 h1
      obtain ⟨i1, g1, -⟩ := wi_process hx h hr h1
      obtain ⟨⟨su, -, -, c3, -⟩, hk, hf⟩ := hr
      rcases process_spec c3 (hf _ c3) (h.closed hx) hk h1 with ⟨ho, a, -⟩ | ⟨ho, -, he⟩
      · simp at ho
      · obtain ⟨e1, e2, -⟩ := executed_fn c3 he
        have hp1 : ∀ q ∈ w1.pending, Ready x d w1 q := by
          intro q hq
          rw [e2] at hq
          exact ready_grow g1 (hp q hq)
        obtain ⟨i2, g2, p2⟩ := wi_checkTasks hx i1 hp1 hh
        simp only [Worker.checkTasks] at hh
        split at hh
        · simp at hh
        · rename_i l w2 h2
          simp only [Except.ok.injEq] at hh
          subst hh
          obtain ⟨t1, t2, t3⟩ := processAll_tags hx _ i1 hp1 h2
          refine ⟨i2, p2, ?_, ?_, ?_, ?_, ?_⟩
          · intro i hi
            simp only [brings, List.not_mem_nil, or_false] at hi
            exact g2.store i (g1.store i hi)
          · intro i hi; rw [g2.owner, g1.owner]; exact hi
          · intro i hi; simp [informs] at hi
          · simp only
            refine t1.trans ?_
            rw [e1, e2]
            simp only [tags, execTags, List.map_append, List.map_cons, List.map_nil, List.append_assoc,
              List.filterMap_cons, List.filterMap_nil]
            exact List.Perm.append_left _ (List.perm_append_comm)
          · simp only
            rw [e2] at t2
            exact t2.trans (List.sublist_append_left _ _)
  | get src id b =>
    simp only [Worker.handle, Except.ok.injEq] at hh
    subst hh
    obtain ⟨m1, m2, m3⟩ := hm
    subst m1
    have hcore := core_ext (getRequest_core w src id b)
    have hst := grow_getRequest w src id b
    refine ⟨wi_getRequest h src id b m2 m3, ?_, ?_, ?_, ?_, ?_, ?_⟩
    · intro q hq
      rw [hcore.2.2.2.2.1] at hq
      exact ready_grow ⟨by rw [hst.1]; exact fun i hi => hi, hst.2⟩ (hp q hq)
    · intro i hi
      simp only [brings, List.not_mem_nil, or_false] at hi
      rw [hst.1]; exact hi
    · intro i hi; rw [hst.2]; exact hi
    · intro i hi; simp [informs] at hi
    · rw [hcore.2.2.2.2.1, hcore.2.2.2.2.2.2.2.2]; simp [execTags]
    · rw [hcore.2.2.2.2.1]; simp [execTags]
  | putData id v =>
    obtain ⟨m1, -⟩ := hm
    simp only [Worker.handle] at hh
    have i0 : WI x d s0 { w.put id v with requested := w.requested.filter (· ≠ id) } := by
      refine ⟨h.rank, h.monitor, ?_, h.owner, h.nb, h.b, h.act, h.run, h.log, h.out, h.sent, h.nodup⟩
      intro i u hu
      simp only [Worker.put, upd] at hu
      split at hu
      · rename_i hi
        subst hi
        rw [m1, hu]
      · exact h.store i u hu
    have g0 : ∀ i, w.store i ≠ none → (upd w.store id v) i ≠ none := by
      intro i hi
      simp only [upd]
      split
      · simp
      · exact hi
    have hp0 : ∀ q ∈ w.pending, Ready x d { w.put id v with requested := w.requested.filter (· ≠ id) } q :=
      fun q hq => ready_grow ⟨g0, rfl⟩ (hp q hq)
    split at hh
    · simp at hh
    · rename_i w1 h1
      obtain ⟨i2, g2, p2⟩ := wi_checkTasks hx i0 hp0 h1
      rw [checkActorTasks_nil _ _ i2.act] at hh
      simp only [Except.ok.injEq] at hh
      subst hh
      simp only [Worker.checkTasks] at h1
      split at h1
      · simp at h1
      · rename_i l w2 h2
        simp only [Except.ok.injEq] at h1
        subst h1
        obtain ⟨t1, t2, t3⟩ := processAll_tags hx _ i0 hp0 h2
        have hb : w2.store id ≠ none := g2.store id (by simp [Worker.put, upd])
        refine ⟨i2, p2, ?_, ?_, ?_, ?_, ?_⟩
        · rintro i (hi | hi)
          · exact g2.store i (g0 i hi)
          · simp only [brings, List.mem_singleton] at hi
            subst hi
            exact hb
        · intro i hi; rw [g2.owner]; exact hi
        · intro i hi
          simp only [informs, List.mem_singleton] at hi
          subst hi
          exact Or.inl hb
        · simp only [execTags, List.filterMap_cons, List.filterMap_nil, List.append_nil]
          exact t1
        · simp only [execTags, List.filterMap_cons, List.filterMap_nil, List.append_nil]
          exact t2
  | putOwner id o =>
    simp only [Worker.handle, Except.ok.injEq] at hh
    subst hh
    have g0 : ∀ i, w.owner i ≠ none → (upd w.owner id o) i ≠ none := by
      intro i hi
      simp only [upd]
      split
      · simp
      · exact hi
    refine ⟨?_, ?_, ?_, g0, ?_, ?_, ?_⟩
    · refine ⟨h.rank, h.monitor, h.store, ?_, h.nb, h.b, h.act, h.run, h.log, h.out, h.sent, h.nodup⟩
      intro i u hu
      simp only [upd] at hu
      split at hu
      · rename_i hi
        subst hi
        simp only [Option.some.injEq] at hu
        subst hu
        exact hm
      · exact h.owner i u hu
    · exact fun q hq => keep_known (w := w) (fun i hi => hi) g0 (hp q hq)
    · intro i hi
      simp only [brings, List.not_mem_nil, or_false] at hi
      exact hi
    · intro i hi
      simp only [informs, List.mem_singleton] at hi
      subst hi
      right
      simp [upd]
    · simp [execTags]
    · simp [execTags]
  | actorCreate _ _ => exact absurd hm id
  | actorExecute _ _ _ => exact absurd hm id
  | data id v => exact absurd hm.2.1 hd
  | taskDone ids =>
    simp only [Worker.handle, Except.ok.injEq] at hh
    subst hh
    refine ⟨h, hp, ?_, fun i hi => hi, ?_, ?_, ?_⟩
    · intro i hi
      simp only [brings, List.not_mem_nil, or_false] at hi
      exact hi
    · intro i hi; simp [informs] at hi
    · simp [execTags]
    · simp [execTags]

/-- Completion of a coroutine. -/
theorem complete_spec {x : Ctx} (hx : x.OK) {d : Nat} {s0 : List (Nat × Nat)} {w : Worker} (h : WI x d s0 w) (i : Nat) :
    WI x d s0 (w.complete i) ∧ (∀ j, w.store j ≠ none → (w.complete i).store j ≠ none) ∧
      (w.complete i).owner = w.owner ∧ (w.complete i).pending = w.pending ∧ (w.complete i).log = w.log := by
  simp only [Worker.complete]
  split
  · exact ⟨h, fun j hj => hj, rfl, rfl, rfl⟩
  · rename_i k hk
    obtain ⟨s, hs, e1, e2, e3⟩ := h.run k (List.mem_of_getElem? hk)
    have h1 : WI x d s0 { w with running := w.running.eraseIdx i } :=
      ⟨h.rank, h.monitor, h.store, h.owner, h.nb, h.b, h.act,
        fun q hq => h.run q (List.mem_of_mem_eraseIdx hq), h.log, h.out, h.sent, h.nodup⟩
    have hc := core_ext (finishAsync_core { w with running := w.running.eraseIdx i } k.outs k.result)
    have hg := grow_finishAsync { w with running := w.running.eraseIdx i } k.outs k.result
    refine ⟨?_, hg.store, hg.owner, hc.2.2.2.2.1, hc.2.2.2.2.2.2.2.2⟩
    rw [e1]
    exact wi_finishAsync hx h1 s hs e2 k.result e3

end Verif.Worker
