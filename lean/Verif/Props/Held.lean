import Verif.Lemmas.WorkerSerial
import Verif.Props.Worker

/-! Why a request can wait although its arguments are there (C38). -/
namespace Verif.Props
open Verif.Spec
open Verif.Worker

/-- A request waits for something: a missing value, or one that this worker has made itself. -/
private def Justified (w : Worker) (r : Request) : Prop :=
  ∃ i ∈ refsList r.args, w.store i = none ∨ ∃ q ∈ w.log, i ∈ q.outs

/-- Only executions happened. -/
private structure Ran (w w' : Worker) : Prop where
  log : ∀ q ∈ w.log, q ∈ w'.log
  store : ∀ i, w'.store i = w.store i ∨ ∃ q ∈ w'.log, i ∈ q.outs
  running : (∀ c ∈ w.running, ∃ q ∈ w.log, q.outs = c.outs) → ∀ c ∈ w'.running, ∃ q ∈ w'.log, q.outs = c.outs
  closed : Closed w.store → Closed w'.store
  coro : (∀ c ∈ w.running, ∀ v, c.result = .ret v → refs v = []) → ∀ c ∈ w'.running, ∀ v, c.result = .ret v → refs v = []
  pending : w'.pending = w.pending
  pendingActor : w'.pendingActor = w.pendingActor

private theorem Ran.refl (w : Worker) : Ran w w :=
  ⟨fun _ h => h, fun _ => Or.inl rfl, fun h => h, fun h => h, fun h => h, rfl, rfl⟩

private theorem Ran.trans {a b c : Worker} (h1 : Ran a b) (h2 : Ran b c) : Ran a c := by
  refine ⟨fun q h => h2.log q (h1.log q h), fun i => ?_, fun h => h2.running (h1.running h), fun h => h2.closed (h1.closed h),
    fun h => h2.coro (h1.coro h), h2.pending.trans h1.pending, h2.pendingActor.trans h1.pendingActor⟩
  rcases h2.store i with e | e
  · rcases h1.store i with e' | ⟨q, hq, hi⟩
    · exact Or.inl (e.trans e')
    · exact Or.inr ⟨q, h2.log q hq, hi⟩
  · exact Or.inr e

private theorem Ran.justified {w w' : Worker} (h : Ran w w') {r : Request} (hj : Justified w r) : Justified w' r := by
  obtain ⟨i, hi, hs | ⟨q, hq, ho⟩⟩ := hj
  · rcases h.store i with e | e
    · exact ⟨i, hi, Or.inl (e.trans hs)⟩
    · exact ⟨i, hi, Or.inr e⟩
  · exact ⟨i, hi, Or.inr ⟨q, h.log q hq, ho⟩⟩

private theorem extend_keys : ∀ (l : List (Nat × Val)) (f : Nat → Option Val) (i : Nat), extend f l i = f i ∨ i ∈ l.map (·.1)
  | [], _, _ => Or.inl rfl
  | x :: l, f, i => by
      rcases extend_keys l (fun j => if j = x.1 then some x.2 else f j) i with h | h
      · by_cases e : i = x.1
        · exact Or.inr (by simp [e])
        · exact Or.inl (h.trans (by simp [e]))
      · exact Or.inr (List.mem_cons_of_mem _ h)

private theorem process_ran {W : World} (hW : NoRefs W) {w w' : Worker} {r : Request} {o : Option Request} (hc : Closed w.store)
    (hp : w.process W r = .ok (o, w')) : Ran w w' ∧ ∀ q, o = some q → Justified w' q := by
  rcases process_any hc hp with ⟨rfl, a, hm⟩ | ⟨rfl, hm, w2, he, rfl⟩
  · refine ⟨⟨by rw [a.log]; exact fun _ h => h, fun i => Or.inl (by rw [a.store]), by rw [a.log, a.running]; exact fun h => h,
      by rw [a.store]; exact fun h => h, by rw [a.running]; exact fun h => h, a.pending, a.pendingActor⟩, ?_⟩
    rintro q ⟨⟩
    simp only [Missing, List.any_eq_true] at hm
    obtain ⟨i, hi, hn⟩ := hm
    have hn' : w.store i = none := by simpa using hn
    exact ⟨i, (refsList_subst _ hc _ _).2 ⟨hi, hn'⟩, Or.inl (by rw [a.store]; exact hn')⟩
  · refine ⟨?_, by simp⟩
    obtain ⟨e1, e2, e3, e4⟩ := checked_actors he
    have e5 := (checkGets_static r.outs w2).1
    have e6 := (core_ext (checkGets_core r.outs w2)).2.2.2.2.2.2.2.1
    have hcl := evaluate_closed hW w r.task (substList w.store r.args) (List.eq_nil_iff_forall_not_mem.2 fun i hi => by
      obtain ⟨h1, h2⟩ := (refsList_subst _ hc _ _).1 hi
      simp only [Missing, List.any_eq_false] at hm
      exact hm i h1 (by simp [h2]))
    have hin : { r with args := substList w.store r.args } ∈ (w2.checkGets r.outs).log := by rw [e2]; simp
    rcases execute_effect he with ⟨ha, h1, h2⟩ | ⟨ha, h1, h2⟩
    · refine ⟨by rw [e2]; exact fun q h => List.mem_append_left _ h, fun i => Or.inl (by rw [e5, h1]), fun h c hc' => ?_,
        by rw [e5, h1]; exact fun h => h, fun h c hc' => ?_, e3, e4⟩
      · rw [e6, h2] at hc'
        rcases List.mem_append.1 hc' with hc' | hc'
        · obtain ⟨q, hq, ho⟩ := h c hc'
          exact ⟨q, by rw [e2]; exact List.mem_append_left _ hq, ho⟩
        · rw [List.mem_singleton.1 hc']; exact ⟨_, hin, rfl⟩
      · rw [e6, h2] at hc'
        rcases List.mem_append.1 hc' with hc' | hc'
        · exact h c hc'
        · rw [List.mem_singleton.1 hc']; exact hcl
    · refine ⟨by rw [e2]; exact fun q h => List.mem_append_left _ h, fun i => ?_, fun h c hc' => ?_, fun h => ?_,
        by rw [e6, h2]; exact fun h => h, e3, e4⟩
      · rw [e5, h1]
        rcases extend_keys (outputValues r.outs (w.evaluate W r.task (substList w.store r.args)).1) w.store i with e | e
        · exact Or.inl e
        · exact Or.inr ⟨_, hin, (outputValues_keys _ _).subset e⟩
      · rw [e6, h2] at hc'
        obtain ⟨q, hq, ho⟩ := h c hc'
        exact ⟨q, by rw [e2]; exact List.mem_append_left _ hq, ho⟩
      · rw [e5, h1]
        exact closed_extend h _ (outputValues_closed _ _ hcl)

private theorem processAll_ran {W : World} (hW : NoRefs W) : ∀ (rs : List Request) {w w' : Worker} {l : List Request}, Closed w.store →
    w.processAll W rs = .ok (l, w') → Ran w w' ∧ ∀ q ∈ l, Justified w' q
  | [], w, w', l, _, hp => by
      simp only [Worker.processAll, Except.ok.injEq, Prod.mk.injEq] at hp
      obtain ⟨rfl, rfl⟩ := hp
      exact ⟨Ran.refl w, by simp⟩
  | r :: rs, w, w', l, hc, hp => by
      simp only [Worker.processAll] at hp
      split at hp
      · simp at hp
      · rename_i o w1 h1
        split at hp
        · simp at hp
        · rename_i l' w2 h2
          simp only [Except.ok.injEq, Prod.mk.injEq] at hp
          obtain ⟨rfl, rfl⟩ := hp
          obtain ⟨r1, j1⟩ := process_ran hW hc h1
          obtain ⟨r2, j2⟩ := processAll_ran hW rs (r1.closed hc) h2
          refine ⟨r1.trans r2, fun q hq => ?_⟩
          rcases List.mem_append.1 hq with hq | hq
          · exact r2.justified (j1 q (by simpa using hq))
          · exact j2 q hq

/-- Invariant of a worker between two events. -/
private structure Calm (w : Worker) : Prop where
  closed : Closed w.store
  running : ∀ c ∈ w.running, ∃ q ∈ w.log, q.outs = c.outs
  coro : ∀ c ∈ w.running, ∀ v, c.result = .ret v → refs v = []
  pending : ∀ r ∈ w.pending, Justified w r
  pendingActor : ∀ r ∈ w.pendingActor, Justified w r

/-- The attempts at the tasks kept back; nothing is asked of them before. -/
private theorem checkTasks_calm {W : World} (hW : NoRefs W) {w w' : Worker} (hc : Closed w.store) (hr : ∀ c ∈ w.running, ∃ q ∈ w.log, q.outs = c.outs)
    (hv : ∀ c ∈ w.running, ∀ v, c.result = .ret v → refs v = []) (hp : w.checkTasks W = .ok w') :
    Closed w'.store ∧ (∀ c ∈ w'.running, ∃ q ∈ w'.log, q.outs = c.outs) ∧ (∀ c ∈ w'.running, ∀ v, c.result = .ret v → refs v = []) ∧
      (∀ r ∈ w'.pending, Justified w' r) ∧ w'.pendingActor = w.pendingActor ∧
      ∀ r, Justified w r → Justified w' r := by
  simp only [Worker.checkTasks] at hp
  split at hp
  · simp at hp
  · rename_i l w1 h1
    simp only [Except.ok.injEq] at hp
    obtain ⟨r1, j1⟩ := processAll_ran hW _ hc h1
    subst hp
    exact ⟨r1.closed hc, r1.running hr, r1.coro hv, j1, r1.pendingActor, fun r h => r1.justified h⟩

private theorem checkActorTasks_calm {W : World} (hW : NoRefs W) {w w' : Worker} (hc : Closed w.store)
    (hr : ∀ c ∈ w.running, ∃ q ∈ w.log, q.outs = c.outs) (hv : ∀ c ∈ w.running, ∀ v, c.result = .ret v → refs v = [])
    (hp : w.checkActorTasks W = .ok w') :
    Closed w'.store ∧ (∀ c ∈ w'.running, ∃ q ∈ w'.log, q.outs = c.outs) ∧ (∀ c ∈ w'.running, ∀ v, c.result = .ret v → refs v = []) ∧
      (∀ r ∈ w'.pendingActor, Justified w' r) ∧ w'.pending = w.pending ∧ ∀ r, Justified w r → Justified w' r := by
  simp only [Worker.checkActorTasks] at hp
  split at hp
  · simp at hp
  · rename_i l w1 h1
    simp only [Except.ok.injEq] at hp
    obtain ⟨r1, j1⟩ := processAll_ran hW _ hc h1
    subst hp
    exact ⟨r1.closed hc, r1.running hr, r1.coro hv, j1, r1.pending, fun r h => r1.justified h⟩

private theorem handle_calm {W : World} (hW : NoRefs W) {w w' : Worker} {m : Msg} (hput : ∀ id v, m = .putData id v → refs v = [])
    (h : Calm w) (hh : w.handle W m = .ok w') : Calm w' := by
  cases m with
  | execute r =>
    simp only [Worker.handle] at hh
    split at hh
    · simp at hh
    · rename_i r' w1 h1
      obtain ⟨r1, j1⟩ := process_ran hW h.closed h1
      simp only [Except.ok.injEq] at hh
      subst hh
      refine ⟨r1.closed h.closed, r1.running h.running, r1.coro h.coro, fun q hq => ?_, fun q hq => ?_⟩
      · rw [List.mem_append, r1.pending] at hq
        rcases hq with hq | hq
        · exact r1.justified (h.pending q hq)
        · rw [List.mem_singleton.1 hq]; exact j1 _ rfl
      · simp only [r1.pendingActor] at hq
        exact r1.justified (h.pendingActor q hq)
    · rename_i w1 h1
      obtain ⟨r1, -⟩ := process_ran hW h.closed h1
      obtain ⟨c1, c2, c3, c4, c5, c6⟩ := checkTasks_calm hW (r1.closed h.closed) (r1.running h.running) (r1.coro h.coro) hh
      refine ⟨c1, c2, c3, c4, fun q hq => ?_⟩
      rw [c5, r1.pendingActor] at hq
      exact c6 q (r1.justified (h.pendingActor q hq))
  | get src id b =>
    simp only [Worker.handle, Except.ok.injEq] at hh
    subst hh
    obtain ⟨-, -, -, -, e5, e6, -, e8, e9⟩ := core_ext (getRequest_core w src id b)
    have es := (grow_getRequest w src id b).1
    exact ⟨by rw [es]; exact h.closed, by rw [e8, e9]; exact h.running, by rw [e8]; exact h.coro,
      by rw [e5]; unfold Justified; rw [es, e9]; exact h.pending, by rw [e6]; unfold Justified; rw [es, e9]; exact h.pendingActor⟩
  | putData id v =>
    simp only [Worker.handle] at hh
    have hc : Closed (upd w.store id v) := by
      intro i x hx
      simp only [upd] at hx
      split at hx
      · cases hx; exact hput id v rfl
      · exact h.closed i x hx
    split at hh
    · simp at hh
    · rename_i w1 h1
      obtain ⟨c1, c2, c3, c4, c5, c6⟩ := checkTasks_calm hW (w := { w.put id v with requested := w.requested.filter (· ≠ id) }) hc
        h.running h.coro h1
      obtain ⟨d1, d2, d3, d4, d5, d6⟩ := checkActorTasks_calm hW c1 c2 c3 hh
      exact ⟨d1, d2, d3, fun r hr => d6 r (c4 r (by rw [← d5]; exact hr)), d4⟩
  | putOwner id o =>
    simp only [Worker.handle, Except.ok.injEq] at hh
    subst hh
    exact ⟨h.closed, h.running, h.coro, h.pending, h.pendingActor⟩
  | actorCreate k v =>
    simp only [Worker.handle, Except.ok.injEq] at hh
    subst hh
    exact ⟨h.closed, h.running, h.coro, h.pending, h.pendingActor⟩
  | actorExecute r k name =>
    simp only [Worker.handle] at hh
    split at hh
    · simp at hh
    · split at hh
      · simp at hh
      · rename_i r' w1 h1
        obtain ⟨r1, j1⟩ := process_ran hW h.closed h1
        simp only [Except.ok.injEq] at hh
        subst hh
        refine ⟨r1.closed h.closed, r1.running h.running, r1.coro h.coro, fun q hq => ?_, fun q hq => ?_⟩
        · simp only [r1.pending] at hq
          exact r1.justified (h.pending q hq)
        · rw [List.mem_append, r1.pendingActor] at hq
          rcases hq with hq | hq
          · exact r1.justified (h.pendingActor q hq)
          · rw [List.mem_singleton.1 hq]; exact j1 _ rfl
      · rename_i w1 h1
        obtain ⟨r1, -⟩ := process_ran hW h.closed h1
        obtain ⟨c1, c2, c3, c4, c5, c6⟩ := checkActorTasks_calm hW (r1.closed h.closed) (r1.running h.running) (r1.coro h.coro) hh
        refine ⟨c1, c2, c3, fun q hq => ?_, c4⟩
        rw [c5, r1.pending] at hq
        exact c6 q (r1.justified (h.pending q hq))
  | data id v =>
    simp only [Worker.handle, Except.ok.injEq] at hh
    subst hh
    exact h
  | taskDone ids =>
    simp only [Worker.handle, Except.ok.injEq] at hh
    subst hh
    exact h

private theorem complete_calm {w : Worker} (i : Nat) (h : Calm w) : Calm (w.complete i) := by
  obtain ⟨e1, e2, e3, e4⟩ := complete_actor w i
  cases hc : w.running[i]? with
  | none => simp only [Worker.complete, hc]; exact h
  | some c =>
    have hcm : c ∈ w.running := List.mem_of_getElem? hc
    have e : w.complete i = Worker.finishAsync { w with running := w.running.eraseIdx i } c.outs c.result := by
      simp only [Worker.complete, hc]
    have hrun : (w.complete i).running = w.running.eraseIdx i := by
      rw [e]; exact (core_ext (finishAsync_core { w with running := w.running.eraseIdx i } c.outs c.result)).2.2.2.2.2.2.2.1
    have hst : (w.complete i).store = w.store ∨ (w.complete i).store = extend w.store (outputValues c.outs c.result) := by
      rw [e]
      simp only [Worker.finishAsync]
      split
      · exact Or.inl rfl
      · rename_i l k ho
        refine Or.inr ?_
        rw [← outputs_eq ho]
        split
        · simp only [Worker.send]; rw [(checkGets_static c.outs _).1, putAll_extend]
        · rw [(checkGets_static c.outs _).1, putAll_extend]
    obtain ⟨q0, hq0, ho0⟩ := h.running c hcm
    have hj : ∀ r, Justified w r → Justified (w.complete i) r := by
      rintro r ⟨j, hj, hs | ⟨q, hq, ho⟩⟩
      · rcases hst with hst | hst
        · exact ⟨j, hj, Or.inl (by rw [hst]; exact hs)⟩
        · rcases extend_keys (outputValues c.outs c.result) w.store j with e' | e'
          · exact ⟨j, hj, Or.inl (by rw [hst, e']; exact hs)⟩
          · exact ⟨j, hj, Or.inr ⟨q0, by rw [e2]; exact hq0, by rw [ho0]; exact (outputValues_keys _ _).subset e'⟩⟩
      · exact ⟨j, hj, Or.inr ⟨q, by rw [e2]; exact hq, ho⟩⟩
    refine ⟨?_, ?_, ?_, by rw [e3]; exact fun r hr => hj r (h.pending r hr), by rw [e4]; exact fun r hr => hj r (h.pendingActor r hr)⟩
    · rcases hst with hst | hst
      · rw [hst]; exact h.closed
      · rw [hst]; exact closed_extend h.closed _ (outputValues_closed _ _ (h.coro c hcm))
    · rw [hrun, e2]; exact fun c' hc' => h.running c' (List.mem_of_mem_eraseIdx hc')
    · rw [hrun]; exact fun c' hc' => h.coro c' (List.mem_of_mem_eraseIdx hc')

private theorem run_calm {W : World} (hW : NoRefs W) : ∀ (es : List Event) {w w' : Worker}, (∀ id v, Event.op (.putData id v) ∈ es → refs v = []) →
    Calm w → w.run W es = .ok w' → Calm w'
  | [], w, w', _, h, hr => by
      simp only [Worker.run, Except.ok.injEq] at hr
      exact hr ▸ h
  | .op m :: es, w, w', hput, h, hr => by
      simp only [Worker.run] at hr
      split at hr
      · simp at hr
      · rename_i w1 h1
        exact run_calm hW es (fun id v hm => hput id v (List.mem_cons_of_mem _ hm))
          (handle_calm hW (fun id v e => hput id v (e ▸ List.mem_cons_self)) h h1) hr
  | .complete i :: es, w, w', hput, h, hr => by
      simp only [Worker.run] at hr
      exact run_calm hW es (fun id v hm => hput id v (List.mem_cons_of_mem _ hm)) (complete_calm i h) hr

/-- What holds of C38 for every history of a worker, with actors and coroutines: a request that is held back although all its arguments are there
has an argument that this worker made itself. So a request whose arguments come from other processes runs as soon as the last of them has
arrived. Missing: arguments made by the worker itself (`C38_actor_violated`, `C38_coroutine_violated`, `C38_overtaken_violated`). -/
theorem C38_remote_partial (W : World) (rank monitor : Nat) (es : List Event) (w : Worker)
    (hcall : ∀ f args v, refsList args = [] → W.call f args = .ret v → refs v = [])
    (hmeth : ∀ f s args v, refsList args = [] → (W.method f s args).2 = .ret v → refs v = [])
    (hput : ∀ id v, Event.op (.putData id v) ∈ es → refs v = []) (hrun : (Worker.init rank monitor).run W es = .ok w) :
    ∀ r ∈ w.pending ++ w.pendingActor, (∃ i ∈ refsList r.args, w.store i = none) ∨ ∃ i ∈ refsList r.args, ∃ q ∈ w.log, i ∈ q.outs := by
  have h := run_calm ⟨hcall, hmeth⟩ es hput (w := Worker.init rank monitor)
    ⟨fun i v hv => (by cases hv), by simp [Worker.init], by simp [Worker.init], by simp [Worker.init], by simp [Worker.init]⟩ hrun
  intro r hr
  have : Justified w r := by
    rcases List.mem_append.1 hr with hr | hr
    · exact h.pending r hr
    · exact h.pendingActor r hr
  obtain ⟨i, hi, hs | hs⟩ := this
  · exact Or.inl ⟨i, hi, hs⟩
  · exact Or.inr ⟨i, hi, hs⟩

/-- A task with arguments 5 and 6 from other processes waits for both of them and runs when the second has arrived. -/
example : let es := [.op (.putData 0 (.code 0)), .op (.putOwner 5 3), .op (.putOwner 6 4), .op (.execute ⟨1, .fn 0, [.ref 5, .list [.ref 6]], [2]⟩),
      .op (.putData 5 (.data 3)), .op (.putData 6 (.data 4))]
    ((Worker.init 2 1).run exData (es.take 5)).toOption.map (fun w => (w.pending.map (refsList ·.args), w.store 2)) = some ([[6]], none) ∧
    ((Worker.init 2 1).run exData es).toOption.map (fun w => (w.pending.length, w.store 2)) = some (0, some (.data 7)) := by decide +kernel

/-- A task left waiting: its only argument 1 is there, and it is an output of a method this worker executed. -/
example : ((Worker.init 2 1).run exData exActorFirst).toOption.map
    (fun w => (w.pending.map (refsList ·.args), w.store 1, w.log.map (·.outs))) = some ([[1]], some (.data 8), [[1]]) := by decide +kernel

end Verif.Props
