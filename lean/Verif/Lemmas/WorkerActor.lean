import Verif.Lemmas.WorkerServe

/-! Method calls of one actor in a worker. -/
namespace Verif.Worker
open Verif.Spec

mutual
theorem materialize_noRef (w : Worker) (p : Bool) : ∀ v, refs v = [] → materialize w p v = .ok (v, p, w)
  | .list vs, h => by
    simp only [refs] at h
    simp only [materialize, materializeList_noRef w p vs h]
  | .data n, _ => by simp [materialize, Worker.unwrap]
  | .exc n, _ => by simp [materialize, Worker.unwrap]
  | .code n, _ => by simp [materialize, Worker.unwrap]
  | .ref i, h => by simp [refs] at h
theorem materializeList_noRef (w : Worker) (p : Bool) : ∀ vs, refsList vs = [] → materializeList w p vs = .ok (vs, p, w)
  | [], _ => rfl
  | v :: vs, h => by
    simp only [refsList, List.append_eq_nil_iff] at h
    simp only [materializeList, materialize_noRef w p v h.1, unwrap_noRef w v h.1, Bool.or_false,
      materializeList_noRef w p vs h.2]
end

/-- Requests that call a method of an actor. -/
def ofActor (h : Nat) (r : Request) : Bool :=
  match r.task with
  | .method k _ => k == h
  | .fn _ => false

theorem evaluate_other (W : World) (w : Worker) {h : Nat} {r : Request} (hr : ofActor h r = false) (args : List Val) :
    (w.evaluate W r.task args).2.actors h = w.actors h := by
  simp only [Worker.evaluate]
  split
  · rfl
  · split
    · split <;> rfl
    · rename_i k c ht
      rw [ofActor, ht] at hr
      simp only [beq_eq_false_iff_ne, ne_eq] at hr
      split
      · split
        · rfl
        · simp only [upd]
          rw [if_neg (fun hc => hr hc.symm)]
      · rfl

theorem execute_actors {W : World} {w w' : Worker} {r : Request} {args : List Val} (he : w.execute W r args = .ok w') :
    w'.actors = (w.evaluate W r.task args).2.actors ∧ w'.log = w.log ++ [{ r with args := args }] ∧
      w'.pending = w.pending ∧ w'.pendingActor = w.pendingActor := by
  have hlog : ∀ t, ((w.evaluate W t args).2.actors) =
      (Worker.evaluate W { w with log := w.log ++ [{ r with args := args }] } t args).2.actors := by
    intro t
    simp only [Worker.evaluate]
    split
    · rfl
    · split
      · split <;> rfl
      · split
        · split <;> rfl
        · rfl
  simp only [Worker.execute] at he
  have hev := evaluate_fields W { w with log := w.log ++ [{ r with args := args }] } r.task args
  rw [hlog r.task]
  generalize Worker.evaluate W { w with log := w.log ++ [{ r with args := args }] } r.task args = e at he hev
  obtain ⟨res, w1⟩ := e
  simp only at he hev
  split at he
  · simp only [Except.ok.injEq] at he
    subst he
    simp only
    refine ⟨trivial, ?_, ?_, ?_⟩ <;> rw [hev]
  · have := core_ext (finish_core he)
    refine ⟨this.2.2.2.2.2.2.1, ?_, ?_, ?_⟩
    · rw [this.2.2.2.2.2.2.2.2, hev]
    · rw [this.2.2.2.2.1, hev]
    · rw [this.2.2.2.2.2.1, hev]

theorem checked_actors {W : World} {w w' : Worker} {r : Request} {args : List Val} (he : w.execute W r args = .ok w') :
    (w'.checkGets r.outs).actors = (w.evaluate W r.task args).2.actors ∧
      (w'.checkGets r.outs).log = w.log ++ [{ r with args := args }] ∧ (w'.checkGets r.outs).pending = w.pending ∧
      (w'.checkGets r.outs).pendingActor = w.pendingActor := by
  obtain ⟨a, b, c, d⟩ := execute_actors he
  have hc := core_ext (checkGets_core r.outs w')
  exact ⟨hc.2.2.2.2.2.2.1.trans a, hc.2.2.2.2.2.2.2.2.trans b, hc.2.2.2.2.1.trans c, hc.2.2.2.2.2.1.trans d⟩

/-- An attempt at a request that does not concern the actor. -/
theorem process_other {W : World} {w w' : Worker} {h : Nat} {r : Request} (hr : ofActor h r = false) {o : Option Request}
    (hp : w.process W r = .ok (o, w')) : w'.actors h = w.actors h ∧ w'.log.filter (ofActor h) = w.log.filter (ofActor h) ∧
      w'.pending = w.pending ∧ w'.pendingActor = w.pendingActor ∧ ∀ q ∈ o, q.task = r.task := by
  simp only [Worker.process] at hp
  split at hp
  · split at hp
    · simp at hp
    · rename_i hm
      simp only [Except.ok.injEq, Prod.mk.injEq] at hp
      obtain ⟨rfl, rfl⟩ := hp
      have hs := (materializeList_quiet _ hm).same
      refine ⟨by rw [hs], by rw [hs], by rw [hs], by rw [hs], by simp⟩
    · rename_i args w1 hm
      split at hp
      · rename_i he
        simp only [Except.ok.injEq, Prod.mk.injEq] at hp
        obtain ⟨rfl, rfl⟩ := hp
        have hs := (materializeList_quiet _ hm).same
        obtain ⟨a, b, c, d⟩ := checked_actors he
        refine ⟨?_, ?_, ?_, ?_, by simp⟩
        · rw [a, evaluate_other W w1 hr, hs]
        · have : ofActor h { r with args := args } = false := hr
          rw [b, List.filter_append, List.filter_cons, this, hs]
          simp
        · rw [c, hs]
        · rw [d, hs]
      · simp at hp
  · simp at hp

theorem processAll_other {W : World} {h : Nat} : ∀ (rs : List Request) {w w' : Worker} {l : List Request},
    (∀ r ∈ rs, ofActor h r = false) → w.processAll W rs = .ok (l, w') → w'.actors h = w.actors h ∧
      w'.log.filter (ofActor h) = w.log.filter (ofActor h) ∧ w'.pending = w.pending ∧ w'.pendingActor = w.pendingActor ∧
      ∀ q ∈ l, ofActor h q = false
  | [], w, w', l, _, hp => by
    simp only [Worker.processAll, Except.ok.injEq, Prod.mk.injEq] at hp
    obtain ⟨rfl, rfl⟩ := hp
    simp
  | r :: rs, w, w', l, hr, hp => by
    simp only [Worker.processAll] at hp
    split at hp
    · simp at hp
    · rename_i o w1 h1
      split at hp
      · simp at hp
      · rename_i l2 w2 h2
        simp only [Except.ok.injEq, Prod.mk.injEq] at hp
        obtain ⟨rfl, rfl⟩ := hp
        obtain ⟨a, b, c, d, e⟩ := process_other (hr r (by simp)) h1
        obtain ⟨a', b', c', d', e'⟩ := processAll_other rs (fun q hq => hr q (List.mem_cons_of_mem _ hq)) h2
        refine ⟨a'.trans a, b'.trans b, c'.trans c, d'.trans d, ?_⟩
        intro q hq
        rw [List.mem_append] at hq
        rcases hq with hq | hq
        · have ht := e q (by simpa using hq)
          have := hr r (by simp)
          simp only [ofActor] at this ⊢
          rw [ht]; exact this
        · exact e' q hq

/-- The requests kept do not concern the actor. -/
def Clear (h : Nat) (w : Worker) : Prop :=
  (∀ r ∈ w.pending, ofActor h r = false) ∧ ∀ r ∈ w.pendingActor, ofActor h r = false

theorem checkTasks_other {W : World} {h : Nat} {w w' : Worker} (hc : Clear h w) (hp : w.checkTasks W = .ok w') :
    w'.actors h = w.actors h ∧ w'.log.filter (ofActor h) = w.log.filter (ofActor h) ∧ Clear h w' := by
  simp only [Worker.checkTasks] at hp
  split at hp
  · simp at hp
  · rename_i l w1 h1
    simp only [Except.ok.injEq] at hp
    subst hp
    obtain ⟨a, b, -, d, e⟩ := processAll_other _ hc.1 h1
    exact ⟨a, b, e, by simp only; rw [d]; exact hc.2⟩

theorem checkActorTasks_other {W : World} {h : Nat} {w w' : Worker} (hc : Clear h w) (hp : w.checkActorTasks W = .ok w') :
    w'.actors h = w.actors h ∧ w'.log.filter (ofActor h) = w.log.filter (ofActor h) ∧ Clear h w' := by
  simp only [Worker.checkActorTasks] at hp
  split at hp
  · simp at hp
  · rename_i l w1 h1
    simp only [Except.ok.injEq] at hp
    subst hp
    obtain ⟨a, b, c, -, e⟩ := processAll_other _ hc.2 h1
    exact ⟨a, b, by simp only; rw [c]; exact hc.1, e⟩

/-- The method call made by an event: the request and the method. -/
def callsTo (h : Nat) : Event → List (Request × Nat)
  | .op (.actorExecute r k name) => if k = h then [(r, name)] else []
  | _ => []

/-- State of the actor after a method call. -/
def afterCall (W : World) (s : Val) (q : Request × Nat) : Val :=
  match firstFailure q.1.args with
  | some _ => s
  | none => (W.method q.2 s q.1.args).1

/-- Events that keep the order of method calls. -/
def Orderly (W : World) (h : Nat) : Event → Prop
  | .op (.execute r) => ∃ f, r.task = .fn f
  | .op (.actorCreate k _) => k ≠ h
  | .op (.actorExecute r k name) => k = h → refsList r.args = [] ∧ W.isAsync name = false
  | _ => True

theorem actor_handle {W : World} {h : Nat} {w w' : Worker} {s : Val} (hc : Clear h w) (hs : w.actors h = some s) {m : Msg}
    (ho : Orderly W h (.op m)) (hh : w.handle W m = .ok w') : Clear h w' ∧
      w'.actors h = some ((callsTo h (.op m)).foldl (afterCall W) s) ∧
      w'.log.filter (ofActor h) = w.log.filter (ofActor h) ++
        (callsTo h (.op m)).map fun q => { q.1 with task := .method h q.2 } := by
  cases m with
  | execute r =>
    obtain ⟨f, hf⟩ := ho
    have hr : ofActor h r = false := by simp [ofActor, hf]
    simp only [callsTo, List.foldl_nil, List.map_nil, List.append_nil]
    simp only [Worker.handle] at hh
    split at hh
    · simp at hh
    · rename_i r' w1 h1
      simp only [Except.ok.injEq] at hh
      subst hh
      obtain ⟨a, b, c, d, e⟩ := process_other hr h1
      refine ⟨⟨?_, ?_⟩, by simp only; rw [a, hs], by simp only; exact b⟩
      · intro q hq
        simp only [List.mem_append, List.mem_singleton] at hq
        rcases hq with hq | rfl
        · rw [c] at hq; exact hc.1 q hq
        · have := e _ rfl
          simp [ofActor, this, hf]
      · simp only; rw [d]; exact hc.2
    · rename_i w1 h1
      obtain ⟨a, b, c, d, e⟩ := process_other hr h1
      have hc1 : Clear h w1 := ⟨by rw [c]; exact hc.1, by rw [d]; exact hc.2⟩
      obtain ⟨a', b', c'⟩ := checkTasks_other hc1 hh
      exact ⟨c', by rw [a', a, hs], by rw [b', b]⟩
  | get src id bl =>
    simp only [Worker.handle, Except.ok.injEq] at hh
    subst hh
    have hcore := core_ext (getRequest_core w src id bl)
    simp only [callsTo, List.foldl_nil, List.map_nil, List.append_nil]
    refine ⟨⟨?_, ?_⟩, ?_, ?_⟩
    · rw [hcore.2.2.2.2.1]; exact hc.1
    · rw [hcore.2.2.2.2.2.1]; exact hc.2
    · rw [hcore.2.2.2.2.2.2.1]; exact hs
    · rw [hcore.2.2.2.2.2.2.2.2]
  | putData id v =>
    simp only [callsTo, List.foldl_nil, List.map_nil, List.append_nil]
    simp only [Worker.handle] at hh
    split at hh
    · simp at hh
    · rename_i w1 h1
      have hc0 : Clear h { w.put id v with requested := w.requested.filter (· ≠ id) } := hc
      obtain ⟨a, b, c⟩ := checkTasks_other hc0 h1
      obtain ⟨a', b', c'⟩ := checkActorTasks_other c hh
      exact ⟨c', by rw [a', a]; exact hs, by rw [b', b]; rfl⟩
  | putOwner id o =>
    simp only [Worker.handle, Except.ok.injEq] at hh
    subst hh
    simp only [callsTo, List.foldl_nil, List.map_nil, List.append_nil]
    exact ⟨hc, hs, trivial⟩
  | actorCreate k st =>
    simp only [Worker.handle, Except.ok.injEq] at hh
    subst hh
    simp only [callsTo, List.foldl_nil, List.map_nil, List.append_nil]
    refine ⟨hc, ?_, trivial⟩
    have : h ≠ k := fun hk => ho hk.symm
    simp [upd, this, hs]
  | actorExecute r k name =>
    simp only [Worker.handle] at hh
    by_cases hk : k = h
    · subst hk
      obtain ⟨hargs, hasync⟩ := ho rfl
      simp only [callsTo, if_true, List.foldl_cons, List.foldl_nil, List.map_cons, List.map_nil]
      rw [hs] at hh
      simp only [Worker.process, Worker.known, if_true, materializeList_noRef w false r.args hargs] at hh
      split at hh
      · simp at hh
      · rename_i he
        split at he <;> simp at he
      · rename_i w1 he
        split at he
        · rename_i w2 hx
          simp only [Except.ok.injEq, Prod.mk.injEq, true_and] at he
          subst he
          obtain ⟨a, b, c, d⟩ := checked_actors hx
          have hc1 : Clear k (w2.checkGets r.outs) := ⟨by rw [c]; exact hc.1, by rw [d]; exact hc.2⟩
          obtain ⟨a', b', c'⟩ := checkActorTasks_other hc1 hh
          refine ⟨c', ?_, ?_⟩
          · rw [a', a]
            simp only [Worker.evaluate, firstExc_eq, afterCall, hs]
            cases hf : firstFailure r.args with
            | some e => exact hs
            | none => simp [hasync, upd]
          · rw [b', b, List.filter_append, List.filter_cons]
            simp [ofActor]
        · simp at he
    · have hcalls : callsTo h (.op (.actorExecute r k name)) = [] := by simp [callsTo, hk]
      rw [hcalls]
      simp only [List.foldl_nil, List.map_nil, List.append_nil]
      have hr : ofActor h { r with task := .method k name } = false := by simp [ofActor, hk]
      split at hh
      · simp at hh
      · split at hh
        · simp at hh
        · rename_i r' w1 h1
          simp only [Except.ok.injEq] at hh
          subst hh
          obtain ⟨a, b, c, d, e⟩ := process_other hr h1
          refine ⟨⟨by simp only; rw [c]; exact hc.1, ?_⟩, by simp only; rw [a, hs], by simp only; exact b⟩
          intro q hq
          simp only [List.mem_append, List.mem_singleton] at hq
          rcases hq with hq | rfl
          · rw [d] at hq; exact hc.2 q hq
          · have := e _ rfl
            simp only at this
            simp [ofActor, this, hk]
        · rename_i w1 h1
          obtain ⟨a, b, c, d, e⟩ := process_other hr h1
          have hc1 : Clear h w1 := ⟨by rw [c]; exact hc.1, by rw [d]; exact hc.2⟩
          obtain ⟨a', b', c'⟩ := checkActorTasks_other hc1 hh
          exact ⟨c', by rw [a', a, hs], by rw [b', b]⟩
  | data id v =>
    simp only [Worker.handle, Except.ok.injEq] at hh
    subst hh
    simp only [callsTo, List.foldl_nil, List.map_nil, List.append_nil]
    exact ⟨hc, hs, trivial⟩
  | taskDone l =>
    simp only [Worker.handle, Except.ok.injEq] at hh
    subst hh
    simp only [callsTo, List.foldl_nil, List.map_nil, List.append_nil]
    exact ⟨hc, hs, trivial⟩

/-- Operations that are no calls of the actor's methods. -/
theorem clear_handle {W : World} {h : Nat} {w w' : Worker} (hc : Clear h w) {m : Msg}
    (hx : ∀ r, m = .execute r → ∃ f, r.task = .fn f) (hn : callsTo h (.op m) = []) (hh : w.handle W m = .ok w') :
    Clear h w' ∧ w'.log.filter (ofActor h) = w.log.filter (ofActor h) := by
  cases m with
  | execute r =>
    obtain ⟨f, hf⟩ := hx r rfl
    have hr : ofActor h r = false := by simp [ofActor, hf]
    simp only [Worker.handle] at hh
    split at hh
    · simp at hh
    · rename_i r' w1 h1
      simp only [Except.ok.injEq] at hh
      subst hh
      obtain ⟨a, b, c, d, e⟩ := process_other hr h1
      refine ⟨⟨?_, ?_⟩, by simp only; exact b⟩
      · intro q hq
        simp only [List.mem_append, List.mem_singleton] at hq
        rcases hq with hq | rfl
        · rw [c] at hq; exact hc.1 q hq
        · have := e _ rfl
          simp [ofActor, this, hf]
      · simp only; rw [d]; exact hc.2
    · rename_i w1 h1
      obtain ⟨a, b, c, d, e⟩ := process_other hr h1
      have hc1 : Clear h w1 := ⟨by rw [c]; exact hc.1, by rw [d]; exact hc.2⟩
      obtain ⟨a', b', c'⟩ := checkTasks_other hc1 hh
      exact ⟨c', by rw [b', b]⟩
  | get src id bl =>
    simp only [Worker.handle, Except.ok.injEq] at hh
    subst hh
    have hcore := core_ext (getRequest_core w src id bl)
    refine ⟨⟨?_, ?_⟩, ?_⟩
    · rw [hcore.2.2.2.2.1]; exact hc.1
    · rw [hcore.2.2.2.2.2.1]; exact hc.2
    · rw [hcore.2.2.2.2.2.2.2.2]
  | putData id v =>
    simp only [Worker.handle] at hh
    split at hh
    · simp at hh
    · rename_i w1 h1
      have hc0 : Clear h { w.put id v with requested := w.requested.filter (· ≠ id) } := hc
      obtain ⟨a, b, c⟩ := checkTasks_other hc0 h1
      obtain ⟨a', b', c'⟩ := checkActorTasks_other c hh
      exact ⟨c', by rw [b', b]; rfl⟩
  | actorExecute r k name =>
    have hk : k ≠ h := by
      rintro rfl
      simp [callsTo] at hn
    have hr : ofActor h { r with task := .method k name } = false := by simp [ofActor, hk]
    simp only [Worker.handle] at hh
    split at hh
    · simp at hh
    · split at hh
      · simp at hh
      · rename_i r' w1 h1
        simp only [Except.ok.injEq] at hh
        subst hh
        obtain ⟨a, b, c, d, e⟩ := process_other hr h1
        refine ⟨⟨by simp only; rw [c]; exact hc.1, ?_⟩, by simp only; exact b⟩
        intro q hq
        simp only [List.mem_append, List.mem_singleton] at hq
        rcases hq with hq | rfl
        · rw [d] at hq; exact hc.2 q hq
        · have := e _ rfl
          simp only at this
          simp [ofActor, this, hk]
      · rename_i w1 h1
        obtain ⟨a, b, c, d, e⟩ := process_other hr h1
        have hc1 : Clear h w1 := ⟨by rw [c]; exact hc.1, by rw [d]; exact hc.2⟩
        obtain ⟨a', b', c'⟩ := checkActorTasks_other hc1 hh
        exact ⟨c', by rw [b', b]⟩
  | _ =>
    simp only [Worker.handle, Except.ok.injEq] at hh
    subst hh
    exact ⟨hc, rfl⟩

theorem complete_actor (w : Worker) (i : Nat) : (w.complete i).actors = w.actors ∧ (w.complete i).log = w.log ∧
    (w.complete i).pending = w.pending ∧ (w.complete i).pendingActor = w.pendingActor := by
  simp only [Worker.complete]
  split
  · simp
  · rename_i k hk
    have := core_ext (finishAsync_core { w with running := w.running.eraseIdx i } k.outs k.result)
    exact ⟨this.2.2.2.2.2.2.1, this.2.2.2.2.2.2.2.2, this.2.2.2.2.1, this.2.2.2.2.2.1⟩

theorem actor_run {W : World} {h : Nat} : ∀ (es : List Event) {w w' : Worker} {s : Val}, Clear h w → w.actors h = some s →
    (∀ e ∈ es, Orderly W h e) → w.run W es = .ok w' →
      w'.actors h = some ((es.flatMap (callsTo h)).foldl (afterCall W) s) ∧
      w'.log.filter (ofActor h) = w.log.filter (ofActor h) ++
        (es.flatMap (callsTo h)).map fun q => { q.1 with task := .method h q.2 }
  | [], w, w', s, _, hs, _, hr => by
    simp only [Worker.run, Except.ok.injEq] at hr
    subst hr
    simpa using hs
  | .op m :: es, w, w', s, hc, hs, ho, hr => by
    simp only [Worker.run] at hr
    split at hr
    · simp at hr
    · rename_i w1 h1
      obtain ⟨a, b, c⟩ := actor_handle hc hs (ho _ (by simp)) h1
      obtain ⟨b', c'⟩ := actor_run es a b (fun e he => ho e (List.mem_cons_of_mem _ he)) hr
      refine ⟨by rw [b', List.flatMap_cons, List.foldl_append], ?_⟩
      rw [c', c, List.flatMap_cons, List.map_append, List.append_assoc]
  | .complete i :: es, w, w', s, hc, hs, ho, hr => by
    simp only [Worker.run] at hr
    obtain ⟨a, b, c, d⟩ := complete_actor w i
    have hc1 : Clear h (w.complete i) := ⟨by rw [c]; exact hc.1, by rw [d]; exact hc.2⟩
    obtain ⟨b', c'⟩ := actor_run es hc1 (by rw [a]; exact hs) (fun e he => ho e (List.mem_cons_of_mem _ he)) hr
    refine ⟨by rw [b']; rfl, ?_⟩
    rw [c', b]; rfl

/-- Histories that only make plain tasks and calls of other actors. -/
theorem clear_run {W : World} {h : Nat} : ∀ (es : List Event) {w w' : Worker}, Clear h w →
    (∀ r, Event.op (.execute r) ∈ es → ∃ f, r.task = .fn f) → es.flatMap (callsTo h) = [] → w.run W es = .ok w' →
      Clear h w' ∧ w'.log.filter (ofActor h) = w.log.filter (ofActor h)
  | [], w, w', hc, _, _, hr => by
    simp only [Worker.run, Except.ok.injEq] at hr
    subst hr
    exact ⟨hc, rfl⟩
  | .op m :: es, w, w', hc, hx, hn, hr => by
    simp only [Worker.run] at hr
    rw [List.flatMap_cons, List.append_eq_nil_iff] at hn
    split at hr
    · simp at hr
    · rename_i w1 h1
      obtain ⟨a, b⟩ := clear_handle hc (fun r hm => hx r (by simp [hm])) hn.1 h1
      obtain ⟨a', b'⟩ := clear_run es a (fun r hm => hx r (List.mem_cons_of_mem _ hm)) hn.2 hr
      exact ⟨a', b'.trans b⟩
  | .complete i :: es, w, w', hc, hx, hn, hr => by
    simp only [Worker.run] at hr
    rw [List.flatMap_cons, List.append_eq_nil_iff] at hn
    obtain ⟨a, b, c, d⟩ := complete_actor w i
    have hc1 : Clear h (w.complete i) := ⟨by rw [c]; exact hc.1, by rw [d]; exact hc.2⟩
    obtain ⟨a', b'⟩ := clear_run es hc1 (fun r hm => hx r (List.mem_cons_of_mem _ hm)) hn.2 hr
    exact ⟨a', by rw [b', b]⟩

/-- The references in the arguments have values, and no value is itself a reference. -/
def Avail (w : Worker) (ids : List Nat) : Prop := ∀ i ∈ ids, ∃ x, w.store i = some x ∧ ∀ j, x ≠ .ref j

theorem unwrap_plain (w : Worker) (x : Val) (hx : ∀ j, x ≠ .ref j) : w.unwrap x = .ok (x, false, w) := by
  cases x <;> simp_all [Worker.unwrap]

theorem subst_plain (w : Worker) (v : Val) (h : Avail w (refs v)) : ∀ j, subst w.store v ≠ .ref j := by
  cases v with
  | ref i =>
    obtain ⟨x, hx, hn⟩ := h i (by simp [refs])
    simpa [subst, hx] using hn
  | _ => simp [subst]

mutual
theorem materialize_avail (w : Worker) (p : Bool) : ∀ v, Avail w (refs v) → materialize w p v = .ok (subst w.store v, p, w)
  | .list vs, h => by
    simp only [refs] at h
    simp only [materialize, materializeList_avail w p vs h, subst]
  | .data n, _ => by simp [materialize, Worker.unwrap, subst]
  | .exc n, _ => by simp [materialize, Worker.unwrap, subst]
  | .code n, _ => by simp [materialize, Worker.unwrap, subst]
  | .ref i, h => by
    obtain ⟨x, hx, hn⟩ := h i (by simp [refs])
    simp [materialize, Worker.unwrap, hx, subst]
theorem materializeList_avail (w : Worker) (p : Bool) :
    ∀ vs, Avail w (refsList vs) → materializeList w p vs = .ok (substList w.store vs, p, w)
  | [], _ => rfl
  | v :: vs, h => by
    simp only [refsList] at h
    have hv : Avail w (refs v) := fun i hi => h i (List.mem_append_left _ hi)
    simp only [materializeList, materialize_avail w p v hv, unwrap_plain w _ (subst_plain w v hv), Bool.or_false,
      materializeList_avail w p vs (fun i hi => h i (List.mem_append_right _ hi)), substList]
end

/-- A method call whose arguments are available. -/
theorem actor_call {W : World} {h : Nat} {w w' : Worker} {s : Val} (hc : Clear h w) (hs : w.actors h = some s) {r : Request} {name : Nat}
    (hasync : W.isAsync name = false) (hargs : Avail w (refsList r.args)) (hh : w.handle W (.actorExecute r h name) = .ok w') : Clear h w' ∧
      w'.actors h = some (afterCall W s ({ r with args := substList w.store r.args }, name)) ∧
      w'.log.filter (ofActor h) = w.log.filter (ofActor h) ++
        [{ r with args := substList w.store r.args, task := .method h name }] := by
  simp only [Worker.handle] at hh
  rw [hs] at hh
  simp only [Worker.process, Worker.known, if_true, materializeList_avail w false r.args hargs] at hh
  split at hh
  · simp at hh
  · rename_i he
    split at he <;> simp at he
  · rename_i w1 he
    split at he
    · rename_i w2 hx
      simp only [Except.ok.injEq, Prod.mk.injEq, true_and] at he
      subst he
      obtain ⟨a, b, c, d⟩ := checked_actors hx
      have hc1 : Clear h (w2.checkGets r.outs) := ⟨by rw [c]; exact hc.1, by rw [d]; exact hc.2⟩
      obtain ⟨a', b', c'⟩ := checkActorTasks_other hc1 hh
      refine ⟨c', ?_, ?_⟩
      · rw [a', a]
        simp only [Worker.evaluate, firstExc_eq, afterCall, hs]
        cases hf : firstFailure (substList w.store r.args) with
        | some e => exact hs
        | none => simp [hasync, upd]
      · rw [b', b, List.filter_append, List.filter_cons]
        simp [ofActor]
    · simp at he

/-- The method calls of a history in the order of their arrival, the references in the arguments replaced by the values the worker
has at that time. -/
def arrived (W : World) (h : Nat) : Worker → List Event → List (Request × Nat)
  | _, [] => []
  | w, e :: es =>
    (callsTo h e).map (fun q => ({ q.1 with args := substList w.store q.1.args }, q.2)) ++
      match w.run W [e] with
      | .ok w' => arrived W h w' es
      | .error _ => []

/-- Every method call finds its arguments, and its method is no coroutine. -/
def AllAvail (W : World) (h : Nat) : Worker → List Event → Prop
  | _, [] => True
  | w, e :: es =>
    (∀ q ∈ callsTo h e, W.isAsync q.2 = false ∧ Avail w (refsList q.1.args)) ∧ ∀ w', w.run W [e] = .ok w' → AllAvail W h w' es

theorem run_singleton {W : World} (w : Worker) (m : Msg) : w.run W [.op m] = w.handle W m := by
  simp only [Worker.run]
  cases w.handle W m <;> rfl

theorem avail_run {W : World} {h : Nat} : ∀ (es : List Event) {w w' : Worker} {s : Val}, Clear h w → w.actors h = some s →
    (∀ r, Event.op (.execute r) ∈ es → ∃ f, r.task = .fn f) → (∀ s', Event.op (.actorCreate h s') ∉ es) → AllAvail W h w es →
    w.run W es = .ok w' →
      w'.actors h = some ((arrived W h w es).foldl (afterCall W) s) ∧
      w'.log.filter (ofActor h) = w.log.filter (ofActor h) ++ (arrived W h w es).map fun q => { q.1 with task := .method h q.2 }
  | [], w, w', s, _, hs, _, _, _, hr => by
    simp only [Worker.run, Except.ok.injEq] at hr
    subst hr
    simpa [arrived] using hs
  | .op m :: es, w, w', s, hc, hs, hx, hn, ha, hr => by
    simp only [Worker.run] at hr
    split at hr
    · simp at hr
    · rename_i w1 h1
      have hsing : w.run W [.op m] = .ok w1 := by rw [run_singleton, h1]
      have hx' : ∀ r, Event.op (.execute r) ∈ es → ∃ f, r.task = .fn f := fun r hm => hx r (List.mem_cons_of_mem _ hm)
      have hn' : ∀ s', Event.op (.actorCreate h s') ∉ es := fun s' hm => hn s' (List.mem_cons_of_mem _ hm)
      simp only [arrived, hsing]
      by_cases hcall : ∃ r name, m = .actorExecute r h name
      · obtain ⟨r, name, rfl⟩ := hcall
        have hq := ha.1 (r, name) (by simp [callsTo])
        obtain ⟨a, b, c⟩ := actor_call hc hs hq.1 hq.2 h1
        obtain ⟨b', c'⟩ := avail_run es a b hx' hn' (ha.2 w1 hsing) hr
        refine ⟨by rw [b']; simp [callsTo], ?_⟩
        rw [c', c]
        simp [callsTo]
      · have ho : Orderly W h (.op m) := by
          cases m with
          | execute r => exact hx r (by simp)
          | actorCreate k s' => rintro rfl; exact hn s' (by simp)
          | actorExecute r k n => rintro rfl; exact absurd ⟨r, n, rfl⟩ hcall
          | _ => trivial
        have hnil : callsTo h (.op m) = [] := by
          cases m with
          | actorExecute r k n =>
            simp only [callsTo]
            rw [if_neg]
            rintro rfl
            exact hcall ⟨r, n, rfl⟩
          | _ => rfl
        obtain ⟨a, b, c⟩ := actor_handle hc hs ho h1
        rw [hnil] at b c ⊢
        obtain ⟨b', c'⟩ := avail_run es a b hx' hn' (ha.2 w1 hsing) hr
        refine ⟨by rw [b']; simp, ?_⟩
        rw [c', c]
        simp
  | .complete i :: es, w, w', s, hc, hs, hx, hn, ha, hr => by
    simp only [Worker.run] at hr
    have hsing : w.run W [.complete i] = .ok (w.complete i) := rfl
    simp only [arrived, hsing]
    obtain ⟨a, b, c, d⟩ := complete_actor w i
    have hc1 : Clear h (w.complete i) := ⟨by rw [c]; exact hc.1, by rw [d]; exact hc.2⟩
    obtain ⟨b', c'⟩ := avail_run es hc1 (by rw [a]; exact hs) (fun r hm => hx r (List.mem_cons_of_mem _ hm))
      (fun s' hm => hn s' (List.mem_cons_of_mem _ hm)) (ha.2 _ hsing) hr
    refine ⟨by rw [b']; simp [callsTo], ?_⟩
    rw [c', b]
    simp [callsTo]

theorem run_append {W : World} : ∀ (a : List Event) {b : List Event} {w w' : Worker}, w.run W (a ++ b) = .ok w' →
    ∃ w1, w.run W a = .ok w1 ∧ w1.run W b = .ok w'
  | [], b, w, w', h => ⟨w, rfl, h⟩
  | .op m :: a, b, w, w', h => by
    simp only [List.cons_append, Worker.run] at h ⊢
    split at h
    · simp at h
    · rename_i w1 h1
      exact run_append a h
  | .complete i :: a, b, w, w', h => by
    simp only [List.cons_append, Worker.run] at h ⊢
    exact run_append a h

theorem run_join {W : World} : ∀ (a : List Event) {b : List Event} {w w1 w' : Worker}, w.run W a = .ok w1 → w1.run W b = .ok w' →
    w.run W (a ++ b) = .ok w'
  | [], b, w, w1, w', h, h' => by
    simp only [Worker.run, Except.ok.injEq] at h
    subst h
    exact h'
  | .op m :: a, b, w, w1, w', h, h' => by
    simp only [List.cons_append, Worker.run] at h ⊢
    split at h
    · simp at h
    · exact run_join a h h'
  | .complete i :: a, b, w, w1, w', h, h' => by
    simp only [List.cons_append, Worker.run] at h ⊢
    exact run_join a h h'

theorem run_cons {W : World} {e : Event} {es : List Event} {w w1 w' : Worker} (h : w.run W [e] = .ok w1) (h' : w1.run W es = .ok w') :
    w.run W (e :: es) = .ok w' := run_join [e] h h'

theorem allAvail_of {W : World} {h : Nat} : ∀ (es : List Event) {w : Worker},
    (∀ a r n b wa, es = a ++ .op (.actorExecute r h n) :: b → w.run W a = .ok wa → W.isAsync n = false ∧ Avail wa (refsList r.args)) →
    AllAvail W h w es
  | [], w, _ => trivial
  | e :: es, w, hh => by
    refine ⟨?_, ?_⟩
    · intro q hq
      cases e with
      | complete i => simp [callsTo] at hq
      | op m =>
        cases m with
        | actorExecute r k n =>
          simp only [callsTo] at hq
          split at hq
          · rename_i hk
            subst hk
            simp only [List.mem_singleton] at hq
            subst hq
            exact hh [] r n es w rfl rfl
          · simp at hq
        | _ => simp [callsTo] at hq
    · intro w' hw
      refine allAvail_of es fun a r n b wa he ha => ?_
      exact hh (e :: a) r n b wa (by simp [he]) (run_cons hw ha)

/-- Number of method calls of the actor. -/
def countCalls (h : Nat) (es : List Event) : Nat :=
  (es.filter fun e => match e with | .op (.actorExecute _ k _) => k == h | _ => false).length

theorem callsTo_length (h : Nat) (e : Event) (es : List Event) : countCalls h (e :: es) = (callsTo h e).length + countCalls h es := by
  simp only [countCalls, List.filter_cons]
  cases e with
  | complete i => simp [callsTo]
  | op m =>
    cases m with
    | actorExecute r k n =>
      simp only [callsTo]
      by_cases hk : k = h
      · simp [hk]; omega
      · simp [hk]
    | _ => simp [callsTo]

theorem arrived_length {W : World} {h : Nat} : ∀ (es : List Event) {w w' : Worker}, w.run W es = .ok w' →
    (arrived W h w es).length = countCalls h es
  | [], w, w', _ => rfl
  | e :: es, w, w', hr => by
    obtain ⟨w1, h1, h2⟩ := run_append [e] (b := es) hr
    simp only [arrived, h1, List.length_append, List.length_map, arrived_length es h2, callsTo_length]

theorem arrived_get {W : World} {h : Nat} {r : Request} {n : Nat} {b : List Event} : ∀ (a : List Event) {w wa : Worker}, w.run W a = .ok wa →
    (arrived W h w (a ++ .op (.actorExecute r h n) :: b))[countCalls h a]? = some ({ r with args := substList wa.store r.args }, n)
  | [], w, wa, hr => by
    simp only [Worker.run, Except.ok.injEq] at hr
    subst hr
    simp [arrived, callsTo, countCalls]
  | e :: a, w, wa, hr => by
    obtain ⟨w1, h1, h2⟩ := run_append [e] (b := a) hr
    simp only [List.cons_append, arrived, h1, callsTo_length]
    rw [List.getElem?_append_right (by simp)]
    simp only [List.length_map, Nat.add_sub_cancel_left]
    exact arrived_get a h2

end Verif.Worker
