import Verif.Lemmas.LifetimeLeak
import Verif.Lemmas.LifetimeKeptLeak
import Verif.Spec.Lifetime
import Verif.Lemmas.Decide

/-! Properties C94 and C95: cleanups over the whole lifetime of objects in all processes. -/
namespace Verif.Props
open Verif.Lifetime

/-! ## C94 nothing that is still needed is cleaned up -/

/-- C94: in every history, every object the program holds a reference to exists, every argument of an unfinished task is in
the worker of the task, on the way to it or at the worker that computes it, and no worker ends with "DataID is missing!". -/
def C94_full : Prop :=
  ∀ (ws : List Nat) (ops : List Op) (s : Sys), 0 ∉ ws → ws.Nodup → (Sys.init ws).run ops = some s →
    (∀ i ∈ s.held, i ∈ s.stored ∨ AtHome s i) ∧ (∀ w t i, Unfinished s w t → i ∈ t.args → Reaches s w i) ∧
    ∀ w, (s.worker w).crashed = false

/-- What a channel whose tasks are served contains. -/
theorem served_reaches {kn : Nat → Prop} {c : List Msg} (h : Served kn c) (t : Task) (ht : Msg.task t ∈ c) (i : Nat) (hx : i ∈ t.args) :
    kn i ∨ Msg.data i ∈ c ∨ ∃ o, Msg.owner i o ∈ c := by
  induction c generalizing kn with
  | nil => cases ht
  | cons m c ih =>
    cases m with
    | task u =>
      rcases List.mem_cons.1 ht with e | e
      · cases e
        exact Or.inl (h.1 i hx)
      · rcases ih h.2 e with g | g | ⟨o, g⟩
        · exact Or.inl g
        · exact Or.inr (Or.inl (List.mem_cons_of_mem _ g))
        · exact Or.inr (Or.inr ⟨o, List.mem_cons_of_mem _ g⟩)
    | data j =>
      rcases List.mem_cons.1 ht with e | e
      · cases e
      · rcases ih (kn := fun k => k = j ∨ kn k) h e with (g | g) | g | ⟨o, g⟩
        · subst g; exact Or.inr (Or.inl List.mem_cons_self)
        · exact Or.inl g
        · exact Or.inr (Or.inl (List.mem_cons_of_mem _ g))
        · exact Or.inr (Or.inr ⟨o, List.mem_cons_of_mem _ g⟩)
    | owner j o' =>
      rcases List.mem_cons.1 ht with e | e
      · cases e
      · rcases ih (kn := fun k => k = j ∨ kn k) h e with (g | g) | g | ⟨o, g⟩
        · subst g; exact Or.inr (Or.inr ⟨o', List.mem_cons_self⟩)
        · exact Or.inl g
        · exact Or.inr (Or.inl (List.mem_cons_of_mem _ g))
        · exact Or.inr (Or.inr ⟨o, List.mem_cons_of_mem _ g⟩)
    | ask _ _ =>
      rcases List.mem_cons.1 ht with e | e
      · cases e
      · rcases ih (kn := kn) h e with g | g | ⟨o, g⟩
        · exact Or.inl g
        · exact Or.inr (Or.inl (List.mem_cons_of_mem _ g))
        · exact Or.inr (Or.inr ⟨o, List.mem_cons_of_mem _ g⟩)
    | clean _ =>
      rcases List.mem_cons.1 ht with e | e
      · cases e
      · rcases ih (kn := kn) h e with g | g | ⟨o, g⟩
        · exact Or.inl g
        · exact Or.inr (Or.inl (List.mem_cons_of_mem _ g))
        · exact Or.inr (Or.inr ⟨o, List.mem_cons_of_mem _ g⟩)

/-- C94, as far as it holds: for programs that submit tasks and call no actor methods, whatever is put, got, dropped and
cleaned up in between, and in whatever order the messages of different processes arrive. -/
theorem C94_needed_objects_survive_partial (ws : List Nat) (ops : List Op) (s : Sys) (h0 : 0 ∉ ws) (hn : ws.Nodup)
    (hm : ∀ args n d, Op.submit args n d true ∉ ops) (hr : (Sys.init ws).run ops = some s) :
    (∀ i ∈ s.held, i ∈ s.stored ∨ AtHome s i) ∧ (∀ w t i, Unfinished s w t → i ∈ t.args → Reaches s w i) ∧
    ∀ w, (s.worker w).crashed = false := by
  have hi := inv_run ops (inv_init ws h0 hn) hm hr
  have hunf : ∀ w t, Unfinished s w t ↔ Unf s w t := by
    intro w t
    constructor
    · rintro (h | h | h)
      · exact Or.inl h
      · exact Or.inr h
      · rw [(hi.idle w).1] at h; cases h
    · rintro (h | h)
      · exact Or.inl h
      · exact Or.inr (Or.inl h)
  have hhome : ∀ i o, s.owner i = some o → i ∉ s.cleaned → AtHome s i := by
    intro i o ho hc
    refine ⟨o, ho, ?_⟩
    rcases hi.home i o ho hc with h | ⟨t, ht, hx⟩
    · exact Or.inl h.2
    · exact Or.inr ⟨t, (hunf o t).2 ht, hx⟩
  have hkn : ∀ w i, i ∉ s.cleaned → Kn (s.worker w) i → Reaches s w i := by
    intro w i hc hk
    rcases hk.2 with h | h
    · exact Or.inl h
    · cases hl : (s.worker w).owners.lookup i with
      | none => exact absurd hl h
      | some o =>
        have hmem : (i, o) ∈ (s.worker w).owners := by
          obtain ⟨l1, l2, e, -⟩ := List.lookup_eq_some_iff.1 hl
          rw [e]; simp
        exact Or.inr (Or.inr (hhome i o (hi.ownersTrue w _ hmem) hc))
  refine ⟨?_, ?_, fun w => (hi.idle w).2.1⟩
  · intro i hx
    rcases hi.heldKnown i hx with h | h
    · exact Or.inl h
    · cases ho : s.owner i with
      | none => exact absurd ho h
      | some o => exact Or.inr (hhome i o ho (hi.gone i hx).2)
  · intro w t i hu hx
    have hu := (hunf w t).1 hu
    have hc := (hi.taskOk w t hu).1 i hx
    rcases hu with h | h
    · rcases served_reaches (hi.served w) t (mem_chan.2 h) i hx with g | g | ⟨o, g⟩
      · exact hkn w i hc g
      · exact Or.inr (Or.inl ⟨0, mem_chan.1 g⟩)
      · exact Or.inr (Or.inr (hhome i o (hi.ownerMsg _ _ _ _ (mem_chan.1 g)).2 hc))
    · exact hkn w i hc (hi.known w t h i hx)

/-- C94, as far as it holds: for programs with any number of tasks and actor method calls that keep the references to the
arguments of a call until it is finished, as far as cleanups can tell. -/
theorem C94_kept_arguments_partial (ws : List Nat) (ops : List Op) (s : Sys) (h0 : 0 ∉ ws) (hn : ws.Nodup)
    (hk : KeepsArguments (Sys.init ws) ops) (hr : (Sys.init ws).run ops = some s) :
    (∀ i ∈ s.held, i ∈ s.stored ∨ AtHome s i) ∧ (∀ w t i, Unfinished s w t → i ∈ t.args → Reaches s w i) ∧
    ∀ w, (s.worker w).crashed = false := by
  have hi := kept_run ops (kept_init ws h0 hn) hk hr
  have hhome : ∀ i o, s.owner i = some o → i ∉ s.cleaned → AtHome s i := by
    intro i o ho hc
    refine ⟨o, ho, ?_⟩
    rcases hi.home i o ho hc with h | ⟨t, ht, hx⟩
    · exact Or.inl h.2
    · exact Or.inr ⟨t, (unfinished_iff s o t).2 ht, hx⟩
  have hkn : ∀ w i, i ∉ s.cleaned → Kn (s.worker w) i → Reaches s w i := by
    intro w i hc hk
    rcases hk.2 with h | h
    · exact Or.inl h
    · cases hl : (s.worker w).owners.lookup i with
      | none => exact absurd hl h
      | some o =>
        have hmem : (i, o) ∈ (s.worker w).owners := by
          obtain ⟨l1, l2, e, -⟩ := List.lookup_eq_some_iff.1 hl
          rw [e]; simp
        exact Or.inr (Or.inr (hhome i o (hi.ownersTrue w _ hmem) hc))
  refine ⟨?_, ?_, fun w => (hi.idle w).1⟩
  · intro i hx
    rcases hi.heldKnown i hx with h | h
    · exact Or.inl h
    · cases ho : s.owner i with
      | none => exact absurd ho h
      | some o => exact Or.inr (hhome i o ho (hi.gone i hx).2)
  · intro w t i hu hx
    have hu := (unfinished_iff s w t).1 hu
    have hc := (hi.taskOk w t hu).1 i hx
    rcases hu with h | h
    · rcases served_reaches (hi.served w) t (mem_chan.2 h) i hx with g | g | ⟨o, g⟩
      · exact hkn w i hc g
      · exact Or.inr (Or.inl ⟨0, mem_chan.1 g⟩)
      · exact Or.inr (Or.inr (hhome i o (hi.ownerMsg _ _ _ _ (mem_chan.1 g)).2 hc))
    · exact hkn w i hc (hi.known w t h i hx)

/-- C94: programs that only submit tasks keep their arguments in this sense whatever they drop, because a cleanup waits until
all tasks are executed. -/
theorem C94_tasks_keep_arguments_partial (ws : List Nat) (ops : List Op) (h0 : 0 ∉ ws) (hn : ws.Nodup)
    (hm : ∀ args n d, Op.submit args n d true ∉ ops) : KeepsArguments (Sys.init ws) ops :=
  keeps_of_noMethods ops (inv_init ws h0 hn) hm

/-- A decision procedure for `KeepsArguments` at cleanups. -/
def keepsB : Sys → List Op → Bool
  | _, [] => true
  | s, op :: ops =>
    (op != .cleanup || s.ws.all (fun w =>
      (s.net.all fun x => match x.2.2 with | .task t => t.args.all (fun i => i ∉ s.queue) | _ => true) &&
      ((s.worker w).tasks ++ (s.worker w).methods).all (fun t => t.args.all (fun i => i ∉ s.queue)))) &&
    match s.step op with | none => true | some s' => keepsB s' ops

theorem keeps_of (ops : List Op) {s : Sys} (hi : Kept s) (h : keepsB s ops = true) : KeepsArguments s ops := by
  induction ops generalizing s with
  | nil => trivial
  | cons op ops ih =>
    simp only [keepsB, Bool.and_eq_true] at h
    obtain ⟨h1, h2⟩ := h
    have key : op = .cleanup → s.step .cleanup ≠ none → ∀ w t, Unfinished s w t → ∀ i ∈ t.args, i ∉ s.queue := by
      rintro rfl - w t hu i hx
      simp only [bne_self_eq_false, Bool.false_or, List.all_eq_true, Bool.and_eq_true] at h1
      have hw : w ∈ s.ws := by
        rcases (unfinished_iff s w t).1 hu with g | g
        · exact (hi.taskMsg _ _ _ g).2
        · exact hi.pendWs w t g
      obtain ⟨g1, g2⟩ := h1 w hw
      rcases hu with g | g | g
      · have := g1 _ g
        simp only [List.all_eq_true, decide_eq_true_eq] at this
        exact this i hx
      · have := g2 t (List.mem_append_left _ g) i hx
        simpa using this
      · have := g2 t (List.mem_append_right _ g) i hx
        simpa using this
    refine ⟨key, fun s' hs => ih (kept_step hi key hs) ?_⟩
    rw [hs] at h2
    exact h2

/-- A method of an actor gets the result of a task of another worker. Another object is dropped and cleaned up while the call is
held back; the result is dropped after the call has run. -/
def exMethodKept : List Op :=
  [.put, .submit [] 1 1 false, .submit [1] 1 2 true, .deliver 0 2, .deliver 0 2, .drop 0, .deliver 0 1, .report, .cleanup, .deliver 2 1, .deliver 1 2, .drop 1, .submit [] 1 1 false, .deliver 0 1, .deliver 0 1, .deliver 0 2, .get [2], .deliver 0 2, .deliver 2 0]

set_option synthInstance.maxSize 1000 in
example : KeepsArguments (Sys.init [1, 2]) exMethodKept ∧
    ((Sys.init [1, 2]).run exMethodKept).map (fun s => (s.held, s.stored, s.cleaned, (s.worker 1).data, (s.worker 2).data, s.net)) =
      some ([3, 2], [2], [0], [3, 1], [2, 1], []) :=
  ⟨keeps_of _ (kept_init [1, 2] (by simp) (by decide)) (by decide +kernel), by decide +kernel⟩

/-- A result is used by a second task on another worker; it is dropped and cleaned up after that. -/
def exPipeline : List Op :=
  [.put, .submit [0] 1 1 false, .submit [1] 1 2 false, .deliver 0 1, .deliver 0 1, .deliver 0 2, .deliver 0 2, .drop 1, .deliver 2 1, .report, .deliver 1 2, .report, .cleanup, .deliver 0 1, .deliver 0 2, .get [2], .deliver 0 2, .deliver 2 0]

set_option synthInstance.maxSize 1000 in
example : ((Sys.init [1, 2]).run exPipeline).map (fun s => (s.held, s.stored, s.cleaned, (s.worker 1).data, (s.worker 2).data, s.net)) =
    some ([2, 0], [2, 0], [1], [0], [2], []) := by decide +kernel

/-- The result of a task is passed to a method of an actor on another worker and dropped. The method call is not counted
among the submitted tasks (api.py:578 counts tasks only), so the cleanup goes ahead. -/
def exMethodLost : List Op :=
  [.submit [] 1 1 false, .deliver 0 1, .report, .submit [0] 1 2 true, .drop 0, .cleanup, .deliver 0 1]

set_option synthInstance.maxSize 1000 in
/-- C94 is violated: the argument of a pending method call is cleaned up everywhere. -/
theorem C94_method_argument_violated : ¬ C94_full := by
  intro h
  obtain ⟨s, hr, hs⟩ := Option.map_eq_some_iff.1 (show ((Sys.init [1, 2]).run exMethodLost).map (fun s => (s.net, (s.worker 2).data, (s.worker 1).data, (s.worker 1).tasks, (s.worker 1).methods, s.owner 0)) =
    some ([(0, 2, Msg.owner 0 1), (0, 2, Msg.task ⟨[0], [1], true⟩), (0, 2, Msg.clean [0])], [], [], [], [], some 1) by decide +kernel)
  simp only [Prod.mk.injEq] at hs
  obtain ⟨e1, e2, e3, e4, e5, e6⟩ := hs
  rcases (h [1, 2] exMethodLost s (by simp) (by decide) hr).2.1 2 ⟨[0], [1], true⟩ 0 (Or.inl (by rw [e1]; simp)) (by simp) with g | ⟨src, g⟩ | ⟨o, ho, g | ⟨t, g, -⟩⟩
  · rw [e2] at g; cases g
  · rw [e1] at g; simp at g
  · rw [e6] at ho; cases ho; rw [e3] at g; cases g
  · rw [e6] at ho
    cases ho
    rcases g with g | g | g
    · rw [e1] at g; simp at g
    · rw [e4] at g; cases g
    · rw [e5] at g; cases g

/-- C94 is violated with the consequence that the program hangs: the method call waits for the lost argument, and the `get`
of its result for the method call; nothing more can happen. -/
theorem C94_hang_violated : ∃ (ops : List Op) (s : Sys), (Sys.init [1, 2]).run ops = some s ∧ s.waiting = [1] ∧ ∀ op, s.step op = none := by
  obtain ⟨s, hr, hs⟩ := Option.map_eq_some_iff.1 (show ((Sys.init [1, 2]).run (exMethodLost ++ [.get [1], .deliver 0 2, .deliver 0 2, .deliver 0 2, .deliver 0 2, .deliver 2 1])).map (fun s => (s.net, s.waiting, s.reports)) =
    some ([], [1], 0) by decide +kernel)
  simp only [Prod.mk.injEq] at hs
  obtain ⟨e1, e2, e3⟩ := hs
  refine ⟨_, s, hr, e2, ?_⟩
  intro op
  cases op <;> simp [Sys.step, e1, e2, e3, takeMsg]

/-! ## C95 a cleanup leaves nothing behind -/

/-- C95: in every history, a worker that has received the cleanup of an object and the main process keep nothing of it. -/
def C95_full : Prop :=
  ∀ (ws : List Nat) (ops : List Op) (s : Sys), 0 ∉ ws → ws.Nodup → (Sys.init ws).run ops = some s →
    ∀ i ∈ s.cleaned, i ∉ s.stored ∧ ∀ w, (∀ ids, (0, w, Msg.clean ids) ∈ s.net → i ∉ ids) → Forgotten s w i

/-- C95, as far as it holds: for programs without actor methods that pass no result to a task after getting its value. -/
theorem C95_nothing_left_partial (ws : List Nat) (ops : List Op) (s : Sys) (h0 : 0 ∉ ws) (hn : ws.Nodup)
    (hm : ∀ args n d, Op.submit args n d true ∉ ops) (hf : Unfetched (Sys.init ws) ops) (hr : (Sys.init ws).run ops = some s) :
    ∀ i ∈ s.cleaned, i ∉ s.stored ∧ ∀ w, (∀ ids, (0, w, Msg.clean ids) ∈ s.net → i ∉ ids) → Forgotten s w i := by
  obtain ⟨hi, hu, hl⟩ := leak_run ops (inv_init ws h0 hn) (outs_init ws) (leak_init ws) hm hf hr
  intro i hx
  refine ⟨fun h => (hi.gone i (hi.storedHeld i h)).2 hx, ?_⟩
  intro w hw
  have ha := leak_alive hi hu hl hx hw
  obtain ⟨k1, k2, k3⟩ := hl.swept w
  refine ⟨?_, ?_, ?_, ?_⟩
  · intro h
    have := k1 i h
    rw [ha] at this; cases this
  · intro h
    simp only [Proc.alive, h, decide_true, Bool.true_or] at ha
    cases ha
  · cases hl : (s.worker w).owners.lookup i with
    | none => rfl
    | some o =>
      have := k2 _ (lookup_mem hl)
      rw [ha] at this; cases this
  · intro d h
    have := k3 _ h
    rw [ha] at this; cases this

/-- Decides `Unfetched`. -/
def unfetchedB : Sys → List Op → Bool
  | _, [] => true
  | s, op :: ops =>
    (match op with | .submit args _ _ _ => args.all (fun a => a ∉ s.stored || (s.owner a).isNone) | _ => true) &&
    (match s.step op with | some s' => unfetchedB s' ops | none => true)

theorem unfetched_of {s : Sys} {ops : List Op} (h : unfetchedB s ops = true) : Unfetched s ops := by
  induction ops generalizing s with
  | nil => trivial
  | cons op ops ih =>
    simp only [unfetchedB, Bool.and_eq_true] at h
    refine ⟨?_, ?_⟩
    · cases op with
      | submit args n d m =>
        have h1 := h.1
        simp only [List.all_eq_true, Bool.or_eq_true, decide_eq_true_eq, Option.isNone_iff_eq_none] at h1
        intro a ha hs
        exact (h1 a ha).resolve_left (fun g => g hs)
      | _ => trivial
    · intro s' hs
      have h2 := h.2
      rw [hs] at h2
      exact ih h2

example : ∃ s, (Sys.init [1, 2]).run exPipeline = some s ∧ 1 ∈ s.cleaned ∧ Forgotten s 1 1 ∧ Forgotten s 2 1 := by
  obtain ⟨s, hr, hs⟩ := Option.map_eq_some_iff.1 (show ((Sys.init [1, 2]).run exPipeline).map (fun s => (s.cleaned, s.net)) = some ([1], []) by decide +kernel)
  simp only [Prod.mk.injEq] at hs
  have h := (C95_nothing_left_partial [1, 2] exPipeline s (by simp) (by decide) (by simp [exPipeline]) (unfetched_of (by decide +kernel)) hr 1 (by rw [hs.1]; simp)).2
  exact ⟨s, hr, by rw [hs.1]; simp, h 1 (by rw [hs.2]; simp), h 2 (by rw [hs.2]; simp)⟩

/-- Worker 2 asks worker 1 for a result. Before the answer, the main process gets the value and passes the reference to
another task on worker 2, sending the value with it. The reference is dropped and cleaned up, then the answer arrives. -/
def exLateAnswer : List Op :=
  [.submit [] 1 1 false, .submit [0] 1 2 false, .deliver 0 2, .deliver 0 2, .deliver 0 1, .get [0], .deliver 0 1, .deliver 1 0, .submit [0] 1 2 false,
   .deliver 0 2, .deliver 0 2, .report, .report, .report, .drop 0, .cleanup, .deliver 2 1, .deliver 0 1, .deliver 0 2, .deliver 1 2]

set_option synthInstance.maxSize 1000 in
/-- The state after it. -/
theorem late_answer : ∃ s, (Sys.init [1, 2]).run exLateAnswer = some s ∧ s.cleaned = [0] ∧ Lifetime.Stuck s 2 0 ∧ s.net = [] := by
  obtain ⟨s, hr, hs⟩ := Option.map_eq_some_iff.1 (show ((Sys.init [1, 2]).run exLateAnswer).map (fun s => (s.net, s.cleaned, (decide (0 ∈ (s.worker 2).strong), decide (0 ∈ (s.worker 2).data)), s.queue, decide (0 ∈ s.held), s.next)) =
    some ([], [0], (true, true), [], false, 3) by decide +kernel)
  simp only [Prod.mk.injEq] at hs
  obtain ⟨e1, e2, ⟨e3, e4⟩, e5, e6, e7⟩ := hs
  exact ⟨s, hr, e2, ⟨of_decide_eq_false e6, by rw [e5]; simp, by rw [e7]; simp, by rw [e1]; simp, of_decide_eq_true e3, of_decide_eq_true e4⟩, e1⟩

/-- C95 is violated: a late answer puts the object back into the store after its cleanup. -/
theorem C95_late_answer_violated : ¬ C95_full := by
  intro h
  obtain ⟨s, hr, e, k, hn⟩ := late_answer
  exact ((h [1, 2] exLateAnswer s (by simp) (by decide) hr 0 (by rw [e]; simp)).2 2 (by rw [hn]; simp)).2.1 k.strong

/-- C95 is violated for good: whatever the program does later, the worker keeps that object. -/
theorem C95_kept_forever_violated : ∃ s, (Sys.init [1, 2]).run exLateAnswer = some s ∧ 0 ∈ s.cleaned ∧
    ∀ ops s', s.run ops = some s' → 0 ∈ (s'.worker 2).data := by
  obtain ⟨s, hr, e, k, -⟩ := late_answer
  refine ⟨s, hr, by rw [e]; simp, ?_⟩
  intro ops s' h
  have hi := inv_run exLateAnswer (inv_init [1, 2] (by simp) (by decide)) (by simp [exLateAnswer, NoMethods]) hr
  exact (stuck_run ops k (fun w => (hi.idle w).2.2.1) h).data

/-- C95, as far as it holds: for programs with any number of tasks and actor method calls that keep the references to the
arguments and the results of a call until it is finished, as far as cleanups can tell, and that pass no result to a call after
getting its value. -/
theorem C95_kept_calls_partial (ws : List Nat) (ops : List Op) (s : Sys) (h0 : 0 ∉ ws) (hn : ws.Nodup)
    (hk : KeepsArguments (Sys.init ws) ops) (hk2 : KeepsResults (Sys.init ws) ops) (hf : Unfetched (Sys.init ws) ops)
    (hr : (Sys.init ws).run ops = some s) :
    ∀ i ∈ s.cleaned, i ∉ s.stored ∧ ∀ w, (∀ ids, (0, w, Msg.clean ids) ∈ s.net → i ∉ ids) → Forgotten s w i := by
  obtain ⟨hi, hl⟩ := leakm_run ops (kept_init ws h0 hn) (leakm_init ws) hk hk2 hf hr
  intro i hx
  refine ⟨fun h => (hi.gone i (hi.storedHeld i h)).2 hx, ?_⟩
  intro w hw
  have ha := leakm_alive hi hl hx hw
  obtain ⟨k1, k2, k3⟩ := hl.swept w
  refine ⟨?_, ?_, ?_, ?_⟩
  · intro h
    have := k1 i h
    rw [ha] at this; cases this
  · intro h
    simp only [Proc.alive, h, decide_true, Bool.true_or] at ha
    cases ha
  · cases hl : (s.worker w).owners.lookup i with
    | none => rfl
    | some o =>
      have := k2 _ (lookup_mem hl)
      rw [ha] at this; cases this
  · intro d h
    have := k3 _ h
    rw [ha] at this; cases this

/-- Programs without actors need not keep anything: a cleanup waits for all their calls. -/
theorem results_of_noMethods (ops : List Op) {s : Sys} (hi : Inv s) (ho : NoMethods ops) : KeepsResults s ops := by
  induction ops generalizing s with
  | nil => trivial
  | cons op ops ih =>
    have hop : ∀ a n d, op ≠ .submit a n d true := by
      rintro a n d rfl
      exact ho a n d List.mem_cons_self
    refine ⟨?_, fun s' h => ih (inv_step hi hop h) (fun a n d hx => ho a n d (List.mem_cons_of_mem _ hx))⟩
    rintro rfl h w t hu
    obtain ⟨s', hs⟩ := Option.ne_none_iff_exists'.1 h
    simp only [Sys.step] at hs
    split at hs
    · cases hs
    · rename_i hc
      simp only [ne_eq, not_or, Classical.not_not] at hc
      exfalso
      refine no_unfinished hi hc.2 w t ?_
      rcases hu with h | h | h
      · exact Or.inl h
      · exact Or.inr h
      · rw [(hi.idle w).1] at h; cases h

/-- C95: programs that only submit tasks keep their results in this sense whatever they drop, because a cleanup waits until
all tasks are executed. -/
theorem C95_tasks_keep_results_partial (ws : List Nat) (ops : List Op) (h0 : 0 ∉ ws) (hn : ws.Nodup)
    (hm : ∀ args n d, Op.submit args n d true ∉ ops) : KeepsResults (Sys.init ws) ops :=
  results_of_noMethods ops (inv_init ws h0 hn) hm

/-- A decision procedure for `KeepsResults` at cleanups. -/
def resultsB : Sys → List Op → Bool
  | _, [] => true
  | s, op :: ops =>
    (op != .cleanup || s.ws.all (fun w =>
      (s.net.all fun x => match x.2.2 with | .task t => t.outs.all (fun i => i ∉ s.queue) | _ => true) &&
      ((s.worker w).tasks ++ (s.worker w).methods).all (fun t => t.outs.all (fun i => i ∉ s.queue)))) &&
    match s.step op with | none => true | some s' => resultsB s' ops

theorem results_of (ops : List Op) {s : Sys} (hi : Kept s) (ho : KeepsArguments s ops) (h : resultsB s ops = true) : KeepsResults s ops := by
  induction ops generalizing s with
  | nil => trivial
  | cons op ops ih =>
    simp only [resultsB, Bool.and_eq_true] at h
    obtain ⟨h1, h2⟩ := h
    refine ⟨?_, fun s' hs => ih (kept_step hi ho.1 hs) (ho.2 s' hs) ?_⟩
    · rintro rfl - w t hu i hx
      simp only [bne_self_eq_false, Bool.false_or, List.all_eq_true, Bool.and_eq_true] at h1
      have hw : w ∈ s.ws := by
        rcases (unfinished_iff s w t).1 hu with g | g
        · exact (hi.taskMsg _ _ _ g).2
        · exact hi.pendWs w t g
      obtain ⟨g1, g2⟩ := h1 w hw
      rcases hu with g | g | g
      · have := g1 _ g
        simp only [List.all_eq_true, decide_eq_true_eq] at this
        exact this i hx
      · have := g2 t (List.mem_append_left _ g) i hx
        simpa using this
      · have := g2 t (List.mem_append_right _ g) i hx
        simpa using this
    · rw [hs] at h2
      exact h2

/-- The result of a task is passed to an actor method on another worker and dropped and cleaned up after the method has run. -/
def exMethodDone : List Op :=
  [.submit [] 1 1 false, .deliver 0 1, .report, .submit [0] 1 2 true, .deliver 0 2, .deliver 0 2, .deliver 2 1, .deliver 1 2, .drop 0, .cleanup, .deliver 0 1, .deliver 0 2]

example : ∃ s, (Sys.init [1, 2]).run exMethodDone = some s ∧ 0 ∈ s.cleaned ∧ Forgotten s 1 0 ∧ Forgotten s 2 0 := by
  obtain ⟨s, hr, hs⟩ := Option.map_eq_some_iff.1 (show ((Sys.init [1, 2]).run exMethodDone).map (fun s => (s.cleaned, s.net)) = some ([0], []) by decide +kernel)
  simp only [Prod.mk.injEq] at hs
  have hk := keeps_of exMethodDone (kept_init [1, 2] (by simp) (by decide)) (by decide +kernel)
  have h := (C95_kept_calls_partial [1, 2] exMethodDone s (by simp) (by decide) hk (results_of _ (kept_init [1, 2] (by simp) (by decide)) hk (by decide +kernel)) (unfetched_of (by decide +kernel)) hr 0 (by rw [hs.1]; simp)).2
  exact ⟨s, hr, by rw [hs.1]; simp, h 1 (by rw [hs.2]; simp), h 2 (by rw [hs.2]; simp)⟩

/-- An actor method is called for its effect and its result is ignored. While the call waits for its argument from another
worker, the dropped reference to the result is cleaned up. Then the method runs and its result is stored. -/
def exIgnored : List Op :=
  [.submit [] 1 1 false, .deliver 0 1, .report, .submit [0] 1 2 true, .drop 1, .deliver 0 2, .deliver 0 2, .cleanup, .deliver 0 1, .deliver 0 2, .deliver 2 1, .deliver 1 2]

set_option synthInstance.maxSize 1000 in
/-- The state after it; the program has kept the argument of the call. -/
theorem ignored_result : KeepsArguments (Sys.init [1, 2]) exIgnored ∧ Unfetched (Sys.init [1, 2]) exIgnored ∧
    ∃ s, (Sys.init [1, 2]).run exIgnored = some s ∧ s.cleaned = [1] ∧ Lifetime.Stuck s 2 1 ∧ s.net = [] := by
  obtain ⟨s, hr, hs⟩ := Option.map_eq_some_iff.1 (show ((Sys.init [1, 2]).run exIgnored).map (fun s => (s.net, s.cleaned, (decide (1 ∈ (s.worker 2).strong), decide (1 ∈ (s.worker 2).data)), s.queue, decide (1 ∈ s.held), s.next)) =
    some ([], [1], (true, true), [], false, 2) by decide +kernel)
  simp only [Prod.mk.injEq] at hs
  obtain ⟨e1, e2, ⟨e3, e4⟩, e5, e6, e7⟩ := hs
  exact ⟨keeps_of _ (kept_init [1, 2] (by simp) (by decide)) (by decide +kernel), unfetched_of (by decide +kernel),
    s, hr, e2, ⟨of_decide_eq_false e6, by rw [e5]; simp, by rw [e7]; simp, by rw [e1]; simp, of_decide_eq_true e3, of_decide_eq_true e4⟩, e1⟩

/-- C95 is violated for good by programs that ignore the result of a method call: the result of the call is cleaned up before
it is computed and then stays in the worker whatever the program does later. -/
theorem C95_ignored_result_violated : ∃ s, (Sys.init [1, 2]).run exIgnored = some s ∧ 1 ∈ s.cleaned ∧
    ∀ ops s', s.run ops = some s' → 1 ∈ (s'.worker 2).data := by
  obtain ⟨hk, -, s, hr, e, k, -⟩ := ignored_result
  refine ⟨s, hr, by rw [e]; simp, ?_⟩
  intro ops s' h
  have hi := kept_run exIgnored (kept_init [1, 2] (by simp) (by decide)) hk hr
  exact (stuck_run ops k (fun w => (hi.idle w).2.1) h).data

end Verif.Props
