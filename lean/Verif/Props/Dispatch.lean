import Verif.Lemmas.Dispatch

namespace Verif.Props
open Verif.Dispatch

/-- The request of a call that did not raise (communication.py:923-990). -/
def callRequest : Call → Option Request
  | .sends r => some r
  | .fails _ => none

/-- A call to a worker: a request for workers, or a call of a function, of a class or of a method whose arguments cannot be
serialized (controller/api.py:568, controller/actor.py:56, 121). -/
def callToWorker : Call → Prop
  | .sends r => r.forWorker = true
  | .fails o => o = .execute ∨ o = .actorCreate ∨ o = .actorExecute

/-- C105 for workers: whatever the processes call and however their messages interleave, in any rounds the loop reads from every source
exactly the requests of the calls that did not raise, in their order. -/
def C105_full : Prop :=
  ∀ (block : Nat) (C : Nat → List Call) (msgs : List Msg) (sched : List Nat), 0 < block →
    (∀ s, ∀ c ∈ C s, callToWorker c) →
    (∀ s, msgs.filter (·.src = s) = (C s).flatMap (Call.messages s block)) →
    (∀ s, sched.count s ≤ ((C s).filterMap callRequest).length) →
    ∃ got q', workerLoop block false (inboxOf msgs) sched = some (got, q') ∧
      ∀ s, (got.filter (·.1 = s)).map (·.2) = (((C s).filterMap callRequest).take (sched.count s)).map .request

/-- The call of a method with an argument that cannot be serialized, followed by the call of a function, both by process 0. -/
def c105Calls (s : Nat) : List Call :=
  if s = 0 then [.fails .actorExecute, .sends (.execute ⟨[1, 2], [[3]], [1]⟩)] else []

/-- C105 is violated: the worker takes the data of the call of a function for the data of the method call that raised an exception in
the caller. -/
theorem C105_violated : ¬ C105_full := by
  intro h
  obtain ⟨got, q', h1, h2⟩ := h 10 c105Calls ((c105Calls 0).flatMap (Call.messages 0 10)) [0] (by decide)
    (by
      intro s c hc
      unfold c105Calls at hc
      split at hc
      · simp only [List.mem_cons, List.not_mem_nil, or_false] at hc
        rcases hc with rfl | rfl
        · exact Or.inr (Or.inr rfl)
        · rfl
      · simp at hc)
    (by
      intro s
      by_cases hs : s = 0
      · subst hs; decide
      · simp only [c105Calls, if_neg hs, List.flatMap_nil, if_true]
        rw [List.filter_eq_nil_iff]
        intro m hm
        have : m.src = 0 := by
          simp [Call.messages, Request.messages, sendComplex, sendOperation, sendData] at hm
          rcases hm with rfl | rfl | rfl | rfl | rfl <;> rfl
        simpa [this] using fun e => hs e.symm)
    (by
      intro s
      by_cases hs : s = 0
      · subst hs; decide
      · rw [List.count_eq_zero_of_not_mem (by simpa using hs)]; omega)
  have h3 : (workerLoop 10 false (inboxOf ((c105Calls 0).flatMap (Call.messages 0 10))) [0]).map (·.1) =
      some [(0, .request (.actorExecute ⟨[1, 2], [[3]], [1]⟩))] := by decide
  rw [h1] at h3
  simp only [Option.map, Option.some.injEq] at h3
  have h4 := h2 0
  rw [h3] at h4
  revert h4
  decide

/-- C105 is violated: a call whose data cannot be serialized leaves the worker waiting for a message of that process, whatever other
processes have sent. -/
theorem C105_stuck_violated (block : Nat) (ready : Bool) (msgs : List Msg) (s : Nat) (rest : List Nat)
    (hsent : msgs.filter (·.src = s) = [Call.fails .execute].flatMap (Call.messages s block)) :
    inboxOf msgs s tagOperation ≠ [] ∧ workerLoop block ready (inboxOf msgs) (s :: rest) = none := by
  have h : ∀ t, inboxOf msgs s t = inboxOf (sendOperation s .execute) s t ++ (fun _ => []) t := by
    intro t
    have e : inboxOf msgs s t = inboxOf (msgs.filter (·.src = s)) s t := by
      unfold inboxOf
      rw [List.filter_filter]
      congr 1
      apply List.filter_congr
      intro m _
      by_cases h1 : m.src = s <;> simp [h1]
    rw [e, hsent]
    simp [Call.messages]
  have hf := front_op h
  obtain ⟨q1, a1, a2, -⟩ := hf.takeOp
  refine ⟨by rw [hf.op]; simp, ?_⟩
  have h0 : q1 s tagObject = [] := a2.object
  have hr : workerReads block ready (inboxOf msgs) s = none := by
    simp only [workerReads, a1, if_pos]
    simp [pullTask, pull, recv, h0]
  simp only [workerLoop, hr]

/-- C105 is violated: a call whose data cannot be serialized, followed by any request with a plain object: the worker takes the object
for an information package and fails. -/
theorem C105_malformed_violated (f : List Nat) (block : Nat) (ready : Bool) :
    ∃ q', workerReads block ready (inboxOf ([Call.fails .execute, .sends (.get f)].flatMap (Call.messages 0 block))) 0 =
      some (.malformed, q') := ⟨_, rfl⟩

/-- C105, proved part: for any number of sources and calls, any interleaving of their messages and any rounds that do not reach a
call whose data cannot be serialized, the worker reads from every source exactly the requests that were sent, in their order, whether
or not it is shutting down, and exactly the messages of the remaining calls are left. Missing: what follows such a call (see
`C105_violated`). -/
theorem C105_worker_partial (block : Nat) (ready : Bool) (C : Nat → List Call) (msgs : List Msg) (sched : List Nat)
    (R : Nat → List Request) (hb : 0 < block)
    (hsent : ∀ s, msgs.filter (·.src = s) = (C s).flatMap (Call.messages s block))
    (hread : ∀ s, (C s).take (sched.count s) = (R s).map .sends) (hlen : ∀ s, (R s).length = sched.count s)
    (hR : ∀ s, ∀ r ∈ R s, r.forWorker = true) :
    ∃ got q', workerLoop block ready (inboxOf msgs) sched = some (got, q') ∧ got.map (·.1) = sched ∧
      (∀ s, (got.filter (·.1 = s)).map (·.2) = (R s).map .request) ∧
      ∀ s t, q' s t = ((((C s).drop (sched.count s)).flatMap (Call.messages s block)).filter
        fun m => m.src = s ∧ m.tag = t).map (·.payload) :=
  workerLoop_spec hb sched ready C _ R (holdsCalls_of_sent hsent) hread hlen hR

/-- Two processes send data in several parts, a task, a location and a cleanup in blocks of two bytes. -/
example : (workerLoop 2 false (inboxOf (
      (Request.putData 7 ⟨[1, 2, 3], [[4], [5, 6]], [2]⟩).messages 0 2 ++ (Request.cleanup [9, 8, 7]).messages 3 2 ++
      (Request.execute ⟨[1], [], []⟩).messages 0 2 ++ (Request.putOwner [7, 3]).messages 3 2)) [0, 3, 3, 0]).map (·.1) =
    some [(0, .request (.putData 7 ⟨[1, 2, 3], [[4], [5, 6]], [2]⟩)), (3, .request (.cleanup [9, 8, 7])),
      (3, .request (.putOwner [7, 3])), (0, .request (.execute ⟨[1], [], []⟩))] := by decide

/-- C105 for monitors, to which no data is sent that could fail to be serialized: every round reads the request that was sent. -/
theorem C105_monitor (block : Nat) (C : Nat → List Request) (msgs : List Msg) (sched : List Nat) (hb : 0 < block)
    (hfor : ∀ s, ∀ r ∈ C s, r.forMonitor = true)
    (hsent : ∀ s, msgs.filter (·.src = s) = (C s).flatMap (Request.messages s block))
    (hcount : ∀ s, sched.count s ≤ (C s).length) :
    ∃ got q', monitorLoop block (inboxOf msgs) sched = some (got, q') ∧ got.map (·.1) = sched ∧
      (∀ s, (got.filter (·.1 = s)).map (·.2) = ((C s).take (sched.count s)).map .request) ∧
      ∀ s t, q' s t = ((((C s).drop (sched.count s)).flatMap (Request.messages s block)).filter
        fun m => m.src = s ∧ m.tag = t).map (·.payload) := by
  have hflat : ∀ s (l : List Request), (l.map Call.sends).flatMap (Call.messages s block) = l.flatMap (Request.messages s block) := by
    intro s l
    induction l with
    | nil => rfl
    | cons a t ih => rw [List.map_cons, List.flatMap_cons, List.flatMap_cons, ih]; rfl
  obtain ⟨got, q', h1, h2, h3, h4⟩ := monitorLoop_spec hb sched (fun s => (C s).map .sends) (inboxOf msgs)
    (fun s => (C s).take (sched.count s))
    (holdsCalls_of_sent (by intro s; rw [hsent s, hflat]))
    (by intro s; rw [List.map_take])
    (by intro s; rw [List.length_take]; exact Nat.min_eq_left (hcount s))
    (by intro s r hr; exact hfor s r (List.mem_of_mem_take hr))
  refine ⟨got, q', h1, h2, h3, ?_⟩
  intro s t
  rw [h4 s t]
  simp only [← List.map_drop]
  rw [hflat]
  rfl

/-- Two workers report finished tasks, one reserves memory, the root asks for the number of tasks. -/
example : (monitorLoop 4 (inboxOf ((Request.taskDone [5]).messages 2 4 ++ (Request.reserve [6, 100]).messages 3 4 ++
      Request.getTaskCount.messages 0 4 ++ (Request.taskDone [8, 9]).messages 2 4)) [3, 2, 0, 2]).map (·.1) =
    some [(3, .request (.reserve [6, 100])), (2, .request (.taskDone [5])), (0, .request .getTaskCount),
      (2, .request (.taskDone [8, 9]))] := by decide

/-- C105, the end: `SHUTDOWN` ends the loop of a worker that has posted its readiness and that of a monitor; a worker that has not posted
its readiness fails. -/
theorem C105_shutdown (block : Nat) (q : Inbox) (s : Nat) (l : List Payload) (h : q s tagOperation = .op Op.shutdown.code :: l) :
    (∃ q', workerReads block true q s = some (.leave, q') ∧ q' s tagOperation = l) ∧
    (∃ q', monitorReads block q s = some (.leave, q') ∧ q' s tagOperation = l) ∧
    ∃ q', workerReads block false q s = some (.unsupported 16, q') := by
  have e := recv_cons h
  refine ⟨⟨_, ?_, upd_same q s tagOperation l⟩, ⟨_, ?_, upd_same q s tagOperation l⟩, ⟨upd q s tagOperation l, ?_⟩⟩
  · simp only [workerReads, e]; rfl
  · simp only [monitorReads, e]; rfl
  · simp only [workerReads, e]; rfl

/-- The loop of a worker ends after `CANCEL` and `SHUTDOWN` and not before. -/
example : (workerLoop 4 false (inboxOf (Request.cancel.messages 0 4 ++ (Request.get [1]).messages 2 4 ++
      Request.shutdown.messages 1 4)) [0, 2, 1]).map (·.1) =
    some [(0, .request .cancel), (2, .request (.get [1])), (1, .leave)] := by decide

/-- C105, no confusion: the operations have different numbers, and an operation for the other kind of process is refused, so that it is
never taken for another one. -/
theorem C105_distinct (block : Nat) (ready : Bool) (q : Inbox) (s : Nat) (l : List Payload) :
    (∀ o o' : Op, o.code = o'.code → o = o') ∧
    (∀ o ∈ [Op.taskDone, .getTaskCount, .reserve, .requestShared, .readyToShutdown], q s tagOperation = .op o.code :: l →
      ∃ q', workerReads block ready q s = some (.unsupported o.code, q')) ∧
    ∀ o ∈ [Op.execute, .get, .putData, .putOwner, .putShared, .actorCreate, .actorExecute, .cancel],
      q s tagOperation = .op o.code :: l → ∃ q', monitorReads block q s = some (.unsupported o.code, q') := by
  refine ⟨?_, ?_, ?_⟩
  · intro o o'; cases o <;> cases o' <;> decide
  · intro o ho h
    have e := recv_cons h
    refine ⟨upd q s tagOperation l, ?_⟩
    simp only [List.mem_cons, List.not_mem_nil, or_false] at ho
    rcases ho with rfl | rfl | rfl | rfl | rfl <;> simp [workerReads, e, Op.code]
  · intro o ho h
    have e := recv_cons h
    refine ⟨upd q s tagOperation l, ?_⟩
    simp only [List.mem_cons, List.not_mem_nil, or_false] at ho
    rcases ho with rfl | rfl | rfl | rfl | rfl | rfl | rfl | rfl <;> simp [monitorReads, e, Op.code]

/-- A worker refuses the report of a finished task. -/
example : (workerReads 4 false (inboxOf ((Request.taskDone [5]).messages 2 4)) 2).map (·.1) = some (.unsupported 10) := by decide

end Verif.Props
