import Verif.Model.Wait

/-!
# `wait` called by several processes

The state of `Verif.Wait` with one `wait` in progress per process: tasks may call `wait` of
`/repo/unidist/core/backends/mpi/core/controller/api.py` (436-505) as well. There is one monitor with one slot for a request
(monitor/loop.py:118-129), and it sends every reply to process 0 (`MPIRank.ROOT`, monitor/loop.py:150-154). The simplifications are those
of `Verif.Wait`.
-/
namespace Verif.WaitMany
open Verif.Worker (outputs)
open Verif.Wait (Monitor Call localLoop)

/-- The processes, the monitor and the messages between them (api.py:436-505, monitor/loop.py:91-213). A result carries the process,
the arguments and the returned lists, or `none` if the reply names a reference that was not asked for: `data_id_map[data_id]`
(api.py:498-499) raises `KeyError` then. -/
structure State where
  has : Nat → Nat → Bool
  call : Nat → Option Call
  requests : List (List Nat × Int)
  replies : List (List Nat × List Nat)
  reports : List (List (Option Nat))
  monitor : Monitor
  results : List (Nat × List Nat × Int × Option (List Nat × List Nat))

/-- Start: empty stores, no call (local_object_store.py:24-38, monitor/loop.py:64, 98-102). -/
def State.init : State := ⟨fun _ _ => false, fun _ => none, [], [], [], Monitor.init, []⟩

/-- What happens: process `p` stores data; a worker finishes a task (task_store.py:346-404); the monitor receives a
`TASK_DONE`; process `p` calls `wait`; the monitor receives a `WAIT` message; process 0 receives a reply. -/
inductive Act
  | store (p id : Nat)
  | finish (outs : List Nat) (r : Verif.Worker.Ret)
  | report (k : Nat)
  | wait (p : Nat) (ids : List Nat) (num : Int)
  | request (k : Nat)
  | reply

/-- The lists returned for a reply (api.py:490-499); `none` for a `KeyError`. -/
def answer (c : Call) (ready notReady : List Nat) : Option (List Nat × List Nat) :=
  if ∀ i ∈ c.ready ++ ready ++ notReady, i ∈ c.ids then some (c.ready ++ ready, notReady) else none

/-- One step (api.py:467-505, monitor/loop.py:131-213); `none` if it is not possible. A process does nothing else while it waits. -/
def State.step (s : State) : Act → Option State
  | .store p id =>
    if (s.call p).isSome then none else some { s with has := fun q i => (q = p ∧ i = id) || s.has q i }
  | .finish outs r =>
    match outputs outs r with
    | .error _ => none
    | .ok (_, completed) => some { s with reports := s.reports ++ [completed] }
  | .report k =>
    match s.reports[k]? with
    | none => none
    | some ids =>
      let r := s.monitor.taskDone ids
      some { s with monitor := r.1, replies := s.replies ++ r.2, reports := s.reports.eraseIdx k }
  | .wait p ids num =>
    if (s.call p).isSome then none
    else match localLoop (s.has p) num ids [] ids with
      | (true, ready, notReady) => some { s with results := s.results ++ [(p, ids, num, some (ready, notReady))] }
      | (false, ready, notReady) =>
        some { s with call := fun q => if q = p then some ⟨ids, num, ready, notReady⟩ else s.call q,
                      requests := s.requests ++ [(notReady, num - ready.length)] }
  | .request k =>
    match s.requests[k]? with
    | none => none
    | some (ids, num) =>
      let r := s.monitor.waitRequest ids num
      some { s with monitor := r.1, replies := s.replies ++ r.2, requests := s.requests.eraseIdx k }
  | .reply =>
    match s.call 0, s.replies with
    | some c, (ready, notReady) :: t =>
      some { s with call := fun q => if q = 0 then none else s.call q, replies := t,
                    results := s.results ++ [(0, c.ids, c.num, answer c ready notReady)] }
    | _, _ => none

/-- A history of steps (monitor/loop.py:190-213, api.py:436-505). -/
def State.run : State → List Act → Option State
  | s, [] => some s
  | s, a :: as =>
    match s.step a with
    | some s' => State.run s' as
    | none => none

end Verif.WaitMany
