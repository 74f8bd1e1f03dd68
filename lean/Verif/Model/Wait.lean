import Verif.Model.Worker

/-!
# `wait` of the main process and the wait handler of the monitor

Models `/repo/unidist/core/backends/mpi/core/controller/api.py` `wait` (436-505) and
`/repo/unidist/core/backends/mpi/core/monitor/loop.py` `DataIDTracker` (56-88), `WaitHandler` (91-159) and the branches
`TASK_DONE` and `WAIT` of `monitor_loop` (197-213). References are numbers; messages of workers to the monitor may arrive
in any order. Clean-up is not modelled here.
-/
namespace Verif.Wait
open Verif.Worker (Ret outputs)

/-- State of the monitor (monitor/loop.py:64, 98-102): completed references, awaited references, ready references, number of
references asked for. `None` entries of the reports are dropped: no awaited reference is `None`. -/
structure Monitor where
  completed : List Nat
  awaited : List Nat
  ready : List Nat
  num : Int
deriving DecidableEq, Repr

/-- The monitor at start (monitor/loop.py:64, 98-102). -/
def Monitor.init : Monitor := ⟨[], [], [], 0⟩

/-- The loop of `process_wait_requests` (monitor/loop.py:138-159) at index `i`: the new state and the replies sent to the main
process. The first argument bounds the number of iterations; every iteration removes an element or increments `i`, so the
number of awaited references is enough. -/
def Monitor.loop : Nat → Nat → Monitor → Monitor × List (List Nat × List Nat)
  | 0, _, m => (m, [])
  | fuel + 1, i, m =>
    match m.awaited[i]? with
    | none => (m, [])
    | some id =>
      if id ∈ m.completed then
        let ready := m.ready ++ [id]
        let awaited := m.awaited.erase id
        if (ready.length : Int) = m.num then
          let r := Monitor.loop fuel i { m with ready := [], awaited := [] }
          (r.1, (ready, awaited) :: r.2)
        else Monitor.loop fuel i { m with ready := ready, awaited := awaited }
      else Monitor.loop fuel (i + 1) m

/-- `process_wait_requests` (monitor/loop.py:131-159). -/
def Monitor.process (m : Monitor) : Monitor × List (List Nat × List Nat) :=
  if m.awaited = [] then (m, []) else Monitor.loop m.awaited.length 0 m

/-- The branch `TASK_DONE` (monitor/loop.py:197-203). -/
def Monitor.taskDone (m : Monitor) (ids : List (Option Nat)) : Monitor × List (List Nat × List Nat) :=
  { m with completed := ids.filterMap id ++ m.completed }.process

/-- The branch `WAIT` (monitor/loop.py:204-213). -/
def Monitor.waitRequest (m : Monitor) (ids : List Nat) (num : Int) : Monitor × List (List Nat × List Nat) :=
  { m with awaited := ids, num := num }.process

/-- The loop over the given references (api.py:467-473): whether it returned early, ready and not ready references. -/
def localLoop (has : Nat → Bool) (num : Int) : List Nat → List Nat → List Nat → Bool × List Nat × List Nat
  | [], ready, notReady => (false, ready, notReady)
  | id :: rest, ready, notReady =>
    if has id then
      if ((ready ++ [id]).length : Int) = num then (true, ready ++ [id], notReady.erase id)
      else localLoop has num rest (ready ++ [id]) (notReady.erase id)
    else localLoop has num rest ready notReady

/-- A `wait` in progress (api.py:475-499): arguments, references found ready locally, the rest. -/
structure Call where
  ids : List Nat
  num : Int
  ready : List Nat
  notReady : List Nat
deriving DecidableEq, Repr

/-- The main process, the monitor and the messages between them: data in the store of the main process, the `wait` in
progress (api.py:436), the `WAIT` message under way, replies under way, `TASK_DONE` messages under way (task_store.py:392-404)
and the results of `wait` calls with their arguments. -/
structure State where
  has : Nat → Bool
  call : Option Call
  request : Option (List Nat × Int)
  replies : List (List Nat × List Nat)
  reports : List (List (Option Nat))
  monitor : Monitor
  results : List (List Nat × Int × List Nat × List Nat)

/-- Start: an empty store (local_object_store.py:24-38), no call, the monitor as in monitor/loop.py:64, 98-102. -/
def State.init : State := ⟨fun _ => false, none, none, [], [], Monitor.init, []⟩

/-- What happens: the main process stores data; a worker finishes a task with the given outputs and result
(task_store.py:346-404); the monitor receives a `TASK_DONE`; the main process calls `wait`; the monitor receives the `WAIT`
message; the main process receives a reply. -/
inductive Act
  | store (id : Nat)
  | finish (outs : List Nat) (r : Ret)
  | report (k : Nat)
  | wait (ids : List Nat) (num : Int)
  | request
  | reply

/-- One step (api.py:467-505, monitor/loop.py:197-213); `none` if it is not possible. The main process does nothing else while it
waits. -/
def State.step (s : State) : Act → Option State
  | .store id => if s.call.isSome then none else some { s with has := fun i => i = id || s.has i }
  | .finish outs r =>
    match outputs outs r with
    | .error _ => none
    | .ok (_, completed) => some { s with reports := s.reports ++ [completed] }
  | .report k =>
    match s.reports[k]? with
    | none => none
    | some ids =>
      let r := s.monitor.taskDone ids
      some { s with monitor := r.1, replies := s.replies ++ r.2, reports := s.reports.eraseIdx k }
  | .wait ids num =>
    if s.call.isSome then none
    else match localLoop s.has num ids [] ids with
      | (true, ready, notReady) => some { s with results := s.results ++ [(ids, num, ready, notReady)] }
      | (false, ready, notReady) =>
        some { s with call := some ⟨ids, num, ready, notReady⟩, request := some (notReady, num - ready.length) }
  | .request =>
    match s.request with
    | none => none
    | some (ids, num) =>
      let r := s.monitor.waitRequest ids num
      some { s with monitor := r.1, replies := s.replies ++ r.2, request := none }
  | .reply =>
    match s.call, s.replies with
    | some c, (ready, notReady) :: t =>
      some { s with call := none, replies := t, results := s.results ++ [(c.ids, c.num, c.ready ++ ready, notReady)] }
    | _, _ => none

/-- A history of steps (monitor/loop.py:190-213, api.py:436-505). -/
def State.run : State → List Act → Option State
  | s, [] => some s
  | s, a :: as =>
    match s.step a with
    | some s' => State.run s' as
    | none => none

end Verif.Wait
