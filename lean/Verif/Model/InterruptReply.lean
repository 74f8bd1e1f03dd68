import Verif.Model.Wait

/-!
# Interrupted requests to the monitor

The root asks its monitor and receives the reply, always with the tag `OBJECT`: the number of executed tasks
(`/repo/unidist/core/backends/mpi/core/controller/garbage_collector.py` 116-131), a range of shared memory (`communication.py` 1054-1086), `wait`
(`controller/api.py` 475-492) and the end of the program (`api.py` 319-332). Models the branches of `monitor_loop` for these requests
(`monitor/loop.py` 197-235, 271-280) and signals whose handler raises (api.py:264-265, 588) before the reply of a call was received, or
after.

Requests are sent whole (see `Verif.Model.Interrupt`). The part of a `wait` that is decided locally is left out (see `Verif.Model.Wait`),
and so are other processes that ask the monitor, memory that is full, and the reports of the workers before `SHUTDOWN`.
-/
namespace Verif.InterruptReply
open Verif.Wait (Monitor)

/-- Requests of the root to the monitor (garbage_collector.py:123-127, communication.py:1054-1086, api.py:475-488, 319-326). -/
inductive Request
  | count
  | reserve (id size : Nat)
  | wait (ids : List Nat) (num : Int)
  | shutdown
deriving DecidableEq, Repr

/-- Replies of the monitor (monitor/loop.py:215-220, 226-235, 146-156, 276-280). -/
inductive Reply
  | count (n : Nat)
  | range (id first size : Nat) (isFirst : Bool)
  | partition (ready notReady : List Nat)
  | shutdown
deriving DecidableEq, Repr

/-- The monitor (monitor/loop.py:30-102, monitor/shared_memory_manager.py:40-60): executed tasks, reserved ranges (identity, first index, size),
the wait handler, the number of the call of the last `WAIT`, and whether it has left its loop. -/
structure Mon where
  tasks : Nat
  table : List (Nat × Nat × Nat)
  handler : Monitor
  waiter : Nat
  ended : Bool

/-- A call of the root that received a reply: the number of the call, its request, the number of the call to which the monitor replied, the
reply (communication.py:440-461). -/
structure Entry where
  call : Nat
  request : Request
  answers : Nat
  reply : Reply
deriving DecidableEq, Repr

/-- The number of calls so far, the call in progress, requests and replies under way, the monitor, the calls that received a reply
(communication.py:440-461, monitor/loop.py:190-280). The numbers of the calls are not in the messages. -/
structure State where
  next : Nat
  call : Option (Nat × Request)
  requests : List (Nat × Request)
  replies : List (Nat × Reply)
  mon : Mon
  log : List Entry

/-- At start (monitor/loop.py:30-102). -/
def State.init : State := ⟨0, none, [], [], ⟨0, [], Monitor.init, 0, false⟩, []⟩

/-- What can happen: the root sends a request; the monitor reads it; the monitor reads a `TASK_DONE`; the root receives a reply; a signal
arrives before the reply was received; a signal arrives after it was received and before it was used (api.py:264-265, 588). -/
inductive Act
  | call (r : Request)
  | request
  | report (ids : List (Option Nat))
  | reply
  | signal
  | late
deriving DecidableEq, Repr

/-- The replies to a `wait` (monitor/loop.py:146-156). -/
def partitions (k : Nat) (l : List (List Nat × List Nat)) : List (Nat × Reply) := l.map fun x => (k, .partition x.1 x.2)

/-- The monitor reads a request of call `k` (monitor/loop.py:204-235, 271-280); `place` gives the first index for a size. -/
def Mon.handle (place : List (Nat × Nat × Nat) → Nat → Nat) (m : Mon) (k : Nat) : Request → Mon × List (Nat × Reply)
  | .count => (m, [(k, .count m.tasks)])
  | .reserve id size =>
    match m.table.find? (·.1 = id) with
    | some e => (m, [(k, .range id e.2.1 e.2.2 false)])
    | none =>
      let first := place m.table size
      ({ m with table := m.table ++ [(id, first, size)] }, [(k, .range id first size true)])
  | .wait ids num =>
    let r := m.handler.waitRequest ids num
    ({ m with handler := r.1, waiter := k }, partitions k r.2)
  | .shutdown => ({ m with ended := true }, [(k, .shutdown)])

/-- One step (communication.py:440-461, monitor/loop.py:190-280); `none` if it is not possible. -/
def step (place : List (Nat × Nat × Nat) → Nat → Nat) (s : State) : Act → Option State
  | .call r =>
    if s.call.isSome then none
    else some { s with next := s.next + 1, call := some (s.next, r), requests := s.requests ++ [(s.next, r)] }
  | .request =>
    match s.mon.ended, s.requests with
    | false, (k, r) :: rest =>
      let x := s.mon.handle place k r
      some { s with mon := x.1, requests := rest, replies := s.replies ++ x.2 }
    | _, _ => none
  | .report ids =>
    if s.mon.ended then none
    else
      let x := s.mon.handler.taskDone ids
      some { s with
        mon := { s.mon with tasks := s.mon.tasks + 1, handler := x.1 }
        replies := s.replies ++ partitions s.mon.waiter x.2 }
  | .reply =>
    match s.call, s.replies with
    | some (n, r), (k, a) :: rest => some { s with call := none, replies := rest, log := s.log ++ [⟨n, r, k, a⟩] }
    | _, _ => none
  | .signal =>
    if s.call.isSome then some { s with call := none } else none
  | .late =>
    match s.call, s.replies with
    | some _, _ :: rest => some { s with call := none, replies := rest }
    | _, _ => none

/-- A history (communication.py:440-461, monitor/loop.py:190-280). -/
def run (place : List (Nat × Nat × Nat) → Nat → Nat) : State → List Act → Option State
  | s, [] => some s
  | s, a :: as => (step place s a).bind fun s' => run place s' as

end Verif.InterruptReply
