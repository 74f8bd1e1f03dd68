import Verif.Model.ShmHistory
import Verif.Model.Wait

/-!
# The loop of a monitor

Models `monitor_loop` of `/repo/unidist/core/backends/mpi/core/monitor/loop.py` (160-287) with `TaskCounter` (32-53),
`DataIDTracker` and `WaitHandler` (56-159, model `Verif.Wait.Monitor`) and
`/repo/unidist/core/backends/mpi/core/monitor/shared_memory_manager.py` (106-246, model `Verif.Shm.Host`). The loop has no
handler: an exception leaves it and ends the monitor. Messages between processes arrive; the copy of a requested object is
one message; the end of MPI is not modelled.
-/
namespace Verif.Monitor
open Verif.Shm

/-- What the monitor knows from the start: whether shared memory is supported (shared_memory_manager.py:112-113), its rank,
the ranks of the workers and of the monitors (monitor/loop.py:262, 272-273). -/
structure Config where
  shared : Bool
  rank : Nat
  workers : List Nat
  monitors : List Nat
deriving DecidableEq, Repr

/-- What reaches a monitor: the operations of `monitor_loop` with their data (monitor/loop.py:188-269). `cleanup` carries the
result of the collective over all monitors, as in `HostOp`; `other` is an operation that the loop does not know (268-269);
`poke` is not a message: some process writes a word of the shared metadata (shared_object_store.py:302-308, 338-345, 369-377). -/
inductive Req where
  | taskDone (ids : List (Option Nat))
  | wait (ids : List Nat) (num : Int)
  | taskCount
  | reserve (id : DataId) (len : Nat)
  | fetch (id : Option DataId)
  | cleanup (l : List DataId) (refs : List Nat)
  | ready
  | shutdown
  | other
  | poke (i : Nat) (v : Int)
deriving DecidableEq, Repr

/-- What a monitor sends: the answer to `wait` (monitor/loop.py:146-155), the number of tasks (214-220), a reservation
(230-234), the bytes of an object given by their range (246-253), the signal to end (271-283). -/
inductive Msg where
  | waited (ready notReady : List Nat)
  | count (n : Nat)
  | reserved (r : Resv) (first : Bool)
  | bytes (first last : Nat)
  | shutdown
deriving DecidableEq, Repr

/-- Why the loop was left with an exception (monitor/loop.py:240-244, 269, shared_memory_manager.py:148-151, 178-181,
shared_object_store.py:723). -/
inductive Fault where
  | notEnabled
  | memory
  | slots
  | noneId
  | unknownId
  | badSlot
  | unsupported
deriving DecidableEq, Repr

/-- The variables of the loop (monitor/loop.py:173-178, 186-187): memory manager with the metadata words, wait handler with the
completed references, number of finished tasks, ranks ready to end. -/
structure State where
  host : Host
  wait : Verif.Wait.Monitor
  tasks : Nat
  readyRanks : List Nat

/-- The loop runs, was left as intended, or was left by an exception (monitor/loop.py:188-287). -/
inductive Phase where
  | up (s : State)
  | left
  | raised (f : Fault)

/-- Start of the loop (monitor/loop.py:173-187, 35-36, 64, 98-102). -/
def State.init (memLen svcLen : Nat) : State :=
  { host := Host.init memLen svcLen, wait := Verif.Wait.Monitor.init, tasks := 0, readyRanks := [] }

/-- The exception of the manager as the fault of the loop (shared_memory_manager.py:178-181, shared_object_store.py:723). -/
def faultOf : Err → Fault
  | .overflowMemory => .memory
  | .overflowService => .slots
  | .unexpectedDataId => .badSlot

/-- The answers of the wait handler go to the main process, rank 0 (monitor/loop.py:146-155). -/
def waitMsgs (l : List (List Nat × List Nat)) : List (Nat × Msg) := l.map fun p => (0, .waited p.1 p.2)

/-- One round of the loop (monitor/loop.py:188-287): the next phase and the messages with their receivers. The test of
`shutdown_workers` (271) is part of `ready`: only that branch sets the variable, and the loop ends as soon as it is true. -/
def State.serve (c : Config) (s : State) (src : Nat) : Req → Phase × List (Nat × Msg)
  | .taskDone ids =>
    let r := s.wait.taskDone ids
    (.up { s with tasks := s.tasks + 1, wait := r.1 }, waitMsgs r.2)
  | .wait ids num =>
    let r := s.wait.waitRequest ids num
    (.up { s with wait := r.1 }, waitMsgs r.2)
  | .taskCount => (.up s, [(src, .count s.tasks)])
  | .reserve id len =>
    if c.shared then
      match s.host.mgr.reserve id len with
      | (.ok (r, first), m) => (.up { s with host := { s.host with mgr := m } }, [(src, .reserved r first)])
      | (.error e, _) => (.raised (faultOf e), [])
    else (.raised .notEnabled, [])
  | .fetch none => (.raised .noneId, [])
  | .fetch (some id) =>
    if c.shared then
      match s.host.mgr.get id with
      | some r => (.up s, [(src, .bytes r.first r.last)])
      | none => (.raised .unknownId, [])
    else (.raised .notEnabled, [])
  | .cleanup l refs =>
    if c.shared then
      match s.host.clear l refs with
      | .ok h => (.up { s with host := h }, [])
      | .error e => (.raised (faultOf e), [])
    else (.up s, [])
  | .ready =>
    let rs := s.readyRanks ++ [src]
    if rs.length = c.workers.length then
      (.left, (((c.workers ++ c.monitors).filter fun r => r ≠ c.rank).map fun r => (r, .shutdown)) ++ [(0, .shutdown)])
    else (.up { s with readyRanks := rs }, [])
  | .shutdown => (.left, [])
  | .other => (.raised .unsupported, [])
  | .poke i v => (.up { s with host := { s.host with words := upd s.host.words i v } }, [])

/-- One event; a monitor whose loop was left does not receive anything (monitor/loop.py:188-192). -/
def Phase.step (c : Config) (p : Phase) (q : Nat × Req) : Phase × List (Nat × Msg) :=
  match p with
  | .up s => s.serve c q.1 q.2
  | .left => (.left, [])
  | .raised f => (.raised f, [])

/-- A history of events with everything the monitor sent (monitor/loop.py:188-287). -/
def Phase.run (c : Config) : Phase → List (Nat × Req) → Phase × List (Nat × Msg)
  | p, [] => (p, [])
  | p, q :: qs =>
    let r := p.step c q
    let t := r.1.run c qs
    (t.1, r.2 ++ t.2)

end Verif.Monitor
