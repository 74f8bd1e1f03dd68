/-!
# The garbage collector of data IDs and the task counter of the monitor

Models `/repo/unidist/core/backends/mpi/core/controller/garbage_collector.py` and `TaskCounter`
(`/repo/unidist/core/backends/mpi/core/monitor/loop.py` 32-53), `submit` (controller/api.py:508-580) and
`ActorMethod.__call__` (controller/actor.py:36-64) as far as they concern it. Clock readings are integers in nanoseconds,
chosen by the environment. References are pairs of owner rank and number, as in the cleanup list.
-/
namespace Verif.GC

/-- A reference as kept in the cleanup list (garbage_collector.py:40, mpi/core/common.py:334). -/
abbrev Id := Nat × Nat

/-- State of a `GarbageCollector` (garbage_collector.py:33-45): cleanup counter, time of the last cleanup, cleanup list and
number of submitted tasks. The thresholds are constants of the code. -/
structure Collector where
  counter : Nat
  timestamp : Int
  queue : List Id
  submitted : Nat
deriving DecidableEq, Repr

/-- `__init__` (garbage_collector.py:33-45). -/
def Collector.init : Collector := ⟨1, 0, [], 0⟩

/-- `increment_task_counter` (garbage_collector.py:71-79). -/
def Collector.increment (c : Collector) : Collector := { c with submitted := c.submitted + 1 }

/-- `collect` (garbage_collector.py:81-92). -/
def Collector.collect (c : Collector) (id : Id) : Collector := { c with queue := c.queue ++ [id] }

/-- What one call of `regular_cleanup` sees: the first clock reading, the number of executed tasks the monitor answers, the
references finalized by the interpreter while the list is being sent (`MpiDataID.__del__`, mpi/core/common.py:329-334, runs at any
allocation when a reference is part of a cycle), and the clock reading afterwards. -/
structure Attempt where
  now : Int
  late : List Id
  after : Int
deriving DecidableEq, Repr

/-- `regular_cleanup` (garbage_collector.py:94-144): the new state and the list sent, if any. The list is serialized before
the sends (line 59) and cleared after them (line 140); references finalized in between are in `late`. References finalized
elsewhere are separate calls of `collect`. `async_operations.check` is modelled in `Verif.Model.AsyncOperations`. -/
def Collector.cleanup (c : Collector) (executed : Nat) (a : Attempt) : Collector × Option (List Id) :=
  if c.queue.length > 10 then
    if c.counter % 5 = 0 then
      if a.now - c.timestamp > 1000000000 then
        if executed = c.submitted then
          let sent := c.queue
          let c := a.late.foldl Collector.collect c
          ({ c with queue := [], counter := c.counter + 1, timestamp := a.after }, some sent)
        else (c, none)
      else (c, none)
    else ({ c with counter := c.counter + 1 }, none)
  else (c, none)

/-- The receivers of a cleanup list (garbage_collector.py:61-69). -/
def receivers (workers monitors : List Nat) (self : Nat) : List Nat := (workers ++ monitors).filter (· ≠ self)

/-- Work given to a worker: a task of `submit` or a method of an actor (task_store.py:208-404 runs both), whether it is a
coroutine function, and the process that submitted it. -/
structure Job where
  number : Nat
  process : Nat
  method : Bool
deriving DecidableEq, Repr

/-- All processes: their collectors, the unfinished work, `TASK_DONE` messages under way to the root monitor, its counter
(loop.py:36), the number of jobs submitted so far and the lists broadcast so far with their senders. -/
structure State where
  collectors : Nat → Collector
  pending : List Job
  flight : Nat
  executed : Nat
  jobs : Nat
  sent : List (Nat × List Id)

/-- Start (garbage_collector.py:33-45, loop.py:35-36). -/
def State.init : State := ⟨fun _ => Collector.init, [], 0, 0, 0, []⟩

/-- What happens: process `p` submits a task or calls an actor method; a job finishes and its `TASK_DONE` is sent
(task_store.py:392-404), or, if it is a coroutine that raised or has no results, is not sent (`completed_data_ids` is a local variable of
`execute`, assigned only if the coroutine returned and has results, task_store.py:257-316, 302); the monitor receives a `TASK_DONE`
(loop.py:197-198); a reference of process `p` is finalized; process `p` reaches `regular_cleanup` in `get`, `wait` or
`submit` (api.py:431, 503, 534). -/
inductive Act
  | task (p : Nat)
  | method (p : Nat)
  | finish (number : Nat)
  | failCoroutine (number : Nat)
  | report
  | drop (p : Nat) (id : Id)
  | cleanup (p : Nat) (a : Attempt)
deriving DecidableEq, Repr

/-- Replacement of one collector (each process has its own, garbage_collector.py:147). -/
def State.setCollector (s : State) (p : Nat) (c : Collector) : State :=
  { s with collectors := fun q => if q = p then c else s.collectors q }

/-- One step (api.py:534-578, actor.py:36-64, task_store.py:392-404, loop.py:197-220, garbage_collector.py:81-144). -/
def State.step (s : State) : Act → State
  | .task p =>
    { s.setCollector p (s.collectors p).increment with pending := s.pending ++ [⟨s.jobs, p, false⟩], jobs := s.jobs + 1 }
  | .method p => { s with pending := s.pending ++ [⟨s.jobs, p, true⟩], jobs := s.jobs + 1 }
  | .finish n =>
    if s.pending.any (·.number = n) then { s with pending := s.pending.filter (·.number ≠ n), flight := s.flight + 1 } else s
  | .failCoroutine n => { s with pending := s.pending.filter (·.number ≠ n) }
  | .report => if s.flight = 0 then s else { s with flight := s.flight - 1, executed := s.executed + 1 }
  | .drop p id => s.setCollector p ((s.collectors p).collect id)
  | .cleanup p a =>
    let r := (s.collectors p).cleanup s.executed a
    match r.2 with
    | none => s.setCollector p r.1
    | some ids => { s.setCollector p r.1 with sent := s.sent ++ [(p, ids)] }

/-- A history of steps (as in the files above) (controller/garbage_collector.py:47-144). -/
def State.run (s : State) (acts : List Act) : State := acts.foldl State.step s

end Verif.GC
