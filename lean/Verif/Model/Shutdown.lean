/-!
# Shutdown of the MPI backend

Models `shutdown` (`/repo/unidist/core/backends/mpi/core/controller/api.py` 305-340), the branches `CANCEL` and `SHUTDOWN`
of the worker loop (`worker/loop.py` 210-229) and the branches `READY_TO_SHUTDOWN` and `SHUTDOWN` of the monitor loop
(`monitor/loop.py` 261-287). All other traffic is represented by `data` messages without effect. Messages may be received
in any order; this includes the order of MPI, where messages of one sender keep their order.
-/
namespace Verif.Shutdown

/-- Ranks by role, and the rank `get_monitor_by_worker_rank(ROOT)` returns in every process (communication.py:157-179,
238-261). The root is rank 0. -/
structure Cfg where
  workers : List Nat
  monitors : List Nat
  rootMonitor : Nat
deriving DecidableEq, Repr

/-- Kinds of messages: the operations `CANCEL`, `READY_TO_SHUTDOWN` and `SHUTDOWN` (mpi/core/common.py:30-89), the object `SHUTDOWN`
for the root (monitor/loop.py:279-283) and anything else. A synchronous message completes at the sender only when it is
received (large MPI messages), another one completes at once. -/
inductive Kind
  | cancel
  | ready
  | stop
  | stopObject
  | data (sync : Bool)
deriving DecidableEq, Repr

/-- A message under way (communication.py:277-347). -/
structure Msg where
  src : Nat
  dst : Nat
  kind : Kind
deriving DecidableEq, Repr

/-- Where a worker or monitor is: in its loop; in `async_operations.finish` (worker/loop.py:215); in its loop after the ready
signal was posted (221); after the loop (223-227, monitor/loop.py:264-268, 284-287); dead by the `ValueError` for an
unsupported operation (worker/loop.py:229, monitor/loop.py:269). -/
inductive Phase
  | running
  | finishing
  | ready
  | left
  | crashed
deriving DecidableEq, Repr

/-- Where the root is: outside `shutdown` with the flag `is_mpi_shutdown` not set; in its loop over the workers (api.py:319-327) with the remaining ones; in
`mpi_recv_object` (329-332); with the flag set (340). -/
inductive Root
  | idle
  | sending (rest : List Nat)
  | waiting
  | done
deriving DecidableEq, Repr

/-- All processes, the ranks collected by each monitor in `workers_ready_to_shutdown` (monitor/loop.py:186, 261), the
messages under way and, for reference, the workers to which `CANCEL` was sent. -/
structure State where
  root : Root
  worker : Nat → Phase
  monitor : Nat → Phase
  readyAt : Nat → List Nat
  net : List Msg
  cancelled : List Nat

/-- Before shutdown, without traffic (api.py:60-62, worker/loop.py:102, monitor/loop.py:186-187). -/
def State.init : State := ⟨.idle, fun _ => .running, fun _ => .running, fun _ => [], [], []⟩

/-- What can happen: the root calls `shutdown`; a signal arrives during the call (the handler `_termination_handler`,
api.py:588, takes no arguments, so its call with signal number and frame raises a `TypeError` out of `shutdown`; at exit
`shutdown` is called again, 263); the root sends the next `CANCEL` or goes on to receive; a process in normal
operation sends something; a coroutine task finishing in a worker that already posted its ready signal sends `TASK_DONE`
(task_store.py:304-316; `CANCEL` does not cancel `background_tasks`); a message is received; a worker's `finish` returns. -/
inductive Act
  | shutdown
  | interrupt
  | cancelNext
  | send (src dst : Nat) (sync : Bool)
  | coroutine (w : Nat) (sync : Bool)
  | deliver (m : Msg)
  | finished (w : Nat)
deriving DecidableEq, Repr

/-- The messages sent by a monitor that has all ready signals (monitor/loop.py:272-283). -/
def farewell (c : Cfg) (r : Nat) : List Msg :=
  (((c.workers ++ c.monitors).filter (· ≠ r)).map fun d => ⟨r, d, .stop⟩) ++ [⟨r, 0, .stopObject⟩]

/-- Replacement of one entry of a family indexed by ranks (the processes have separate states) (mpi/core/communication.py:115-179). -/
def upd {α : Type} (f : Nat → α) (r : Nat) (v : α) : Nat → α := fun q => if q = r then v else f q

/-- The root receives a message (api.py:329-334): it only receives the object, and only from rank 1
(`MPIRank.MONITOR`, communication.py:268). -/
def recvRoot (s : State) (m : Msg) : Option State :=
  if s.root = .waiting ∧ m.kind = .stopObject ∧ m.src = 1 then some { s with root := .done, net := s.net.erase m } else none

/-- A monitor receives a message (monitor/loop.py:189-287). -/
def recvMonitor (c : Cfg) (s : State) (m : Msg) : Option State :=
  let net := s.net.erase m
  if s.monitor m.dst = .running then
    match m.kind with
    | .ready =>
      let l := s.readyAt m.dst ++ [m.src]
      if l.length = c.workers.length then
        some { s with monitor := upd s.monitor m.dst .left, readyAt := upd s.readyAt m.dst l, net := net ++ farewell c m.dst }
      else some { s with readyAt := upd s.readyAt m.dst l, net := net }
    | .stop => some { s with monitor := upd s.monitor m.dst .left, net := net }
    | .data _ => some { s with net := net }
    | .cancel => some { s with monitor := upd s.monitor m.dst .crashed, net := net }
    | .stopObject => none
  else none

/-- A worker receives a message (worker/loop.py:103-233); in `finish` and after the loop it receives nothing. -/
def recvWorker (s : State) (m : Msg) : Option State :=
  let net := s.net.erase m
  match s.worker m.dst, m.kind with
  | .running, .data _ => some { s with net := net }
  | .ready, .data _ => some { s with net := net }
  | .running, .cancel => some { s with worker := upd s.worker m.dst .finishing, net := net }
  | .ready, .cancel => some { s with worker := upd s.worker m.dst .finishing, net := net }
  | .ready, .stop => some { s with worker := upd s.worker m.dst .left, net := net }
  | .running, .stop => some { s with worker := upd s.worker m.dst .crashed, net := net }
  | .running, .ready => some { s with worker := upd s.worker m.dst .crashed, net := net }
  | .ready, .ready => some { s with worker := upd s.worker m.dst .crashed, net := net }
  | _, _ => none

/-- One step (api.py:316-340, worker/loop.py:103-233, monitor/loop.py:189-287); `none` if it is not possible. -/
def step (c : Cfg) (s : State) : Act → Option State
  | .shutdown =>
    match s.root with
    | .idle => some { s with root := .sending c.workers }
    | .done => some s
    | _ => none
  | .interrupt =>
    match s.root with
    | .sending _ => some { s with root := .idle }
    | .waiting => some { s with root := .idle }
    | _ => none
  | .cancelNext =>
    match s.root with
    | .sending (w :: rest) => some { s with root := .sending rest, net := s.net ++ [⟨0, w, .cancel⟩], cancelled := s.cancelled ++ [w] }
    | .sending [] => some { s with root := .waiting }
    | _ => none
  | .send src dst sync =>
    if ((src ∈ c.workers ∧ s.worker src = .running) ∨ (src = 0 ∧ s.root = .idle)) ∧ dst ∈ c.workers ++ c.monitors then
      some { s with net := s.net ++ [⟨src, dst, .data sync⟩] }
    else none
  | .coroutine w sync =>
    if w ∈ c.workers ∧ s.worker w = .ready then some { s with net := s.net ++ [⟨w, c.rootMonitor, .data sync⟩] } else none
  | .deliver m =>
    if m ∈ s.net then
      if m.dst = 0 then recvRoot s m
      else if m.dst ∈ c.monitors then recvMonitor c s m
      else recvWorker s m
    else none
  | .finished w =>
    if w ∈ c.workers ∧ s.worker w = .finishing ∧ ∀ m ∈ s.net, ¬(m.src = w ∧ m.kind = .data true) then
      some { s with worker := upd s.worker w .ready, net := s.net ++ [⟨w, c.rootMonitor, .ready⟩] }
    else none

/-- A history of steps, `none` if one of them is not possible (as in the files above) (controller/api.py:305-340). -/
def run (c : Cfg) : State → List Act → Option State
  | s, [] => some s
  | s, a :: l => (step c s a).bind fun s' => run c s' l

end Verif.Shutdown
