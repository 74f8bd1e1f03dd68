/-!
# How long an actor lives

Models what becomes of an actor and of the calls of its methods when the handles in the main process are dropped, on the
multiprocessing backend (`/repo/unidist/core/backends/pymp/core/actor.py` 35-148 and `pymp/core/process_manager.py` 30-60, 131-181) and on
the MPI backend (`/repo/unidist/core/backends/mpi/core/controller/actor.py` 36-200 and the branches `ACTOR_CREATE`, `ACTOR_EXECUTE` and
`CLEANUP` of `mpi/core/worker/loop.py` 176-208).

Simplifications: calls have no arguments and methods do not fail, the queue of a worker and the channel to it keep their order,
actors and calls are numbered in the order of creation, only the main process creates, calls and drops.
-/
namespace Verif.ActorLife

/-- What a reference of a call holds in the end: the value of the method, or an exception (process_manager.py:41-56). -/
inductive Outcome
  | value
  | exception
deriving DecidableEq, Repr

/-- A queued piece of work: a method call of an actor or a plain task, with the number of its reference
(process_manager.py:184-207, pymp/core/actor.py:40-74). -/
structure Job where
  actor : Option Nat
  number : Nat
deriving DecidableEq, Repr

/-! ## Multiprocessing -/

/-- The multiprocessing backend with `n` workers: which actor has grabbed a worker (process_manager.py:95-102, 131-149), queues, what the workers
run, which workers have ended, live handles, actors whose manager process runs (pymp/core/actor.py:104-109), numbers of actors and of
references created, the actor and worker of each, the results (process_manager.py:41-56). -/
structure Pymp where
  n : Nat
  grabbed : Nat → Bool
  queue : Nat → List Job
  running : Nat → Option Job
  ended : Nat → Bool
  live : List Nat
  servers : List Nat
  place : Nat → Nat
  actors : Nat
  jobs : Nat
  result : Nat → Option Outcome

/-- The backend at start with `n` workers (process_manager.py:90-102). -/
def Pymp.init (n : Nat) : Pymp :=
  ⟨n, fun _ => false, fun _ => [], fun _ => none, fun _ => false, [], [], fun _ => 0, 0, 0, fun _ => none⟩

/-- What happens: the program creates an actor on the free worker `w` (pymp/core/actor.py:99-110); it calls a method
(pymp/core/actor.py:40-74); it submits a task to the free worker `w` (process_manager.py:162-181); it drops the handle of an actor
(pymp/core/actor.py:141-148); worker `w` takes its next job from the queue (process_manager.py:37-39); it finishes the job
(process_manager.py:41-58). -/
inductive POp
  | create (w : Nat)
  | call (a : Nat)
  | task (w : Nat)
  | drop (a : Nat)
  | take (w : Nat)
  | finish (w : Nat)
deriving DecidableEq, Repr

/-- Update of a function at one place (process_manager.py:95-102). -/
def setAt {α : Type} (f : Nat → α) (k : Nat) (v : α) : Nat → α := fun i => if i = k then v else f i

/-- What the reference of a finished job gets (process_manager.py:41-56): a call that is being executed when the manager process of its actor ends
raises, because the connection to that process is closed. -/
def Pymp.outcome (s : Pymp) (j : Job) : Outcome :=
  match j.actor with
  | none => .value
  | some a => if a ∈ s.servers then .value else .exception

/-- One step; `none` if it is not possible.

The proxy `_cls_obj` of the handle is the only thing that refers to the manager (pymp/core/actor.py:106-109), so the manager process is shut
down when the handle is dropped. A queued call holds a pickled proxy, which keeps nothing alive and can only be unpickled while the manager
process runs: otherwise `pkl.loads` (process_manager.py:39, outside of the `try`) raises and the worker ends. -/
def Pymp.step (s : Pymp) : POp → Option Pymp
  | .create w =>
    if w < s.n ∧ s.grabbed w = false then
      some { s with
        grabbed := setAt s.grabbed w true, live := s.actors :: s.live, servers := s.actors :: s.servers
        place := setAt s.place s.actors w, actors := s.actors + 1 }
    else none
  | .call a =>
    if a ∈ s.live then
      some { s with
        queue := setAt s.queue (s.place a) (s.queue (s.place a) ++ [⟨some a, s.jobs⟩]), jobs := s.jobs + 1 }
    else none
  | .task w =>
    if w < s.n ∧ s.grabbed w = false then
      some { s with queue := setAt s.queue w (s.queue w ++ [⟨none, s.jobs⟩]), jobs := s.jobs + 1 }
    else none
  | .drop a =>
    if a ∈ s.live then
      some { s with
        live := s.live.filter (· ≠ a), servers := s.servers.filter (· ≠ a), grabbed := setAt s.grabbed (s.place a) false }
    else none
  | .take w =>
    if s.ended w ∨ s.running w ≠ none then none
    else match s.queue w with
      | [] => none
      | j :: l =>
        match j.actor with
        | none => some { s with queue := setAt s.queue w l, running := setAt s.running w (some j) }
        | some a =>
          if a ∈ s.servers then some { s with queue := setAt s.queue w l, running := setAt s.running w (some j) }
          else some { s with queue := setAt s.queue w l, ended := setAt s.ended w true }
  | .finish w =>
    match s.running w with
    | none => none
    | some j => some { s with running := setAt s.running w none, result := setAt s.result j.number (some (s.outcome j)) }

/-- A history of steps (process_manager.py:30-181, pymp/core/actor.py:35-148). -/
def Pymp.run : Pymp → List POp → Option Pymp
  | s, [] => some s
  | s, o :: os =>
    match s.step o with
    | some s' => Pymp.run s' os
    | none => none

/-! ## MPI -/

/-- Messages to a worker (worker/loop.py:176-208): `ACTOR_CREATE`, `ACTOR_EXECUTE` and `CLEANUP`. -/
inductive Msg
  | create (a : Nat)
  | call (a number : Nat)
  | clean (ids : List Nat)
deriving DecidableEq, Repr

/-- The MPI backend: messages under way to each worker, the keys of `actor_map` there (worker/loop.py:39, 183), its strong references to
handler IDs (local_object_store.py:53-71), workers ended by an error, live handles, reserved ranks (controller/common.py:77-110), the workers of
the actors, numbers of actors and calls, dropped handler IDs not broadcast yet (garbage_collector.py:81-92) and results. -/
structure Mpi where
  workers : List Nat
  chan : Nat → List Msg
  map : Nat → List Nat
  ended : Nat → Bool
  live : List Nat
  reserved : List Nat
  place : Nat → Nat
  actors : Nat
  calls : Nat
  queue : List Nat
  result : Nat → Option Outcome

/-- The backend at start (worker/loop.py:39, controller/common.py:26-38). -/
def Mpi.init (workers : List Nat) : Mpi :=
  ⟨workers, fun _ => [], fun _ => [], fun _ => false, [], [], fun _ => 0, 0, 0, [], fun _ => none⟩

/-- What happens: the program creates an actor on worker `w`, which is not reserved (controller/actor.py:91-128); it calls a method (controller/actor.py:36-64); it
drops the handle (controller/actor.py:196-200, mpi/core/common.py:329-334); a cleanup list is broadcast (garbage_collector.py:47-69); worker `w` receives
its next message (worker/loop.py:103-208). -/
inductive MOp
  | create (w : Nat)
  | call (a : Nat)
  | drop (a : Nat)
  | cleanup
  | deliver (w : Nat)
deriving DecidableEq, Repr

/-- One step; `none` if it is not possible. The handler ID is a key of `actor_map`, which nothing ever removes (worker/loop.py:39, 183, 192):
`CLEANUP` only drops the strong reference of the local store (203-208), so it changes nothing here. -/
def Mpi.step (s : Mpi) : MOp → Option Mpi
  | .create w =>
    if w ∈ s.workers ∧ w ∉ s.reserved then
      some { s with
        chan := setAt s.chan w (s.chan w ++ [.create s.actors]), live := s.actors :: s.live, reserved := w :: s.reserved
        place := setAt s.place s.actors w, actors := s.actors + 1 }
    else none
  | .call a =>
    if a ∈ s.live then
      some { s with chan := setAt s.chan (s.place a) (s.chan (s.place a) ++ [.call a s.calls]), calls := s.calls + 1 }
    else none
  | .drop a =>
    if a ∈ s.live then
      some { s with live := s.live.filter (· ≠ a), reserved := s.reserved.erase (s.place a), queue := s.queue ++ [a] }
    else none
  | .cleanup =>
    some { s with chan := fun w => if w ∈ s.workers then s.chan w ++ [.clean s.queue] else s.chan w, queue := [] }
  | .deliver w =>
    if s.ended w then none
    else match s.chan w with
      | [] => none
      | .create a :: l => some { s with chan := setAt s.chan w l, map := setAt s.map w (a :: s.map w) }
      | .call a c :: l =>
        if a ∈ s.map w then some { s with chan := setAt s.chan w l, result := setAt s.result c (some .value) }
        else some { s with chan := setAt s.chan w l, ended := setAt s.ended w true }
      | .clean _ :: l => some { s with chan := setAt s.chan w l }

/-- A history of steps (controller/actor.py:36-200, worker/loop.py:103-208). -/
def Mpi.run : Mpi → List MOp → Option Mpi
  | s, [] => some s
  | s, o :: os =>
    match s.step o with
    | some s' => Mpi.run s' os
    | none => none

end Verif.ActorLife
