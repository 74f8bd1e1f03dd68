/-!
# Tasks that are unfinished when the program ends

`shutdown` of the MPI backend, also called at the exit of the interpreter, sends `CANCEL` to every worker
(`/repo/unidist/core/backends/mpi/core/controller/api.py` 304-340); a worker that reads it clears its pending tasks and takes no further ones
(`worker/loop.py` 113-122, 210-222). On the multiprocessing backend the workers are daemons, which end with the program
(`/repo/unidist/core/backends/pymp/core/process_manager.py` 31, 35-58). Models tasks whose results nobody gets, from their submission to the end.

All messages of the root are sent from the beginning, as a worker reads those of one sender in order. Data requests are left out: the result of a task
may arrive at a worker that waits for it at any time after its execution. Tasks do not fail, return one value and are no coroutines; actors are left out.
-/
namespace Verif.LastTasks

/-- The number of workers, the tasks `0 … num-1` in order of their submission, the tasks on whose results they depend, and the workers that they are
sent to (controller/api.py:500-580). -/
structure Prog where
  workers : Nat
  num : Nat
  deps : Nat → List Nat
  place : Nat → Nat

/-- A message of the root to a worker: `EXECUTE` or `CANCEL` (worker/loop.py:113, 210). -/
inductive Msg
  | exec (i : Nat)
  | cancel
deriving DecidableEq, Repr

/-- The tasks of a worker in order of submission (controller/api.py:540-575). -/
def Prog.tasks (p : Prog) (w : Nat) : List Nat := (List.range p.num).filter fun i => p.place i = w

/-- A worker: messages of the root that it has not read, pending tasks, objects in its store, and whether it has read `CANCEL`
(worker/loop.py:84-103, worker/task_store.py:36-60). -/
structure Worker where
  inbox : List Msg
  pending : List Nat
  store : List Nat
  cancelled : Bool
deriving DecidableEq, Repr

/-- The workers and the tasks that were executed, in order (worker/task_store.py:326-345). -/
structure State where
  workers : Nat → Worker
  done : List Nat

/-- Everything was sent (controller/api.py:304-322, 555-575). -/
def State.init (p : Prog) : State := ⟨fun w => ⟨(p.tasks w).map .exec ++ [.cancel], [], [], false⟩, []⟩

/-- Worker `w` reads a message of the root, or the result of task `j` arrives at it (worker/loop.py:105-170). -/
inductive Act
  | read (w : Nat)
  | data (w j : Nat)
deriving DecidableEq, Repr

/-- Whether a task can be executed (worker/task_store.py:168-206, 427-454). -/
def Prog.ready (p : Prog) (store : List Nat) (i : Nat) : Bool := (p.deps i).all fun j => decide (j ∈ store)

/-- `check_pending_tasks`: the tasks left, the store and the executed tasks (worker/task_store.py:82-97). -/
def Prog.scan (p : Prog) : List Nat → List Nat → List Nat → List Nat × List Nat × List Nat
  | [], store, done => ([], store, done)
  | i :: l, store, done =>
    if p.ready store i then p.scan l (store ++ [i]) (done ++ [i])
    else
      let r := p.scan l store done
      (i :: r.1, r.2)

/-- Replaces one worker (worker/loop.py:105-170). -/
def State.upd (s : State) (w : Nat) (x : Worker) (done : List Nat) : State := ⟨fun v => if v = w then x else s.workers v, done⟩

/-- One step (worker/loop.py:113-122, 132-146, 210-222); `none` if it is not possible. -/
def State.step (p : Prog) (s : State) : Act → Option State
  | .read w =>
    let x := s.workers w
    match x.inbox with
    | [] => none
    | .cancel :: rest => some (s.upd w { x with inbox := rest, pending := [], cancelled := true } s.done)
    | .exec i :: rest =>
      if x.cancelled then some (s.upd w { x with inbox := rest } s.done)
      else if p.ready x.store i then
        let r := p.scan x.pending (x.store ++ [i]) (s.done ++ [i])
        some (s.upd w { x with inbox := rest, pending := r.1, store := r.2.1 } r.2.2)
      else some (s.upd w { x with inbox := rest, pending := x.pending ++ [i] } s.done)
  | .data w j =>
    let x := s.workers w
    if j ∈ s.done ∧ j ∉ x.store ∧ (∃ i ∈ x.pending, j ∈ p.deps i) then
      let r := p.scan x.pending (x.store ++ [j]) s.done
      some (s.upd w { x with pending := r.1, store := r.2.1 } r.2.2)
    else none

/-- A history (worker/loop.py:103-225). -/
def State.run (p : Prog) : State → List Act → Option State
  | s, [] => some s
  | s, a :: as => (s.step p a).bind fun s' => s'.run p as

/-- All workers have read `CANCEL` (worker/loop.py:210-222). -/
def State.ended (p : Prog) (s : State) : Prop := ∀ w < p.workers, (s.workers w).inbox = []

/-- The multiprocessing backend: the queues of the workers, the executed tasks, and whether the program has ended (process_manager.py:31, 35-58). -/
structure Pymp where
  queues : Nat → List Nat
  done : List Nat
  ended : Bool

/-- Everything is in the queues (process_manager.py:161-182). -/
def Pymp.init (p : Prog) : Pymp := ⟨p.tasks, [], false⟩

/-- A worker executes its next task, or the program ends (process_manager.py:31, 35-58). -/
inductive PympAct
  | exec (w : Nat)
  | exit
deriving DecidableEq, Repr

/-- One step (process_manager.py:31, 35-58). A task takes its arguments from the store and waits for them there. -/
def Pymp.step (p : Prog) (s : Pymp) : PympAct → Option Pymp
  | .exec w =>
    match s.ended, s.queues w with
    | false, i :: rest =>
      if (p.deps i).all fun j => decide (j ∈ s.done) then
        some { s with queues := fun v => if v = w then rest else s.queues v, done := s.done ++ [i] }
      else none
    | _, _ => none
  | .exit => if s.ended then none else some { s with ended := true }

/-- A history (process_manager.py:35-58). -/
def Pymp.run (p : Prog) : Pymp → List PympAct → Option Pymp
  | s, [] => some s
  | s, a :: as => (s.step p a).bind fun s' => s'.run p as

end Verif.LastTasks
