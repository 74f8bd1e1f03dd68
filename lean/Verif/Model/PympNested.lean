/-!
# Remote calls inside tasks and methods on the multiprocessing backend

A remote call asks `ProcessManager.get_instance()` of the process in which it is made (`/repo/unidist/core/backends/pymp/core/api.py` 112-149).
The workers are forked by the constructor of the only instance, before it is assigned (`pymp/core/process_manager.py` 90-115), so a call inside a
remote function makes an instance of its own, whose first process cannot be started, because the workers are daemons (31). A method of an actor runs
in the process of its manager, which is forked when the actor is created, before its worker is grabbed (`pymp/core/actor.py` 105-110). That process has
a copy of the instance with the state of that moment.

Models the main process, the workers and the processes of the actors under the start method `fork`. Functions called by methods make no calls; arguments
are not references; functions do not fail for other reasons; actors are made by the main process and are not dropped.
-/
namespace Verif.PympNested

/-- An instance of `ProcessManager`: `grabbed_workers` and `_worker_id` (process_manager.py:90-102). -/
structure Pool where
  grabbed : List Bool
  next : Nat
deriving DecidableEq, Repr

/-- The loop of `submit`: at most `fuel` further workers are looked at, from the counter on; the worker found and the new counter
(process_manager.py:117-129, 162-181). -/
def seek (grabbed : List Bool) : Nat → Nat → Option (Nat × Nat)
  | 0, _ => none
  | fuel + 1, i =>
    let i' := if i + 1 = grabbed.length then 0 else i + 1
    if grabbed[i]? = some false then some (i, i') else seek grabbed fuel i'

/-- `submit` (process_manager.py:162-181): the worker and the new state; `none` stands for `RuntimeError`. -/
def Pool.submit (p : Pool) : Option (Nat × Pool) := (seek p.grabbed p.grabbed.length p.next).map fun r => (r.1, { p with next := r.2 })

/-- `grab_worker` (process_manager.py:131-149): the first free worker. -/
def Pool.grab (p : Pool) : Option (Nat × Pool) :=
  if false ∈ p.grabbed then some (p.grabbed.idxOf false, { p with grabbed := p.grabbed.set (p.grabbed.idxOf false) true }) else none

/-- What a worker has to execute: a function without remote calls, a function with one, or a method of actor `a` with the remote calls it still makes,
each with whether it gets the result, and the call for whose result it waits (process_manager.py:184-229, pymp/core/actor.py:69-72). -/
inductive Job
  | plain
  | nested
  | method (a : Nat) (body : List Bool) (waits : Option Nat)
deriving DecidableEq, Repr

/-- The queues of the workers, whose heads are being executed, with a number for each call; the instance of the main process; the workers of the
actors and the instances in their processes; the finished calls, with whether they succeeded; the number of calls so far
(process_manager.py:35-59, pymp/core/actor.py:99-110). -/
structure State where
  queues : Nat → List (Nat × Job)
  main : Pool
  actors : List (Nat × Pool)
  done : List (Nat × Bool)
  next : Nat

/-- `n` free workers (process_manager.py:90-102). -/
def State.init (n : Nat) : State := ⟨fun _ => [], ⟨List.replicate n false, 0⟩, [], [], 0⟩

/-- The main process creates an actor, calls a function without or with remote calls inside, calls a method; worker `w` goes on
(pymp/core/actor.py:40-74, 99-110, pymp/core/api.py:112-149, process_manager.py:35-59). -/
inductive Act
  | create
  | call (nested : Bool)
  | method (a : Nat) (body : List Bool)
  | work (w : Nat)
deriving DecidableEq, Repr

/-- `add_task` (process_manager.py:61-70). -/
def State.add (s : State) (w : Nat) (j : Job) : State :=
  { s with queues := fun v => if v = w then s.queues v ++ [(s.next, j)] else s.queues v, next := s.next + 1 }

/-- The head of a queue is finished (process_manager.py:42-58). -/
def State.finish (s : State) (w : Nat) (id : Nat) (ok : Bool) : State :=
  { s with queues := fun v => if v = w then (s.queues v).tail else s.queues v, done := s.done ++ [(id, ok)] }

/-- The head of a queue is replaced: the method has gone on (pymp/core/actor.py:69-72). -/
def State.head (s : State) (w : Nat) (x : Nat × Job) : State :=
  { s with queues := fun v => if v = w then x :: (s.queues v).tail else s.queues v }

/-- One step; `none` if it is not possible: there is no such actor, nothing to do, or the method waits (process_manager.py:35-59,
pymp/core/actor.py:40-74, 99-110, pymp/core/api.py:112-149). Calls of the main process that raise `RuntimeError` change nothing. -/
def State.step (s : State) : Act → Option State
  | .create =>
    match s.main.grab with
    | none => some s
    | some (w, p) => some { s with actors := s.actors ++ [(w, s.main)], main := p }
  | .call nested =>
    match s.main.submit with
    | none => some s
    | some (w, p) => some (({ s with main := p } : State).add w (if nested then .nested else .plain))
  | .method a body =>
    match s.actors[a]? with
    | none => none
    | some x => some (s.add x.1 (.method a body none))
  | .work w =>
    match s.queues w with
    | [] => none
    | (id, .plain) :: _ => some (s.finish w id true)
    | (id, .nested) :: _ => some (s.finish w id false)
    | (id, .method a body (some j)) :: _ =>
      if j ∈ s.done.map (·.1) then some (s.head w (id, .method a body none)) else none
    | (id, .method _ [] none) :: _ => some (s.finish w id true)
    | (id, .method a (g :: body) none) :: _ =>
      match s.actors[a]? with
      | none => none
      | some x =>
        match x.2.submit with
        | none => some (s.finish w id false)
        | some (i, p) =>
          some ((({ s with actors := s.actors.set a (x.1, p) } : State).head w (id, .method a body (if g then some s.next else none))).add i .plain)

/-- A history (process_manager.py:35-59). -/
def State.run : State → List Act → Option State
  | s, [] => some s
  | s, a :: as => (s.step a).bind fun s' => s'.run as

end Verif.PympNested
