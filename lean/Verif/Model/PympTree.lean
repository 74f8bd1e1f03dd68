import Verif.Model.PympPlaces

/-!
# Methods that make actors and use them on the multiprocessing backend

A method of an actor runs in the process of the actor, asked by the worker of the actor, which waits until the method returns
(`/repo/unidist/core/backends/pymp/core/actor.py` 56-74, 99-110). In it the method may make actors, call their methods and call functions, and get the results
(`/repo/unidist/core/backends/pymp/core/api.py` 47-84, 112-149); a worker executes the tasks of its queue one after the other (process_manager.py 35-59).

Models the start method `fork` and the queues of the workers. Functions and constructors make no remote calls. A process uses the actors it made itself, as handles
cannot be sent to other processes; no actor is dropped. Arguments are not references.
-/
namespace Verif.PympTree
open Verif.PympPlaces (Place)

/-- What a method does: it returns; makes an actor; calls a function; calls a method of the `k`-th actor that its process has made. After a call it may get the
result (pymp/core/actor.py:56-74, pymp/core/api.py:47-84). -/
inductive Body
  | ret
  | create (rest : Body)
  | call (get : Bool) (rest : Body)
  | method (k : Nat) (body : Body) (get : Bool) (rest : Body)
deriving DecidableEq, Repr

/-- A creation or call by itself (pymp/core/actor.py:56-110, pymp/core/api.py:112-149). -/
inductive Cmd
  | create
  | call
  | method (k : Nat) (body : Body)
deriving DecidableEq, Repr

/-- What a worker has to execute: a function, or a method of actor `a` with what it still does and the call for whose result it waits
(process_manager.py:184-229, pymp/core/actor.py:69-72). -/
inductive Job
  | plain
  | method (a : Nat) (body : Body) (waits : Option Nat)
deriving DecidableEq, Repr

/-- The processes with their actors; the queues of the workers, whose heads are being executed, with a number for each call; the finished calls, with whether they
succeeded; the number of calls so far (process_manager.py:35-59, pymp/core/actor.py:99-110). -/
structure State where
  tree : PympPlaces.State
  queues : Nat → List (Nat × Job)
  done : List (Nat × Bool)
  next : Nat

/-- `n` free workers (process_manager.py:90-102). -/
def State.init (n : Nat) : State := ⟨PympPlaces.State.init n, fun _ => [], [], 0⟩

/-- The actors made by process `p`, in order (pymp/core/actor.py:99-110). -/
def State.kids (s : State) (p : Nat) : List Nat := (List.range s.tree.actors.length).filter fun a => (s.tree.actors[a]?).any fun x => x.maker == p

/-- `add_task` (process_manager.py:61-70). -/
def State.add (s : State) (w : Nat) (j : Job) : State :=
  { s with queues := fun v => if v = w then s.queues v ++ [(s.next, j)] else s.queues v, next := s.next + 1 }

/-- The head of a queue is finished (process_manager.py:42-58). -/
def State.finish (s : State) (w : Nat) (id : Nat) (ok : Bool) : State :=
  { s with queues := fun v => if v = w then (s.queues v).tail else s.queues v, done := s.done ++ [(id, ok)] }

/-- The head of a queue is replaced: the method has gone on (pymp/core/actor.py:69-72). -/
def State.head (s : State) (w : Nat) (x : Nat × Job) : State :=
  { s with queues := fun v => if v = w then x :: (s.queues v).tail else s.queues v }

/-- Process `p` makes an actor or a call; `none` stands for an exception: no worker is left, or there is no such actor (pymp/core/actor.py:56-110,
process_manager.py:131-181). -/
def State.issue (s : State) (p : Nat) : Cmd → Option State
  | .create =>
    match s.tree.pools[p]? with
    | none => none
    | some q =>
      match q.grab with
      | none => none
      | some (w, q') => some { s with tree := { s.tree with pools := s.tree.pools.set p q' ++ [q], actors := s.tree.actors ++ [⟨p, w, true⟩] } }
  | .call =>
    match s.tree.pools[p]? with
    | none => none
    | some q =>
      match q.submit with
      | none => none
      | some (w, q') => some (({ s with tree := { s.tree with pools := s.tree.pools.set p q', calls := s.tree.calls ++ [(p, w)] } } : State).add w .plain)
  | .method k body =>
    match (s.kids p)[k]? with
    | none => none
    | some c =>
      match s.tree.actors[c]? with
      | none => none
      | some x => some (s.add x.worker (.method c body none))

/-- The method of actor `a` at the head of queue `w` makes an actor or a call and goes on with `rest`, or waits for the result first; it fails with the exception
of the call (pymp/core/actor.py:56-74, process_manager.py:42-58). -/
def State.does (s : State) (w id a : Nat) (cmd : Cmd) (get : Bool) (rest : Body) : State :=
  match s.issue (a + 1) cmd with
  | none => s.finish w id false
  | some s' => s'.head w (id, .method a rest (if get then some s.next else none))

/-- The main process makes an actor or a call; worker `w` goes on (process_manager.py:35-59, pymp/core/actor.py:56-110). -/
inductive Act
  | main (cmd : Cmd)
  | work (w : Nat)
deriving DecidableEq, Repr

/-- One step; `none` if the worker has nothing to do or waits. A failed result makes the method that gets it fail (process_manager.py:35-59,
pymp/core/object_store.py:75-95). -/
def State.step (s : State) : Act → Option State
  | .main cmd => some ((s.issue 0 cmd).getD s)
  | .work w =>
    match s.queues w with
    | [] => none
    | (id, .plain) :: _ => some (s.finish w id true)
    | (id, .method a b (some j)) :: _ =>
      match s.done.lookup j with
      | none => none
      | some true => some (s.head w (id, .method a b none))
      | some false => some (s.finish w id false)
    | (id, .method _ .ret none) :: _ => some (s.finish w id true)
    | (id, .method a (.create rest) none) :: _ => some (s.does w id a .create false rest)
    | (id, .method a (.call get rest) none) :: _ => some (s.does w id a .call get rest)
    | (id, .method a (.method k b get rest) none) :: _ => some (s.does w id a (.method k b) get rest)

/-- A history (process_manager.py:35-59). -/
def State.run : State → List Act → Option State
  | s, [] => some s
  | s, a :: as => (s.step a).bind fun s' => s'.run as

end Verif.PympTree
