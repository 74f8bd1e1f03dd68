import Verif.Model.Basic
import Verif.Model.PympManager

/-!
# The multiprocessing backend

Models tasks, actors and the object store of `/repo/unidist/core/backends/pymp/core/` (`process_manager.py`, `object_store.py`,
`api.py`, `actor.py`) as a transition system: the main process submits, every worker process takes tasks from its queue and
executes them. Access to the shared dictionary (a `multiprocessing.Manager`) is atomic per operation. Submissions from inside
tasks are not modelled.
-/
namespace Verif.Pymp
open Verif.PympPool (Pool)

/-- Python objects as far as the object store distinguishes them (object_store.py:69, 101, 104): byte strings, exception objects,
callables, others. -/
inductive Val
  | data (n : Nat)
  | bytes (n : Nat)
  | exc (e : Nat)
  | callable (n : Nat)
deriving DecidableEq, Repr

/-- Result of running user code (process_manager.py:42-58): an exception, or a value together with the elements obtained by
iterating over it (`none` if it is not iterable). -/
inductive Ret
  | ok (v : Val) (items : Option (List Val))
  | raise (e : Nat)
deriving DecidableEq, Repr

/-- User code and pickling: functions (process_manager.py:229), methods of an actor class (the state of an actor is represented by
the calls it has executed so far; pymp/core/actor.py:69), `pkl.loads` (object_store.py:104; an error is the exception it
raises) and `pkl.dumps` of a callable (object_store.py:69). -/
structure World where
  call : Nat → List Val → Ret
  method : Nat → List (Nat × List Val) → Nat → List Val → Ret
  loads : Nat → Except Nat Val
  dumps : Nat → Nat

/-- An entry of `store_delayed` (object_store.py:13-16, 33): a `Delayed` object or a value. -/
inductive Cell
  | delayed
  | val (v : Val)
deriving DecidableEq, Repr

/-- What `put` writes (object_store.py:69). -/
def putVal (W : World) : Val → Val
  | .callable c => .bytes (W.dumps c)
  | v => v

/-- What `get` makes of a stored value (object_store.py:100-104): an exception is raised, byte strings are unpickled. -/
def getVal (W : World) : Val → Except Nat Val
  | .exc e => .error e
  | .bytes b => W.loads b
  | v => .ok v

/-- An argument of a task (process_manager.py:221-229): an object or a data ID. -/
inductive Arg
  | lit (v : Val)
  | ref (id : Nat)
deriving DecidableEq, Repr

/-- What a task calls (process_manager.py:203, pymp/core/actor.py:69): a function or a method of an actor (number, class, method). -/
inductive Target
  | fn (f : Nat)
  | method (actor cls m : Nat)
deriving DecidableEq, Repr

/-- `Task` (process_manager.py:184-207). `idx` is its position among the calls of the main process (ghost). -/
structure Task where
  idx : Nat
  target : Target
  args : List Arg
  outs : List Nat
deriving DecidableEq, Repr

/-- Where a worker is inside the body of its loop (process_manager.py:35-59). -/
inductive Phase
  /-- Materializing arguments (process_manager.py:220-227). -/
  | fetch (done : List Val) (rest : List Arg)
  /-- In the user's function (228). -/
  | running (args : List Val)
  /-- Storing results (46-58). -/
  | write (todo : List (Nat × Val))
deriving DecidableEq, Repr

/-- A worker process (process_manager.py:18-70). -/
structure Worker where
  queue : List Task
  cur : Option (Task × Phase)
  dead : Bool
deriving DecidableEq, Repr

/-- An actor (pymp/core/actor.py:99-110): its class, its worker, whether the handle exists, and the calls executed so far. -/
structure Actor where
  cls : Nat
  worker : Nat
  live : Bool
  hist : List (Nat × List Val)
deriving DecidableEq, Repr

/-- Ghost record of a call of the main process (pymp/core/api.py:55-149). -/
inductive Item
  | put (id : Nat) (v : Val)
  | task (t : Task)
deriving DecidableEq, Repr

/-- Ghost record of the execution of user code: beginning and end of the call with this number (process_manager.py:229). -/
inductive Event
  | begins (idx : Nat) (target : Target)
  | ends (idx : Nat) (target : Target)
deriving DecidableEq, Repr

/-- The whole system (process_manager.py:90-102, object_store.py:31-33). `next` counts the data IDs made so far; `items` and `log`
are ghosts. -/
structure State where
  pool : Pool
  store : Nat → Option Cell
  next : Nat
  actors : List Actor
  workers : List Worker
  items : List Item
  log : List Event

/-- `init` (api.py:21-39, process_manager.py:90-102). -/
def State.init (n : Nat) : State :=
  ⟨Pool.init n, fun _ => none, 0, [], List.replicate n ⟨[], none, false⟩, [], []⟩

/-- The data IDs made for `n` results (api.py:138-143). -/
def newIds (s : State) (n : Nat) : List Nat := (List.range n).map (s.next + ·)

/-- `put(Delayed())` for each of them (api.py:141, 143). -/
def delayAll (store : Nat → Option Cell) (ids : List Nat) : Nat → Option Cell :=
  ids.foldl (fun st id => upd st id (some .delayed)) store

/-- The references returned by a call of the main process (api.py:69, 136-149). -/
def Item.refs : Item → List Nat
  | .put id _ => [id]
  | .task t => t.outs

/-- The arguments are objects or references that calls have returned before (api.py:112-134). The program cannot have others: the
data IDs of a refused submission are never returned. -/
def known (s : State) (args : List Arg) : Bool :=
  args.all fun
    | .lit _ => true
    | .ref id => s.items.any fun x => x.refs.contains id

/-- `add_task` (process_manager.py:61-70). -/
def addTask (ws : List Worker) (w : Nat) (t : Task) : List Worker :=
  ws.modify w fun x => { x with queue := x.queue ++ [t] }

/-- What the `except` branch stores (process_manager.py:44-49). Without data IDs the error is stored under `None`, which nobody
reads. -/
def failed (outs : List Nat) (e : Nat) : List (Nat × Val) := outs.map fun o => (o, .exc e)

/-- What the `else` branch stores (process_manager.py:50-56); `none` is an exception of `zip` for a value that cannot be iterated,
which ends the worker. -/
def stored (outs : List Nat) (v : Val) (items : Option (List Val)) : Option (List (Nat × Val)) :=
  match outs with
  | [] => some []
  | [o] => some [(o, v)]
  | outs => items.map fun l => outs.zip l

/-- Actions: of the main process, then of the workers (pymp/core/api.py:55-149, process_manager.py:35-59). -/
inductive Act
  /-- `put` (api.py:55-70). -/
  | put (v : Val)
  /-- `submit` (api.py:112-149). -/
  | submit (f : Nat) (args : List Arg) (n : Nat)
  /-- Creation of an actor (pymp/core/actor.py:99-111). -/
  | create (cls : Nat)
  /-- Call of a method (pymp/core/actor.py:40-74). -/
  | method (actor m : Nat) (args : List Arg) (n : Nat)
  /-- The last handle of an actor goes away (pymp/core/actor.py:141-148). -/
  | drop (actor : Nat)
  /-- `task_queue.get()` (process_manager.py:38-41). -/
  | take (w : Nat)
  /-- Next argument, or start of the function (process_manager.py:220-228). -/
  | fetch (w : Nat)
  /-- The function returns (process_manager.py:42-58). -/
  | finish (w : Nat)
  /-- One store operation, or the end of the loop body (process_manager.py:45-58). -/
  | write (w : Nat)
deriving DecidableEq, Repr

/-- Result of user code for a target (process_manager.py:229), given the calls the actor has executed. -/
def callTarget (W : World) (hist : List (Nat × List Val)) (args : List Val) : Target → Ret
  | .fn f => W.call f args
  | .method _ cls m => W.method cls hist m args

/-- The history of the actor of a target (pymp/core/actor.py:69). -/
def histOf (actors : List Actor) : Target → List (Nat × List Val)
  | .fn _ => []
  | .method a _ _ => ((actors[a]?).map (·.hist)).getD []

/-- The call is added to the history of its actor (pymp/core/actor.py:69). -/
def record (actors : List Actor) (args : List Val) : Target → List Actor
  | .fn _ => actors
  | .method a _ m => actors.modify a fun x => { x with hist := x.hist ++ [(m, args)] }

/-- Replace the state of a worker (process_manager.py:35-59). -/
def State.setWorker (s : State) (w : Nat) (x : Worker) : State := { s with workers := s.workers.set w x }

/-- One action; `none` if it is not possible. A refused submission or creation (`RuntimeError`, process_manager.py:149, 181)
leaves the data IDs behind, which the caller never gets. -/
def step (W : World) (s : State) : Act → Option State
  | .put v =>
    some { s with store := upd s.store s.next (some (.val (putVal W v))), next := s.next + 1,
                  items := s.items ++ [.put s.next v] }
  | .submit f args n =>
    if known s args then
      let ids := newIds s n
      let r := s.pool.submit
      let s' := { s with store := delayAll s.store ids, next := s.next + n, pool := r.2 }
      match r.1 with
      | none => some s'
      | some w =>
        let t : Task := ⟨s.items.length, .fn f, args, ids⟩
        some { s' with workers := addTask s.workers w t, items := s.items ++ [.task t] }
    else none
  | .create cls =>
    let r := s.pool.grab
    match r.1 with
    | none => some s
    | some w => some { s with pool := r.2, actors := s.actors ++ [⟨cls, w, true, []⟩] }
  | .method a m args n =>
    match s.actors[a]? with
    | none => none
    | some x =>
      if x.live ∧ known s args then
        let ids := newIds s n
        let t : Task := ⟨s.items.length, .method a x.cls m, args, ids⟩
        some { s with store := delayAll s.store ids, next := s.next + n, workers := addTask s.workers x.worker t,
                      items := s.items ++ [.task t] }
      else none
  | .drop a =>
    match s.actors[a]? with
    | none => none
    | some x =>
      if x.live then some { s with pool := s.pool.free x.worker, actors := s.actors.set a { x with live := false } } else none
  | .take w =>
    match s.workers[w]? with
    | some ⟨t :: queue, none, false⟩ => some (s.setWorker w ⟨queue, some (t, .fetch [] t.args), false⟩)
    | _ => none
  | .fetch w =>
    match s.workers[w]? with
    | some ⟨queue, some (t, .fetch done []), false⟩ =>
      some { s.setWorker w ⟨queue, some (t, .running done), false⟩ with log := s.log ++ [.begins t.idx t.target] }
    | some ⟨queue, some (t, .fetch done (.lit v :: rest)), false⟩ =>
      some (s.setWorker w ⟨queue, some (t, .fetch (done ++ [v]) rest), false⟩)
    | some ⟨queue, some (t, .fetch done (.ref id :: rest)), false⟩ =>
      match s.store id with
      | some (.val v) =>
        match getVal W v with
        | .ok u => some (s.setWorker w ⟨queue, some (t, .fetch (done ++ [u]) rest), false⟩)
        | .error e => some (s.setWorker w ⟨queue, some (t, .write (failed t.outs e)), false⟩)
      | _ => none
    | _ => none
  | .finish w =>
    match s.workers[w]? with
    | some ⟨queue, some (t, .running args), false⟩ =>
      let s' : State := { s with log := s.log ++ [.ends t.idx t.target], actors := record s.actors args t.target }
      match callTarget W (histOf s.actors t.target) args t.target with
      | .raise e => some (s'.setWorker w ⟨queue, some (t, .write (failed t.outs e)), false⟩)
      | .ok v items =>
        match stored t.outs v items with
        | some todo => some (s'.setWorker w ⟨queue, some (t, .write todo), false⟩)
        | none => some (s'.setWorker w ⟨queue, none, true⟩)
    | _ => none
  | .write w =>
    match s.workers[w]? with
    | some ⟨queue, some (t, .write ((o, v) :: todo)), false⟩ =>
      some { s.setWorker w ⟨queue, some (t, .write todo), false⟩ with store := upd s.store o (some (.val v)) }
    | some ⟨queue, some (_, .write []), false⟩ => some (s.setWorker w ⟨queue, none, false⟩)
    | _ => none

/-- A sequence of actions; `none` if one of them is not possible (pymp/core/api.py:55-149, process_manager.py:35-59). -/
def run (W : World) (s : State) : List Act → Option State
  | [] => some s
  | a :: as =>
    match step W s a with
    | none => none
    | some s' => run W s' as

/-- `get` of one data ID (object_store.py:96-104): `none` while it is delayed (the loop spins). -/
def getOne (W : World) (s : State) (id : Nat) : Option (Except Nat Val) :=
  match s.store id with
  | some (.val v) => some (getVal W v)
  | _ => none

/-! ## `wait` -/

/-- Outcome of `wait` (object_store.py:108-147): result, `IndexError` of `pop`, error raised by the `get` of a failed reference,
or waiting forever for a reference that is never computed. -/
inductive Waited
  | result (ready notReady : List Nat)
  | indexError
  | raised (e : Nat)
  | blocked
deriving DecidableEq, Repr

/-- The first loop of `wait` (object_store.py:134-139): `pos` runs over the copy, `ids` is the list that elements are popped
from. -/
def scan (isReady : Nat → Bool) (k : Nat) : List Nat → Nat → List Nat → List Nat → Option (List Nat × List Nat)
  | [], _, ready, ids => some (ready, ids)
  | x :: copy, pos, ready, ids =>
    if isReady x then
      match ids[pos]? with
      | none => none
      | some y => if (ready ++ [y]).length = k then some (ready ++ [y], ids.eraseIdx pos)
          else scan isReady k copy (pos + 1) (ready ++ [y]) (ids.eraseIdx pos)
    else if ready.length = k then some (ready, ids)
    else scan isReady k copy (pos + 1) ready ids

/-- The second loop (object_store.py:143-145): `final` is what each reference turns into (`none`: never computed). With
`len(ready) > num_returns` it would run until the list is empty. -/
def drain (final : Nat → Option (Except Nat Val)) (k : Nat) (ready : List Nat) : List Nat → Waited
  | [] => if ready.length = k then .result ready [] else .indexError
  | x :: rest =>
    if ready.length = k then .result ready (x :: rest)
    else
      match final x with
      | none => .blocked
      | some (.error e) => .raised e
      | some (.ok _) => drain final k (ready ++ [x]) rest

/-- `wait` (object_store.py:108-147) for references of which `isReady` are computed during the first loop. -/
def wait (isReady : Nat → Bool) (final : Nat → Option (Except Nat Val)) (ids : List Nat) (k : Nat) : Waited :=
  match scan isReady k ids 0 [] ids with
  | none => .indexError
  | some (ready, rest) => drain final k ready rest

end Verif.Pymp
