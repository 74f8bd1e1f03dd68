import Verif.Model.Pymp

/-!
# The sequential backend

Models `/repo/unidist/core/backends/pyseq/` (`core/api.py`, `core/object_store.py`, `actor.py`, `backend.py`). Values, arguments and user
code are those of the model of the multiprocessing backend; the elements of a result are here those obtained by indexing
(`result[idx]`, core/api.py:119). Keyword arguments are treated like positional ones (core/api.py:103-109). Keyword-only details of
the wrappers (`remote_function.py`, `actor.py:52-63`) are not modelled.
-/
namespace Verif.Pyseq
open Verif.Pymp (Val Ret Arg Target World Task Item callTarget)

/-- The store (core/object_store.py:17; data IDs are positions) and the actors (actor.py:80-84, 104-133: class and calls executed so
far). `items` is the ghost record of the calls of the program whose function was called. -/
structure State where
  store : List Val
  actors : List (Nat × List (Nat × List Val))
  items : List Item

/-- `init` (core/api.py:16-27). -/
def State.init : State := ⟨[], [], []⟩

/-- An error raised to the caller: of user code, or `IndexError`/`TypeError` of `result[idx]` (core/api.py:119). -/
inductive Err
  | user (e : Nat)
  | index
deriving DecidableEq, Repr

/-- Outcome of a call of the program: the references returned, or an error (core/api.py:77-123). -/
inductive Out
  | refs (ids : List Nat)
  | raised (e : Err)
deriving DecidableEq, Repr

/-- `check_exception` (core/object_store.py:78-81). -/
def check : Val → Except Nat Val
  | .exc e => .error e
  | v => .ok v

/-- `get` of one data ID (core/object_store.py:56-85); `none` if there is no such ID. -/
def getOne (s : State) (id : Nat) : Option (Except Nat Val) := (s.store[id]?).map check

/-- `get` of a list (core/object_store.py:83): the first error is raised. -/
def getList (s : State) : List Nat → Option (Except Nat (List Val))
  | [] => some (.ok [])
  | id :: ids =>
    match getOne s id with
    | none => none
    | some (.error e) => some (.error e)
    | some (.ok v) =>
      match getList s ids with
      | some (.ok vs) => some (.ok (v :: vs))
      | r => r

/-- Arguments are materialized in order (core/api.py:103-109). -/
def materialize (s : State) : List Arg → Option (Except Nat (List Val))
  | [] => some (.ok [])
  | .lit v :: rest =>
    match materialize s rest with
    | some (.ok vs) => some (.ok (v :: vs))
    | r => r
  | .ref id :: rest =>
    match getOne s id with
    | none => none
    | some (.error e) => some (.error e)
    | some (.ok v) =>
      match materialize s rest with
      | some (.ok vs) => some (.ok (v :: vs))
      | r => r

/-- What is put into the store for a call with `n` results (core/api.py:111-121), and whether `result[idx]` succeeded for all of
them. With `n` = 0 nothing is stored. -/
def produced (n : Nat) : Ret → List Val × Bool
  | .raise e => (List.replicate n (.exc e), true)
  | .ok v items =>
    match n with
    | 0 => ([], true)
    | 1 => ([v], true)
    | n => ((items.getD []).take n, decide (n ≤ (items.getD []).length))

/-- The references the program has got (core/api.py:103-109). -/
def known (s : State) (args : List Arg) : Bool :=
  args.all fun
    | .lit _ => true
    | .ref id => s.items.any fun x => x.refs.contains id

/-- The history of the actor of a target (actor.py:55). -/
def histOf (actors : List (Nat × List (Nat × List Val))) : Target → List (Nat × List Val)
  | .fn _ => []
  | .method a _ _ => ((actors[a]?).map (·.2)).getD []

/-- The call is added to the history of its actor (actor.py:55-56). -/
def record (actors : List (Nat × List (Nat × List Val))) (args : List Val) : Target → List (Nat × List (Nat × List Val))
  | .fn _ => actors
  | .method a _ m => actors.modify a fun x => (x.1, x.2 ++ [(m, args)])

/-- `submit` (core/api.py:77-123). The ghost record has no references if the caller gets none. -/
def submit (W : World) (s : State) (target : Target) (args : List Arg) (n : Nat) : Option (State × Out) :=
  match materialize s args with
  | none => none
  | some (.error e) => some (s, .raised (.user e))
  | some (.ok vs) =>
    let p := produced n (callTarget W (histOf s.actors target) vs target)
    let ids := (List.range n).map (s.store.length + ·)
    let s' : State := ⟨s.store ++ p.1, record s.actors vs target,
      s.items ++ [.task ⟨s.items.length, target, args, if p.2 then ids else []⟩]⟩
    some (s', if p.2 then .refs ids else .raised .index)

/-- Calls of the program (core/api.py:30-123). -/
inductive Op
  /-- `put` (core/object_store.py:35-54). -/
  | put (v : Val)
  /-- Call of a remote function (remote_function.py:72). -/
  | submit (f : Nat) (args : List Arg) (n : Nat)
  /-- Creation of an actor (actor.py:104-135). -/
  | create (cls : Nat)
  /-- Call of a method (actor.py:55-56). -/
  | method (a m : Nat) (args : List Arg) (n : Nat)
deriving DecidableEq, Repr

/-- One call; `none` if the program does not have the references or the actor (core/api.py:30-123, actor.py:55-56). -/
def step (W : World) (s : State) : Op → Option (State × Out)
  | .put v => some (⟨s.store ++ [v], s.actors, s.items ++ [.put s.store.length v]⟩, .refs [s.store.length])
  | .submit f args n => if known s args then submit W s (.fn f) args n else none
  | .create cls => some (⟨s.store, s.actors ++ [(cls, [])], s.items⟩, .refs [])
  | .method a m args n =>
    match s.actors[a]? with
    | none => none
    | some x => if known s args then submit W s (.method a x.1 m) args n else none

/-- A program: the final state and the outcomes of its calls (core/api.py:30-123). -/
def run (W : World) (s : State) : List Op → Option (State × List Out)
  | [] => some (s, [])
  | op :: ops =>
    match step W s op with
    | none => none
    | some (s', o) =>
      match run W s' ops with
      | none => none
      | some (s'', os) => some (s'', o :: os)

/-- `wait` (backend.py:96-121). -/
def wait (ids : List Nat) (n : Nat) : List Nat × List Nat := (ids.take n, ids.drop n)

end Verif.Pyseq
