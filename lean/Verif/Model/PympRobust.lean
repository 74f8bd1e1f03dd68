import Verif.Model.Robust
/-!
# What a task can do to a worker of the multiprocessing backend

Models which tasks make an exception leave the loop of a worker process (`/repo/unidist/core/backends/pymp/core/process_manager.py` 35-59).
Values cross process borders with Python's `pickle`, because the store is the dictionary of a `multiprocessing.Manager`
(object_store.py 33). What a function returns and raises is described as in `Verif.Model.Robust`; "can be serialized" here means by
`pickle`, so that a lambda, for instance, cannot.
-/
namespace Verif.PympRobust
open Verif.Robust (Value Result)

/-- `data_ids` of a task with `num_returns = k` and new names from `c` on (pymp/core/api.py:138-143, pymp/core/actor.py:62-67): `None`, a list,
or a single name, which is also made for a negative number. -/
def outsFor (k : Int) (c : Nat) : List Nat := if k = 0 then [] else if 1 < k then (List.range k.toNat).map (c + ·) else [c]

/-- A task in the queue of a worker (process_manager.py:184-207): whether `pkl.loads` can restore it (39), whether it calls a method of an actor
(pymp/core/actor.py:69-71), what the user's code does, and the names of its results. -/
structure Task where
  loads : Bool
  method : Bool
  result : Result
  outs : List Nat
deriving DecidableEq, Repr

/-- What `task()` (process_manager.py:43) does. A method runs in the process of a `BaseManager` (pymp/core/actor.py:105-109): whatever
cannot be sent back and every end of the thread that serves the call reaches the worker as an exception of Python's
`multiprocessing.managers`, which can be serialized. -/
def Task.outcome (t : Task) : Result :=
  if t.method then
    match t.result with
    | .returns v => if v.ok then .returns v else .raises true
    | .raises _ => .raises true
    | .exits => .raises true
  else t.result

/-- The results of several names, one after the other (process_manager.py:53-54); the second component tells whether an exception
leaves the loop: a value that the dictionary cannot take. -/
def storeItems : List Nat → List Bool → List Nat × Bool
  | o :: os, true :: items => let r := storeItems os items; (o :: r.1, r.2)
  | _ :: _, false :: _ => ([], true)
  | _, _ => ([], false)

/-- The body of the loop after the task was restored (process_manager.py:41-58): the names that are filled, and whether an exception
leaves the loop. Without names an exception is stored under `None` (49). -/
def Task.store (t : Task) : List Nat × Bool :=
  match t.outcome with
  | .exits => ([], true)
  | .raises ok => if ok then (t.outs, false) else ([], true)
  | .returns v =>
    match t.outs with
    | [] => ([], false)
    | [o] => if v.ok then ([o], false) else ([], true)
    | outs =>
      match v with
      | .one _ => ([], true)
      | .seq items => storeItems outs items

/-- One turn of the loop (process_manager.py:37-58). -/
def Task.turn (t : Task) : List Nat × Bool := if t.loads then t.store else ([], true)

/-- The loop for a queue (process_manager.py:37-58): names filled, and whether the worker has ended. -/
def loop : List Task → List Nat × Bool
  | [] => ([], false)
  | t :: ts =>
    match t.turn with
    | (ids, true) => (ids, true)
    | (ids, false) => let r := loop ts; (ids ++ r.1, r.2)

end Verif.PympRobust
