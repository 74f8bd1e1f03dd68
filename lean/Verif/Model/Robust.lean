import Verif.Model.Arguments
/-!
# What a program can do to a worker

Models which requests make an exception leave the loop of a worker (`/repo/unidist/core/backends/mpi/core/worker/loop.py` 104-222), which
ends the worker: `execute_received_task` (`worker/task_store.py` 208-404) and the handling of actors and of requests for data. Arguments
are available here; tasks that wait for arguments and coroutines are in `Verif.Model.Worker`.
-/
namespace Verif.Robust

/-- What a function returns, as far as it matters: whether it can be serialized, and for something that can be iterated over, whether
each item can (worker/task_store.py:357-391). -/
inductive Value
  | one (ok : Bool)
  | seq (items : List Bool)
deriving DecidableEq, Repr

/-- Whether the whole value can be serialized (worker/task_store.py:380, serialization.py:359-384). -/
def Value.ok : Value → Bool
  | .one ok => ok
  | .seq items => items.all id

/-- What the user's code does: it returns, raises an `Exception` (which can be serialized or not), or raises something that is no
`Exception`, like `SystemExit` (worker/task_store.py:346). -/
inductive Result
  | returns (v : Value)
  | raises (ok : Bool)
  | exits
deriving DecidableEq, Repr

/-- The outputs of a request: `None`, one reference, or a list (local_object_store.py:220-231). -/
inductive Outs
  | none
  | one (id : Nat)
  | many (ids : List Nat)
deriving DecidableEq, Repr

/-- `generate_output_data_id` for `num_returns = k`, with new names from `c` on (local_object_store.py:202-231): for a negative number
`[None] * num_returns` is the empty list. -/
def outsFor (k : Int) (c : Nat) : Outs :=
  if k = 1 then .one c else if k = 0 then .none else .many ((List.range k.toNat).map (c + ·))

/-- What the worker knows: the stored objects and whether they can be serialized, references others asked for, and the actors with their
methods (worker/loop.py:39, request_store.py:46-54, local_object_store.py:26). -/
structure Worker where
  store : List (Nat × Bool)
  asked : List Nat
  actors : List (Nat × List String)
deriving DecidableEq, Repr

/-- A worker at the start of its loop (worker/loop.py:39, 88-92). -/
def Worker.init : Worker := ⟨[], [], []⟩

/-- Requests (worker/loop.py:113-201): a task with `num_returns` and new names, the constructor of an actor, a method of an actor, a request
of another process for data. -/
inductive Req
  | execute (k : Int) (c : Nat) (r : Result)
  | create (h : Nat) (methods : List String) (r : Result)
  | method (h : Nat) (m : String) (k : Int) (c : Nat) (r : Result)
  | get (id : Nat)
deriving DecidableEq, Repr

/-- The stored outputs (worker/task_store.py:346-391); `none` if an exception leaves the function: a value that cannot be serialized
(367, 380), something that cannot be iterated over (364-366), or `local_store.put` for `None` or a list, of which there are no weak
references (356, 381, local_object_store.py:84). -/
def results (outs : Outs) : Result → Option (List (Nat × Bool))
  | .exits => none
  | .raises ok =>
    match outs with
    | .none => none
    | .one id => some [(id, ok)]
    | .many ids => if 1 < ids.length then some (ids.map fun id => (id, ok)) else none
  | .returns v =>
    match outs with
    | .none => some []
    | .one id => if v.ok then some [(id, true)] else none
    | .many ids =>
      if 1 < ids.length then
        match v with
        | .one _ => none
        | .seq items => if (items.take ids.length).all id then some ((ids.zip items)) else none
      else none

/-- `push_data` for a reference that was asked for (controller/common.py:396-411, request_store.py:251-258): values were serialized before,
exceptions are serialized now. `none` if that fails. -/
def answer (w : Worker) (id : Nat) : Option Worker :=
  match w.store.find? (fun e => e.1 == id) with
  | some (_, true) => some w
  | some (_, false) => none
  | none => some { w with asked := id :: w.asked }

/-- `check_pending_get_requests` for new objects (request_store.py:134-166). -/
def answerAll (w : Worker) (new : List (Nat × Bool)) : Option Worker :=
  if new.any (fun e => w.asked.contains e.1 && !e.2) then none
  else some { w with asked := w.asked.filter fun id => !(new.map (·.1)).contains id }

/-- `execute_received_task` (worker/task_store.py:208-404). -/
def Worker.task (w : Worker) (outs : Outs) (r : Result) : Option Worker :=
  match results outs r with
  | none => none
  | some new => answerAll { w with store := new ++ w.store } new

/-- One turn of the loop (worker/loop.py:104-222); `none` if an exception leaves it. -/
def Worker.step (w : Worker) : Req → Option Worker
  | .execute k c r => w.task (outsFor k c) r
  | .create h ms r =>
    match r with
    | .returns _ => some { w with actors := (h, ms) :: w.actors }
    | _ => none
  | .method h m k c r =>
    match w.actors.find? (fun e => e.1 == h) with
    | none => none
    | some (_, ms) => if ms.contains m then w.task (outsFor k c) r else none
  | .get id => answer w id

/-- The loop (worker/loop.py:104-222). -/
def Worker.run : Worker → List Req → Option Worker
  | w, [] => some w
  | w, r :: rs => (w.step r).bind fun w' => w'.run rs

/-! ## References given to a constructor -/

/-- What the constructor of an actor gets, on every modelled backend: unlike a function or a method (base/remote_function.py:33-36,
base/actor.py:71-73) it is called without `filter_arguments` (base/actor.py:237), and the arguments are not replaced
(controller/actor.py:114-120 and worker/loop.py:178-183; pymp/core/actor.py:109; pyseq/actor.py:132). -/
def constructorGets (args : List Args.Obj) : List Args.Obj := args

/-- What happens on one worker on MPI: the main process calls a function or a method with references, or creates an actor whose
constructor calls `get` for the references it was given (controller/api.py:508-580, controller/actor.py:36-64, 111-128). -/
inductive Call
  | call (refs : List Nat)
  | construct (refs : List Nat)
deriving DecidableEq, Repr

/-- The references whose data or owner the worker knows. A call makes its references known before it arrives (`push_data`,
controller/api.py:555-557, controller/actor.py:42-44), the creation of an actor does not (controller/actor.py:111-128). A `get` for an unknown
reference raises `KeyError` (controller/common.py:193, local_object_store.py:131), the constructor raises, and the worker ends
(worker/loop.py:183): `none`. -/
def knownRun : List Nat → List Call → Option (List Nat)
  | known, [] => some known
  | known, .call refs :: cs => knownRun (refs ++ known) cs
  | known, .construct refs :: cs => if refs.all known.contains then knownRun known cs else none

end Verif.Robust
