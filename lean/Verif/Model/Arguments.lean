/-!
# Arguments of remote calls

Models `filter_arguments` (`/repo/unidist/core/base/common.py` 21-52), `unwrap_object_refs`
(`/repo/unidist/core/backends/common/utils.py` 10-36), `materialize_data_ids`
(`/repo/unidist/core/backends/mpi/core/common.py` 395-440) with `unwrap_local_data_id`
(`worker/task_store.py` 168-206), and the retries of `TaskStore.process_task_request` (`task_store.py` 442-454).
-/
namespace Verif.Args

/-- The containers that are traversed: `type(x) in (list, tuple, dict)` (mpi/core/common.py:423, utils.py:22). A dictionary has its
keys, which are never touched. -/
inductive Box
  | list
  | tuple
  | dict (keys : List Nat)
deriving DecidableEq, Repr

/-- A Python object as far as arguments are inspected: a container, a wrapper `ObjectRef`, a raw `DataID`, or anything else
(mpi/core/common.py:395-440, utils.py:10-36). The elements of a dictionary are its values in the order of the keys. -/
inductive Obj
  | other (n : Nat)
  | wrap (id : Nat)
  | ref (id : Nat)
  | box (b : Box) (elems : List Obj)
deriving Repr

/-- One element of `filter_arguments` (base/common.py:47-48). -/
def filterArg : Obj → Obj
  | .wrap id => .ref id
  | o => o

/-- `filter_arguments` (base/common.py:20-49) for the positional arguments (and the values of the keyword arguments). -/
def filterArguments (args : List Obj) : List Obj := args.map filterArg

mutual
/-- `unwrap_object_refs` (utils.py:10-36). -/
def unwrap : Obj → Obj
  | .wrap id => .ref id
  | .box b xs => .box b (unwrapList xs)
  | .other n => .other n
  | .ref id => .ref id
/-- The loop over the elements (utils.py:24-33). -/
def unwrapList : List Obj → List Obj
  | [] => []
  | x :: xs => unwrap x :: unwrapList xs
end

/-- What a worker knows about a reference (task_store.py:192-204): its value, only its owner, or nothing. -/
inductive Look
  | value (v : Obj)
  | pending
  | missing

/-- `unwrap_local_data_id` (task_store.py:168-206): the value or the reference, and whether it is still pending; `none` is
`ValueError("DataID is missing!")`. The requests sent to the owner are modelled in `Verif.Model.Worker`. -/
def unwrapLocal (look : Nat → Look) : Obj → Option (Obj × Bool)
  | .ref id =>
    match look id with
    | .value v => some (v, false)
    | .pending => some (.ref id, true)
    | .missing => none
  | o => some (o, false)

mutual
/-- `materialize_data_ids` (mpi/core/common.py:395-440). Every element of a container is unwrapped a second time (429-434). -/
def materialize (look : Nat → Look) (pending : Bool) : Obj → Option (Obj × Bool)
  | .box b xs => (materializeList look pending xs).map fun r => (.box b r.1, r.2)
  | .other n => (unwrapLocal look (.other n)).map fun r => (r.1, pending || r.2)
  | .wrap id => (unwrapLocal look (.wrap id)).map fun r => (r.1, pending || r.2)
  | .ref id => (unwrapLocal look (.ref id)).map fun r => (r.1, pending || r.2)
/-- The loop over the elements (mpi/core/common.py:424-436). -/
def materializeList (look : Nat → Look) (pending : Bool) : List Obj → Option (List Obj × Bool)
  | [] => some ([], pending)
  | x :: xs =>
    match materialize look pending x with
    | none => none
    | some (u, p) =>
      match unwrapLocal look u with
      | none => none
      | some (v, q) => (materializeList look (p || q) xs).map fun r => (v :: r.1, r.2)
end

/-- Outcome of the attempts to run a task (worker/task_store.py:406-459). -/
inductive Attempted
  /-- The task runs with these arguments (task_store.py:455). -/
  | runs (args : List Obj)
  /-- It waits with these partly replaced arguments (task_store.py:450-453). -/
  | waits (args : List Obj)
  /-- The worker fails. -/
  | crash

/-- One attempt (task_store.py:442-455). -/
def attempt (look : Nat → Look) (args : List Obj) : Attempted :=
  match materialize look false (.box .list args) with
  | some (.box _ args', false) => .runs args'
  | some (.box _ args', true) => .waits args'
  | _ => .crash

/-- Successive attempts (task_store.py:91-97, 442-455), each with what is known at that time. -/
def attempts (looks : List (Nat → Look)) (args : List Obj) : Attempted :=
  match looks with
  | [] => .waits args
  | look :: looks =>
    match attempt look args with
    | .waits args' => attempts looks args'
    | r => r

/-- Arguments as sent by `MPIRemoteFunction._remote` (mpi/remote_function.py:72-73) after `RemoteFunction.remote`
(base/remote_function.py:33-36). -/
def sentByFunction (args : List Obj) : List Obj := (filterArguments args).map unwrap

/-- Arguments as sent by an actor method on MPI (base/actor.py:71-73, mpi/actor.py:55-56, controller/actor.py:50-53): wrappers
inside containers are not stripped. -/
def sentByMethod (args : List Obj) : List Obj := filterArguments args

/-- Arguments of a task on the multiprocessing backend (base/remote_function.py:33-36, pymp/core/process_manager.py:221-229)
and, if every value is available, on the sequential backend (pyseq/core/api.py:103-109): only direct arguments are replaced. -/
def directOnly (value : Nat → Obj) (args : List Obj) : List Obj :=
  (filterArguments args).map fun
    | .ref id => value id
    | o => o

end Verif.Args
