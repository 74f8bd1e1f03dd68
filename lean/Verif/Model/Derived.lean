/-!
# References in containers of derived classes

Models how `unwrap_object_refs` (`/repo/unidist/core/backends/common/utils.py` 10-36), `push_data`
(`/repo/unidist/core/backends/mpi/core/controller/common.py` 368-415) and `materialize_data_ids` (`/repo/unidist/core/backends/mpi/core/common.py`
395-440) treat containers whose class is derived from `list`, `tuple` or `dict`, like a named tuple, an `OrderedDict` or a
`defaultdict`. The first and the last compare the class itself (`type(x) in (list, tuple, dict)`), `push_data` asks `isinstance`. All values are
available, as when the last attempt to run a task succeeds.
-/
namespace Verif.Derived

/-- The three kinds of containers (utils.py:22). The elements of a dictionary are its values; keys are not looked at. -/
inductive Kind
  | list
  | tuple
  | dict (keys : List Nat)
deriving DecidableEq, Repr

/-- A Python object as far as arguments are inspected: anything without special treatment, a wrapper `ObjectRef`, a data ID, and a container,
which may be an instance of a derived class (utils.py:22-36, controller/common.py:389-395, mpi/core/common.py:423-440). -/
inductive Obj
  | other (n : Nat)
  | wrap (id : Nat)
  | ref (id : Nat)
  | box (derived : Bool) (k : Kind) (elems : List Obj)
deriving Repr

mutual
/-- `unwrap_object_refs` (utils.py:22-36): a container of a derived class is returned as it is (36). -/
def unwrap : Obj → Obj
  | .wrap id => .ref id
  | .ref id => .ref id
  | .other n => .other n
  | .box true k xs => .box true k xs
  | .box false k xs => .box false k (unwrapList xs)
/-- The loop over the elements (utils.py:24-33). -/
def unwrapList : List Obj → List Obj
  | [] => []
  | x :: xs => unwrap x :: unwrapList xs
end

mutual
/-- The references whose data or owner `push_data` sends (controller/common.py:389-415): it looks into every container, but only for data IDs. -/
def pushed : Obj → List Nat
  | .ref id => [id]
  | .wrap _ => []
  | .other _ => []
  | .box _ _ xs => pushedList xs
/-- The loops over the elements (controller/common.py:389-394). -/
def pushedList : List Obj → List Nat
  | [] => []
  | x :: xs => pushed x ++ pushedList xs
end

mutual
/-- `materialize_data_ids` when the value of every reference is there (mpi/core/common.py:423-440, task_store.py:189-206); values with data IDs
inside are left to the model of arguments. -/
def materialize (val : Nat → Obj) : Obj → Obj
  | .ref id => val id
  | .wrap id => .wrap id
  | .other n => .other n
  | .box true k xs => .box true k xs
  | .box false k xs => .box false k (materializeList val xs)
/-- The loop over the elements (mpi/core/common.py:424-436). -/
def materializeList (val : Nat → Obj) : List Obj → List Obj
  | [] => []
  | x :: xs => materialize val x :: materializeList val xs
end

/-- What a remote function finds for an argument on the MPI backend (mpi/remote_function.py:72-73, task_store.py:442-455; a direct argument was
stripped before, base/common.py:47-48, which makes no difference). -/
def found (val : Nat → Obj) (o : Obj) : Obj := materialize val (unwrap o)

/-- The references that arrive at the worker together with the task (controller/api.py:555-557). -/
def arrives (o : Obj) : List Nat := pushed (unwrap o)

end Verif.Derived
