import Verif.Model.ShmManager
import Verif.Model.Config

/-!
# Which objects go into shared memory

Models the decisions between the shared and the local store: `put` in `/repo/unidist/core/backends/mpi/core/controller/api.py` (386-393),
`push_data` in `controller/common.py` (397-411) and the results of tasks in `worker/task_store.py` (270-301, 359-390), and what they mean
for the memory manager of a host that has to reserve the memory.
-/
namespace Verif.Placement
open Verif.Shm Verif.Config

/-- Where an object comes from: the argument of `put`, a value of the local store that is sent to another process, or a value of a
task or coroutine (controller/api.py:390, controller/common.py:404, worker/task_store.py:280, 293, 369, 382). -/
inductive Origin
  | put
  | sent
  | result
deriving DecidableEq, Repr

/-- A serialized object: its id, where it comes from, and the lengths of its body and of its raw buffers (serialization.py:379-383). -/
structure Stored where
  id : DataId
  origin : Origin
  sData : Nat
  raws : List Nat
deriving DecidableEq, Repr

/-- `data_size` (shared_object_store.py:608, 737-739). -/
def Stored.size (o : Stored) : Nat := o.sData + o.raws.sum

/-- Is the object put into the shared store? (controller/api.py:390, controller/common.py:404-406, worker/task_store.py:280-283, 293-296,
369-372, 382-385) -/
def shares (allocated : Bool) (threshold : Int) (o : Stored) : Bool :=
  match o.origin with
  | .put => allocated
  | .sent => allocated && shouldBeShared threshold o.sData o.raws
  | .result => allocated && shouldBeShared threshold o.sData o.raws

/-- One object is stored: a shared one needs a reservation of the monitor, which an exception ends (shared_object_store.py:737-743,
monitor/loop.py:221-234). -/
def storeOne (allocated : Bool) (threshold : Int) (m : Mgr) (o : Stored) : Except Err Mgr :=
  if shares allocated threshold o then
    match m.reserve o.id o.size with
    | (.ok _, m') => .ok m'
    | (.error e, _) => .error e
  else .ok m

/-- Several objects are stored, none of them is reclaimed (shared_object_store.py:725-756). -/
def storeAll (allocated : Bool) (threshold : Int) : Mgr → List Stored → Except Err Mgr
  | m, [] => .ok m
  | m, o :: rest =>
    match storeOne allocated threshold m o with
    | .ok m' => storeAll allocated threshold m' rest
    | .error e => .error e

end Verif.Placement
