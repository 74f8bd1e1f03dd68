import Verif.Model.ShmHistory
import Verif.Model.SharedBuffer

/-!
# The shared object store of all hosts as one system

Puts the pieces together: on every host the monitor's manager with its metadata words (`Model/ShmManager`), the bytes of
the segment (`Model/SharedBuffer`) and the processes that put, get and drop objects. Models
`/repo/unidist/core/backends/mpi/core/shared_object_store.py`, `put` (725-756), `get` (758-828), `_put_service_info`
(350-383), `_increment_ref_number` (282-316), `_decrement_ref_number` (318-348), `_read_from_shared_buffer` (425-466),
`_sync_shared_memory_from_another_host` (526-565), and the branches `RESERVE_SHARED_MEMORY`, `REQUEST_SHARED_DATA` and
`CLEANUP` of `monitor/loop.py` (221-259). Parts of `put` and `get` are separate operations, so the processes and the
monitors interleave between them in every order. Updates of one metadata cell are one operation (they are done under the
window lock; what a reader can see inside such an update is properties C10 and C79), and the monitors process cleanup
requests in one order (property C06 tells what this means). The transfer of information packages is properties C14 and
C15; here a process may ask for every object that has been put.
-/
namespace Verif.SharedSystem
open Verif.Shm Verif.SharedBuffer

/-- A registered finalizer `weakref.finalize(data_id, self._decrement_ref_number, str(data_id), service_index)` of a
process (shared_object_store.py:312-316, 379-383); also a process that passed the check of `get` (784, 815) for a cell and did
not increment the count yet. -/
structure Hold where
  proc : Nat
  id : DataId
  svc : Nat
deriving DecidableEq, Repr

/-- What a process is going to store in its reservation: `put` (shared_object_store.py:741-750) or the copy made by `get`
(793-812). -/
inductive Job where
  | put (d : Serialized)
  | sync
deriving DecidableEq, Repr

/-- A reservation whose metadata is not written yet (shared_object_store.py:741-753, 786-812); `filled`: the bytes are there. -/
structure Pend where
  proc : Nat
  id : DataId
  resv : Resv
  job : Job
  filled : Bool
deriving DecidableEq, Repr

/-- A value made by `_read_from_shared_buffer` that the user still holds. Its out-of-band buffers are slices of the shared
segment (`self.shared_buffer[..].cast("b").toreadonly()`, shared_object_store.py:448-460, given to `pickle.loads` in
serialization.py:249): the value consists of the bytes that are at that place now. -/
structure View where
  proc : Nat
  id : DataId
  first : Nat
  info : SharedInfo
deriving DecidableEq, Repr

/-- One host (shared_object_store.py:90-120, monitor/shared_memory_manager.py:111-128). -/
structure Node where
  host : Host
  mem : Mem
  pend : List Pend
  checked : List Hold
  holders : List Hold
  views : List View

/-- All hosts, and the objects that have been put; their lengths travel in information packages
(mpi/core/common.py:165-200, controller/common.py:368-415). -/
structure Sys where
  nodes : List Node
  objs : DataId → Option Serialized

/-- Shared info package of an object (shared_object_store.py:522-524, mpi/core/common.py:165-200). -/
def infoOf (d : Serialized) (svc : Nat) : SharedInfo :=
  ⟨d.sData.length, d.rawBuffers.map List.length, d.bufferCount, svc⟩

/-- `_put_service_info` (shared_object_store.py:367-377). -/
def publishWords (w : Words) (id : DataId) (s first : Nat) : Words :=
  upd (upd (upd (upd w (s + 2) first) (s + 3) 1) (s + 1) id.num) s id.rank

/-- Adding to `REFERENCES_NUMBER` (shared_object_store.py:302-308, 338-345). -/
def addRef (w : Words) (s : Nat) (n : Int) : Words := upd w (s + 3) (w (s + 3) + n)

/-- `_decrement_ref_number` (shared_object_store.py:336-345): nothing happens if the cell is not the object's any more. -/
def dropRef (w : Words) (id : DataId) (s : Nat) : Words := if checkInfo w id s then addRef w s (-1) else w

/-- What happens, in any order (shared_object_store.py:725-828, monitor/loop.py:221-259). `k` is a host, `p` a process on it. -/
inductive Op where
  /-- `put` up to the answer of the monitor (737-743). -/
  | put (k p : Nat) (id : DataId) (d : Serialized)
  /-- `_write_to_shared_buffer` in `put` (748-750). -/
  | write (k : Nat) (id : DataId)
  /-- `get` that did not find the object in cell `q` asks the monitor (784-793). -/
  | ask (k p : Nat) (id : DataId) (q : Nat)
  /-- `_sync_shared_memory_from_another_host`, from the host `o` of the sender (801-808). -/
  | sync (k : Nat) (id : DataId) (o : Nat)
  /-- `_put_service_info` (753, 810-812). -/
  | publish (k : Nat) (id : DataId)
  /-- `_check_service_info` finds the object in cell `q` (784, 815-816). -/
  | check (k p : Nat) (id : DataId) (q : Nat)
  /-- `_increment_ref_number` (825). -/
  | incr (k p : Nat) (id : DataId) (q : Nat)
  /-- `_read_from_shared_buffer` (828). -/
  | read (k p : Nat) (id : DataId) (q : Nat)
  /-- A finalizer runs because the process has collected its `MpiDataID` object (312-348). -/
  | finalize (k p : Nat) (id : DataId) (q : Nat)
  /-- The user drops a value. -/
  | forget (k : Nat) (v : View)
  /-- One cleanup round on all monitors. -/
  | cleanup (l : List DataId)

/-- The reservation request (monitor/loop.py:221-234). `put` writes whatever the monitor answers; `get` writes only if it is
the first (shared_object_store.py:748, 793). `none`: the monitor is terminated by an exception. -/
def Node.request (n : Node) (p : Nat) (id : DataId) (len : Nat) (job : Job) : Option Node :=
  match n.host.mgr.reserve id len with
  | (.ok (r, first), m) =>
    some { n with
      host := { n.host with mgr := m }
      pend := if first ∨ job ≠ .sync then n.pend ++ [⟨p, id, r, job, false⟩] else n.pend }
  | (.error _, _) => none

/-- The reservation is filled (shared_object_store.py:748-750, 801-808). -/
def markFilled (l : List Pend) (id : DataId) : List Pend :=
  l.map fun q => if q.id = id then { q with filled := true } else q

/-- `_write_to_shared_buffer` (shared_object_store.py:468-524); `none` is its `ValueError`. -/
def Node.write (n : Node) (id : DataId) : Option Node :=
  match n.pend.find? fun q => q.id = id with
  | some ⟨_, _, r, .put d, false⟩ =>
    match SharedBuffer.write n.mem r d with
    | (some _, m) => some { n with mem := m, pend := markFilled n.pend id }
    | (none, _) => none
  | _ => some n

/-- Receiving the bytes of another host (shared_object_store.py:526-565) from the monitor of that host
(monitor/loop.py:235-253); `none` is its `RuntimeError` for an unknown id. The sender of the information package has
published the object, so this model has no copy of an object that is reserved but not published at `o`; copies after a
clean-up in between are property C113. -/
def Node.sync (n o : Node) (id : DataId) : Option Node :=
  match n.pend.find? fun q => q.id = id with
  | some ⟨_, _, r, .sync, false⟩ =>
    match o.host.mgr.resv id with
    | none => none
    | some ro =>
      if checkInfo o.host.words id ro.svc then
        some { n with mem := syncCopy n.mem r o.mem ro, pend := markFilled n.pend id }
      else some n
  | _ => some n

/-- `_put_service_info` (shared_object_store.py:350-383). -/
def Node.publish (n : Node) (id : DataId) : Node :=
  match n.pend.find? fun q => q.id = id with
  | some ⟨p, _, r, _, true⟩ =>
    { n with
      host := { n.host with words := publishWords n.host.words id r.svc r.first }
      pend := n.pend.filter fun q => q.id ≠ id
      holders := ⟨p, id, r.svc⟩ :: n.holders }
  | _ => n

/-- The check of `get` (shared_object_store.py:784, 815-816). Cells start at multiples of `INFO_SIZE` on every host (property C03),
so the `service_index` of any information package is one. -/
def Node.check (n : Node) (p : Nat) (id : DataId) (s : Nat) : Node :=
  if checkInfo n.host.words id s then { n with checked := ⟨p, id, s⟩ :: n.checked } else n

/-- `_increment_ref_number` (shared_object_store.py:282-316). -/
def Node.incr (n : Node) (p : Nat) (id : DataId) (s : Nat) : Node :=
  if ⟨p, id, s⟩ ∈ n.checked then
    { n with
      host := { n.host with words := addRef n.host.words s 1 }
      checked := n.checked.erase ⟨p, id, s⟩
      holders := ⟨p, id, s⟩ :: n.holders }
  else n

/-- `_read_from_shared_buffer` (shared_object_store.py:425-466): the place is taken from the metadata, the lengths from
the information package. -/
def Node.read (n : Node) (p : Nat) (id : DataId) (s : Nat) (d : Serialized) : Node :=
  if ⟨p, id, s⟩ ∈ n.holders then
    { n with views := ⟨p, id, (n.host.words (s + 2)).toNat, infoOf d s⟩ :: n.views }
  else n

/-- `_decrement_ref_number` run by a finalizer (shared_object_store.py:318-348). -/
def Node.finalize (n : Node) (p : Nat) (id : DataId) (s : Nat) : Node :=
  if ⟨p, id, s⟩ ∈ n.holders then
    { n with
      host := { n.host with words := dropRef n.host.words id s }
      holders := n.holders.erase ⟨p, id, s⟩ }
  else n

/-- An operation on one host; `none` is an exception (shared_object_store.py:725-828). -/
def Sys.onNode (s : Sys) (k : Nat) (f : Node → Option Node) : Option Sys :=
  match s.nodes[k]? with
  | none => some s
  | some n => (f n).map fun n' => { s with nodes := s.nodes.set k n' }

/-- One operation (see the constructors of `Op`; shared_object_store.py:725-828, monitor/loop.py:221-259). A new object has a new
id (property C20) and at least one byte. -/
def Sys.step (s : Sys) : Op → Option Sys
  | .put k p id d =>
    if s.objs id = none ∧ 1 ≤ dataSize d ∧ k < s.nodes.length then
      (s.onNode k fun n => n.request p id (dataSize d) (.put d)).map fun s' =>
        { s' with objs := upd s'.objs id (some d) }
    else some s
  | .write k id => s.onNode k fun n => n.write id
  | .ask k p id q =>
    match s.objs id with
    | none => some s
    | some d => s.onNode k fun n =>
      if checkInfo n.host.words id (infoSize * q) then some n else n.request p id (dataSize d) .sync
  | .sync k id o =>
    match s.nodes[o]? with
    | none => some s
    | some no => s.onNode k fun n => n.sync no id
  | .publish k id => s.onNode k fun n => some (n.publish id)
  | .check k p id q => s.onNode k fun n => some (n.check p id (infoSize * q))
  | .incr k p id q => s.onNode k fun n => some (n.incr p id (infoSize * q))
  | .read k p id q =>
    match s.objs id with
    | none => some s
    | some d => s.onNode k fun n => some (n.read p id (infoSize * q) d)
  | .finalize k p id q => s.onNode k fun n => some (n.finalize p id (infoSize * q))
  | .forget k v => s.onNode k fun n => some { n with views := n.views.erase v }
  | .cleanup l =>
    (clearAll (s.nodes.map (·.host)) l).map fun hs =>
      { s with nodes := List.zipWith (fun n h => { n with host := h }) s.nodes hs }

/-- A history (monitor/loop.py:189-287). -/
def Sys.run : Sys → List Op → Option Sys
  | s, [] => some s
  | s, op :: ops => (s.step op).bind fun s' => s'.run ops

/-- A fresh host (shared_object_store.py:229-263). -/
def Node.init (memLen svcLen : Nat) : Node :=
  { host := Host.init memLen svcLen, mem := fun _ => 0, pend := [], checked := [], holders := [], views := [] }

/-- Fresh hosts with the given sizes (shared_object_store.py:229-263). -/
def Sys.init (sizes : List (Nat × Nat)) : Sys :=
  { nodes := sizes.map fun p => Node.init p.1 p.2, objs := fun _ => none }

end Verif.SharedSystem
