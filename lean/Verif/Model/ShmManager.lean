import Verif.Model.Basic
import Verif.Model.FreeMemory

/-!
# Shared memory manager of a monitor process

Models `/repo/unidist/core/backends/mpi/core/monitor/shared_memory_manager.py`, class
`SharedMemoryManager` (lines 106-246), the metadata words of
`/repo/unidist/core/backends/mpi/core/shared_object_store.py` that it reads and writes, and the
`RESERVE_SHARED_MEMORY` branch of `/repo/unidist/core/backends/mpi/core/monitor/loop.py` (221-234).
The branches for a disabled shared store (`self.shared_store is None`, 148-151, 172-175, 203-204) are
left out: the model is of the enabled case.
-/
namespace Verif.Shm
open Verif.FreeMemory

/-- `SharedObjectStore.INFO_SIZE` (shared_object_store.py:79). -/
def infoSize : Nat := 4

/-- `reservation_info` (shared_memory_manager.py:183-189). -/
structure Resv where
  first : Nat
  last : Nat
  svc : Nat
deriving DecidableEq, Repr

/-- Exceptions raised by the manager (shared_memory_manager.py:179, 181) and by
`delete_service_info` (shared_object_store.py:723). -/
inductive Err where
  | overflowMemory
  | overflowService
  | unexpectedDataId
deriving DecidableEq, Repr

/-- Fields of `SharedMemoryManager` (shared_memory_manager.py:115-120). -/
structure Mgr where
  mem : Ranges
  svc : Ranges
  resv : DataId → Option Resv
  pending : List DataId

/-- `SharedMemoryManager.__init__` (shared_memory_manager.py:111-120). -/
def Mgr.init (memLen svcLen : Nat) : Mgr :=
  { mem := FreeMemory.init memLen, svc := FreeMemory.init svcLen, resv := fun _ => none, pending := [] }

/-- `SharedMemoryManager.put` (shared_memory_manager.py:156-192). Both `occupy` calls happen before the
checks; an exception leaves the state as it is at that point. -/
def Mgr.put (m : Mgr) (id : DataId) (len : Nat) : Except Err Resv × Mgr :=
  let o := occupy m.mem len
  let q := occupy m.svc infoSize
  let m' := { m with mem := o.2, svc := q.2 }
  match o.1 with
  | none => (.error .overflowMemory, m')
  | some (f, l) =>
    match q.1 with
    | none => (.error .overflowService, m')
    | some (s, _) => (.ok ⟨f, l, s⟩, { m' with resv := upd m'.resv id (some ⟨f, l, s⟩) })

/-- `SharedMemoryManager.get` (shared_memory_manager.py:130-154). -/
def Mgr.get (m : Mgr) (id : DataId) : Option Resv := m.resv id

/-- The `RESERVE_SHARED_MEMORY` branch of the monitor loop (monitor/loop.py:221-234): the reply is the
reservation and `is_first_request`. An error is an exception that leaves the monitor loop. -/
def Mgr.reserve (m : Mgr) (id : DataId) (len : Nat) : Except Err (Resv × Bool) × Mgr :=
  match m.get id with
  | some r => (.ok (r, false), m)
  | none =>
    match m.put id len with
    | (.ok r, m') => (.ok (r, true), m')
    | (.error e, m') => (.error e, m')

/-- Metadata words of a host, `service_shared_buffer`, filled with -1 at start
(shared_object_store.py:259-263). -/
abbrev Words := Nat → Int

/-- `SharedObjectStore._check_service_info` (shared_object_store.py:385-408) with
`WORKER_ID_INDEX = 0`, `DATA_NUMBER_INDEX = 1` (77-88). -/
def checkInfo (w : Words) (id : DataId) (s : Nat) : Bool :=
  w s == (id.rank : Int) && w (s + 1) == (id.num : Int)

/-- `SharedObjectStore.get_ref_number` (shared_object_store.py:641-659), `REFERENCES_NUMBER = 3`. -/
def refNumber (w : Words) (id : DataId) (s : Nat) : Int :=
  if checkInfo w id s then w (s + 3) else 0

/-- `SharedObjectStore.delete_service_info` (shared_object_store.py:678-723). -/
def deleteInfo (w : Words) (id : DataId) (s : Nat) : Except Err Words :=
  if checkInfo w id s then .ok (upd (upd (upd (upd w s (-1)) (s + 1) (-1)) (s + 2) (-1)) (s + 3) (-1))
  else .error .unexpectedDataId

/-- A host: its monitor's manager and its metadata words (monitor/shared_memory_manager.py:111-128). -/
structure Host where
  mgr : Mgr
  words : Words

/-- `cleanup_list = self.pending_cleanup + data_id_list` (shared_memory_manager.py:205). -/
def Host.cleanupList (h : Host) (l : List DataId) : List DataId := h.mgr.pending ++ l

/-- The element of `has_refs` for one id (shared_memory_manager.py:208-222). -/
def Host.hasRef (h : Host) (id : DataId) : Nat :=
  match h.mgr.resv id with
  | some r => if refNumber h.words id r.svc > 0 then 1 else 0
  | none => 0

/-- `has_refs` (shared_memory_manager.py:208-222). -/
def Host.hasRefs (h : Host) (l : List DataId) : List Nat := (h.cleanupList l).map h.hasRef

/-- Elementwise maximum of two vectors of equal length; `none` if the lengths differ
(an erroneous collective call in MPI) (monitor/shared_memory_manager.py:224-226). -/
def maxVec : List Nat → List Nat → Option (List Nat)
  | [], [] => some []
  | a :: as, b :: bs => (maxVec as bs).map (max a b :: ·)
  | _, _ => none

/-- `self.monitor_comm.Allreduce(has_refs, all_refs, MPI.MAX)` (shared_memory_manager.py:224-226) over the
vectors contributed by all monitors. -/
def allreduceMax : List (List Nat) → Option (List Nat)
  | [] => none
  | [v] => some v
  | v :: vs => (allreduceMax vs).bind (maxVec v)

/-- One round of the loop over `zip(cleanup_list, all_refs)` (shared_memory_manager.py:230-246). -/
def Host.clearOne (h : Host) (id : DataId) (referers : Nat) : Except Err Host :=
  if referers = 0 then
    match h.mgr.resv id with
    | some r =>
      match deleteInfo h.words id r.svc with
      | .error e => .error e
      | .ok w =>
        .ok { mgr := { h.mgr with
                        svc := release h.mgr.svc r.svc (r.svc + infoSize)
                        mem := release h.mgr.mem r.first r.last
                        resv := upd h.mgr.resv id none }
              words := w }
    | none => .ok h
  else .ok { h with mgr := { h.mgr with pending := h.mgr.pending ++ [id] } }

/-- The whole loop (shared_memory_manager.py:230-246). -/
def Host.clearLoop : Host → List (DataId × Nat) → Except Err Host
  | h, [] => .ok h
  | h, (id, n) :: rest =>
    match h.clearOne id n with
    | .error e => .error e
    | .ok h' => h'.clearLoop rest

/-- `SharedMemoryManager.clear` (shared_memory_manager.py:194-246) on one host, given the result of the
collective. `self.pending_cleanup = []` is line 206. -/
def Host.clear (h : Host) (l : List DataId) (allRefs : List Nat) : Except Err Host :=
  Host.clearLoop { h with mgr := { h.mgr with pending := [] } } ((h.cleanupList l).zip allRefs)

/-- All hosts of a list; stops at the first failure (models that an exception terminates a monitor)
(monitor/shared_memory_manager.py:194-246). -/
def mapHosts (f : Host × List DataId → Except Err Host) :
    List (Host × List DataId) → Except Err (List Host)
  | [] => .ok []
  | h :: t =>
    match f h with
    | .error e => .error e
    | .ok h' =>
      match mapHosts f t with
      | .error e => .error e
      | .ok t' => .ok (h' :: t')

/-- One collective cleanup round: the call of `clear` on every monitor, each with the list it has just
received (monitor/loop.py:254-259, shared_memory_manager.py:194-246). `none`: erroneous collective
(vectors of different lengths) or a monitor terminated by an exception. -/
def clearRound (hs : List (Host × List DataId)) : Option (List Host) :=
  match allreduceMax (hs.map fun p => p.1.hasRefs p.2) with
  | none => none
  | some refs =>
    match mapHosts (fun p => p.1.clear p.2 refs) hs with
    | .ok hs' => some hs'
    | .error _ => none

/-- A cleanup round in which every monitor processes the same list
(garbage_collector.py:61-69 sends one list to every monitor). -/
def clearAll (hs : List Host) (l : List DataId) : Option (List Host) :=
  clearRound (hs.map fun h => (h, l))

end Verif.Shm
