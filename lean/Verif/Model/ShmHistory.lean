import Verif.Model.ShmManager

/-!
# Histories of one host and of several hosts

Operation sequences served by monitors: the branches `RESERVE_SHARED_MEMORY` and `CLEANUP` of
`/repo/unidist/core/backends/mpi/core/monitor/loop.py` (221-234, 254-259), interleaved with arbitrary writes of
other processes to the metadata words (they are shared memory).
-/
namespace Verif.Shm

/-- What one monitor sees. `clear l refs` carries the result `refs` of the collective, which depends on other
hosts; `poke` is any write of any process to a metadata word (shared_object_store.py:302-308, 338-345, 369-377). -/
inductive HostOp where
  | reserve (id : DataId) (len : Nat)
  | clear (l : List DataId) (refs : List Nat)
  | poke (i : Nat) (v : Int)

/-- Observable events: replies to reservation requests and reclaimed objects (monitor/loop.py:221-234, 254-259). -/
inductive Event where
  | reserved (id : DataId) (r : Resv) (isFirst : Bool)
  | freed (id : DataId)
deriving DecidableEq, Repr

/-- One operation; `none` means that an exception terminated the monitor loop
(monitor/loop.py has no handler) (monitor/loop.py:221-234, 254-259). -/
def Host.step (h : Host) : HostOp → Option (Host × List Event)
  | .reserve id len =>
    match h.mgr.reserve id len with
    | (.ok (r, first), m) => some ({ h with mgr := m }, [.reserved id r first])
    | (.error _, _) => none
  | .clear l refs =>
    match h.clear l refs with
    | .ok h' =>
      some (h', ((h.cleanupList l).filter fun id =>
        (h.mgr.resv id).isSome && (h'.mgr.resv id).isNone).map .freed)
    | .error _ => none
  | .poke i v => some ({ h with words := upd h.words i v }, [])

/-- A whole history with its event log (monitor/loop.py:221-234, 254-259). -/
def Host.run : Host → List HostOp → Option (Host × List Event)
  | h, [] => some (h, [])
  | h, op :: ops =>
    match h.step op with
    | none => none
    | some (h', ev) =>
      match h'.run ops with
      | none => none
      | some (h'', evs) => some (h'', ev ++ evs)

/-- A fresh host (shared_memory_manager.py:111-120; metadata words are -1, shared_object_store.py:261-263). -/
def Host.init (memLen svcLen : Nat) : Host := { mgr := Mgr.init memLen svcLen, words := fun _ => -1 }

/-- Operations on a system of hosts. `cleanup` is one round in which all monitors process the same list
(monitor/loop.py:221-234, 254-259). -/
inductive SysOp where
  | reserve (host : Nat) (id : DataId) (len : Nat)
  | poke (host : Nat) (i : Nat) (v : Int)
  | cleanup (l : List DataId)

/-- One system operation (see `Host.step` and `clearAll`) (monitor/loop.py:221-234, 254-259). -/
def sysStep (hs : List Host) : SysOp → Option (List Host)
  | .reserve k id len =>
    match hs[k]? with
    | none => some hs
    | some h =>
      match h.step (.reserve id len) with
      | some (h', _) => some (hs.set k h')
      | none => none
  | .poke k i v =>
    match hs[k]? with
    | none => some hs
    | some h => some (hs.set k { h with words := upd h.words i v })
  | .cleanup l => clearAll hs l

/-- A history of the system (monitor/loop.py:221-234, 254-259). -/
def sysRun : List Host → List SysOp → Option (List Host)
  | hs, [] => some hs
  | hs, op :: ops => (sysStep hs op).bind fun hs' => sysRun hs' ops

/-- Rounds of collective cleanups where the `k`-th round takes the `k`-th list *delivered to each host*:
`queues[i]` is the delivery order at host `i`. All queues are consumed in lock step, because the collective
pairs the k-th calls (shared_memory_manager.py:226). -/
def runQueues : Nat → List (Host × List (List DataId)) → Option (List Host)
  | 0, hs => some (hs.map (·.1))
  | n + 1, hs =>
    match clearRound (hs.map fun p => (p.1, p.2.headD [])) with
    | none => none
    | some hs' => runQueues n (hs'.zip (hs.map fun p => p.2.tail))

end Verif.Shm
