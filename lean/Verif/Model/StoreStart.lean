import Verif.Model.SegmentSizes

/-!
# All processes start the shared store

Models the end of `init` in `/repo/unidist/core/backends/mpi/core/controller/api.py` (254-297) with the shared object store enabled: every
process reads the free memory of its host and checks the configured sizes by itself (shared_object_store.py:149-227), the processes of a
host allocate the memory together (229-258), the monitors create their communicator together (monitor/shared_memory_manager.py:121-128),
and all processes meet at a barrier (api.py:267, monitor/loop.py:181, worker/loop.py:95). A collective call of MPI returns when all
members have called it. The two allocations of a host (shared_object_store.py:232-258) are one step here.
-/
namespace Verif.StoreStart
open Verif.SegmentSizes

/-- A process: whether it is the root, its host, whether it is the monitor of the host (communication.py:159-161), and the free memory it
reads (shared_object_store.py:122-147). -/
structure Proc where
  root : Bool
  host : Nat
  monitor : Bool
  avail : Int
deriving DecidableEq, Repr

/-- Where a process is: before the check of the sizes (shared_object_store.py:155), in `Allocate_shared` (232), before `fill` (263), in
`Create_group` (shared_memory_manager.py:128), at the barrier (api.py:267, monitor/loop.py:181, worker/loop.py:95), behind it; ended by a
`ValueError` (communication.py:162-166, shared_object_store.py:211-227), or by the `IndexError` of `fill` (263) or an error of
`Shared_query` (241). -/
inductive At
  | begins
  | allocating
  | filling
  | grouping
  | barrier
  | ready
  | refused
  | failed
deriving DecidableEq, Repr

/-- A process and where it is (api.py:254-297). -/
structure Entry where
  proc : Proc
  stage : At
deriving DecidableEq, Repr

/-- All processes of the program (api.py:254). -/
abbrev State := List Entry

/-- All processes when `SharedObjectStore.get_instance()` is called (api.py:260). -/
def State.init (ps : List Proc) : State := ps.map fun p => ⟨p, .begins⟩

/-- What happens next: a process checks the sizes, the processes of a host allocate the memory, a monitor fills its service memory, the
monitors create their communicator, all processes pass the barrier (api.py:260-267). -/
inductive Act
  | sizes (i : Nat)
  | allocate (host : Nat)
  | fill (i : Nat)
  | group
  | pass
deriving DecidableEq, Repr

/-- Does this host have a single process? (communication.py:160) -/
def State.single (s : State) (h : Nat) : Bool := (s.filter fun e => e.proc.host == h).length == 1

/-- Does the process go on after the checks? Every process checks the sizes, the root also that every host has two processes
(communication.py:159-166, shared_object_store.py:211-227). -/
def State.accepts (c : Config) (s : State) (p : Proc) : Bool :=
  !(p.root && s.any fun e => s.single e.proc.host) && (SegmentSizes.allocate c p.avail).isSome

/-- One step; `none` if it is not possible, for collective calls because a member has not called it. Without a second process there is no memory of rank 1
to ask for (shared_object_store.py:211-263,
shared_memory_manager.py:121-128, api.py:267, monitor/loop.py:181, worker/loop.py:95). -/
def step (c : Config) (s : State) : Act → Option State
  | .sizes i =>
    match s[i]? with
    | some ⟨p, .begins⟩ => some (s.set i ⟨p, if s.accepts c p then .allocating else .refused⟩)
    | _ => none
  | .allocate h =>
    if (s.any fun e => e.proc.host == h) && (s.all fun e => e.proc.host != h || e.stage == .allocating) then
      some (s.map fun e => if e.proc.host = h then { e with stage := if s.single h then .failed else if e.proc.monitor then .filling else .barrier } else e)
    else none
  | .fill i =>
    match s[i]? with
    | some ⟨p, .filling⟩ => some (s.set i ⟨p, if start c p.avail = .failed then .failed else .grouping⟩)
    | _ => none
  | .group =>
    if (s.any fun e => e.proc.monitor) && (s.all fun e => !e.proc.monitor || e.stage == .grouping) then
      some (s.map fun e => if e.proc.monitor then { e with stage := .barrier } else e)
    else none
  | .pass =>
    if !s.isEmpty && s.all fun e => e.stage == .barrier then some (s.map fun e => { e with stage := .ready }) else none

/-- A sequence of steps (api.py:254-297). -/
def run (c : Config) : State → List Act → Option State
  | s, [] => some s
  | s, a :: as => (step c s a).bind fun s' => run c s' as

end Verif.StoreStart
