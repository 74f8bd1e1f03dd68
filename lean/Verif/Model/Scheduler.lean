/-!
# Placement of tasks and actors on MPI workers

Models `RoundRobin` in `/repo/unidist/core/backends/mpi/core/controller/common.py` (23-110) and its use by `submit`
(`controller/api.py` 536) and `Actor` (`controller/actor.py` 91-128, 196-200).
-/
namespace Verif.Sched

/-- The scheduler of one process (controller/common.py:26-38): the process's own rank, all workers, the number of
elements already taken from `itertools.cycle`, and `reserved_ranks`. -/
structure RR where
  self : Nat
  workers : List Nat
  taken : Nat
  reserved : List Nat
deriving DecidableEq, Repr

/-- The elements of the cycle (controller/common.py:30-37). -/
def RR.cycle (s : RR) : List Nat := s.workers.filter (· ≠ s.self)

/-- `next(self.rank_to_schedule)` (controller/common.py:67); `none` is `StopIteration` of an empty cycle. -/
def RR.next (s : RR) : Option Nat := s.cycle[s.taken % s.cycle.length]?

/-- Failures of scheduling (controller/common.py:66-75). -/
inductive Err
  | allBlocked
  | stopIteration
deriving DecidableEq, Repr

/-- The loop of `schedule_rank` (controller/common.py:65-75) with `fuel` rounds left. -/
def RR.scan : Nat → RR → Except Err Nat × RR
  | 0, s => (.error .allBlocked, s)
  | fuel + 1, s =>
    match s.next with
    | none => (.error .stopIteration, s)
    | some r =>
      let s' := { s with taken := s.taken + 1 }
      if r ∈ s.reserved then RR.scan fuel s' else (.ok r, s')

/-- `schedule_rank` (controller/common.py:53-75). -/
def RR.schedule (s : RR) : Except Err Nat × RR := s.scan s.workers.length

/-- `k` successive `schedule_rank` calls with unchanged reservations; `none` if one fails (controller/common.py:53-75). -/
def RR.scheduleMany : Nat → RR → Option (List Nat × RR)
  | 0, s => some ([], s)
  | k + 1, s =>
    match s.schedule with
    | (.ok r, s') => (RR.scheduleMany k s').map fun q => (r :: q.1, q.2)
    | (.error _, _) => none

/-! ## Actors -/

/-- `reserve_rank` (controller/common.py:77-93). -/
def RR.reserve (s : RR) (r : Nat) : RR := { s with reserved := s.reserved ++ [r] }

/-- `release_rank` (controller/common.py:95-110): `list.remove`, `none` is `ValueError`. -/
def RR.release (s : RR) (r : Nat) : Option RR :=
  if r ∈ s.reserved then some { s with reserved := s.reserved.erase r } else none

/-- Operations of a process (controller/actor.py:91-128, 196-200, controller/api.py:536). -/
inductive Op
  /-- `submit` of a task (api.py:536). -/
  | submit
  /-- Creation of an actor (actor.py:91-128). -/
  | create
  /-- Another handle of an actor on `rank` is made, by un-pickling (actor.py:95-97 with `owner_rank` given). -/
  | adopt (rank : Nat)
  /-- The `i`-th live handle object is destroyed (actor.py:196-200). -/
  | drop (i : Nat)
deriving DecidableEq, Repr

/-- A process: scheduler and ranks of its live handle objects (controller/common.py:26-38, controller/actor.py:91-128). -/
structure Proc where
  rr : RR
  handles : List Nat
deriving DecidableEq, Repr

/-- What an operation does to the cluster: places something on a worker, or nothing; failures are values
(controller/actor.py:91-128, controller/api.py:536). -/
inductive Effect
  | placed (rank : Nat)
  | failed (e : Err)
  | releaseError
  | none
deriving DecidableEq, Repr

/-- One operation. A failed creation leaves no handle and no reservation (controller/actor.py:91-128, 196-200,
controller/api.py:536). -/
def Proc.step (p : Proc) : Op → Effect × Proc
  | .submit =>
    match p.rr.schedule with
    | (.ok r, s) => (.placed r, { p with rr := s })
    | (.error e, s) => (.failed e, { p with rr := s })
  | .create =>
    match p.rr.schedule with
    | (.ok r, s) => (.placed r, ⟨s.reserve r, p.handles ++ [r]⟩)
    | (.error e, s) => (.failed e, { p with rr := s })
  | .adopt r => (.none, ⟨p.rr.reserve r, p.handles ++ [r]⟩)
  | .drop i =>
    match p.handles[i]? with
    | none => (.none, p)
    | some r =>
      match p.rr.release r with
      | some s => (.none, ⟨s, p.handles.eraseIdx i⟩)
      | none => (.releaseError, { p with handles := p.handles.eraseIdx i })

/-- A history: the effects with the handles that were live when each operation started (controller/actor.py:91-128, 196-200,
controller/api.py:536). -/
def Proc.run : Proc → List Op → List (List Nat × Effect) × Proc
  | p, [] => ([], p)
  | p, o :: os =>
    let r := p.step o
    let q := Proc.run r.2 os
    ((p.handles, r.1) :: q.1, q.2)

/-- A process at start (controller/common.py:26-38). -/
def Proc.init (self : Nat) (workers : List Nat) : Proc := ⟨⟨self, workers, 0, []⟩, []⟩

/-- The processes of a cluster; every process has its own `RoundRobin` object (controller/common.py:41-51). -/
abbrev Cluster := Nat → Proc

/-- A history of operations of several processes: acting process, live handles of the processes in `procs` at the start
of the operation, and effect (the process-local effects of controller/common.py:23-110). -/
def runCluster (procs : List Nat) : Cluster → List (Nat × Op) → List (Nat × List Nat × Effect)
  | _, [] => []
  | c, (p, o) :: os =>
    let r := (c p).step o
    (p, procs.flatMap (fun q => (c q).handles), r.1) :: runCluster procs (fun q => if q = p then r.2 else c q) os

end Verif.Sched
