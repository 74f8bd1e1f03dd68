/-!
# Free list of the shared memory segment

Models `/repo/unidist/core/backends/mpi/core/monitor/shared_memory_manager.py`, class
`FreeMemoryRange` (lines 25-103). A Python `[lo, hi]` pair becomes `Nat × Nat`; all indexes
are non-negative in the code. Mutation of `self.range` becomes returning the new list.
-/
namespace Verif.FreeMemory

/-- The list of free half-open ranges, `self.range` (shared_memory_manager.py:36). -/
abbrev Ranges := List (Nat × Nat)

/-- `FreeMemoryRange.__init__` (shared_memory_manager.py:35-36): one range for the whole segment. -/
def init (rangeLen : Nat) : Ranges := [(0, rangeLen)]

/-- `FreeMemoryRange.occupy` (shared_memory_manager.py:38-66): first range that is long enough.
The Python test `count <= hi - lo` is written `lo + count ≤ hi` (same over the integers).
`none` stands for the returned pair `(None, None)`. -/
def occupy : Ranges → Nat → Option (Nat × Nat) × Ranges
  | [], _ => (none, [])
  | (lo, hi) :: tl, count =>
    if lo + count ≤ hi then
      if hi = lo + count then (some (lo, lo + count), tl)
      else (some (lo, lo + count), (lo + count, hi) :: tl)
    else
      let (res, tl') := occupy tl count
      (res, (lo, hi) :: tl')

/-- Second component of `self.range[i - 1]` (shared_memory_manager.py:86). `pre` holds the ranges
before index `i`. For `i = 0` Python's index `-1` is the last element of the whole list. -/
def prevHi (all pre : Ranges) : Option Nat :=
  match pre.getLast? with
  | some p => some p.2
  | none => (all.getLast?).map (·.2)

/-- `self.range[i - 1][1] = self.range[i][1]` followed by dropping index `i`
(shared_memory_manager.py:87-88), with Python's index `-1` for `i = 0`. -/
def mergeDown (all pre : Ranges) (hi : Nat) (tl : Ranges) : Ranges :=
  match pre.getLast? with
  | some p => pre.dropLast ++ (p.1, hi) :: tl
  | none =>
    match all.getLast? with
    | some p => (all.dropLast ++ [(p.1, hi)]).drop 1
    | none => []

/-- The `for` loop of `FreeMemoryRange.release` (shared_memory_manager.py:84-103) at index
`pre.length`; `all = pre ++ rest`. Falling off the end leaves the list unchanged. -/
def releaseLoop (all : Ranges) (first last : Nat) : Ranges → Ranges → Ranges
  | _, [] => all
  | pre, (lo, hi) :: tl =>
    if lo = last then
      if prevHi all pre = some first then mergeDown all pre hi tl
      else pre ++ (first, hi) :: tl
    else if hi = first then
      match tl with
      | (lo2, hi2) :: tl2 =>
        if lo2 = last then pre ++ (lo, hi2) :: tl2
        else pre ++ (lo, last) :: (lo2, hi2) :: tl2
      | [] => pre ++ [(lo, last)]
    else if lo > last then pre ++ (first, last) :: (lo, hi) :: tl
    else releaseLoop all first last (pre ++ [(lo, hi)]) tl

/-- `FreeMemoryRange.release` (shared_memory_manager.py:68-103). -/
def release (r : Ranges) (first last : Nat) : Ranges :=
  match r.getLast? with
  | none => r ++ [(first, last)]
  | some p =>
    if p.2 < first then r ++ [(first, last)]
    else releaseLoop r first last [] r

/-- A client operation on the segment: reserve `n` bytes or release the `k`-th live reservation
(most recent first). The monitor performs exactly these two calls
(shared_memory_manager.py:176 and 241-243), always releasing a range it handed out. -/
inductive Op where
  | reserve (n : Nat)
  | release (k : Nat)
deriving Repr, DecidableEq

/-- Segment state: free list and the ranges handed out and not yet released. The second component is
the memory part of `_reservation_info` (shared_memory_manager.py:115). -/
structure State where
  free : Ranges
  live : Ranges
deriving Repr, DecidableEq

/-- One client operation; the result of a reservation is `Option` as in `occupy`.
Cites shared_memory_manager.py:176,191 (reserve) and 241-244 (release). -/
def step (s : State) : Op → State
  | .reserve n =>
    match occupy s.free n with
    | (some p, f) => { free := f, live := p :: s.live }
    | (none, f) => { s with free := f }
  | .release k =>
    match s.live[k]? with
    | some p => { free := FreeMemory.release s.free p.1 p.2, live := s.live.eraseIdx k }
    | none => s

/-- State after a history of operations, starting from a fresh segment
(shared_memory_manager.py:116). -/
def run (len : Nat) (ops : List Op) : State :=
  ops.foldl step { free := init len, live := [] }

end Verif.FreeMemory
