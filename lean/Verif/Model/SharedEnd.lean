/-!
# Values from shared memory at the end of the program

Values got from shared memory are views into the window (`/repo/unidist/core/backends/mpi/core/shared_object_store.py` 448-460); `shutdown` frees
the windows, then detaches the finalizers of the references, then ends MPI (shared_object_store.py:830-845, controller/api.py:332-337). Models one
process and its own calls: `put`, `get`, the use and the copying of values, references that are collected, and the end.

Memory of a window that was freed does not exist any more (`MPI_Win_free`). An object that a task returned and that was received is a `put` followed
by a `get`, as it is registered and kept by the local store in the same way (shared_object_store.py:807-821, object_store.py:78-89). Left out:
memory that is used again after a cleanup (C91), cleanups of `get` when enough references were dropped, and the second check of the finalizers,
`MPI.Is_finalized` (shared_object_store.py:336-337), which never decides as they are detached before.
-/
namespace Verif.SharedEnd

/-- The windows exist; they were freed; the finalizers were detached and MPI has ended (shared_object_store.py:830-845, api.py:333-337). -/
inductive Stage
  | running
  | freed
  | ended
deriving DecidableEq, Repr

/-- What ends the process: it touches memory that was freed, or it calls MPI after its end (shared_object_store.py:436-441,
839-843, api.py:334-335). -/
inductive Fault
  | memory
  | mpi
deriving DecidableEq, Repr

/-- The process: whether it has shared memory (shared_object_store.py:583-592), the stage, the references with the number of out-of-band buffers of
their objects (425-466), the references whose values are in the local store (object_store.py:74-90), the finalizers (shared_object_store.py:119-120,
379-383), the references that were collected, the values of the program and whether they are views, and what ended the process. -/
structure State where
  shared : Bool
  stage : Stage
  refs : List (Nat × Nat)
  known : List Nat
  finalizers : List Nat
  dropped : List Nat
  vals : List (Nat × Bool)
  fault : Option Fault
deriving DecidableEq, Repr

/-- At start (shared_object_store.py:90-120). -/
def State.init (shared : Bool) : State := ⟨shared, .running, [], [], [], [], [], none⟩

/-- What can happen: `i = put(…)` of an object with `n` out-of-band buffers; `v = get(i)`; the program uses `v`; `v` becomes a copy of `w`; reference
`i` is collected; the end frees the windows, and goes on (api.py:371-433, 332-337). Names of references and values are not used twice. -/
inductive Act
  | put (i n : Nat)
  | get (v i : Nat)
  | use (v : Nat)
  | copy (v w : Nat)
  | drop (i : Nat)
  | free
  | detach
deriving DecidableEq, Repr

/-- The process ends (shared_object_store.py:839-843, api.py:334-335). -/
def State.fail (s : State) (f : Fault) : State := { s with fault := some f }

/-- The number of buffers of a reference (shared_object_store.py:436-460). -/
def State.bufs (s : State) (i : Nat) : Option Nat := (s.refs.find? (·.1 = i)).map (·.2)

/-- Whether a value is a view (shared_object_store.py:448-460). -/
def State.view (s : State) (v : Nat) : Option Bool := (s.vals.find? (·.1 = v)).map (·.2)

/-- Whether an access to a value touches memory that does not exist (shared_object_store.py:839-840). -/
def State.gone (s : State) (view : Bool) : Bool := view && decide (s.stage ≠ .running)

/-- One step (controller/api.py:371-433, object_store.py:56-90, shared_object_store.py:318-348, 425-466, 725-756, 830-845); `none` if it is not possible.
Between the release of the windows and the detaching of the finalizers only the collector runs. -/
def State.step (s : State) (a : Act) : Option State :=
  if s.fault.isSome then none
  else match a with
  | .put i n =>
    if s.stage = .freed ∨ (s.bufs i).isSome then none
    else if s.shared then
      if s.stage = .ended then some (s.fail .mpi)
      else some { s with refs := s.refs ++ [(i, n)], finalizers := i :: s.finalizers }
    else some { s with refs := s.refs ++ [(i, n)] }
  | .get v i =>
    if s.stage = .freed ∨ (s.view v).isSome ∨ i ∈ s.dropped then none
    else match s.bufs i with
    | none => none
    | some n =>
      let val := (v, s.shared && decide (0 < n))
      if i ∈ s.known then some { s with vals := s.vals ++ [val] }
      else if s.shared && decide (s.stage = .ended) then some (s.fail .memory)
      else some { s with known := i :: s.known, vals := s.vals ++ [val] }
  | .use v =>
    if s.stage = .freed then none
    else match s.view v with
    | none => none
    | some b => if s.gone b then some (s.fail .memory) else some s
  | .copy v w =>
    if s.stage = .freed ∨ (s.view v).isSome then none
    else match s.view w with
    | none => none
    | some b => if s.gone b then some (s.fail .memory) else some { s with vals := s.vals ++ [(v, false)] }
  | .drop i =>
    if (s.bufs i).isNone ∨ i ∈ s.dropped then none
    else if i ∈ s.finalizers then
      if s.stage = .running then some { s with finalizers := s.finalizers.filter (· ≠ i), dropped := i :: s.dropped }
      else some (s.fail .memory)
    else some { s with dropped := i :: s.dropped }
  | .free => if s.stage = .running then some { s with stage := .freed } else none
  | .detach => if s.stage = .freed then some { s with stage := .ended, finalizers := [] } else none

/-- A history (controller/api.py:304-433). -/
def State.run : State → List Act → Option State
  | s, [] => some s
  | s, a :: as => (s.step a).bind fun s' => s'.run as

end Verif.SharedEnd
