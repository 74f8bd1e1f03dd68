/-!
# Pending non-blocking sends

Models `AsyncOperations` in `/repo/unidist/core/backends/mpi/core/async_operations.py` (8-68). A handler is a number; MPI
completes handlers at any time.
-/
namespace Verif.AsyncOps

/-- The list of handlers with the data they send (async_operations.py:19-21), and the handlers MPI has completed. -/
structure State where
  handlers : List (Nat × Nat)
  completed : List Nat
deriving DecidableEq, Repr

/-- Start (async_operations.py:19-21). -/
def State.init : State := ⟨[], []⟩

/-- What happens: `extend` with handlers and data (async_operations.py:36-45); MPI completes a send; `check` (47-61), where
the sends `late` complete during the loop, the ones in `seen` before they are tested; `finish` (63-68), which returns only
when all sends have completed. -/
inductive Op
  | extend (hs : List (Nat × Nat))
  | complete (h : Nat)
  | check (late seen : List Nat)
  | finish
deriving DecidableEq, Repr

/-- Result of `handler.Test()` during `check` (async_operations.py:50-56). -/
def tested (completed late seen : List Nat) (h : Nat) : Bool := h ∈ completed || (h ∈ late && h ∈ seen)

/-- One step (async_operations.py:36-68). -/
def State.step (s : State) : Op → State
  | .extend hs => { s with handlers := s.handlers ++ hs }
  | .complete h => { s with completed := h :: s.completed }
  | .check late seen =>
    ⟨s.handlers.filter fun t => !tested s.completed late seen t.1, late ++ s.completed⟩
  | .finish => ⟨[], s.handlers.map (·.1) ++ s.completed⟩

/-- A history of steps (async_operations.py:36-68). -/
def State.run (s : State) (ops : List Op) : State := ops.foldl State.step s

end Verif.AsyncOps
