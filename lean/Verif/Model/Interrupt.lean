import Verif.Model.Dispatch

/-!
# Calls that are interrupted by a signal

`init` registers `_termination_handler` for SIGTERM and SIGINT (`/repo/unidist/core/backends/mpi/core/controller/api.py` 264-265). The
handler takes no arguments (588), so its call with the number of the signal and the frame raises a `TypeError` wherever the program
is, possibly between two messages of a request. The requests and the loops that read them are those of `Verif.Model.Dispatch`.
-/
namespace Verif.Interrupt
open Verif.Dispatch

/-- A call and the number of messages that were handed to MPI when the signal arrived (communication.py:857-1025); with at least
the number of its messages the call is complete. Messages that were handed over arrive: the send request that the exception
discards is not cancelled. -/
structure Attempt where
  request : Request
  sent : Nat
deriving DecidableEq, Repr

/-- The messages that travel (communication.py:857-1025). -/
def Attempt.messages (src block : Nat) (a : Attempt) : List Msg := (a.request.messages src block).take a.sent

/-- The messages of the root to a worker: the calls of the program and, from the `shutdown` registered for the exit of the program (api.py:263,
319-326), the operation `CANCEL`. -/
def toWorker (src block : Nat) (as : List Attempt) : List Msg := as.flatMap (Attempt.messages src block) ++ sendOperation src .cancel

end Verif.Interrupt
