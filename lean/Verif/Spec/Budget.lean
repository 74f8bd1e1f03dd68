import Verif.Spec.Program

/-! Bound on the number of steps the processes make for given calls of the user. -/
namespace Verif.Cluster
open Verif.Spec

/-- Steps that are not calls of the user: receipt of a reply, receipt of an operation, completion of a coroutine. -/
def isStep : Act → Bool
  | .reply _ => true
  | .deliver _ _ => true
  | .complete _ _ => true
  | _ => false

/-- How many steps a call may cause if there are `k` workers: every worker may ask for each new reference and is answered;
a task is sent, started and completed; every reference in the arguments is announced; a `get` sends a request for each
reference, which is answered. -/
def budget (k : Nat) : Act → Nat
  | .put _ => 2 * k
  | .submit _ args n _ => 4 + (refsList args).length + 2 * n * k
  | .get ids => 2 * ids.length
  | _ => 0

end Verif.Cluster
