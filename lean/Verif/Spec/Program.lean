import Verif.Spec.Sequential
import Verif.Model.Cluster

/-!
# The program made by the main process

Specification: the calls of the main process in a run and what they mean. New references are numbered in the order in
which they are made.
-/
namespace Verif.Spec
open Verif.Worker (Val)
open Verif.Cluster (Act)

/-- The call made by an action if `n` references exist already. -/
def callOf (n : Nat) : Act → List Call
  | .put v => [.put n v]
  | .submit fn args k _ => [.submit fn args ((List.range k).map (n + ·))]
  | _ => []

/-- Number of references after an action. -/
def nextOf (n : Nat) : Act → Nat
  | .put _ => n + 1
  | .submit _ _ k _ => n + k
  | _ => n

/-- The calls made by a list of actions. -/
def callsOf (n : Nat) : List Act → List Call
  | [] => []
  | a :: as => callOf n a ++ callsOf (nextOf n a) as

/-- The submissions among the calls: function, arguments, outputs. -/
def submits (calls : List Call) : List (Nat × List Val × List Nat) :=
  calls.filterMap fun
    | .submit fn args outs => some (fn, args, outs)
    | .put _ _ => none

/-- The lists given to `get`. -/
def getsOf (acts : List Act) : List (List Nat) :=
  acts.filterMap fun
    | .get ids => some ids
    | _ => none

end Verif.Spec
