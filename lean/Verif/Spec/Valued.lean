import Verif.Model.Valued

/-! What programs of remote calls should compute: what the same calls compute one after the other in a single process. -/
namespace Verif.Spec.Valued
open Verif.Valued

/-- The value of an argument when `env` are the values of all references made so far. -/
def argVal (env : List Val) : Arg → Val
  | .val v => v
  | .ref i => env.getD i (.exc 0)

/-- The exception, if the object is one. -/
def excOf : Val → Option Nat
  | .exc e => some e
  | .ok _ => none

/-- The value of an object that is no exception. -/
def okOf : Val → Nat
  | .ok n => n
  | .exc e => e

/-- The values of the `n` outputs of a direct call: the first exception among the arguments, else what the function gives. -/
def directly (W : World) (vs : List Val) (n : Nat) : List Val :=
  match vs.findSome? excOf with
  | some e => List.replicate n (.exc e)
  | none =>
    match W.call (vs.map okOf) with
    | .error e => List.replicate n (.exc e)
    | .ok f => (List.range n).map fun k => .ok (f k)

/-- The values of all references of a program, in the order in which they are made, if every call is made directly. -/
def values (W : World) : List Val → List Op → List Val
  | env, [] => env
  | env, .put v :: ops => values W (env ++ [v]) ops
  | env, .submit args n _ _ :: ops => values W (env ++ directly W (args.map (argVal env)) n) ops
  | env, .drop _ :: ops => values W env ops
  | env, .get _ :: ops => values W env ops
  | env, .deliver _ _ :: ops => values W env ops
  | env, .report :: ops => values W env ops
  | env, .cleanup :: ops => values W env ops

end Verif.Spec.Valued
