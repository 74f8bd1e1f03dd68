import Verif.Spec.Sequential

/-! Specification of actors: what a local object does when its methods are called one after the other. -/
namespace Verif.Spec
open Verif.Worker (Val Ret World)

/-- What a local object does in a call of a method: a direct argument that is an error is raised without calling the method. -/
def localCall (W : World) (name : Nat) (s : Val) (args : List Val) : Val × Ret :=
  match firstFailure args with
  | some e => (s, .raise e)
  | none => W.method name s args

/-- What a local object does in a list of calls: its last state and the results. -/
def localCalls (W : World) : Val → List (Nat × List Val) → Val × List Ret
  | s, [] => (s, [])
  | s, q :: l => ((localCalls W (localCall W q.1 s q.2).1 l).1, (localCall W q.1 s q.2).2 :: (localCalls W (localCall W q.1 s q.2).1 l).2)

end Verif.Spec
