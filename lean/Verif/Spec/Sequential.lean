import Verif.Model.Worker

/-!
# Sequential meaning of a program of tasks

Specification used for the distributed runs (not a model of code): the calls made by the main program are evaluated one
after the other in the order in which they were made.
-/
namespace Verif.Spec
open Verif.Worker (Val Ret World)

mutual
/-- References occurring in a value. -/
def refs : Val → List Nat
  | .ref i => [i]
  | .list vs => refsList vs
  | .data _ => []
  | .exc _ => []
  | .code _ => []
/-- References occurring in a list of values. -/
def refsList : List Val → List Nat
  | [] => []
  | v :: vs => refs v ++ refsList vs
end

mutual
/-- Replace every reference that has a value, at any depth. -/
def subst (f : Nat → Option Val) : Val → Val
  | .ref i => (f i).getD (.ref i)
  | .list vs => .list (substList f vs)
  | .data n => .data n
  | .exc n => .exc n
  | .code n => .code n
/-- Replacement in a list of values. -/
def substList (f : Nat → Option Val) : List Val → List Val
  | [] => []
  | v :: vs => subst f v :: substList f vs
end

/-- The first direct argument that is an error. -/
def firstFailure (args : List Val) : Option Nat :=
  args.findSome? fun
    | .exc e => some e
    | _ => none

/-- Result of a task in an environment: none if an argument has no value; the error of the first failed direct argument;
otherwise the result of the function on the values. -/
def taskResult (W : World) (env : Nat → Option Val) (fn : Nat) (args : List Val) : Option Ret :=
  if (∀ i ∈ refsList args, (env i).isSome) ∧ (env fn).isSome then
    match firstFailure (substList env args) with
    | some e => some (.raise e)
    | none =>
      match env fn with
      | some (.code c) => some (W.call c (substList env args))
      | _ => some (.raise 0)
  else none

/-- Values of the outputs: the error for each output, the value for a single output, the elements of a list for several
outputs. -/
def outputValues (outs : List Nat) : Ret → List (Nat × Val)
  | .raise e => outs.map fun o => (o, .exc e)
  | .ret v =>
    match outs, v with
    | [o], v => [(o, v)]
    | outs, .list vs => outs.zip vs
    | _, _ => []

/-- A call of the main program, with the references it creates. -/
inductive Call
  | put (id : Nat) (v : Val)
  | submit (fn : Nat) (args : List Val) (outs : List Nat)

/-- Extend an environment. -/
def extend (env : Nat → Option Val) (l : List (Nat × Val)) : Nat → Option Val :=
  l.foldl (fun e x => fun i => if i = x.1 then some x.2 else e i) env

/-- Effect of one call. -/
def evalCall (W : World) (env : Nat → Option Val) : Call → (Nat → Option Val)
  | .put id v => extend env [(id, v)]
  | .submit fn args outs =>
    match taskResult W env fn args with
    | some r => extend env (outputValues outs r)
    | none => env

/-- Values of all references after a sequence of calls. -/
def meaning (W : World) (calls : List Call) : Nat → Option Val :=
  calls.foldl (evalCall W) (fun _ => none)

end Verif.Spec
