/-!
# A program independent of the backend

A program that puts numbers and calls remote functions with numbers and results of earlier calls, and what it should give. The results of all
calls are numbered in the order in which the calls are made.
-/
namespace Verif.Spec.Backends

/-- An argument: a number or the result with this number. -/
inductive Arg
  | num (n : Nat)
  | ref (i : Nat)
deriving DecidableEq, Repr

/-- A call of the program: a `put`, or a call of a remote function. -/
inductive Call
  | put (n : Nat)
  | call (f : Nat) (args : List Arg)
deriving DecidableEq, Repr

/-- The user's functions: how many results they are declared to return, and what they return or raise. They return as many results
as declared. -/
structure Funs where
  rets : Nat → Nat
  code : Nat → List Nat → Except Nat (List Nat)
  fits : ∀ f vs l, code f vs = .ok l → l.length = rets f

/-- What a reference should give: a number, or an error that is raised. -/
inductive Res
  | value (n : Nat)
  | raised (e : Nat)
deriving DecidableEq, Repr

/-- The arguments of a direct call: all numbers, or the error of the first failed one. -/
def argsOf (env : List Res) : List Arg → Except Nat (List Nat)
  | [] => .ok []
  | .num n :: rest => (argsOf env rest).map (n :: ·)
  | .ref i :: rest =>
    match env[i]? with
    | some (.value n) => (argsOf env rest).map (n :: ·)
    | some (.raised e) => .error e
    | none => .error 0

/-- The results of one direct call, given those of the calls before. -/
def resultsOf (F : Funs) (env : List Res) : Call → List Res
  | .put n => [.value n]
  | .call f args =>
    match (argsOf env args).bind (F.code f) with
    | .ok l => l.map .value
    | .error e => List.replicate (F.rets f) (.raised e)

/-- The results of a program whose calls are made directly, one after the other. -/
def direct (F : Funs) : List Res → List Call → List Res
  | env, [] => env
  | env, c :: cs => direct F (env ++ resultsOf F env c) cs

/-- Every reference is used after the call that makes it, if `n` were made before. -/
def Formed (F : Funs) : Nat → List Call → Prop
  | _, [] => True
  | n, .put _ :: cs => Formed F (n + 1) cs
  | n, .call f args :: cs => (∀ i, Arg.ref i ∈ args → i < n) ∧ Formed F (n + F.rets f) cs

/-- No call has an argument that is a failed result. -/
def ArgsFine (F : Funs) : List Res → List Call → Prop
  | _, [] => True
  | env, .put n :: cs => ArgsFine F (env ++ resultsOf F env (.put n)) cs
  | env, .call f args :: cs =>
    (∀ i e, Arg.ref i ∈ args → env[i]? ≠ some (.raised e)) ∧ ArgsFine F (env ++ resultsOf F env (.call f args)) cs

end Verif.Spec.Backends
