import Verif.Spec.Backends

/-!
# A program with objects, independent of the backend

A program that puts numbers, calls functions, makes objects of classes and calls their methods, and what it should give. The results of all calls
are numbered in the order in which the calls are made, and so are the objects.
-/
namespace Verif.Spec.Actors
open Verif.Spec.Backends (Arg Res Funs argsOf)

/-- The user's functions and classes: the state of a new object of a class, how many results a method is declared to return, and what a method
of a class returns or raises in a state, with the state it leaves behind. -/
structure Code extends Funs where
  start : Nat → Nat
  mrets : Nat → Nat
  mcode : Nat → Nat → Nat → List Nat → Except Nat (List Nat) × Nat
  mfits : ∀ c m st vs l, (mcode c m st vs).1 = .ok l → l.length = mrets m

/-- A call of the program. -/
inductive Call
  | put (n : Nat)
  | call (f : Nat) (args : List Arg)
  | make (c : Nat)
  | method (a m : Nat) (args : List Arg)
deriving DecidableEq, Repr

/-- The results so far and the objects with their classes and states. -/
structure Local where
  env : List Res
  objs : List (Nat × Nat)
deriving DecidableEq, Repr

/-- The results of code with so many declared results. -/
def resOf (n : Nat) : Except Nat (List Nat) → List Res
  | .ok l => l.map .value
  | .error e => List.replicate n (.raised e)

/-- One call, made directly. A method whose arguments have failed is not called. -/
def direct (F : Code) (s : Local) : Call → Local
  | .put n => ⟨s.env ++ [.value n], s.objs⟩
  | .call f args => ⟨s.env ++ resOf (F.rets f) ((argsOf s.env args).bind (F.code f)), s.objs⟩
  | .make c => ⟨s.env, s.objs ++ [(c, F.start c)]⟩
  | .method a m args =>
    match s.objs[a]? with
    | none => s
    | some (c, st) =>
      match argsOf s.env args with
      | .error e => ⟨s.env ++ List.replicate (F.mrets m) (.raised e), s.objs⟩
      | .ok vs => ⟨s.env ++ resOf (F.mrets m) (F.mcode c m st vs).1, s.objs.set a (c, (F.mcode c m st vs).2)⟩

/-- All calls of a program, made directly one after the other. -/
def directly (F : Code) (s : Local) (P : List Call) : Local := P.foldl (direct F) s

/-- Every reference and every object is used after the call that makes it; `n` references and `k` objects were made before. -/
def Formed (F : Code) : Nat → Nat → List Call → Prop
  | _, _, [] => True
  | n, k, .put _ :: cs => Formed F (n + 1) k cs
  | n, k, .call f args :: cs => (∀ i, Arg.ref i ∈ args → i < n) ∧ Formed F (n + F.rets f) k cs
  | n, k, .make _ :: cs => Formed F n (k + 1) cs
  | n, k, .method a m args :: cs => a < k ∧ (∀ i, Arg.ref i ∈ args → i < n) ∧ Formed F (n + F.mrets m) k cs

/-- The arguments of a call. -/
def Call.args : Call → List Arg
  | .put _ => []
  | .call _ args => args
  | .make _ => []
  | .method _ _ args => args

/-- No call has an argument that is a failed result. -/
def ArgsFine (F : Code) : Local → List Call → Prop
  | _, [] => True
  | s, c :: cs => (∀ i e, Arg.ref i ∈ c.args → s.env[i]? ≠ some (.raised e)) ∧ ArgsFine F (direct F s c) cs

/-- There is a worker left for every function that is called and every object that is made, if each object keeps one of `n` workers for itself
and `k` objects were made before. -/
def Room (n : Nat) : Nat → List Call → Prop
  | _, [] => True
  | k, .put _ :: cs => Room n k cs
  | k, .call _ _ :: cs => k < n ∧ Room n k cs
  | k, .make _ :: cs => k < n ∧ Room n (k + 1) cs
  | k, .method _ _ _ :: cs => Room n k cs

end Verif.Spec.Actors
