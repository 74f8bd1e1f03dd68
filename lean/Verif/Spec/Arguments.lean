import Verif.Model.Arguments

/-! What should happen to the arguments of a call. -/
namespace Verif.Spec
open Verif.Args

mutual
/-- Every reference, at any depth of containers, replaced by its value. -/
def withValues (val : Nat → Obj) : Obj → Obj
  | .wrap id => val id
  | .ref id => val id
  | .other n => .other n
  | .box b xs => .box b (withValuesList val xs)
/-- Replacement in the elements of a container. -/
def withValuesList (val : Nat → Obj) : List Obj → List Obj
  | [] => []
  | x :: xs => withValues val x :: withValuesList val xs
end

mutual
/-- No raw reference (an object of the backend, not the wrapper the user gets) occurs. -/
def noRaw : Obj → Bool
  | .ref _ => false
  | .wrap _ => true
  | .other _ => true
  | .box _ xs => noRawList xs
/-- No raw reference in the elements. -/
def noRawList : List Obj → Bool
  | [] => true
  | x :: xs => noRaw x && noRawList xs
end

mutual
/-- No wrapper occurs. -/
def noWrap : Obj → Bool
  | .ref _ => true
  | .wrap _ => false
  | .other _ => true
  | .box _ xs => noWrapList xs
/-- No wrapper in the elements. -/
def noWrapList : List Obj → Bool
  | [] => true
  | x :: xs => noWrap x && noWrapList xs
end

/-- References are direct arguments only: no container has a reference inside. -/
def directRefs : Obj → Bool
  | .box _ xs => noRawList xs && noWrapList xs
  | _ => true

/-- The object found in nested containers by following positions. -/
def find : Obj → List Nat → Option Obj
  | o, [] => some o
  | .box _ xs, i :: path =>
    match xs[i]? with
    | some x => find x path
    | none => none
  | _, _ :: _ => none

end Verif.Spec
