import Verif.Model.Derived

/-! What should happen to references in containers of derived classes (C130). -/
namespace Verif.Spec.Derived
open Verif.Derived

mutual
/-- Every reference replaced by its value, in containers of any class. -/
def everywhere (val : Nat → Obj) : Obj → Obj
  | .wrap id => val id
  | .ref id => val id
  | .other n => .other n
  | .box d k xs => .box d k (everywhereList val xs)
/-- Replacement in the elements. -/
def everywhereList (val : Nat → Obj) : List Obj → List Obj
  | [] => []
  | x :: xs => everywhere val x :: everywhereList val xs
end

/-- The object at a position, and whether a container of a derived class is passed on the way to it. -/
def at? : Obj → List Nat → Option (Obj × Bool)
  | o, [] => some (o, false)
  | .box d _ xs, i :: path =>
    match xs[i]? with
    | some x => (at? x path).map fun r => (r.1, d || r.2)
    | none => none
  | _, _ :: _ => none

end Verif.Spec.Derived
