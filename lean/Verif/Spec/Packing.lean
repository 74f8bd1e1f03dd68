import Verif.Model.Packing

/-! Where an object is inside another one. -/
namespace Verif.Spec
open Verif.Packing

/-- The objects directly inside. -/
def contents : Packing.Obj → List Packing.Obj
  | .list xs => xs
  | .dict xs => xs
  | .pickledSeq xs => xs
  | .frame xs => xs
  | _ => []

/-- `Inside x o`: `x` is `o` or somewhere in it. -/
inductive Inside (x : Packing.Obj) : Packing.Obj → Prop
  | self : Inside x x
  | deeper {o y : Packing.Obj} (h : y ∈ contents o) (hx : Inside x y) : Inside x o

/-- `Open x o`: `x` is `o` or in it with nothing but lists and dictionaries around it. -/
inductive Open (x : Packing.Obj) : Packing.Obj → Prop
  | self : Open x x
  | inList {xs : List Packing.Obj} {y : Packing.Obj} (h : y ∈ xs) (hx : Open x y) : Open x (.list xs)
  | inDict {xs : List Packing.Obj} {y : Packing.Obj} (h : y ∈ xs) (hx : Open x y) : Open x (.dict xs)

end Verif.Spec
