import Verif.Model.Sharing

/-! Objects as a program sees them: by the paths that lead to them. -/
namespace Verif.Spec
open Verif.Sharing

/-- What an object refers to. -/
def heldBy (h : Heap) (a : Nat) : List Nat :=
  match h[a]? with
  | some (.list xs) => xs
  | some (.boxed _ xs) => xs
  | _ => []

/-- The object reached from `a` by taking the given items one after another. -/
def reached (h : Heap) (a : Nat) : List Nat → Option Nat
  | [] => some a
  | i :: p => match (heldBy h a)[i]? with
    | some b => reached h b p
    | none => none

/-- What is seen of an object without looking into it: its class and how many items it has. -/
inductive Look
  | atom (n : Nat)
  | list (length : Nat)
  | boxed (kind length : Nat)
deriving DecidableEq

/-- What is seen of an object. -/
def look : Node → Look
  | .atom n => .atom n
  | .list xs => .list xs.length
  | .boxed k xs => .boxed k xs.length

/-- What is seen at the end of a path. -/
def lookAt (h : Heap) (a : Nat) (p : List Nat) : Option Look :=
  match reached h a p with
  | some b => h[b]?.map look
  | none => none

/-- Two paths lead to the same object: what is changed through one of them is seen through the other. -/
def SameObject (h : Heap) (a : Nat) (p q : List Nat) : Prop := ∃ b, reached h a p = some b ∧ reached h a q = some b

/-- All references of a heap are to objects of the heap. -/
def ClosedHeap (h : Heap) : Prop := ∀ a, ∀ b ∈ heldBy h a, b < h.length

/-- The path goes through lists and dictionaries only (its end may be anything). -/
def OpenPath (h : Heap) (a : Nat) : List Nat → Prop
  | [] => True
  | i :: p => (∃ xs, h[a]? = some (.list xs)) ∧ ∃ b, (heldBy h a)[i]? = some b ∧ OpenPath h b p

/-- Both paths go through one object that is neither list nor dictionary, reached in the same way. -/
def ThroughBox (h : Heap) (a : Nat) (p q : List Nat) : Prop :=
  ∃ r p' q' k n, p = r ++ p' ∧ q = r ++ q' ∧ lookAt h a r = some (.boxed k n)

end Verif.Spec
