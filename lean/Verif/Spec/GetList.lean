import Verif.Model.GetList

/-! What `get` of a list should do (C129). -/
namespace Verif.Spec
open Verif.GetList

/-- `g` is the right answer to `get ids`: all results in their order if none is an exception, and otherwise the exception of the first
reference of the list that has one. -/
def AnswersList (results : Nat → Option Obj) (ids : List Nat) (g : Got) : Prop :=
  match g with
  | .values os => os.length = ids.length ∧
      ∀ (k i : Nat), ids[k]? = some i → ∃ n, results i = some (.val n) ∧ os[k]? = some (.val n)
  | .raised e => ∃ (k i : Nat), ids[k]? = some i ∧ results i = some (.exc e) ∧
      ∀ (j i' : Nat), j < k → ids[j]? = some i' → ∃ n, results i' = some (.val n)
  | .unasked => False
  | .missing => False

/-- `arrived` are messages that can come while `get ids` waits: each reference that the process does not have is answered once, with its
result, in any order. -/
def Replies (results : Nat → Option Obj) (has : Store) (ids : List Nat) (arrived : List (Nat × Obj)) : Prop :=
  (arrived.map Prod.fst).Nodup ∧ ∀ m ∈ arrived, m.1 ∈ ids ∧ has m.1 = none ∧ results m.1 = some m.2

/-- Nothing more will come: every reference that is asked for and has a result was answered. -/
def AllReplied (results : Nat → Option Obj) (has : Store) (ids : List Nat) (arrived : List (Nat × Obj)) : Prop :=
  Replies results has ids arrived ∧ ∀ i ∈ ids, has i = none → results i ≠ none → i ∈ arrived.map Prod.fst

/-- Whether an action puts the object of a reference or gets it. -/
def _root_.Verif.GetList.Op.mentions (i : Nat) : Op → Bool
  | .put j _ => j == i
  | .get ids _ => ids.contains i

/-- What the process has after some actions that have ended: the objects of all references that were put or asked for. -/
def heldAfter (results : Nat → Option Obj) (done : List Op) : Store :=
  fun i => if done.any (Op.mentions i) then results i else none

/-- `results` are the objects of the references: what is put is the object of its reference, and while a `get` waits exactly the answers to
what it asks for arrive. -/
def LegalOp (results : Nat → Option Obj) (done : List Op) : Op → Prop
  | .put i o => results i = some o
  | .get ids arrived => AllReplied results (heldAfter results done) ids arrived

/-- A program whose actions are all legal. -/
def LegalProgram (results : Nat → Option Obj) (ops : List Op) : Prop :=
  ∀ done op later, ops = done ++ op :: later → LegalOp results done op

/-- The lists that are asked for. -/
def listsAsked : List Op → List (List Nat)
  | [] => []
  | .put _ _ :: ops => listsAsked ops
  | .get ids _ :: ops => ids :: listsAsked ops

end Verif.Spec
