import Verif.Model.Pyseq
import Verif.Spec.Pymp

/-! # Programs of the sequential backend as seen by their caller -/
namespace Verif.Spec.Pyseq
open Verif.Pymp (Val Ret World Item Task Target)
open Verif.Pyseq (Op Out Err)
open Verif.Spec.Pymp (Outcome Env resolve add apply remember)

/-- Not an exception object. -/
def noExc : Val → Bool
  | .exc _ => false
  | _ => true

/-- User code that returns no exception objects. -/
def NoExcRet (r : Ret) : Prop := ∀ v items, r = .ok v items → noExc v = true ∧ ∀ l, items = some l → ∀ u ∈ l, noExc u = true

/-- A world of such code. -/
structure NoExcWorld (W : World) : Prop where
  call : ∀ f vs, NoExcRet (W.call f vs)
  method : ∀ cls hist m vs, NoExcRet (W.method cls hist m vs)

/-! ### With exception objects

The evaluation of a program call by call, in which an exception object as a value is raised when its reference is read. -/

/-- What reading makes of a value. -/
def asRaised : Val → Outcome
  | .exc e => .raised e
  | v => .value v

/-- Outcomes of the results of a call: the error for each, the value for a single one, the elements for several. -/
def shownResults (outs : List Nat) : Ret → List (Nat × Outcome)
  | .raise e => outs.map fun o => (o, .raised e)
  | .ok v items =>
    match outs, items with
    | [], _ => []
    | [o], _ => [(o, asRaised v)]
    | outs, some l => outs.zip (l.map asRaised)
    | _, none => []

/-- Effect of one call of the program. -/
def shownEval (W : World) (E : Env) : Item → Env
  | .put id v => { E with val := add E.val [(id, asRaised v)] }
  | .task t =>
    match resolve E.val t.args with
    | none => E
    | some (.error e) => { E with val := add E.val (t.outs.map fun o => (o, .raised e)) }
    | some (.ok vs) => ⟨add E.val (shownResults t.outs (apply W E.hist vs t.target)), remember E.hist vs t.target⟩

/-- Meaning of a program whose exception objects are raised. -/
def shown (W : World) (items : List Item) : Env := items.foldl (shownEval W) Env.empty

/-- The `k`-th executed call, given the classes of the actors: what was called and which references its caller got. Nothing was
executed if an argument raised its error; if the result had too few elements the function was executed without giving references. -/
def item (k : Nat) (classes : List Nat) : Op → Out → List Item
  | .put v, .refs ids => ids.map fun id => .put id v
  | .submit f args _, .refs ids => [.task ⟨k, .fn f, args, ids⟩]
  | .submit f args _, .raised .index => [.task ⟨k, .fn f, args, []⟩]
  | .method a m args _, .refs ids => [.task ⟨k, .method a ((classes[a]?).getD 0) m, args, ids⟩]
  | .method a m args _, .raised .index => [.task ⟨k, .method a ((classes[a]?).getD 0) m, args, []⟩]
  | _, _ => []

/-- The classes after a call. -/
def classesAfter (classes : List Nat) : Op → List Nat
  | .create cls => classes ++ [cls]
  | _ => classes

/-- The executed calls of a program with these outcomes. -/
def calls (k : Nat) (classes : List Nat) : List Op → List Out → List Item
  | op :: ops, o :: os => item k classes op o ++ calls (k + (item k classes op o).length) (classesAfter classes op) ops os
  | _, _ => []

end Verif.Spec.Pyseq
