import Verif.Model.Pymp

/-!
# Sequential meaning of a program of the multiprocessing backend

The calls of the main process evaluated one after the other. Only direct arguments are replaced by values.
-/
namespace Verif.Spec.Pymp
open Verif.Pymp

/-- What getting a reference should give. -/
inductive Outcome
  | value (v : Val)
  | raised (e : Nat)
deriving DecidableEq, Repr

/-- Outcomes of the references known so far and the executed calls of each actor. -/
structure Env where
  val : Nat → Option Outcome
  hist : Nat → List (Nat × List Val)

/-- Nothing known. -/
def Env.empty : Env := ⟨fun _ => none, fun _ => []⟩

/-- Values of the arguments in order; the first error; `none` if the value of an argument before that is not known. -/
def resolve (val : Nat → Option Outcome) : List Arg → Option (Except Nat (List Val))
  | [] => some (.ok [])
  | .lit v :: rest =>
    match resolve val rest with
    | some (.ok vs) => some (.ok (v :: vs))
    | r => r
  | .ref id :: rest =>
    match val id with
    | none => none
    | some (.raised e) => some (.error e)
    | some (.value v) =>
      match resolve val rest with
      | some (.ok vs) => some (.ok (v :: vs))
      | r => r

/-- Outcomes of the results of a call: the error for each, the value for a single one, the elements for several. -/
def results (outs : List Nat) : Ret → List (Nat × Outcome)
  | .raise e => outs.map fun o => (o, .raised e)
  | .ok v items =>
    match outs, items with
    | [], _ => []
    | [o], _ => [(o, .value v)]
    | outs, some l => outs.zip (l.map .value)
    | _, none => []

/-- Add outcomes. -/
def add (val : Nat → Option Outcome) (l : List (Nat × Outcome)) : Nat → Option Outcome :=
  fun id => ((l.find? fun p => p.1 == id).map (·.2)).or (val id)

/-- The user's code of a target. -/
def apply (W : World) (hist : Nat → List (Nat × List Val)) (vs : List Val) : Target → Ret
  | .fn f => W.call f vs
  | .method a cls m => W.method cls (hist a) m vs

/-- The history after a call. -/
def remember (hist : Nat → List (Nat × List Val)) (vs : List Val) : Target → Nat → List (Nat × List Val)
  | .fn _ => hist
  | .method a _ m => fun b => if b = a then hist a ++ [(m, vs)] else hist b

/-- Effect of one call of the main process. -/
def eval (W : World) (E : Env) : Item → Env
  | .put id v => { E with val := add E.val [(id, .value v)] }
  | .task t =>
    match resolve E.val t.args with
    | none => E
    | some (.error e) => { E with val := add E.val (t.outs.map fun o => (o, .raised e)) }
    | some (.ok vs) => ⟨add E.val (results t.outs (apply W E.hist vs t.target)), remember E.hist vs t.target⟩

/-- Meaning of a program. -/
def meaning (W : World) (items : List Item) : Env := items.foldl (eval W) Env.empty

/-- Values that the object store does not treat specially. -/
def plain : Val → Bool
  | .data _ => true
  | .callable _ => true
  | .bytes _ => false
  | .exc _ => false

/-- User code whose results are not treated specially by the object store. -/
def PlainRet (r : Ret) : Prop := ∀ v items, r = .ok v items → plain v = true ∧ ∀ l, items = some l → ∀ u ∈ l, plain u = true

/-- A world of such code, in which unpickling a pickled callable gives it back. -/
structure PlainWorld (W : World) : Prop where
  call : ∀ f vs, PlainRet (W.call f vs)
  method : ∀ cls hist m vs, PlainRet (W.method cls hist m vs)
  pickle : ∀ c, W.loads (W.dumps c) = .ok (.callable c)

/-- The program puts only values that are not treated specially. -/
def PlainPuts (items : List Item) : Prop := ∀ id v, Item.put id v ∈ items → plain v = true

/-! ### With the treatment of values by the object store

The same evaluation, in which byte strings are unpickled and exception objects raised when a reference is read, and callables are pickled by `put`. -/

/-- What reading makes of a value in the store. -/
def readBack (W : World) : Val → Outcome
  | .exc e => .raised e
  | .bytes b =>
    match W.loads b with
    | .ok v => .value v
    | .error e => .raised e
  | v => .value v

/-- What reading makes of a value that was put. -/
def putBack (W : World) : Val → Outcome
  | .callable c => readBack W (.bytes (W.dumps c))
  | v => readBack W v

/-- Outcomes of the results of a call. -/
def seenResults (W : World) (outs : List Nat) : Ret → List (Nat × Outcome)
  | .raise e => outs.map fun o => (o, .raised e)
  | .ok v items =>
    match outs, items with
    | [], _ => []
    | [o], _ => [(o, readBack W v)]
    | outs, some l => outs.zip (l.map (readBack W))
    | _, none => []

/-- Effect of one call of the main process. -/
def seenEval (W : World) (E : Env) : Item → Env
  | .put id v => { E with val := add E.val [(id, putBack W v)] }
  | .task t =>
    match resolve E.val t.args with
    | none => E
    | some (.error e) => { E with val := add E.val (t.outs.map fun o => (o, .raised e)) }
    | some (.ok vs) => ⟨add E.val (seenResults W t.outs (apply W E.hist vs t.target)), remember E.hist vs t.target⟩

/-- Meaning of a program with the treatment of values by the object store. -/
def seen (W : World) (items : List Item) : Env := items.foldl (seenEval W) Env.empty

/-- Every function and method gives as many values as were announced. -/
def Fits (W : World) (items : List Item) : Prop :=
  ∀ t, Item.task t ∈ items → ∀ hist vs v l, apply W hist vs t.target = .ok v l →
    t.outs.length ≤ 1 ∨ ∃ xs, l = some xs ∧ t.outs.length ≤ xs.length

/-- An event of the actor: whether a call begins, and its number. -/
def eventOf (a : Nat) : Event → Option (Bool × Nat)
  | .begins k (.method b _ _) => if b = a then some (true, k) else none
  | .ends k (.method b _ _) => if b = a then some (false, k) else none
  | _ => none

/-- The events of an actor. -/
def eventsOf (a : Nat) (log : List Event) : List (Bool × Nat) := log.filterMap (eventOf a)

end Verif.Spec.Pymp
