/-!
# The references that a program holds

A program never sees the references of a backend but `ObjectRef` objects around them (`/repo/unidist/core/base/object_ref.py` 8-19).
It has neither `__eq__` nor `__hash__`, so Python compares these objects by identity. `put` and calls make one around each new
reference, `wait` takes the references out of the given objects and makes new objects around those the backend returns
(`/repo/unidist/core/base/backend.py` 264-335), and an `ObjectRef` inside stored data is pickled, so that a new one comes back.

The `i`-th `ObjectRef` ever made is the number `i`. Values are numbers. A backend answers `wait` with some partition of the references
given to it; that it does so is shown in C39, C67 and C74 (for different references). `get` and tasks that have not ended are left out.
-/
namespace Verif.RefObj

/-- The references inside all `ObjectRef` objects made so far (object_ref.py:18-19) and the values of all references of the backend. -/
structure State where
  inside : List Nat
  vals : List Nat
deriving DecidableEq, Repr

/-- Nothing was made yet (base/backend.py:191-220). -/
def State.init : State := ⟨[], []⟩

/-- What can be given to `get` and `wait`: one `ObjectRef` or a list (base/backend.py:279-285, 325-331). -/
inductive Arg
  | one (o : Nat)
  | many (os : List Nat)
deriving DecidableEq, Repr

/-- The objects in an argument (base/backend.py:325-331). -/
def Arg.objs : Arg → List Nat
  | .one o => [o]
  | .many os => os

/-- `obj_ref._ref` for each of the objects (base/backend.py:325-331). -/
def State.unwrap (s : State) (os : List Nat) : Option (List Nat) := os.mapM fun o => s.inside[o]?

/-- `ObjectRef(r)` for each of the references (base/backend.py:302-303, 333-334): the new objects. -/
def State.wrap (s : State) (rs : List Nat) : State × List Nat :=
  ({ s with inside := s.inside ++ rs }, (List.range rs.length).map (s.inside.length + ·))

/-- What a program does: `put`, a call of a remote function with the results it will have, `wait` with the answer of the backend, and the
retrieval of an `ObjectRef` from data that were stored or passed (base/backend.py:264-335, base/remote_function.py:47-62). -/
inductive Act
  | put (v : Nat)
  | call (vs : List Nat)
  | wait (a : Arg) (ready rest : List Nat)
  | copy (o : Nat)
deriving DecidableEq, Repr

/-- Is the answer of the backend a partition of the references? (base/backend.py:332) -/
def partition (given ready rest : List Nat) : Bool := (ready ++ rest).isPerm given

/-- One step and the objects returned, those of `ready` and those of `not_ready` (base/backend.py:288-335,
mpi/remote_function.py:85-90); `none` if it is not possible. -/
def State.step (s : State) : Act → Option (State × List Nat × List Nat)
  | .put v => let r := { s with vals := s.vals ++ [v] }.wrap [s.vals.length]; some (r.1, r.2, [])
  | .call vs =>
    let r := { s with vals := s.vals ++ vs }.wrap ((List.range vs.length).map (s.vals.length + ·))
    some (r.1, r.2, [])
  | .wait a ready rest =>
    match s.unwrap a.objs with
    | none => none
    | some given =>
      if partition given ready rest then
        let r := s.wrap ready
        let q := r.1.wrap rest
        some (q.1, r.2, q.2)
      else none
  | .copy o =>
    match s.inside[o]? with
    | none => none
    | some r => let q := s.wrap [r]; some (q.1, q.2, [])

/-- A program (base/backend.py:264-335). -/
def State.run (s : State) : List Act → Option State
  | [] => some s
  | a :: as => match s.step a with
    | none => none
    | some (s', _) => s'.run as

/-- `a == b` for two `ObjectRef` objects: identity (object_ref.py:8-19). -/
def sameRef (a b : Nat) : Bool := a == b

/-- `table[o]` of a dictionary with `ObjectRef` objects as keys; `none` is `KeyError` (object_ref.py:8-19). -/
def lookupRef (table : List (Nat × Nat)) (o : Nat) : Option Nat := (table.find? fun p => sameRef p.1 o).map (·.2)

/-- `l.remove(o)`; `none` is `ValueError` (object_ref.py:8-19). -/
def removeRef (o : Nat) : List Nat → Option (List Nat)
  | [] => none
  | x :: l => if sameRef x o then some l else (removeRef o l).map (x :: ·)

/-- `unidist.get` of a list (base/backend.py:279-286); `none` if an object does not exist. -/
def State.get (s : State) (os : List Nat) : Option (List Nat) :=
  os.mapM fun o => s.inside[o]?.bind fun r => s.vals[r]?

/-- `while refs: done, refs = unidist.wait(refs)` (base/backend.py:288-335), with the answers of the backend: all that was returned as done. -/
def State.drain (s : State) (l : List Nat) : List (List Nat × List Nat) → Option (State × List Nat)
  | [] => if l = [] then some (s, []) else none
  | (ready, rest) :: more =>
    match s.step (.wait (.many l) ready rest) with
    | none => none
    | some (s', done, l') => (State.drain s' l' more).map fun r => (r.1, done ++ r.2)

end Verif.RefObj
