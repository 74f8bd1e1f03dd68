/-!
# `get` of a list of references on the different backends

Models how `unidist.get` of a list collects what it was asked for: on the MPI backend from the local store and from messages that arrive in
any order, on the Python Multiprocessing backend by polling one reference after the other, on the Python Sequential backend from the store.
Objects are numbers or exception instances; that `bytes` are treated specially (pymp/core/object_store.py:104) is left to the model of the
results of calls. A single reference is a list of one (mpi/core/controller/api.py:415-417, 433, pymp/core/object_store.py:86-88, 106,
pyseq/core/object_store.py:70-72, 85). The objects are kept while they are asked for (no cleanups).
-/
namespace Verif.GetList

/-- An exception instance and its truth value: a class that defines `__bool__` or `__len__` can make it false, as for an exception that is
also an empty container (used by `if exception_raised:`, mpi/core/controller/common.py:232). -/
structure Exc where
  name : Nat
  truthy : Bool
deriving DecidableEq, Repr

/-- A Python object as far as `get` distinguishes them (mpi/core/controller/common.py:223, pymp/core/object_store.py:101,
pyseq/core/object_store.py:79-80). -/
inductive Obj where
  | val (n : Nat)
  | exc (e : Exc)
deriving DecidableEq, Repr

/-- How `get` ends: it returns a list, raises an error of the user, raises the `RuntimeError` of an unasked message
(mpi/core/controller/common.py:228-231) or the `KeyError` of an id without object (mpi/core/local_object_store.py:115,
pyseq/core/object_store.py:83). -/
inductive Got where
  | values (os : List Obj)
  | raised (e : Exc)
  | unasked
  | missing
deriving DecidableEq, Repr

/-- What a process has in its object stores (mpi/core/object_store.py:36-56; local and shared data are not distinguished). -/
abbrev Store := Nat → Option Obj

/-- `local_store.put` (mpi/core/controller/common.py:150, 161). -/
def Store.add (s : Store) (i : Nat) (o : Obj) : Store := fun j => if j = i then some o else s j

/-- The values of several ids in their order; `none` if one of them is not there (mpi/core/controller/api.py:427). -/
def Store.read (s : Store) : List Nat → Option (List Obj)
  | [] => some []
  | i :: is =>
    match s i, s.read is with
    | some o, some os => some (o :: os)
    | _, _ => none

/-- The variables of the loop of `request_worker_data` (mpi/core/controller/common.py:217-219) and the local store. -/
structure Pull where
  count : Nat
  raised : Option Exc
  store : Store

/-- `exception_raised` after a message (mpi/core/controller/common.py:223-224): the first exception that arrives is kept, whatever its
truth value. -/
def keepFirst : Option Exc → Obj → Option Exc
  | none, .exc e => some e
  | r, _ => r

/-- How the loop ends with the messages that have arrived (mpi/core/controller/common.py:220-231). -/
inductive Loop where
  | done (p : Pull)
  | waiting (p : Pull)
  | unasked (p : Pull)

/-- The loop of `request_worker_data` (mpi/core/controller/common.py:220-231) for the messages in the order of their arrival. `pull_data`
leaves an object that is already in the store as it is and stores any other (144-166; data that comes by a message is stored in any case;
that it is the same object makes no difference). -/
def pullAll (remote : List Nat) : Pull → List (Nat × Obj) → Loop
  | p, [] => if p.count < remote.length then .waiting p else .done p
  | p, (i, o) :: rest =>
    if p.count < remote.length then
      let p' : Pull := { p with raised := keepFirst p.raised o, store := p.store.add i o }
      if i ∈ remote then pullAll remote { p' with count := p.count + 1 } rest else .unasked p'
    else .done p

/-- `get` of the MPI backend (mpi/core/controller/api.py:400-433, mpi/core/controller/common.py:174-233) with the messages `arrived`:
references that are not in the store are asked for, those that are come from the store without a look whether they are exceptions.
`none`: it still waits. -/
def getMpi (s : Store) (ids : List Nat) (arrived : List (Nat × Obj)) : Option (Got × Store) :=
  let remote := ids.filter fun i => (s i).isNone
  match pullAll remote ⟨0, none, s⟩ arrived with
  | .waiting _ => none
  | .unasked p => some (.unasked, p.store)
  | .done p =>
    match p.raised with
    | some e =>
      if e.truthy then some (.raised e, p.store)
      else match p.store.read ids with
        | some os => some (.values os, p.store)
        | none => some (.missing, p.store)
    | none =>
      match p.store.read ids with
      | some os => some (.values os, p.store)
      | none => some (.missing, p.store)

/-- `get` of the Python Multiprocessing backend (pymp/core/object_store.py:86-106): one reference after the other is polled; an exception is
raised at its turn. `results`: what will be in the shared dictionary. `none`: it polls forever. -/
def getPymp (results : Nat → Option Obj) : List Nat → Option Got
  | [] => some (.values [])
  | i :: is =>
    match results i with
    | none => none
    | some (.exc e) => some (.raised e)
    | some o =>
      match getPymp results is with
      | some (.values os) => some (.values (o :: os))
      | r => r

/-- `get` of the Python Sequential backend (pyseq/core/object_store.py:70-85): the list comprehension looks up and checks one reference
after the other. -/
def getPyseq (results : Nat → Option Obj) : List Nat → Got
  | [] => .values []
  | i :: is =>
    match results i with
    | none => .missing
    | some (.exc e) => .raised e
    | some o =>
      match getPyseq results is with
      | .values os => .values (o :: os)
      | r => r

/-- What the main process does: it puts an object (mpi/core/controller/api.py:371-397) or gets a list, with the messages that arrive
meanwhile (400-433). -/
inductive Op where
  | put (i : Nat) (o : Obj)
  | get (ids : List Nat) (arrived : List (Nat × Obj))
deriving Repr

/-- A program of the main process on the MPI backend (mpi/core/controller/api.py:371-433): how its `get`s end, in their order. `none`: a
`get` does not end. An error is caught by the program. -/
def runMpi (s : Store) : List Op → Option (List Got)
  | [] => some []
  | .put i o :: ops => runMpi (s.add i o) ops
  | .get ids arrived :: ops =>
    match getMpi s ids arrived with
    | none => none
    | some (g, s') =>
      match runMpi s' ops with
      | none => none
      | some gs => some (g :: gs)

end Verif.GetList
