/-!
# Lifetime of data in a process

Models `/repo/unidist/core/backends/mpi/core/local_object_store.py` (20-260), `ObjectStore`
(`/repo/unidist/core/backends/mpi/core/object_store.py` 36-90), `put` (controller/api.py:370-398), `get` (401-433) and
the branches `PUT_DATA`, `PUT_OWNER` and `CLEANUP` of the worker loop (worker/loop.py:131-168, 203-208) in one process.
A reference is a pair of owner rank and number; there is at most one `MpiDataID` object per reference in a process
(mpi/core/common.py:285-294, see `Verif.Model.DataIds`), and the entries of a `WeakKeyDictionary` live exactly as long as that object.
The shared store keeps its entries in the same way and is not represented here.
-/
namespace Verif.LocalStore

/-- A reference (mpi/core/common.py:296-300). -/
abbrev Id := Nat × Nat

/-- A Python value: something that identifies it and the references it contains at any depth (local_object_store.py:73-85). -/
structure Val where
  tag : Nat
  refs : List Id
deriving DecidableEq, Repr

/-- A process: its rank, the references held by the program, the strong references, the data, the serialized data, the known
owners and the counter of references (local_object_store.py:24-38). Values in `data` are Python objects and hold the
references they contain; serialized data does not. -/
structure Store where
  me : Nat
  held : List Id
  strong : List Id
  data : List (Id × Val)
  cache : List (Id × Val)
  owners : List (Id × Nat)
  counter : Nat
deriving DecidableEq, Repr

/-- An empty process (local_object_store.py:24-38). -/
def Store.init (me : Nat) : Store := ⟨me, [], [], [], [], [], 0⟩

/-- The reference object exists: it is held by the program, by `_data_id_map`, or by a value of the store
(local_object_store.py:24-31). -/
def Store.alive (s : Store) (id : Id) : Bool := id ∈ s.held || id ∈ s.strong || s.data.any fun e => id ∈ e.2.refs

/-- One round of the weak dictionaries dropping the entries of dead references (local_object_store.py:26-38). -/
def Store.pass (s : Store) : Store :=
  { s with
    data := s.data.filter fun e => s.alive e.1
    cache := s.cache.filter fun e => s.alive e.1
    owners := s.owners.filter fun e => s.alive e.1 }

/-- Several rounds (local_object_store.py:26-38). -/
def Store.passes : Nat → Store → Store
  | 0, s => s
  | n + 1, s => Store.passes n s.pass

/-- Dropping entries until nothing changes (local_object_store.py:26-38): each round but the last drops a value. -/
def Store.sweep (s : Store) : Store := Store.passes (s.data.length + 1) s

/-- Assignment to a dictionary entry (local_object_store.py:84, 98). -/
def assign {α : Type} (l : List (Id × α)) (id : Id) (v : α) : List (Id × α) := (id, v) :: l.filter fun e => e.1 ≠ id

/-- Lookup in a dictionary (local_object_store.py:115, 131, 147, 163). -/
def lookup {α : Type} (l : List (Id × α)) (id : Id) : Option α := (l.find? fun e => e.1 = id).map (·.2)

/-- `maybe_update_data_id_map` (local_object_store.py:53-71). -/
def Store.keep (s : Store) (id : Id) : Store :=
  if id.1 ≠ s.me ∧ id ∉ s.strong then { s with strong := id :: s.strong } else s

/-- What happens in a process: `put` of a value (api.py:371-397); `submit` to a worker (api.py:536-541); data or the owner of
a reference arrives (worker/loop.py:131-168, controller/common.py:143-162); the program gets another copy of a reference, for
example as an argument of a task; it drops a copy; a cleanup list arrives (worker/loop.py:203-208); the program calls `get`. -/
inductive Op
  | put (v : Val)
  | submit (dest : Nat)
  | recvData (id : Id) (v : Val)
  | recvOwner (id : Id) (rank : Nat)
  | hold (id : Id)
  | drop (id : Id)
  | cleanup (ids : List Id)
  | get (id : Id)
deriving DecidableEq, Repr

/-- Outcome of `get` (api.py:414-428): a value, a request to the owner, or the `KeyError` of `get_data_owner`
(controller/common.py:193, local_object_store.py:131). -/
inductive Got
  | value (v : Val)
  | ask (rank : Nat)
  | keyError
deriving DecidableEq, Repr

/-- What `get` finds (api.py:414-428, object_store.py:36-90). -/
def Store.find (s : Store) (id : Id) : Got :=
  match lookup s.data id with
  | some v => .value v
  | none =>
    match lookup s.cache id with
    | some v => .value v
    | none =>
      match lookup s.owners id with
      | some r => .ask r
      | none => .keyError

/-- One step before dead entries are dropped (files as above). `get` of a value keeps it as data (object_store.py:89) and
gives the program the references it contains. -/
def Store.act (s : Store) : Op → Store
  | .put v =>
    { s with held := (s.me, s.counter) :: s.held, cache := assign s.cache (s.me, s.counter) v, counter := s.counter + 1 }
  | .submit dest =>
    { s with held := (s.me, s.counter) :: s.held, owners := assign s.owners (s.me, s.counter) dest, counter := s.counter + 1 }
  | .recvData id v => { s with data := assign s.data id v }.keep id
  | .recvOwner id r => { s with owners := assign s.owners id r }.keep id
  | .hold id => { s with held := id :: s.held }
  | .drop id => { s with held := s.held.erase id }
  | .cleanup ids => { s with strong := s.strong.filter fun i => i ∉ ids }
  | .get id =>
    match s.find id with
    | .value v => { s with data := assign s.data id v, held := v.refs ++ s.held }.keep id
    | _ => s

/-- One step (files as above) (local_object_store.py:53-180). -/
def Store.step (s : Store) (op : Op) : Store := (s.act op).sweep

/-- A history of steps (local_object_store.py:53-180). -/
def Store.run (s : Store) (ops : List Op) : Store := ops.foldl Store.step s

end Verif.LocalStore
