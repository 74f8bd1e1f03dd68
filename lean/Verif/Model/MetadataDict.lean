/-!
`ImmutableDict` (mpi/utils.py) and what becomes of it when it is sent.

A dictionary is the list of its items; keys and values are of any type. What is sent is pickled: the receiver creates an empty dictionary of the same
class and sets the items one by one with `[]=` (assumed of `pickle`; for the class `dict` itself this is the assignment of `dict`).
-/
namespace Verif.MetaDict
variable {K V : Type} [DecidableEq K]

/-- What an operation returns or raises (mpi/utils.py:16). -/
inductive Res (K V : Type)
  | none
  | value (v : V)
  | bool (b : Bool)
  | items (l : List (K × V))
  | keyError
  | typeError
deriving Repr, DecidableEq

/-- The operations of `dict` (mpi/utils.py:15-37). `orEq` is `|=`, `or` is `|`. -/
inductive Op (K V : Type)
  | setItem (k : K) (v : V)
  | delItem (k : K)
  | pop (k : K)
  | popItem
  | clear
  | update (l : List (K × V))
  | setDefault (k : K) (v : V)
  | orEq (l : List (K × V))
  | getItem (k : K)
  | contains (k : K)
  | copy
  | or (l : List (K × V))
deriving Repr, DecidableEq

/-- The value of a key (mpi/utils.py:15). -/
def find (k : K) (d : List (K × V)) : Option V := (d.find? (fun p => p.1 = k)).map (·.2)

/-- `dict.__setitem__`: a new key goes to the end (mpi/utils.py:15). -/
def put (k : K) (v : V) : List (K × V) → List (K × V)
  | [] => [(k, v)]
  | p :: d => if p.1 = k then (k, v) :: d else p :: put k v d

/-- `dict.__delitem__` (mpi/utils.py:15). -/
def del (k : K) (d : List (K × V)) : List (K × V) := d.filter (fun p => p.1 ≠ k)

/-- `dict.update` (mpi/utils.py:15). -/
def putAll (l : List (K × V)) (d : List (K × V)) : List (K × V) := l.foldl (fun d p => put p.1 p.2 d) d

/-- The operations of `dict` (mpi/utils.py:15, the class it derives from). -/
def dictStep (d : List (K × V)) : Op K V → Res K V × List (K × V)
  | .setItem k v => (.none, put k v d)
  | .delItem k => match find k d with
    | some _ => (.none, del k d)
    | none => (.keyError, d)
  | .pop k => match find k d with
    | some v => (.value v, del k d)
    | none => (.keyError, d)
  | .popItem => match d.getLast? with
    | some p => (.items [p], d.dropLast)
    | none => (.keyError, d)
  | .clear => (.none, [])
  | .update l => (.none, putAll l d)
  | .setDefault k v => match find k d with
    | some w => (.value w, d)
    | none => (.value v, put k v d)
  | .orEq l => (.none, putAll l d)
  | .getItem k => match find k d with
    | some v => (.value v, d)
    | none => (.keyError, d)
  | .contains k => (.bool (find k d).isSome, d)
  | .copy => (.items d, d)
  | .or l => (.items (putAll l d), d)

/-- The operations `ImmutableDict` replaces (mpi/utils.py:18-37). -/
def replaced : Op K V → Bool
  | .setItem .. | .delItem _ | .pop _ | .popItem | .clear | .update _ | .setDefault .. => true
  | _ => false

/-- The operations of `ImmutableDict` (mpi/utils.py:15-37). -/
def step (d : List (K × V)) (op : Op K V) : Res K V × List (K × V) :=
  if replaced op then (.typeError, d) else dictStep d op

/-- Several operations (mpi/utils.py:15-37). -/
def run (d : List (K × V)) : List (Op K V) → List (Res K V) × List (K × V)
  | [] => ([], d)
  | op :: ops => ((step d op).1 :: (run (step d op).2 ops).1, (run (step d op).2 ops).2)

/-- The class of a dictionary that is sent (mpi/core/communication.py:656-657). -/
inductive Kind
  | plain
  | immutable
deriving Repr, DecidableEq

/-- One item of the pickled dictionary is set; `none` is the exception (mpi/utils.py:18-19). -/
def setOne (kind : Kind) (d : List (K × V)) (p : K × V) : Option (List (K × V)) :=
  match (match kind with
    | .plain => dictStep d (.setItem p.1 p.2)
    | .immutable => step d (.setItem p.1 p.2)) with
  | (.none, d') => some d'
  | _ => none

/-- Unpickling: the items are set one by one (mpi/core/communication.py:656-657). -/
def receive (kind : Kind) (items : List (K × V)) : Option (List (K × V)) := items.foldlM (setOne kind) []

/-- A metadata package on its way: wrapped to `dict` (mpi/core/communication.py:656-657, 744-745, mpi/core/controller/common.py:321-322). -/
def sendPackage (d : List (K × V)) : Option (List (K × V)) := receive .plain d

end Verif.MetaDict
