import Verif.Spec.Serialization

/-! What the receiver sees of an object with marker keys, said without wire format and buffers. -/
namespace Verif.Serial

/-- A dictionary has a key (`in` in serialization.py:244-248). -/
def hasKey (k : String) (kvs : List (Key × Obj)) : Bool := kvs.any fun p => decide (p.1 = .str k)

/-- The value under the first entry `as_bytes` (serialization.py:245-249). -/
def pickled (kvs : List (Key × Obj)) : Option Obj := (kvs.find? fun p => decide (p.1 = .str "as_bytes")).map (·.2)

/-- What a complete pickle in `bytes` contains; everything else cannot be loaded (serialization.py:245, 247). -/
def unpickled : Obj → Except Err Obj
  | .scalar (.bytes (.leaf l)) => .ok (.leaf l)
  | .scalar (.bytes (.pickle5 h sl)) => if sl.all Option.isSome then .ok (.frame h (sl.filterMap id)) else .error .unpickling
  | _ => .error .unpickling

mutual
/-- What comes back: a `bytearray` as `bytes`, and a dictionary with one of the keys `__cloud_custom__` and `__pickle_custom__` as
what its entry `as_bytes` contains (serialization.py:233-257). -/
def seen : Obj → Except Err Obj
  | .scalar s => .ok (.scalar s)
  | .byteArray b => .ok (.scalar (.bytes b))
  | .list xs => (seenList xs).map .list
  | .dict kvs => (seenDict kvs).bind fun l =>
    if hasKey "__cloud_custom__" kvs || hasKey "__pickle_custom__" kvs then
      match pickled l with
      | none => .error .keyError
      | some b => unpickled b
    else .ok (.dict l)
  | .frame h bufs => .ok (.frame h bufs)
  | .leaf l => .ok (.leaf l)
/-- The elements of a list (serialization.py:259-282). -/
def seenList : List Obj → Except Err (List Obj)
  | [] => .ok []
  | x :: xs => (seen x).bind fun y => (seenList xs).map (y :: ·)
/-- The items of a dictionary (serialization.py:259-282). -/
def seenDict : List (Key × Obj) → Except Err (List (Key × Obj))
  | [] => .ok []
  | (k, x) :: xs => (seen x).bind fun y => (seenDict xs).map ((k, y) :: ·)
end

mutual
/-- No dictionary takes buffers: one with the key `__pickle5_custom__` also has another marker key, which is looked at first
(serialization.py:244-248). -/
def TakesNone : Obj → Prop
  | .list xs => TakesNoneList xs
  | .dict kvs => (hasKey "__pickle5_custom__" kvs = true → hasKey "__cloud_custom__" kvs = true ∨ hasKey "__pickle_custom__" kvs = true) ∧
    TakesNoneDict kvs
  | _ => True
/-- The elements of a list (serialization.py:244-248). -/
def TakesNoneList : List Obj → Prop
  | [] => True
  | x :: xs => TakesNone x ∧ TakesNoneList xs
/-- The items of a dictionary (serialization.py:244-248). -/
def TakesNoneDict : List (Key × Obj) → Prop
  | [] => True
  | (_, x) :: xs => TakesNone x ∧ TakesNoneDict xs
end

end Verif.Serial
