import Verif.Model.Serialization

/-! Specification notions for serialization, on objects only. -/
namespace Verif.Serial

mutual
/-- No dictionary uses a marker key and there is no `bytearray`. -/
def Clean : Obj → Prop
  | .scalar _ => True
  | .byteArray _ => False
  | .list xs => CleanList xs
  | .dict kvs => CleanDict kvs
  | .frame _ _ => True
  | .leaf _ => True
def CleanList : List Obj → Prop
  | [] => True
  | x :: xs => Clean x ∧ CleanList xs
def CleanDict : List (Key × Obj) → Prop
  | [] => True
  | (k, x) :: xs => (k ≠ .str "__cloud_custom__" ∧ k ≠ .str "__pickle_custom__" ∧ k ≠ .str "__pickle5_custom__") ∧
      Clean x ∧ CleanDict xs
end

mutual
/-- The data frames and arrays of an object in traversal order. -/
def frames : Obj → List (Nat × List Bytes)
  | .scalar _ => []
  | .byteArray _ => []
  | .list xs => framesList xs
  | .dict kvs => framesDict kvs
  | .frame h b => [(h, b)]
  | .leaf _ => []
def framesList : List Obj → List (Nat × List Bytes)
  | [] => []
  | x :: xs => frames x ++ framesList xs
def framesDict : List (Key × Obj) → List (Nat × List Bytes)
  | [] => []
  | (_, x) :: xs => frames x ++ framesDict xs
end

mutual
/-- No dictionary uses a marker key. -/
def NoMarkers : Obj → Prop
  | .scalar _ => True
  | .byteArray _ => True
  | .list xs => NoMarkersList xs
  | .dict kvs => NoMarkersDict kvs
  | .frame _ _ => True
  | .leaf _ => True
def NoMarkersList : List Obj → Prop
  | [] => True
  | x :: xs => NoMarkers x ∧ NoMarkersList xs
def NoMarkersDict : List (Key × Obj) → Prop
  | [] => True
  | (k, x) :: xs => (k ≠ .str "__cloud_custom__" ∧ k ≠ .str "__pickle_custom__" ∧ k ≠ .str "__pickle5_custom__") ∧
      NoMarkers x ∧ NoMarkersDict xs
end

mutual
/-- The object with every `bytearray` replaced by `bytes` of the same contents. -/
def asBytes : Obj → Obj
  | .scalar s => .scalar s
  | .byteArray b => .scalar (.bytes b)
  | .list xs => .list (asBytesList xs)
  | .dict kvs => .dict (asBytesDict kvs)
  | .frame h b => .frame h b
  | .leaf l => .leaf l
def asBytesList : List Obj → List Obj
  | [] => []
  | x :: xs => asBytes x :: asBytesList xs
def asBytesDict : List (Key × Obj) → List (Key × Obj)
  | [] => []
  | (k, x) :: xs => (k, asBytes x) :: asBytesDict xs
end

end Verif.Serial
