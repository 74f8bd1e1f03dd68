/-!
Which objects the MPI backend can serialize (`mpi/core/serialization.py`).

`Verif.Model.Serialization` takes for granted that each leaf can be pickled. Here it is modelled which library gets which object: `msgpack` packs
integers, texts, lists and dictionaries itself and asks `_encode_custom` for everything else, also for what is inside of these containers; `pickle` and
`cloudpickle` get an object together with all that is inside of it. Assumed of the libraries: `msgpack` refuses texts that have no UTF-8 form
(surrogates) and hands integers beyond 64 bits to `_encode_custom`; `pickle` refuses functions and classes that cannot be imported and everything
containing one; `cloudpickle` refuses none of the objects here.
-/
namespace Verif.Packing

/-- Python objects (serialization.py:47-94). A text is the list of its code points; `dict` lists keys and values in turn; `pickledSeq` are the built-in
containers that `msgpack` does not know with strict types: tuples, sets, frozen sets; `importable` is any other object that `pickle` can store;
`local` a function or class that cannot be imported (made in a function, in a notebook) or an instance of such a class; `frame` an array or
data frame with the objects it holds. `builtin` tells whether the class of an importable object is one of the module `builtins`. -/
inductive Obj
  | int (z : Int)
  | text (s : List Nat)
  | list (xs : List Obj)
  | dict (items : List Obj)
  | pickledSeq (xs : List Obj)
  | importable (n : Nat) (builtin : Bool)
  | local (n : Nat)
  | frame (cells : List Obj)
deriving Repr

/-- What is sent: a `msgpack` tree, with the objects that were pickled (serialization.py:161, 177, 193). -/
inductive Wire
  | int (z : Int)
  | text (s : List Nat)
  | arr (xs : List Wire)
  | map (items : List Wire)
  | pickled (o : Obj)
  | cloud (o : Obj)
  | pickle5 (o : Obj)
deriving Repr

/-- Whether `msgpack` has a form for an integer, -2^63 to 2^64 - 1 (assumed; serialization.py:231). -/
def native (z : Int) : Bool := decide (-(2 ^ 63) ≤ z) && decide (z < 2 ^ 64)

/-- A code point without UTF-8 form (assumed of `msgpack`; serialization.py:231). -/
def surrogate (c : Nat) : Bool := decide (0xD800 ≤ c) && decide (c ≤ 0xDFFF)

mutual
/-- Whether `pickle` can store an object and all that is inside (assumed; serialization.py:158, 193). -/
def pickles : Obj → Bool
  | .int _ | .text _ | .importable .. => true
  | .local _ => false
  | .list xs | .dict xs | .pickledSeq xs | .frame xs => picklesAll xs
/-- The same for the objects in a container (serialization.py:158, 193). -/
def picklesAll : List Obj → Bool
  | [] => true
  | x :: xs => pickles x && picklesAll xs
end

/-- `is_pickle5_serializable` (serialization.py:73-94). -/
def isPickle5 : Obj → Bool
  | .frame _ => true
  | _ => false

/-- `is_cpkl_serializable` (serialization.py:47-70): functions, classes and what has a class outside of `builtins`. Data frames do not come here. -/
def isCloud : Obj → Bool
  | .local _ => true
  | .importable _ builtin => !builtin
  | _ => false

/-- `_encode_custom` (serialization.py:195-211) with `_dataframe_encode` (144-161), `_cpkl_encode` (163-177) and `_pkl_encode` (179-193); `none` is an
exception of the library. -/
def encodeCustom (o : Obj) : Option Wire :=
  if isPickle5 o then if pickles o then some (.pickle5 o) else none
  else if isCloud o then some (.cloud o)
  else if pickles o then some (.pickled o) else none

mutual
/-- `serialize` (serialization.py:213-231). -/
def encode : Obj → Option Wire
  | .int z => if native z then some (.int z) else encodeCustom (.int z)
  | .text s => if s.any surrogate then none else some (.text s)
  | .list xs => (encodeAll xs).map .arr
  | .dict xs => (encodeAll xs).map .map
  | o => encodeCustom o
/-- The objects in a list or dictionary (serialization.py:231). -/
def encodeAll : List Obj → Option (List Wire)
  | [] => some []
  | x :: xs => match encode x, encodeAll xs with
    | some w, some ws => some (w :: ws)
    | _, _ => none
end

mutual
/-- `deserialize` (serialization.py:233-282), for dictionaries without the marker keys. -/
def decode : Wire → Obj
  | .int z => .int z
  | .text s => .text s
  | .arr ws => .list (decodeAll ws)
  | .map ws => .dict (decodeAll ws)
  | .pickled o | .cloud o | .pickle5 o => o
/-- The objects in a list or dictionary (serialization.py:233-282). -/
def decodeAll : List Wire → List Obj
  | [] => []
  | w :: ws => decode w :: decodeAll ws
end

end Verif.Packing
