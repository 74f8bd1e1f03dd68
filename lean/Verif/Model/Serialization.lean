/-!
# Serialization of nested objects

Models `/repo/unidist/core/backends/mpi/core/serialization.py`: `ComplexDataSerializer` (97-282),
`serialize_complex_data` (359-384), `deserialize_complex_data` (387-410).

Simplifications: `pickle`/`cloudpickle` are abstract (a blob remembers what was pickled, so loading gives it back);
msgpack's byte format is the tree `Wire`; dictionary keys are strings or integers; a data frame or array is a header
plus the list of its contiguous buffers; loading bytes that are not a pickle raises.
-/
namespace Verif.Serial

/-- Contents of `bytes` objects (serialization.py:97-282). -/
abbrev Bytes := List UInt8

/-- Keys of dictionaries (serialization.py:233-257). -/
inductive Key
  | str (s : String)
  | int (n : Int)
deriving DecidableEq, Repr

/-- A leaf that goes to cloudpickle (`is_cpkl_serializable`, serialization.py:50-70) or to plain pickle (tuples, sets, ... 211). -/
inductive Leaf
  | cloud (n : Nat)
  | pickle (n : Nat)
deriving DecidableEq, Repr

/-- The contents of a `bytes` object: arbitrary bytes or the output of one of the pickling functions. A buffer of a
protocol-5 pickle is stored in-band (`some`) or replaced by a placeholder (`none`) (serialization.py:158). -/
inductive Blob
  | raw (b : Bytes)
  | leaf (l : Leaf)
  | pickle5 (head : Nat) (slots : List (Option Bytes))
deriving DecidableEq, Repr

/-- Scalars that msgpack stores natively (serialization.py:213-231). -/
inductive Scalar
  | none
  | bool (b : Bool)
  | int (n : Int)
  | str (s : String)
  | bytes (b : Blob)
deriving DecidableEq, Repr

/-- Python objects. `byteArray` is a mutable `bytearray`; `frame` is a pandas object or numpy array (serialization.py:73-94). -/
inductive Obj
  | scalar (s : Scalar)
  | byteArray (b : Blob)
  | list (xs : List Obj)
  | dict (kvs : List (Key × Obj))
  | frame (head : Nat) (bufs : List Bytes)
  | leaf (l : Leaf)
deriving Repr

/-- The msgpack tree (serialization.py:213-231). -/
inductive Wire
  | scalar (s : Scalar)
  | arr (xs : List Wire)
  | map (kvs : List (Key × Wire))
deriving Repr

/-- `self.buffers` and `self.buffer_count` (serialization.py:123-126). -/
structure Bufs where
  buffers : List Bytes
  counts : List Nat
deriving DecidableEq, Repr

/-- Key of a cloudpickled object (serialization.py:177). -/
def cloudKey : Key := .str "__cloud_custom__"
/-- Key of a pickled object (serialization.py:193). -/
def pickleKey : Key := .str "__pickle_custom__"
/-- Key of an object pickled with protocol 5 (serialization.py:161). -/
def pickle5Key : Key := .str "__pickle5_custom__"
/-- Key of the pickled bytes (serialization.py:161, 177, 193). -/
def asBytesKey : Key := .str "as_bytes"

/-- The dictionary made for an encoded object (serialization.py:161, 177, 193). -/
def custom (k : Key) (b : Blob) : Wire := .map [(k, .scalar (.bool true)), (asBytesKey, .scalar (.bytes b))]

/-- `_buffer_callback` (serialization.py:128-142): a buffer of at least `thr` bytes goes out of band. -/
def outOfBand (thr : Nat) (b : Bytes) : Bool := thr ≤ b.length

/-- Pickle with protocol 5 (serialization.py:158): slots kept in the pickle. -/
def slots (thr : Nat) (bufs : List Bytes) : List (Option Bytes) :=
  bufs.map fun b => if outOfBand thr b then none else some b

/-- `_dataframe_encode` (serialization.py:144-161). -/
def encodeFrame (thr head : Nat) (bufs : List Bytes) (st : Bufs) : Wire × Bufs :=
  (custom pickle5Key (.pickle5 head (slots thr bufs)),
   ⟨st.buffers ++ bufs.filter (outOfBand thr), st.counts ++ [(bufs.filter (outOfBand thr)).length]⟩)

/-- `_cpkl_encode`, `_pkl_encode` (serialization.py:163-193). -/
def encodeLeaf : Leaf → Wire
  | .cloud n => custom cloudKey (.leaf (.cloud n))
  | .pickle n => custom pickleKey (.leaf (.pickle n))

mutual
/-- `serialize` (serialization.py:213-231): msgpack packs containers and scalars itself, a `bytearray` like `bytes`, and calls
`_encode_custom` (195-211) for everything else. -/
def encode (thr : Nat) : Obj → Bufs → Wire × Bufs
  | .scalar s, st => (.scalar s, st)
  | .byteArray b, st => (.scalar (.bytes b), st)
  | .list xs, st => let r := encodeList thr xs st; (.arr r.1, r.2)
  | .dict kvs, st => let r := encodeDict thr kvs st; (.map r.1, r.2)
  | .frame h bufs, st => encodeFrame thr h bufs st
  | .leaf l, st => (encodeLeaf l, st)
/-- Elements of a list, in order (serialization.py:213-231). -/
def encodeList (thr : Nat) : List Obj → Bufs → List Wire × Bufs
  | [], st => ([], st)
  | x :: xs, st =>
    let r := encode thr x st
    let q := encodeList thr xs r.2
    (r.1 :: q.1, q.2)
/-- Items of a dictionary, in order (serialization.py:213-231). -/
def encodeDict (thr : Nat) : List (Key × Obj) → Bufs → List (Key × Wire) × Bufs
  | [], st => ([], st)
  | (k, x) :: xs, st =>
    let r := encode thr x st
    let q := encodeDict thr xs r.2
    ((k, r.1) :: q.1, q.2)
end

/-- Exceptions of the decoder (serialization.py:233-282). -/
inductive Err
  | keyError
  | unpickling
deriving DecidableEq, Repr

/-- Value under a key of a dictionary (serialization.py:244-249). -/
def lookup (k : Key) : List (Key × Obj) → Option Obj
  | [] => none
  | (k', v) :: t => if k' = k then some v else lookup k t

/-- Filling the placeholders of a protocol-5 pickle from the front of the buffer list (serialization.py:249). -/
def fill : List (Option Bytes) → List Bytes → Except Err (List Bytes)
  | [], _ => .ok []
  | some b :: t, bufs => (fill t bufs).map (b :: ·)
  | none :: _, [] => .error .unpickling
  | none :: t, b :: bufs => (fill t bufs).map (b :: ·)

/-- `pkl.loads(bytes, buffers=self.buffers)` (serialization.py:249). -/
def loads (bufs : List Bytes) : Obj → Except Err Obj
  | .scalar (.bytes (.leaf l)) => .ok (.leaf l)
  | .scalar (.bytes (.pickle5 h sl)) => (fill sl bufs).map (.frame h)
  | _ => .error .unpickling

/-- `del self.buffers[: self.buffer_count.pop(0)]` if there are counts (serialization.py:253-254). -/
def dropBuffers : Bufs → Bufs
  | ⟨bufs, []⟩ => ⟨bufs, []⟩
  | ⟨bufs, c :: cs⟩ => ⟨bufs.drop c, cs⟩

/-- `_decode_custom` (serialization.py:233-257) on a dictionary whose values are already decoded. -/
def decodeCustom (kvs : List (Key × Obj)) (st : Bufs) : Except Err (Obj × Bufs) :=
  if (lookup cloudKey kvs).isSome || (lookup pickleKey kvs).isSome then
    match lookup asBytesKey kvs with
    | none => .error .keyError
    | some b => (loads [] b).map (·, st)
  else if (lookup pickle5Key kvs).isSome then
    match lookup asBytesKey kvs with
    | none => .error .keyError
    | some b => (loads st.buffers b).map (·, dropBuffers st)
  else .ok (.dict kvs, st)

mutual
/-- `deserialize` (serialization.py:259-282): inner objects first, the hook after the items of each map. -/
def decode : Wire → Bufs → Except Err (Obj × Bufs)
  | .scalar s, st => .ok (.scalar s, st)
  | .arr xs, st => (decodeList xs st).map fun r => (.list r.1, r.2)
  | .map kvs, st => (decodeMap kvs st).bind fun r => decodeCustom r.1 r.2
/-- Elements of an array (serialization.py:259-282). -/
def decodeList : List Wire → Bufs → Except Err (List Obj × Bufs)
  | [], st => .ok ([], st)
  | x :: xs, st => (decode x st).bind fun r => (decodeList xs r.2).map fun q => (r.1 :: q.1, q.2)
/-- Items of a map (serialization.py:259-282). -/
def decodeMap : List (Key × Wire) → Bufs → Except Err (List (Key × Obj) × Bufs)
  | [], st => .ok ([], st)
  | (k, x) :: xs, st => (decode x st).bind fun r => (decodeMap xs r.2).map fun q => ((k, r.1) :: q.1, q.2)
end

/-- The result of `serialize_complex_data` (serialization.py:359-384). -/
structure Package where
  sData : Wire
  bufs : Bufs
deriving Repr

/-- `serialize_complex_data` (serialization.py:359-384). -/
def serialize (thr : Nat) (o : Obj) : Package :=
  let r := encode thr o ⟨[], []⟩
  ⟨r.1, r.2⟩

/-- `deserialize_complex_data` (serialization.py:387-410). The second component is the list `raw_buffers` of the caller after the call:
the decoder works on the same list object (124) and deletes from it (254); `buffer_count` is copied (125). -/
def deserialize (p : Package) : Except Err (Obj × List Bytes) :=
  (decode p.sData p.bufs).map fun r => (r.1, r.2.buffers)

/-! ## A stored object in the process that put it -/

/-- The entries of one reference: serialized form (`_serialization_cache`) and value (`_data_map`) (local_object_store.py:24-38). -/
structure Entry where
  cache : Package
  value : Option Obj
deriving Repr

/-- `put` without shared memory (controller/api.py:389-394). -/
def Entry.put (thr : Nat) (o : Obj) : Entry := ⟨serialize thr o, none⟩

/-- `ObjectStore.get` (object_store.py:72-90): the value if present, otherwise de-serialize the cached form (which
shortens its `raw_buffers`) and remember the value. On an exception the value is not stored (the state of the cache is
then irrelevant here: kept). -/
def Entry.read (e : Entry) : Except Err Obj × Entry :=
  match e.value with
  | some v => (.ok v, e)
  | none =>
    match deserialize e.cache with
    | .error x => (.error x, e)
    | .ok (v, rest) => (.ok v, ⟨⟨e.cache.sData, ⟨rest, e.cache.bufs.counts⟩⟩, some v⟩)

/-- `push_data` of the cached form (controller/common.py:266-286, 400-403) followed by `recv_complex_data` in the
receiver (communication.py:841-849), which decodes fresh copies of the buffers. -/
def Entry.forward (e : Entry) : Except Err Obj := (deserialize e.cache).map (·.1)

/-- Uses of a stored object (controller/common.py:236-294). -/
inductive Use
  | read
  | forward
deriving DecidableEq, Repr

/-- What each use observes (controller/common.py:236-294). -/
def Entry.run : Entry → List Use → List (Except Err Obj)
  | _, [] => []
  | e, .read :: us => let r := e.read; r.1 :: Entry.run r.2 us
  | e, .forward :: us => e.forward :: Entry.run e us

end Verif.Serial
