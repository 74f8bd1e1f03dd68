/-!
Objects that refer to the same object in several places, and their serialization (`mpi/core/serialization.py`).

`Verif.Model.Packing` takes an object for a tree. Here an object is a place in a heap, so that two lists can hold the same list and a list can hold itself.
`msgpack` walks through lists and dictionaries and writes what it meets; `pickle` and `cloudpickle` (which get everything else, with all that is inside)
write each object once and refer to it afterwards. The limit on the depth is that of `msgpack` (assumed: an error beyond a fixed number of levels); the
limit of `pickle`, Python's own recursion limit, is not modelled.
-/
namespace Verif.Sharing

/-- An object in the heap: `atom` is packed by `msgpack` as it is (a number, a text); `list` a list or dictionary; `boxed` any other object, with a number
for its class and the rest of its state, and what it refers to. (serialization.py:195-211, 231.) -/
inductive Node
  | atom (n : Nat)
  | list (xs : List Nat)
  | boxed (kind : Nat) (xs : List Nat)
deriving DecidableEq, Repr

/-- The objects of a process, by address (serialization.py:231). -/
abbrev Heap := List Node

/-- What is sent: a `msgpack` tree with pickled objects, which keep the references among themselves (serialization.py:161, 177, 193). A pickled object is
written here as its address in the heap of the sender; objects in that heap that it does not refer to do not matter. -/
inductive Wire
  | atom (n : Nat)
  | arr (ws : List Wire)
  | pickled (h : Heap) (a : Nat)
deriving Repr

/-- `serialize` (serialization.py:213-231) of the object at `a`, with so many levels left; `none` is an exception. A pickled object becomes a dictionary
with texts (161, 177, 193), so it needs one more level. -/
def encode (h : Heap) : Nat → Nat → Option Wire
  | 0, _ => none
  | d + 1, a => match h[a]? with
    | none => none
    | some (.atom n) => some (.atom n)
    | some (.list xs) => (xs.mapM (encode h d)).map .arr
    | some (.boxed ..) => if d = 0 then none else some (.pickled h a)

/-- The levels of `msgpack.packb` (assumed: nested up to 511 times; serialization.py:231). -/
def levels : Nat := 512

/-- Moves the references of an object (serialization.py:244-249: `loads` makes new objects). -/
def Node.shift (k : Nat) : Node → Node
  | .atom n => .atom n
  | .list xs => .list (xs.map (k + ·))
  | .boxed kind xs => .boxed kind (xs.map (k + ·))

mutual
/-- `deserialize` (serialization.py:233-282): the new objects are added to the heap; with the address of the result. -/
def decode : Wire → Heap → Heap × Nat
  | .atom n, g => (g ++ [.atom n], g.length)
  | .arr ws, g => ((decodeAll ws g).1 ++ [.list (decodeAll ws g).2], (decodeAll ws g).1.length)
  | .pickled h a, g => (g ++ h.map (Node.shift g.length), g.length + a)
/-- The items of a list, one after another (serialization.py:278-280). -/
def decodeAll : List Wire → Heap → Heap × List Nat
  | [], g => (g, [])
  | w :: ws, g =>
    ((decodeAll ws (decode w g).1).1, (decode w g).2 :: (decodeAll ws (decode w g).1).2)
end

end Verif.Sharing
