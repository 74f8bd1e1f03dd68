import Verif.Model.SharedBuffer
import Verif.Model.Memcopy

/-!
# Writing an object into shared memory, with the real copy of its buffers

Models `_write_to_shared_buffer` in `/repo/unidist/core/backends/mpi/core/shared_object_store.py` (468-524) together with the
function it calls for every raw buffer: `parallel_memcopy` in `_memory.pyx` (9-27), which takes the addresses `&dst[0]` and `&src[0]`
with Cython's bounds check, and `memory.cpp` (24-61). `Model/SharedBuffer.lean` takes the copy for granted.
-/
namespace Verif.SharedWrite
open Verif.Shm Verif.SharedBuffer Verif.Memcopy

/-- A raw buffer: its address in the memory of the process and its bytes (serialization.py:137-140). -/
structure Raw where
  addr : Int
  bytes : List UInt8
deriving DecidableEq, Repr

/-- `serialized_data` with the addresses of the raw buffers (serialization.py:379-383). -/
structure Item where
  sData : List UInt8
  raw : List Raw
  bufferCount : List Nat
deriving DecidableEq, Repr

/-- The same without addresses (serialization.py:379-383). -/
def Item.plain (d : Item) : Serialized := ⟨d.sData, d.raw.map Raw.bytes, d.bufferCount⟩

/-- How a write ends: with the shared info, with the `ValueError` of a range that is too small, with the `IndexError` of `&dst[0]`, or
in undefined behaviour of C++ (shared_object_store.py:498-524, _memory.pyx:23-24, memory.cpp:48-54). -/
inductive Ended
  | written (info : SharedInfo)
  | valueError
  | indexError
  | undefined
deriving DecidableEq, Repr

/-- The bytes of a raw buffer by offset (memory.cpp:24-26). -/
def Raw.buf (b : Raw) : Buf := fun j => b.bytes.getD j.toNat 0

/-- The slice of shared memory from `pos` on, by offset (shared_object_store.py:512). -/
def window (m : Mem) (pos : Nat) : Buf := fun j => m (pos + j.toNat)

/-- Shared memory after the bytes from `pos` on have been written through the slice (shared_object_store.py:512). -/
def store (m : Mem) (pos : Nat) (d : Buf) : Mem := fun k => if pos ≤ k then d ((k - pos : Nat) : Int) else m k

/-- The loop over the raw buffers (shared_object_store.py:503-516). `sched` is the order in which the copies of the six threads and
of the calling thread take effect. -/
def writeRaws (sched : List Copy → List Copy) (m : Mem) (last : Nat) : Nat → List Raw → Option Ended × Mem
  | _, [] => (none, m)
  | pos, b :: rest =>
    if pos + b.bytes.length > last then (some .valueError, m)
    else if b.bytes = [] then (some .indexError, m)
    else
      match runCopies b.bytes.length b.buf (sched (copies b.addr b.bytes.length 6)) (window m pos) with
      | none => (some .undefined, m)
      | some d => writeRaws sched (store m pos d) last (pos + b.bytes.length) rest

/-- `_write_to_shared_buffer` (shared_object_store.py:468-524). -/
def writeItem (sched : List Copy → List Copy) (m : Mem) (r : Resv) (d : Item) : Ended × Mem :=
  if r.first + d.sData.length > r.last then (.valueError, m)
  else
    match writeRaws sched (writeAt m r.first d.sData) r.last (r.first + d.sData.length) d.raw with
    | (some e, m2) => (e, m2)
    | (none, m2) => (.written ⟨d.sData.length, d.raw.map (·.bytes.length), d.bufferCount, r.svc⟩, m2)

end Verif.SharedWrite
