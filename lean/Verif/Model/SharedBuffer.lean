import Verif.Model.ShmManager

/-!
# Shared memory buffer: writing, reading and copying between hosts

Models `/repo/unidist/core/backends/mpi/core/shared_object_store.py`, `_write_to_shared_buffer` (468-524),
`_read_from_shared_buffer` (425-466), `_sync_shared_memory_from_another_host` (526-565) and the
`REQUEST_SHARED_DATA` branch of `monitor/loop.py` (235-253).
-/
namespace Verif.SharedBuffer
open Verif.Shm

/-- A byte of shared memory (shared_object_store.py:232-242). -/
abbrev Byte := UInt8

/-- `shared_buffer`; addresses outside the segment are never used (property C01) (shared_object_store.py:232-242). -/
abbrev Mem := Nat → Byte

/-- `serialized_data` (serialization.py:379-383): body, raw buffers and buffer counts. -/
structure Serialized where
  sData : List Byte
  rawBuffers : List (List Byte)
  bufferCount : List Nat
deriving DecidableEq, Repr

/-- Shared info package (mpi/core/common.py:165-200), without package type and id. -/
structure SharedInfo where
  sDataLen : Nat
  rawLens : List Nat
  bufferCount : List Nat
  svc : Nat
deriving DecidableEq, Repr

/-- Slice assignment `shared_buffer[i : i + len(l)] = l` (shared_object_store.py:500); also the effect of
`parallel_memcopy` (510-514), whose correctness is properties C16 and C124. -/
def writeAt (m : Mem) (i : Nat) (l : List Byte) : Mem := fun j =>
  if i ≤ j ∧ j < i + l.length then l.getD (j - i) 0 else m j

/-- Slice `shared_buffer[i : j]` (shared_object_store.py:449-459, 676). -/
def slice (m : Mem) (i j : Nat) : List Byte := (List.range (j - i)).map fun k => m (i + k)

/-- The loop over raw buffers of `_write_to_shared_buffer` (shared_object_store.py:503-516): stops with `false` at the
first buffer that does not fit. -/
def writeRaw (m : Mem) (last : Nat) : Nat → List (List Byte) → Bool × Mem
  | _, [] => (true, m)
  | pos, b :: rest =>
    if pos + b.length > last then (false, m)
    else writeRaw (writeAt m pos b) last (pos + b.length) rest

/-- `_write_to_shared_buffer` (shared_object_store.py:468-524): `none` is the `ValueError`, with the memory as it is at
that point. -/
def write (m : Mem) (r : Resv) (d : Serialized) : Option SharedInfo × Mem :=
  if r.first + d.sData.length > r.last then (none, m)
  else
    let m1 := writeAt m r.first d.sData
    match writeRaw m1 r.last (r.first + d.sData.length) d.rawBuffers with
    | (false, m2) => (none, m2)
    | (true, m2) => (some ⟨d.sData.length, d.rawBuffers.map List.length, d.bufferCount, r.svc⟩, m2)

/-- The loop over buffer lengths of `_read_from_shared_buffer` (shared_object_store.py:453-460). -/
def readRaw (m : Mem) : Nat → List Nat → List (List Byte)
  | _, [] => []
  | pos, n :: rest => slice m pos (pos + n) :: readRaw m (pos + n) rest

/-- `_read_from_shared_buffer` (shared_object_store.py:425-466) up to de-serialization; `first` is read from the
metadata word `FIRST_DATA_INDEX` (445). -/
def read (m : Mem) (first : Nat) (info : SharedInfo) : Serialized :=
  { sData := slice m first (first + info.sDataLen)
    rawBuffers := readRaw m (first + info.sDataLen) info.rawLens
    bufferCount := info.bufferCount }

/-- `_sync_shared_memory_from_another_host` (shared_object_store.py:526-565) with the reply of the owner's monitor
(monitor/loop.py:235-253): the bytes of the owner's reservation are received into the local reservation.
The transfer itself is property C14. The receive buffer is the local reservation, so the copy is
cut at its end. -/
def syncCopy (local_ : Mem) (lr : Resv) (owner : Mem) (or : Resv) : Mem :=
  writeAt local_ lr.first ((slice owner or.first or.last).take (lr.last - lr.first))

/-- Size of the reservation requested by `put` (shared_object_store.py:737-743). -/
def dataSize (d : Serialized) : Nat := d.sData.length + (d.rawBuffers.map List.length).sum

/-- Size of the reservation requested by `get` (shared_object_store.py:786-789). -/
def infoDataSize (i : SharedInfo) : Nat := i.sDataLen + i.rawLens.sum

/-- A history of `_write_to_shared_buffer` calls by any processes (shared_object_store.py:468-524). -/
def writes (m : Mem) : List (Resv × Serialized) → Mem
  | [] => m
  | (r, d) :: rest => writes (write m r d).2 rest

end Verif.SharedBuffer
