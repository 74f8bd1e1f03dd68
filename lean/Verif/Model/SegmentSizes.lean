import Verif.Model.Float

/-!
# Sizes of the shared memory segments

Models `/repo/unidist/core/backends/mpi/core/shared_object_store.py`, `_allocate_shared_memory` (149-263), up to the
allocation. Python integers are `Int`. The floating point products `int(x * 0.95)`, `int(0.99 * A)` and `int(0.01 * A)`
(160, 208, 209) are rounded as double precision does; the sizes must be below 2⁵³ for this.
-/
namespace Verif.SegmentSizes

open Verif.Float (scaled)

/-- Configuration read at shared_object_store.py:155-156, 169 and 187: object store memory, service memory, threshold. -/
structure Config where
  objMem : Option Int
  svcMem : Option Int
  threshold : Int

/-- `INFO_SIZE * MPI.LONG.size` = 4 * 8 bytes (shared_object_store.py:79, 175, 188). -/
def recordBytes : Int := 32

/-- `allowed_memory_size` (shared_object_store.py:160), `avail` is the result of `_get_allowed_memory_size`, which is not negative. The
literal `0.95` is 8556839292003942 · 2⁻⁵³. -/
def allowed (avail : Int) : Int := scaled 8556839292003942 53 avail.toNat

/-- The sizes chosen at shared_object_store.py:162-209: (shared_memory_size, service_memory_size). The literals `0.99` and `0.01` are
8917127262193582 · 2⁻⁵³ and 5764607523034235 · 2⁻⁵⁹. -/
def choose (c : Config) (a : Int) : Int × Int :=
  match c.objMem, c.svcMem with
  | some o, some s => (o, s)
  | some o, none =>
    if c.threshold > 0 then (o, min (a - o) (o / c.threshold * recordBytes))
    else (o, a - o)
  | none, some s => (a - s, s)
  | none, none =>
    if c.threshold > 99 * recordBytes then
      (a * c.threshold / (c.threshold + recordBytes), a * recordBytes / (c.threshold + recordBytes))
    else (scaled 8917127262193582 53 a.toNat, scaled 5764607523034235 59 a.toNat)

/-- The checks at shared_object_store.py:211-227; `none` is a `ValueError`. -/
def allocate (c : Config) (avail : Int) : Option (Int × Int) :=
  let a := allowed avail
  let p := choose c a
  if p.1 > a then none
  else if p.2 > a then none
  else if p.1 + p.2 > a then none
  else some p

/-- Number of metadata slots: `service_info_max_count / INFO_SIZE` (shared_object_store.py:244-248). -/
def slots (serviceBytes : Int) : Int := serviceBytes / recordBytes

/-- What becomes of the start of the shared store (shared_object_store.py:109-112): an explanation, an `IndexError` in the monitor of the host, or the
sizes of the two segments. -/
inductive Start
  | refused
  | failed
  | running (objects service : Int)
deriving DecidableEq, Repr

/-- The start (shared_object_store.py:149-263). The monitor fills the service buffer with -1 (262-263); `fill` takes the address of its
first element, which raises for an empty buffer (memory/_memory.pyx:41: bounds are checked, setup.py:48 does not turn this off). -/
def start (c : Config) (avail : Int) : Start :=
  match allocate c avail with
  | none => .refused
  | some (x, y) => if slots y ≤ 0 then .failed else .running x y

end Verif.SegmentSizes
