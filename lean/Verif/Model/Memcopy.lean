/-!
# Parallel memory copy

Models `/repo/unidist/core/backends/mpi/core/memory/memory.cpp`, `parallel_memcopy` (24-61), called from
`_memory.pyx` (9-27) with block size 64. Addresses are `Int`; the address space does not wrap around for valid
buffers, but the division `(right - left) / block_size` is done in unsigned 64-bit arithmetic as in C++ (the type of
`block_size` is `uintptr_t`).
-/
namespace Verif.Memcopy

/-- A byte of the buffers (memory.cpp:24-26). -/
abbrev Byte := UInt8

/-- `block_size`, always 64 (`_memory.pyx:26`). -/
def block : Int := 64

/-- `pointer_logical_and(address, ~(block_size - 1))` (memory.cpp:15-18): round down to a multiple of 64. -/
def alignDown (a : Int) : Int := a / block * block

/-- Conversion of a 64-bit difference to unsigned (memory.cpp:32: `ptrdiff_t` divided by `uintptr_t`). -/
def toUnsigned (d : Int) : Int := d % 2 ^ 64

/-- One `memcpy(dst + off, src + off', len)`; offsets are relative to the start of the buffers (memory.cpp:48-54). -/
structure Copy where
  dst : Int
  src : Int
  len : Int
deriving DecidableEq, Repr

/-- `left` (memory.cpp:30). -/
def left (src : Int) : Int := alignDown (src + block - 1)

/-- `right` before the update (memory.cpp:31). -/
def right0 (src n : Int) : Int := alignDown (src + n)

/-- `num_blocks` (memory.cpp:32). -/
def numBlocks (src n : Int) : Int := toUnsigned (right0 src n - left src) / block

/-- `right` after the update (memory.cpp:35); C++ `%` on a non-negative `num_blocks`. -/
def right (src n threads : Int) : Int := right0 src n - numBlocks src n % threads * block

/-- `chunk_size` (memory.cpp:39): signed division, truncated towards zero. -/
def chunkSize (src n threads : Int) : Int := (right src n threads - left src).tdiv threads

/-- `prefix` (memory.cpp:40). -/
def prefixLen (src : Int) : Int := left src - src

/-- `suffix` (memory.cpp:41). -/
def suffixLen (src n threads : Int) : Int := src + n - right src n threads

/-- All copies that are started (memory.cpp:48-54). The threads run concurrently, so the order is arbitrary. -/
def copies (src n : Int) (threads : Nat) : List Copy :=
  (List.range threads).map (fun i =>
    { dst := prefixLen src + i * chunkSize src n threads
      src := left src + i * chunkSize src n threads - src
      len := chunkSize src n threads }) ++
  [⟨0, 0, prefixLen src⟩,
   ⟨prefixLen src + threads * chunkSize src n threads, right src n threads - src, suffixLen src n threads⟩]

/-- A copy is defined behaviour if it stays inside both buffers of length `n` (a negative length is converted to a huge
`size_t`) (memory.cpp:48-54). -/
def Copy.inBounds (c : Copy) (n : Int) : Bool :=
  0 ≤ c.len && 0 ≤ c.dst && c.dst + c.len ≤ n && 0 ≤ c.src && c.src + c.len ≤ n

/-- Contents of a buffer by offset (memory.cpp:24-26). -/
abbrev Buf := Int → Byte

/-- Effect of one copy; `none` is undefined behaviour (memory.cpp:48-54). -/
def Copy.run (c : Copy) (n : Int) (s d : Buf) : Option Buf :=
  if c.inBounds n then some fun j => if c.dst ≤ j ∧ j < c.dst + c.len then s (c.src + (j - c.dst)) else d j
  else none

/-- Copies in a given order (memory.cpp:48-58). -/
def runCopies (n : Int) (s : Buf) : List Copy → Buf → Option Buf
  | [], d => some d
  | c :: rest, d => (c.run n s d).bind (runCopies n s rest)

end Verif.Memcopy
