/-!
# Messages

Models `/repo/unidist/core/backends/mpi/core/communication.py`: chunked buffers (`mpi_send_buffer` 464-505,
`mpi_isend_buffer` 508-551, `mpi_recv_buffer` 554-596) and composite packages (`_send_complex_data_impl` 634-661,
`_isend_complex_data_impl` 714-754, `recv_complex_data` 816-849), with `pull_data` of
`/repo/unidist/core/backends/mpi/core/controller/common.py` (113-171).

MPI is modelled by its non-overtaking rule: at a receiver the messages of one source and one tag are a queue; queues of
different sources or tags are independent. Blocking and non-blocking sends differ only in when the sender
continues, so both are "append to the queue".
-/
namespace Verif.Comm

/-- Tags used for data (mpi/core/common.py:92-112); `OPERATION` messages are not needed here. -/
inductive Tag where
  | object
  | objectBlocking
  | buffer
deriving DecidableEq, Repr

/-- Contents of `bytes` objects (communication.py:464-596). -/
abbrev Byte := UInt8
/-- Contents of `bytes` objects (communication.py:464-596). -/
abbrev Bytes := List Byte

/-- `info_package` (mpi/core/common.py:133-163) as far as the receiver uses it. -/
structure Info where
  id : Nat
  sDataLen : Nat
  rawLens : List Nat
  bufferCount : List Nat
deriving DecidableEq, Repr

/-- Payload of a message: a pickled object (size or info package) or raw bytes (communication.py:634-661). -/
inductive Payload where
  | size (n : Nat)
  | info (i : Info)
  | bytes (b : Bytes)
deriving DecidableEq, Repr

/-- A message to the receiver (communication.py:300-322, 464-505). -/
structure Msg where
  src : Nat
  tag : Tag
  payload : Payload
deriving DecidableEq, Repr

/-- The receiver's queues (communication.py:440-461, 554-596). -/
abbrev Inbox := Nat → Tag → List Payload

/-- Queues after the messages arrived in the given order (any interleaving of the sources) (communication.py:440-461, 554-596). -/
def inboxOf (msgs : List Msg) : Inbox := fun s t =>
  (msgs.filter fun m => m.src = s ∧ m.tag = t).map (·.payload)

/-- Receive with given source and tag; `none` while no message is there (the receiver waits) (communication.py:440-461). -/
def recv (q : Inbox) (s : Nat) (t : Tag) : Option (Payload × Inbox) :=
  match q s t with
  | [] => none
  | p :: rest => some (p, fun s' t' => if s' = s ∧ t' = t then rest else q s' t')

/-! ## Buffers in blocks -/

/-- `partitions = list(range(0, n, block)); partitions.append(n)` (communication.py:495-496, 538-539, 584-585). -/
def partitions (n block : Nat) : List Nat := (List.range ((n + block - 1) / block)).map (· * block) ++ [n]

/-- Consecutive pairs `partitions[i], partitions[i + 1]` (communication.py:499-503, 542-545, 588-594). -/
def pairs (p : List Nat) : List (Nat × Nat) := p.zip p.tail

/-- Messages of `mpi_send_buffer` without size and of the second part of `mpi_isend_buffer`
(communication.py:497-505, 540-549). -/
def sendBlocks (src block : Nat) (b : Bytes) : List Msg :=
  (pairs (partitions b.length block)).map fun p => ⟨src, .buffer, .bytes ((b.drop p.1).take (p.2 - p.1))⟩

/-- Messages of `mpi_isend_buffer` (communication.py:533-549): the size, then the blocks. -/
def isendBuffer (src block : Nat) (b : Bytes) : List Msg :=
  ⟨src, .object, .size b.length⟩ :: sendBlocks src block b

/-- `result_buffer[i:j] = tmp` for a block of the right size (communication.py:594). -/
def putBlock (buf : Bytes) (i j : Nat) (tmp : Bytes) : Bytes := buf.take i ++ tmp ++ buf.drop j

/-- The loop of `mpi_recv_buffer` (communication.py:586-594). A message whose length is not the expected one is an
error here (MPI would raise on truncation or leave a part of the buffer undefined). -/
def recvBlocks (s : Nat) : Inbox → Bytes → List (Nat × Nat) → Option (Bytes × Inbox)
  | q, buf, [] => some (buf, q)
  | q, buf, (i, j) :: rest =>
    match recv q s .buffer with
    | some (.bytes tmp, q') => if tmp.length = j - i then recvBlocks s q' (putBlock buf i j tmp) rest else none
    | _ => none

/-- `mpi_recv_buffer` with a given result buffer (communication.py:580-596). -/
def recvBufferInto (s block : Nat) (q : Inbox) (buf : Bytes) : Option (Bytes × Inbox) :=
  recvBlocks s q buf (pairs (partitions buf.length block))

/-- `mpi_recv_buffer` without a result buffer (communication.py:577-596). -/
def recvBuffer (s block : Nat) (q : Inbox) : Option (Bytes × Inbox) :=
  match recv q s .object with
  | some (.size n, q') => recvBufferInto s block q' (List.replicate n 0)
  | _ => none

/-! ## Composite packages -/

/-- A data package: what `send_complex_data` / `isend_complex_data` send (communication.py:664-813). `blocking` tells
which of the two is used. -/
structure Package where
  blocking : Bool
  id : Nat
  sData : Bytes
  rawBuffers : List Bytes
  bufferCount : List Nat
deriving DecidableEq, Repr

/-- Tag of the info package: `OBJECT_BLOCKING` for the blocking send (communication.py:657), `OBJECT` otherwise (745). -/
def infoTag (blocking : Bool) : Tag := if blocking then .objectBlocking else .object

/-- Info package of a package (communication.py:704-706, 796-798). -/
def Package.info (p : Package) : Info := ⟨p.id, p.sData.length, p.rawBuffers.map List.length, p.bufferCount⟩

/-- Messages of one package in program order (communication.py:656-661, 744-752). -/
def sendPackage (src : Nat) (p : Package) : List Msg :=
  ⟨src, infoTag p.blocking, .info p.info⟩ :: ⟨src, .buffer, .bytes p.sData⟩ ::
    p.rawBuffers.map fun b => ⟨src, .buffer, .bytes b⟩

/-- `comm.Recv` into a buffer of length `n` (communication.py:845, 847). A message of another length is an error. -/
def recvBytes (q : Inbox) (s n : Nat) : Option (Bytes × Inbox) :=
  match recv q s .buffer with
  | some (.bytes b, q') => if b.length = n then some (b, q') else none
  | _ => none

/-- The loop over raw buffers of `recv_complex_data` (communication.py:846-847). -/
def recvRaws (s : Nat) : Inbox → List Nat → Option (List Bytes × Inbox)
  | q, [] => some ([], q)
  | q, n :: rest =>
    match recvBytes q s n with
    | none => none
    | some (b, q') =>
      match recvRaws s q' rest with
      | none => none
      | some (bs, q'') => some (b :: bs, q'')

/-- `pull_data` (controller/common.py:113-171, `LOCAL_DATA`/`TASK_DATA`) with `recv_complex_data`
(communication.py:816-849). `blocking` is the case `owner_rank is None`, where the source `s` has been found by a probe on
the blocking tag (132-135); otherwise the source is the sender of the operation (137). -/
def pull (q : Inbox) (s : Nat) (blocking : Bool) : Option (Package × Inbox) :=
  match recv q s (infoTag blocking) with
  | some (.info i, q1) =>
    match recvBytes q1 s i.sDataLen with
    | none => none
    | some (sd, q2) =>
      match recvRaws s q2 i.rawLens with
      | none => none
      | some (raws, q3) => some (⟨blocking, i.id, sd, raws, i.bufferCount⟩, q3)
  | _ => none

/-- A sequence of receives, each with its source and kind (controller/common.py:113-171). -/
def pullAll : Inbox → List (Nat × Bool) → Option (List (Nat × Package) × Inbox)
  | q, [] => some ([], q)
  | q, (s, b) :: rest =>
    match pull q s b with
    | none => none
    | some (p, q') =>
      match pullAll q' rest with
      | none => none
      | some (ps, q'') => some ((s, p) :: ps, q'')

end Verif.Comm
