/-!
# Operations: what is sent and how the loops read it

Models the operations (`/repo/unidist/core/backends/mpi/core/common.py` 30-89), the tags (92-112), the routines that send an
operation with its data (`communication.py` 277-372, 508-551, 714-813, 857-1025) and the part of the loops of a worker
(`worker/loop.py` 103-229) and of a monitor (`monitor/loop.py` 188-270) that reads an operation and its data:
`mpi_recv_operation` (`communication.py` 375-407), `mpi_recv_object` (440-461), `recv_serialized_data` (1028-1052) and `pull_data`
(`controller/common.py` 113-171). What the loops then do is modelled elsewhere (`Worker`, `Shutdown`, `ShmManager`, `Wait`).

MPI is modelled by its non-overtaking rule, as in `Verif.Model.Comm`: at a receiver the messages of one source and one tag are
a queue. Tags and operation types are the numbers that travel.
-/
namespace Verif.Dispatch

/-- `MPITag.OPERATION` (mpi/core/common.py:109). -/
def tagOperation : Nat := 111
/-- `MPITag.OBJECT` (mpi/core/common.py:110). -/
def tagObject : Nat := 112
/-- `MPITag.BUFFER` (mpi/core/common.py:111). -/
def tagBuffer : Nat := 113

/-- The operations (mpi/core/common.py:71-89). -/
inductive Op
  | execute
  | get
  | putData
  | putOwner
  | putShared
  | wait
  | actorCreate
  | actorExecute
  | cleanup
  | taskDone
  | getTaskCount
  | reserve
  | requestShared
  | cancel
  | readyToShutdown
  | shutdown
deriving DecidableEq, Repr

/-- The number of an operation (mpi/core/common.py:71-89). -/
def Op.code : Op → Nat
  | .execute => 1
  | .get => 2
  | .putData => 3
  | .putOwner => 4
  | .putShared => 5
  | .wait => 6
  | .actorCreate => 7
  | .actorExecute => 8
  | .cleanup => 9
  | .taskDone => 10
  | .getTaskCount => 11
  | .reserve => 12
  | .requestShared => 13
  | .cancel => 14
  | .readyToShutdown => 15
  | .shutdown => 16

/-- Contents of `bytes` objects (communication.py:508-551). -/
abbrev Bytes := List UInt8

/-- `package_type` (mpi/core/common.py:129-131). -/
inductive PackageType
  | localData
  | sharedData
  | taskData
deriving DecidableEq, Repr

/-- An information package (mpi/core/common.py:133-229). -/
structure Info where
  type : PackageType
  id : Option Nat
  sDataLen : Nat
  rawLens : List Nat
  bufferCount : List Nat
  service : Option Int
deriving DecidableEq, Repr

/-- What travels: an operation type, a pickled object whose contents do not matter here, a buffer size, an information package or
raw bytes (communication.py:277-372, 533-549, 744-752). -/
inductive Payload
  | op (code : Nat)
  | object (fields : List Nat)
  | size (n : Nat)
  | info (i : Info)
  | bytes (b : Bytes)
deriving DecidableEq, Repr

/-- A message to the receiver (communication.py:277-372). -/
structure Msg where
  src : Nat
  tag : Nat
  payload : Payload
deriving DecidableEq, Repr

/-! ## Sending -/

/-- Serialized data: the result of `serialize_complex_data` (communication.py:801-803, 968-970). -/
structure Data where
  sData : Bytes
  rawBuffers : List Bytes
  bufferCount : List Nat
deriving DecidableEq, Repr

/-- The requests, each with what it carries; the place where each is sent is named below (mpi/core/common.py:71-89). -/
inductive Request
  /-- Run a task (controller/api.py:559-575). -/
  | execute (d : Data)
  /-- Ask for data (controller/common.py:198-212, worker/task_store.py:150-163). -/
  | get (fields : List Nat)
  /-- Data of the sender's store (controller/common.py:272-288). -/
  | putData (id : Nat) (d : Data)
  /-- The location of data (controller/common.py:353-364). -/
  | putOwner (fields : List Nat)
  /-- Where in shared memory data is found (controller/common.py:318-337). -/
  | putShared (id : Nat) (sDataLen : Nat) (rawLens bufferCount : List Nat) (service : Int)
  /-- `wait` (controller/api.py:475-489). -/
  | wait (fields : List Nat)
  /-- Create an actor (controller/actor.py:113-126). -/
  | actorCreate (d : Data)
  /-- Call a method (controller/actor.py:46-61). -/
  | actorExecute (d : Data)
  /-- The pickled list of released references (controller/garbage_collector.py:59-69). -/
  | cleanup (b : Bytes)
  /-- A task is done (worker/task_store.py:311-316, 399-404). -/
  | taskDone (fields : List Nat)
  /-- Ask for the number of finished tasks (controller/garbage_collector.py:123-127). -/
  | getTaskCount
  /-- Reserve shared memory (communication.py:1074-1085). -/
  | reserve (fields : List Nat)
  /-- Ask for the contents of shared memory of another host (shared_object_store.py:556-561). -/
  | requestShared (fields : List Nat)
  /-- `shutdown` (controller/api.py:322-326). -/
  | cancel
  /-- Answer to `CANCEL` (worker/loop.py:216-220). -/
  | readyToShutdown
  /-- The last message (monitor/loop.py:274-278). -/
  | shutdown
deriving DecidableEq, Repr

/-- `mpi_send_operation`, `mpi_isend_operation` (communication.py:277-297, 325-347). -/
def sendOperation (src : Nat) (o : Op) : List Msg := [⟨src, tagOperation, .op o.code⟩]

/-- `mpi_send_object`, `mpi_isend_object` (communication.py:300-322, 350-372). -/
def sendObject (src : Nat) (p : Payload) : List Msg := [⟨src, tagObject, p⟩]

/-- `send_simple_operation`, `isend_simple_operation` (communication.py:857-920): they differ only in when the sender goes on. -/
def sendSimple (src : Nat) (o : Op) (p : Payload) : List Msg := sendOperation src o ++ sendObject src p

/-- `partitions = list(range(0, n, block)); partitions.append(n)` (communication.py:538-539, 584-585), as pairs of
consecutive entries (541-545, 587-594). -/
def blocks (n block : Nat) : List (Nat × Nat) :=
  let p := (List.range ((n + block - 1) / block)).map (· * block) ++ [n]
  p.zip p.tail

/-- `mpi_isend_buffer` (communication.py:508-551): the size, then the blocks. -/
def sendBuffer (src block : Nat) (b : Bytes) : List Msg :=
  ⟨src, tagObject, .size b.length⟩ ::
    (blocks b.length block).map fun p => ⟨src, tagBuffer, .bytes ((b.drop p.1).take (p.2 - p.1))⟩

/-- `isend_serialized_operation` (communication.py:993-1025). -/
def sendSerialized (src block : Nat) (o : Op) (b : Bytes) : List Msg := sendOperation src o ++ sendBuffer src block b

/-- `_isend_complex_data_impl` (communication.py:714-754). -/
def sendData (src : Nat) (i : Info) (d : Data) : List Msg :=
  ⟨src, tagObject, .info i⟩ :: ⟨src, tagBuffer, .bytes d.sData⟩ ::
    d.rawBuffers.map fun b => ⟨src, tagBuffer, .bytes b⟩

/-- `isend_complex_operation` (communication.py:923-990): with an identity for data that is already serialized (966-979), without for
tasks and actors (980-985, 800-806). -/
def sendComplex (src : Nat) (o : Op) (id : Option Nat) (d : Data) : List Msg :=
  sendOperation src o ++
    match id with
    | some n => sendData src ⟨.localData, some n, d.sData.length, d.rawBuffers.map List.length, d.bufferCount, none⟩ d
    | none => sendData src ⟨.taskData, none, d.sData.length, d.rawBuffers.map List.length, d.bufferCount, none⟩ d

/-- The messages of a request in program order (the places named at `Request`). The pickled objects are sent by
`send_simple_operation` or `isend_simple_operation` (controller/common.py:207, 331, 359, controller/api.py:484). `block` is the
largest size MPI can send at once. -/
def Request.messages (src block : Nat) : Request → List Msg
  | .execute d => sendComplex src .execute none d
  | .get f => sendSimple src .get (.object f)
  | .putData n d => sendComplex src .putData (some n) d
  | .putOwner f => sendSimple src .putOwner (.object f)
  | .putShared n l r c v => sendSimple src .putShared (.info ⟨.sharedData, some n, l, r, c, some v⟩)
  | .wait f => sendSimple src .wait (.object f)
  | .actorCreate d => sendComplex src .actorCreate none d
  | .actorExecute d => sendComplex src .actorExecute none d
  | .cleanup b => sendSerialized src block .cleanup b
  | .taskDone f => sendSimple src .taskDone (.object f)
  | .getTaskCount => sendOperation src .getTaskCount
  | .reserve f => sendSimple src .reserve (.object f)
  | .requestShared f => sendSimple src .requestShared (.object f)
  | .cancel => sendOperation src .cancel
  | .readyToShutdown => sendOperation src .readyToShutdown
  | .shutdown => sendOperation src .shutdown

/-- A call as seen by the channel: its request, or the exception of `serialize_complex_data` for data that cannot be serialized. In
`isend_complex_operation` the operation type has been sent before the data is serialized (communication.py:962-963,
981-984, 800), so it travels alone. -/
inductive Call
  | sends (r : Request)
  | fails (o : Op)
deriving DecidableEq, Repr

/-- The messages of a call (communication.py:960-985). -/
def Call.messages (src block : Nat) : Call → List Msg
  | .sends r => r.messages src block
  | .fails o => sendOperation src o

/-! ## Receiving -/

/-- The receiver's queues, by source and tag (communication.py:375-461). -/
abbrev Inbox := Nat → Nat → List Payload

/-- Queues after messages arrived in the given order (communication.py:375-461). -/
def inboxOf (msgs : List Msg) : Inbox := fun s t =>
  (msgs.filter fun m => m.src = s ∧ m.tag = t).map (·.payload)

/-- Receive with given source and tag; `none` while no message is there (the receiver waits) (communication.py:440-461). -/
def recv (q : Inbox) (s t : Nat) : Option (Payload × Inbox) :=
  match q s t with
  | [] => none
  | p :: rest => some (p, fun s' t' => if s' = s ∧ t' = t then rest else q s' t')

/-- What reading a request gives: the request, the end of the loop (worker/loop.py:223-227, monitor/loop.py:263-267), an
operation the loop does not know (229, monitor/loop.py:269), or data that does not fit the operation. -/
inductive Got
  | request (r : Request)
  | leave
  | unsupported (code : Nat)
  | malformed
deriving DecidableEq, Repr

/-- `mpi_recv_object` (communication.py:440-461) for a request whose data is a plain object. -/
def recvObject (q : Inbox) (s : Nat) (f : List Nat → Request) : Option (Got × Inbox) :=
  match recv q s tagObject with
  | none => none
  | some (.object x, q') => some (.request (f x), q')
  | some (_, q') => some (.malformed, q')

/-- The loop of `mpi_recv_buffer` (communication.py:586-594): the blocks are put one after the other into the result. `none` in the second
component is a message of another length, which does not fit the temporary buffer. -/
def recvBlocks (s : Nat) : Inbox → Bytes → List (Nat × Nat) → Option (Option Bytes × Inbox)
  | q, buf, [] => some (some buf, q)
  | q, buf, (i, j) :: rest =>
    match recv q s tagBuffer with
    | none => none
    | some (.bytes tmp, q') =>
      if tmp.length = j - i then recvBlocks s q' (buf.take i ++ tmp ++ buf.drop j) rest else some (none, q')
    | some (_, q') => some (none, q')

/-- `recv_serialized_data` (communication.py:1028-1052) with `mpi_recv_buffer` (577-596). -/
def recvSerialized (block : Nat) (q : Inbox) (s : Nat) : Option (Got × Inbox) :=
  match recv q s tagObject with
  | none => none
  | some (.size n, q') =>
    match recvBlocks s q' (List.replicate n 0) (blocks n block) with
    | none => none
    | some (some b, q'') => some (.request (.cleanup b), q'')
    | some (none, q'') => some (.malformed, q'')
  | some (_, q') => some (.malformed, q')

/-- `comm.Recv` into buffers of the given lengths one after the other (communication.py:844-847). -/
def recvAll (s : Nat) : Inbox → List Nat → Option (Option (List Bytes) × Inbox)
  | q, [] => some (some [], q)
  | q, n :: rest =>
    match recv q s tagBuffer with
    | none => none
    | some (.bytes b, q') =>
      if b.length = n then
        match recvAll s q' rest with
        | none => none
        | some (some bs, q'') => some (some (b :: bs), q'')
        | some (none, q'') => some (none, q'')
      else some (none, q')
    | some (_, q') => some (none, q')

/-- What `pull_data` returns (controller/common.py:113-171): where in shared memory to look, data with its identity, or the data of a
task. -/
inductive Pulled
  | shared (i : Info)
  | localData (id : Option Nat) (d : Data)
  | task (d : Data)
deriving DecidableEq, Repr

/-- `recv_complex_data` (communication.py:816-849). -/
def recvComplex (q : Inbox) (s : Nat) (i : Info) : Option (Option Data × Inbox) :=
  match recvAll s q (i.sDataLen :: i.rawLens) with
  | none => none
  | some (some (sd :: raws), q') => some (some ⟨sd, raws, i.bufferCount⟩, q')
  | some (_, q') => some (none, q')

/-- `pull_data` with a given source (controller/common.py:136-171). -/
def pull (q : Inbox) (s : Nat) : Option (Option Pulled × Inbox) :=
  match recv q s tagObject with
  | none => none
  | some (.info i, q') =>
    match i.type with
    | .sharedData => some (some (.shared i), q')
    | .localData => (recvComplex q' s i).map fun r => (r.1.map (.localData i.id), r.2)
    | .taskData => (recvComplex q' s i).map fun r => (r.1.map .task, r.2)
  | some (_, q') => some (none, q')

/-- `pull_data` for a task or an actor: the request is the data itself (worker/loop.py:114, 177, 186). -/
def pullTask (q : Inbox) (s : Nat) (f : Data → Request) : Option (Got × Inbox) :=
  (pull q s).map fun r =>
    (match r.1 with
      | some (.task d) => .request (f d)
      | _ => .malformed, r.2)

/-- One round of the loop of a worker (worker/loop.py:105-229) that takes an operation of source `s`; `ready` is
`ready_to_shutdown_posted`. -/
def workerReads (block : Nat) (ready : Bool) (q : Inbox) (s : Nat) : Option (Got × Inbox) :=
  match recv q s tagOperation with
  | none => none
  | some (.op c, q') =>
    if c = Op.execute.code then pullTask q' s .execute
    else if c = Op.get.code then recvObject q' s .get
    else if c = Op.putData.code then
      (pull q' s).map fun r =>
        (match r.1 with
          | some (.localData (some n) d) => .request (.putData n d)
          | _ => .malformed, r.2)
    else if c = Op.putOwner.code then recvObject q' s .putOwner
    else if c = Op.putShared.code then
      (pull q' s).map fun r =>
        (match r.1 with
          | some (.shared ⟨_, some n, l, w, b, some v⟩) => .request (.putShared n l w b v)
          | _ => .malformed, r.2)
    else if c = Op.wait.code then recvObject q' s .wait
    else if c = Op.actorCreate.code then pullTask q' s .actorCreate
    else if c = Op.actorExecute.code then pullTask q' s .actorExecute
    else if c = Op.cleanup.code then recvSerialized block q' s
    else if c = Op.cancel.code then some (.request .cancel, q')
    else if c = Op.shutdown.code ∧ ready = true then some (.leave, q')
    else some (.unsupported c, q')
  | some (_, q') => some (.malformed, q')

/-- One round of the loop of a monitor (monitor/loop.py:190-269) that takes an operation of source `s`. -/
def monitorReads (block : Nat) (q : Inbox) (s : Nat) : Option (Got × Inbox) :=
  match recv q s tagOperation with
  | none => none
  | some (.op c, q') =>
    if c = Op.taskDone.code then recvObject q' s .taskDone
    else if c = Op.wait.code then recvObject q' s .wait
    else if c = Op.getTaskCount.code then some (.request .getTaskCount, q')
    else if c = Op.reserve.code then recvObject q' s .reserve
    else if c = Op.requestShared.code then recvObject q' s .requestShared
    else if c = Op.cleanup.code then recvSerialized block q' s
    else if c = Op.readyToShutdown.code then some (.request .readyToShutdown, q')
    else if c = Op.shutdown.code then some (.leave, q')
    else some (.unsupported c, q')
  | some (_, q') => some (.malformed, q')

/-- The worker's rounds with the given sources (worker/loop.py:103-229); `ready_to_shutdown_posted` is set by `CANCEL` (221). The rounds
end when the loop is left or fails. -/
def workerLoop (block : Nat) : Bool → Inbox → List Nat → Option (List (Nat × Got) × Inbox)
  | _, q, [] => some ([], q)
  | ready, q, s :: rest =>
    match workerReads block ready q s with
    | none => none
    | some (.request r, q') =>
      (workerLoop block (ready || decide (r = .cancel)) q' rest).map fun x => ((s, .request r) :: x.1, x.2)
    | some (g, q') => some ([(s, g)], q')

/-- The monitor's rounds with the given sources (monitor/loop.py:188-269). -/
def monitorLoop (block : Nat) : Inbox → List Nat → Option (List (Nat × Got) × Inbox)
  | q, [] => some ([], q)
  | q, s :: rest =>
    match monitorReads block q s with
    | none => none
    | some (.request r, q') => (monitorLoop block q' rest).map fun x => ((s, .request r) :: x.1, x.2)
    | some (g, q') => some ([(s, g)], q')

end Verif.Dispatch
