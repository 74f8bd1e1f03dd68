/-!
# Interrupted calls of `get`

Models `get` of the root (`/repo/unidist/core/backends/mpi/core/controller/api.py` 401-437, `controller/common.py` 174-233) with
`pull_data` (113-171) and `recv_complex_data` (`communication.py` 816-849), the answer of an owner (`worker/request_store.py` 230-264,
`controller/common.py` 236-294), and a signal that arrives during the call: its handler `_termination_handler` (api.py:588) takes no
arguments, so that its call raises a `TypeError` out of `get`, which the program (or the notebook) may survive.

Data is represented by its serialized form: the body followed by the raw buffers. Objects in shared memory and exceptions as data are left
out. A message that was sent is received later; that a blocking send of an owner does not return before (communication.py:655-663) is
left out.
-/
namespace Verif.InterruptGet

/-- Contents of `bytes` objects (communication.py:840-842). -/
abbrev Bytes := List UInt8

/-- A call, as far as the program sees it (api.py:401-437): the values of all references, or an exception of `get` itself. -/
inductive Outcome
  | returned (ids : List Nat) (values : List (Option (List Bytes)))
  | raised (ids : List Nat)
deriving DecidableEq, Repr

/-- Where the root is: outside of `get`; in the loop of `request_worker_data` (controller/common.py:217-233) with the requested
references, those that were not in the store and `data_count`; in `recv_complex_data` (communication.py:840-847) with the owner, the
identity, the lengths of the buffers still to be received and the buffers received. -/
inductive Root
  | idle
  | waiting (ids need : List Nat) (count : Nat)
  | receiving (ids need : List Nat) (count : Nat) (src id : Nat) (lens : List Nat) (parts : List Bytes)
deriving DecidableEq, Repr

/-- The local store of the root (local_object_store.py:73-147), the references for which a request arrived at their owners, those recorded in
`_sent_data_map` (local_object_store.py:233-267), the information packages (tag `OBJECT_BLOCKING`) and the buffers (tag `BUFFER`) of each
owner that the root has not received, the root, and the outcomes of its calls. -/
structure State where
  store : Nat → Option (List Bytes)
  asked : List Nat
  sent : List Nat
  infos : Nat → List (Nat × List Nat)
  buffers : Nat → List Bytes
  root : Root
  log : List Outcome

/-- Before the first call (api.py:401-437). -/
def State.init : State := ⟨fun _ => none, [], [], fun _ => [], fun _ => [], .idle, []⟩

/-- What can happen: a call; an owner answers a request; the root receives an information package of an owner, found by `iprobe`
(controller/common.py:131-135), or a buffer; a signal arrives (api.py:264-265, 588). -/
inductive Act
  | get (ids : List Nat)
  | answer (id : Nat)
  | info (src : Nat)
  | buffer
  | signal
deriving DecidableEq, Repr

/-- Assignment to one entry (local_object_store.py:73-147). -/
def upd {α : Type} (f : Nat → α) (k : Nat) (v : α) : Nat → α := fun x => if x = k then v else f x

/-- After an object was received: it is put into the store; the loop goes on, ends, or raises a `RuntimeError` (controller/common.py:154-164,
222-233). -/
def complete (s : State) (ids need : List Nat) (count id : Nat) (parts : List Bytes) : State :=
  let store := upd s.store id (some parts)
  if id ∈ need then
    if count + 1 < need.length then { s with store := store, root := .waiting ids need (count + 1) }
    else { s with store := store, root := .idle, log := s.log ++ [.returned ids (ids.map store)] }
  else { s with store := store, root := .idle, log := s.log ++ [.raised ids] }

/-- One step, for the data `value` and the owner of each reference; `none` if it is not possible. An owner answers once
(controller/common.py:256, 294). A message longer than the buffer is an error of MPI, a shorter one leaves the rest of the
`bytearray` zero (communication.py:840-847). -/
def step (value : Nat → List Bytes) (owner : Nat → Nat) (s : State) : Act → Option State
  | .get ids =>
    match s.root with
    | .idle =>
      let need := ids.filter fun i => (s.store i).isNone
      if need = [] then some { s with log := s.log ++ [.returned ids (ids.map s.store)] }
      else some { s with asked := s.asked ++ need, root := .waiting ids need 0 }
    | _ => none
  | .answer id =>
    if id ∈ s.asked ∧ id ∉ s.sent then
      some { s with
        sent := s.sent ++ [id]
        infos := upd s.infos (owner id) (s.infos (owner id) ++ [(id, (value id).map List.length)])
        buffers := upd s.buffers (owner id) (s.buffers (owner id) ++ value id) }
    else none
  | .info src =>
    match s.root, s.infos src with
    | .waiting ids need count, (id, lens) :: rest =>
      some { s with infos := upd s.infos src rest, root := .receiving ids need count src id lens [] }
    | _, _ => none
  | .buffer =>
    match s.root with
    | .receiving ids need count src id (n :: lens) parts =>
      match s.buffers src with
      | [] => none
      | b :: rest =>
        let s' := { s with buffers := upd s.buffers src rest }
        if n < b.length then some { s' with root := .idle, log := s.log ++ [.raised ids] }
        else
          let parts' := parts ++ [b ++ List.replicate (n - b.length) 0]
          if lens = [] then some (complete s' ids need count id parts')
          else some { s' with root := .receiving ids need count src id lens parts' }
    | _ => none
  | .signal =>
    match s.root with
    | .idle => none
    | _ => some { s with root := .idle }

/-- A history (controller/common.py:174-233). -/
def run (value : Nat → List Bytes) (owner : Nat → Nat) : State → List Act → Option State
  | s, [] => some s
  | s, a :: as => (step value owner s a).bind fun s' => run value owner s' as

end Verif.InterruptGet
