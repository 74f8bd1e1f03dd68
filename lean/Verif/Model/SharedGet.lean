/-!
# `get` of one shared object by many processes

Models `get` of `/repo/unidist/core/backends/mpi/core/shared_object_store.py` (758-828) step by step for one object and any
number of hosts and processes, with `_sync_shared_memory_from_another_host` (526-565), `_put_service_info` (350-383),
`_increment_ref_number` (282-316), the answers of the monitors (`monitor/loop.py` 221-253) and their clean-ups
(`monitor/shared_memory_manager.py` 194-246). Unlike in `Verif.SharedSystem` a monitor sends the bytes of a reservation
whether or not they have been written, as the code does, and processes that wait for another one are part of the state.
Other objects appear only as the free choice of the metadata cell of a reservation. An exception in a monitor is no step here
(property C112).
-/
namespace Verif.SharedGet

/-- One host (monitor/shared_memory_manager.py:115-120, shared_object_store.py:77-88): the metadata cell of the reservation of
the object, the cell that carries its identity, whether the reserved bytes are the bytes of the object, and the number of
references. -/
structure Host where
  resv : Option Nat
  pub : Option Nat
  good : Bool
  refs : Nat
deriving DecidableEq, Repr

/-- What a process is doing (shared_object_store.py:758-828): nothing, it has the package of a process of host `src` with the
metadata cell `slot` (776-781), it asks its monitor (784-790), it copies into its new reservation (793-812), it waits for the
process that copies (813-816), it found the object and registers (818-825), it returned a value (828) made of the right
bytes or not. -/
inductive Phase where
  | idle
  | pkg (src slot : Nat)
  | asking (src : Nat)
  | copying (src slot : Nat)
  | waiting (slot : Nat)
  | found (slot : Nat)
  | got (right : Bool)
deriving DecidableEq, Repr

/-- A process with its host (communication.py:129-138). -/
structure Proc where
  host : Nat
  phase : Phase
deriving DecidableEq, Repr

/-- All hosts and processes (shared_object_store.py:90-120). -/
structure State where
  hosts : List Host
  procs : List Proc
deriving DecidableEq, Repr

/-- What happens: a process sends the package of an object that its host holds (controller/common.py:318-330), the steps of
`get` (shared_object_store.py:784, 788-790, 801-812, 815-816, 825-828), a finalizer runs (318-348), a process that has its value goes
on, the monitors process a clean-up of the object (monitor/loop.py:254-259). -/
inductive Op where
  | send (p src : Nat)
  | check (p : Nat)
  | reserve (p slot : Nat)
  | copy (p : Nat)
  | poll (p : Nat)
  | register (p : Nat)
  | drop (h : Nat)
  | leave (p : Nat)
  | cleanup
deriving DecidableEq, Repr

/-- The object is stored on a host (shared_object_store.py:725-756); the other hosts are empty. -/
def State.init (before after : Nat) (slot : Nat) (procs : List Nat) : State :=
  { hosts := List.replicate before ⟨none, none, false, 0⟩ ++ [⟨some slot, some slot, true, 1⟩] ++
      List.replicate after ⟨none, none, false, 0⟩
    procs := procs.map fun h => ⟨h, .idle⟩ }

/-- A process changes its phase (shared_object_store.py:758-828). -/
def State.setPhase (s : State) (p : Nat) (q : Proc) (ph : Phase) : State :=
  { s with procs := s.procs.set p { q with phase := ph } }

/-- `clear` on one host, when no host has references (monitor/shared_memory_manager.py:230-244); `none`: the cell does not carry
the identity of the object, and the monitor ends (shared_object_store.py:723). -/
def Host.clear (h : Host) : Option Host :=
  match h.resv with
  | none => some h
  | some s => if h.pub = some s then some { h with resv := none, pub := none } else none

/-- `clear` on all hosts (monitor/shared_memory_manager.py:224-246). -/
def clearHosts : List Host → Option (List Host)
  | [] => some []
  | h :: t =>
    match h.clear, clearHosts t with
    | some h', some t' => some (h' :: t')
    | _, _ => none

/-- One step; `none`: it is not possible, or a monitor ends with an exception (shared_object_store.py:758-828,
monitor/loop.py:221-259). -/
def State.step (s : State) : Op → Option State
  | .send p src =>
    match s.procs[p]?, s.hosts[src]? with
    | some q, some h =>
      match q.phase, h.resv with
      | .idle, some slot => if h.pub = some slot then some (s.setPhase p q (.pkg src slot)) else none
      | _, _ => none
    | _, _ => none
  | .check p =>
    match s.procs[p]? with
    | some q =>
      match q.phase, s.hosts[q.host]? with
      | .pkg src slot, some h => some (s.setPhase p q (if h.pub = some slot then .found slot else .asking src))
      | _, _ => none
    | none => none
  | .reserve p slot =>
    match s.procs[p]? with
    | some q =>
      match q.phase, s.hosts[q.host]? with
      | .asking src, some h =>
        match h.resv with
        | some t => some (s.setPhase p q (.waiting t))
        | none =>
          some { (s.setPhase p q (.copying src slot)) with
            hosts := s.hosts.set q.host { h with resv := some slot, good := false } }
      | _, _ => none
    | none => none
  | .copy p =>
    match s.procs[p]? with
    | some q =>
      match q.phase, s.hosts[q.host]? with
      | .copying src slot, some h =>
        match s.hosts[src]? with
        | some o =>
          match o.resv with
          | none => none
          | some _ =>
            some { (s.setPhase p q (.found slot)) with
              hosts := s.hosts.set q.host { h with pub := some slot, good := o.good, refs := 1 } }
        | none => none
      | _, _ => none
    | none => none
  | .poll p =>
    match s.procs[p]? with
    | some q =>
      match q.phase, s.hosts[q.host]? with
      | .waiting slot, some h => some (if h.pub = some slot then s.setPhase p q (.found slot) else s)
      | _, _ => none
    | none => none
  | .register p =>
    match s.procs[p]? with
    | some q =>
      match q.phase, s.hosts[q.host]? with
      | .found _, some h =>
        some { (s.setPhase p q (.got h.good)) with hosts := s.hosts.set q.host { h with refs := h.refs + 1 } }
      | _, _ => none
    | none => none
  | .drop k =>
    match s.hosts[k]? with
    | some h => if h.refs = 0 then none else some { s with hosts := s.hosts.set k { h with refs := h.refs - 1 } }
    | none => none
  | .leave p =>
    match s.procs[p]? with
    | some q =>
      match q.phase with
      | .got _ => some (s.setPhase p q .idle)
      | _ => none
    | none => none
  | .cleanup =>
    if s.hosts.all fun h => h.refs = 0 then (clearHosts s.hosts).map fun hs => { s with hosts := hs } else some s

/-- A history (shared_object_store.py:758-828, monitor/loop.py:188-287). -/
def State.run : State → List Op → Option State
  | s, [] => some s
  | s, op :: ops => (s.step op).bind fun s' => s'.run ops

end Verif.SharedGet
