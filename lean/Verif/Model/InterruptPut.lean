/-!
# Interrupted calls of `put` and `get` with shared memory

The root puts objects into the shared memory of its host and gets objects of other hosts (`/repo/unidist/core/backends/mpi/core/shared_object_store.py`
`put` 725-756, `get` 758-828, `_put_service_info` 350-383); a signal whose handler raises (`controller/api.py` 264-265, 588), or an error while
the bytes are written (`shared_object_store.py` 491-510), can end a call between any two of its steps. References that the program drops are
cleaned up by the monitor of the host (`monitor/shared_memory_manager.py` `clear` 194-246).

Requests to the monitor are taken as one step (see `Verif.Model.InterruptReply`), and so are the bytes of an object. When the monitors clean
up, the other hosts have no references left; an object has its metadata in the same place on both hosts; other processes of the host, full memory and the thresholds of clean-ups are left out.
-/
namespace Verif.InterruptPut

/-- An object on the host of the root: reserved by the monitor (shared_memory_manager.py:147-160), its metadata written into the service
buffer with a number of references (shared_object_store.py:369-377), known to the root (`_shared_info`, 422-423), and the number of finalizers
that will decrement the references (379-383, 312-316). -/
structure Obj where
  reserved : Bool
  published : Bool
  refs : Nat
  known : Bool
  fins : Nat
deriving DecidableEq, Repr

/-- An object that is not on the host, as at start and after it was reclaimed (shared_object_store.py:698-706,
shared_memory_manager.py:230-244). -/
def Obj.absent : Obj := ⟨false, false, 0, false, 0⟩

/-- How far a call has come (shared_object_store.py:738-756, 777-825): nothing is done yet; memory is reserved; the metadata are written, but no
finalizer exists; the finalizer exists; it waits for another process to write the metadata (813-816); the shared info of a `get` is stored, but the
references are not incremented; they are incremented (302-308), but the finalizer for that does not exist. -/
inductive Phase
  | start
  | reserved
  | published
  | final
  | waiting
  | known
  | counted
deriving DecidableEq, Repr

/-- A call in progress: the object, whether it is `put` or `get` (controller/api.py:371-397, 400-433), and how far it has come. -/
structure Call where
  id : Nat
  put : Bool
  phase : Phase
deriving DecidableEq, Repr

/-- The next identity (local_object_store.py:182-196), the objects, the call in progress, the identities that the program holds, those that were
dropped since the last clean-up (garbage_collector.py:92), those that the monitor has to try again, and whether the monitor is in its loop
(shared_memory_manager.py:120, monitor/loop.py:188). -/
structure State where
  next : Nat
  objs : Nat → Obj
  call : Option Call
  held : List Nat
  dropped : List Nat
  pending : List Nat
  alive : Bool

/-- At start (shared_memory_manager.py:110-120, garbage_collector.py:33-45). -/
def State.init : State := ⟨0, fun _ => .absent, none, [], [], [], true⟩

/-- Change of one object (shared_object_store.py:369-377). -/
def upd (f : Nat → Obj) (i : Nat) (o : Obj) : Nat → Obj := fun j => if j = i then o else f j

/-- What can happen: a `put` begins; a task is submitted whose result another host keeps (controller/api.py:512-580); a `get` of a held
reference begins; the call in progress makes a step; it is ended by a signal or an error; the program drops a reference; the root sends the
list of dropped references and the monitor cleans up (garbage_collector.py:47-70, monitor/loop.py:254-259). -/
inductive Act
  | put
  | task
  | get (id : Nat)
  | advance
  | signal
  | drop (id : Nat)
  | cleanup
deriving DecidableEq, Repr

/-- The loop of `clear` (shared_memory_manager.py:230-246) over the listed identities: the objects, what is to be tried again, and whether it
ended without the `RuntimeError` of shared_object_store.py:723. References count only if the metadata are written (655-657); that they are
collected before the loop (shared_memory_manager.py:208-228) makes no difference. -/
def clear : (Nat → Obj) → List Nat → List Nat → (Nat → Obj) × List Nat × Bool
  | objs, pending, [] => (objs, pending, true)
  | objs, pending, id :: rest =>
    let o := objs id
    if o.published = true ∧ 0 < o.refs then clear objs (pending ++ [id]) rest
    else if o.reserved then
      if o.published then clear (upd objs id .absent) pending rest
      else (objs, pending, false)
    else clear objs pending rest

/-- What happens when an identity is destroyed: its finalizers decrement the references (shared_object_store.py:337-348); the identity is
collected (common.py:329-334, garbage_collector.py:81-92). -/
def State.lose (s : State) (id : Nat) : State :=
  { s with
    objs := upd s.objs id { s.objs id with refs := (s.objs id).refs - (s.objs id).fins, fins := 0 }
    held := s.held.erase id
    dropped := s.dropped ++ [id] }

/-- A step of the call in progress; `none` if it has to wait (shared_object_store.py:738-756, 777-825). -/
def State.advance (s : State) (c : Call) : Option State :=
  let o := s.objs c.id
  match c.phase with
  | .start =>
    if o.known then some { s with call := none }
    else if o.published then some { s with call := some { c with phase := .known }, objs := upd s.objs c.id { o with known := true } }
    else if s.alive = false then none
    else if o.reserved then some { s with call := some { c with phase := .waiting } }
    else some { s with call := some { c with phase := .reserved }, objs := upd s.objs c.id { o with reserved := true } }
  | .reserved => some { s with call := some { c with phase := .published }, objs := upd s.objs c.id { o with published := true, refs := 1 } }
  | .published => some { s with call := some { c with phase := .final }, objs := upd s.objs c.id { o with fins := o.fins + 1 } }
  | .final =>
    if c.put then some { s with call := none, objs := upd s.objs c.id { o with known := true }, held := s.held ++ [c.id] }
    else some { s with call := some { c with phase := .known }, objs := upd s.objs c.id { o with known := true } }
  | .waiting =>
    if o.published then some { s with call := some { c with phase := .known }, objs := upd s.objs c.id { o with known := true } } else none
  | .known => some { s with call := some { c with phase := .counted }, objs := upd s.objs c.id { o with refs := o.refs + 1 } }
  | .counted => some { s with call := none, objs := upd s.objs c.id { o with fins := o.fins + 1 } }

/-- One step (controller/api.py:371-433, garbage_collector.py:47-70, monitor/loop.py:254-259); `none` if it is not possible. An interrupted
`put` loses its identity, which nobody else has; after an interrupted `get` the program still holds the reference. -/
def State.step (s : State) : Act → Option State
  | .put => if s.call.isSome then none else some { s with next := s.next + 1, call := some ⟨s.next, true, .start⟩ }
  | .task => if s.call.isSome then none else some { s with next := s.next + 1, held := s.held ++ [s.next] }
  | .get id => if s.call.isSome = false ∧ id ∈ s.held then some { s with call := some ⟨id, false, .start⟩ } else none
  | .advance => s.call.bind s.advance
  | .signal =>
    match s.call with
    | none => none
    | some c => if c.put then some ({ s with call := none }.lose c.id) else some { s with call := none }
  | .drop id => if s.call.isSome = false ∧ id ∈ s.held then some (s.lose id) else none
  | .cleanup =>
    if s.call.isSome then none
    else if s.alive then
      let r := clear s.objs [] (s.pending ++ s.dropped)
      some { s with objs := r.1, pending := r.2.1, alive := r.2.2, dropped := [] }
    else some { s with dropped := [] }

/-- A history (controller/api.py:371-433, monitor/loop.py:188-287). -/
def State.run : State → List Act → Option State
  | s, [] => some s
  | s, a :: as => (s.step a).bind fun s' => s'.run as

end Verif.InterruptPut
