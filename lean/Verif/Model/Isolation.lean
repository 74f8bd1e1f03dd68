/-!
# Objects that the program changes

Python objects can be changed in place. This file models which copies of an object the backends make: the stores and messages of the
MPI backend (`/repo/unidist/core/backends/mpi/core/`, without the shared store), the store of the sequential backend
(`/repo/unidist/core/backends/pyseq/core/`) and the store and queues of the multiprocessing backend
(`/repo/unidist/core/backends/pymp/core/`). Cleanups are not modelled; references are never forgotten here.
-/
namespace Verif.Isolation

/-- The content of an object as far as serialization distinguishes it (mpi/core/serialization.py:120-142): what is written into the
serialized text, and what is a large buffer that stays outside of it. -/
structure Val where
  text : Nat
  buf : Nat
deriving DecidableEq, Repr

/-- An object in the memory of a process (mpi/core/local_object_store.py:84). -/
structure Cell where
  proc : Nat
  val : Val
deriving DecidableEq, Repr

/-- What a program saw: the value when the reference was made or the argument was passed, and the value at the time it was read (for
reference only; mpi/core/controller/api.py:400-433). -/
structure Seen where
  expected : Val
  got : Val
deriving DecidableEq, Repr

/-! ## The MPI backend -/

/-- A buffer in a message (communication.py:747-752): a copy, or the memory of the object itself, which `Isend` reads until the
communication is complete. -/
inductive Buf
  | copied (n : Nat)
  | live (addr : Nat)
deriving DecidableEq, Repr

/-- Messages: data of a reference (controller/common.py:236-294) or an argument that travels inside a task
(controller/api.py:561-578) with, for reference, its value when the task was submitted. -/
inductive Msg
  | data (src dst id : Nat) (v : Val)
  | arg (dst : Nat) (text : Nat) (buf : Buf) (expected : Val)
deriving DecidableEq, Repr

/-- All processes: their objects, the dictionaries `_data_map`, `_serialization_cache` and `_sent_data_map`
(local_object_store.py:24-38), the messages, and for reference who made each data ID with which value, and what was seen. -/
structure State where
  heap : List Cell
  made : List (Nat × Val)
  data : Nat → Nat → Option Nat
  cache : Nat → Nat → Option Val
  sent : List (Nat × Nat × Nat)
  net : List Msg
  seen : List Seen

/-- At the start (local_object_store.py:24-38). -/
def State.init : State := ⟨[], [], fun _ _ => none, fun _ _ => none, [], [], []⟩

/-- Assignment to an entry of a dictionary of a process (local_object_store.py:84, 284). -/
def upd {α : Type} (f : Nat → Nat → Option α) (p i : Nat) (v : α) : Nat → Nat → Option α :=
  fun q j => if q = p ∧ j = i then some v else f q j

/-- What happens: the program of a process makes an object or changes one; `put` (controller/api.py:371-397); a task returns an object
(worker/task_store.py:268-302, 358-392; an exception is kept without a
serialized text, 346-357, and is not modelled); `get` of available data, or the start of a task with this argument
(object_store.py:58-90, worker/task_store.py:189-195); data is pushed to another process (controller/common.py:368-415); a task with an
object as argument is submitted, `big` tells whether its buffer is above the threshold (serialization.py:121-138); the library
transfers the buffer of a message; a message is received. -/
inductive Op
  | create (p : Nat) (v : Val)
  | change (p a : Nat) (v : Val)
  | put (p a : Nat)
  | ret (p a : Nat)
  | get (p id : Nat)
  | push (p q id : Nat)
  | submit (p q a : Nat) (big : Bool)
  | transfer (k : Nat)
  | deliver (k : Nat)
deriving DecidableEq, Repr

/-- An object of a process (mpi/core/local_object_store.py:84). -/
def State.own (s : State) (p a : Nat) : Option Val := (s.heap[a]?).bind fun c => if c.proc = p then some c.val else none

/-- The buffer of a message as the receiver gets it (communication.py:747-752). -/
def State.bufVal (s : State) : Buf → Nat
  | .copied n => n
  | .live a => match s.heap[a]? with
    | some c => c.val.buf
    | none => 0

/-- `ObjectStore.get` (object_store.py:58-90): the object in `_data_map`, else a new one from the cached text, which is remembered. -/
def State.get (s : State) (p id : Nat) : Option State :=
  match s.made[id]? with
  | none => none
  | some (_, e) =>
    match s.data p id with
    | some a => (s.own p a).map fun v => { s with seen := s.seen ++ [⟨e, v⟩] }
    | none =>
      (s.cache p id).map fun v =>
        { s with heap := s.heap ++ [⟨p, v⟩], data := upd s.data p id s.heap.length, seen := s.seen ++ [⟨e, v⟩] }

/-- `push_data` of a reference (controller/common.py:395-411) and `_push_local_data` (255-294): the cached text is sent; an object that
has none is serialized, with copies of its buffers (local_object_store.py:269-285), and this is cached and sent. Data that is
not available is not pushed (412-415). -/
def State.push (s : State) (p q id : Nat) : Option State :=
  if p = q then none
  else if (p, q, id) ∈ s.sent then some s
  else
    match s.cache p id with
    | some v => some { s with net := s.net ++ [.data p q id v], sent := (p, q, id) :: s.sent }
    | none =>
      ((s.data p id).bind fun a => s.own p a).map fun v =>
        { s with cache := upd s.cache p id v, net := s.net ++ [.data p q id v], sent := (p, q, id) :: s.sent }

/-- Receiving a message (controller/common.py:113-171, communication.py:816-849): a new object is made from it. -/
def State.deliver (s : State) (k : Nat) : Option State :=
  match s.net[k]? with
  | none => none
  | some (.data _ q id v) =>
    some { s with heap := s.heap ++ [⟨q, v⟩], data := upd s.data q id s.heap.length, net := s.net.eraseIdx k }
  | some (.arg q t b e) =>
    some { s with
      heap := s.heap ++ [⟨q, ⟨t, s.bufVal b⟩⟩]
      net := s.net.eraseIdx k
      seen := s.seen ++ [⟨e, ⟨t, s.bufVal b⟩⟩] }

/-- One step (controller/api.py:371-433, 508-580; worker/task_store.py:208-404); `none` if it is not possible. -/
def step (s : State) : Op → Option State
  | .create p v => some { s with heap := s.heap ++ [⟨p, v⟩] }
  | .change p a v => (s.own p a).map fun _ => { s with heap := s.heap.set a ⟨p, v⟩ }
  | .put p a => (s.own p a).map fun v =>
      { s with made := s.made ++ [(p, v)], cache := upd s.cache p s.made.length v }
  | .ret p a => (s.own p a).map fun v =>
      { s with
        made := s.made ++ [(p, v)]
        data := upd s.data p s.made.length a
        cache := upd s.cache p s.made.length v }
  | .get p id => s.get p id
  | .push p q id => s.push p q id
  | .submit p q a big => (s.own p a).map fun v =>
      { s with net := s.net ++ [.arg q v.text (if big then .live a else .copied v.buf) v] }
  | .transfer k =>
    match s.net[k]? with
    | some (.arg q t b e) => some { s with net := s.net.set k (.arg q t (.copied (s.bufVal b)) e) }
    | _ => none
  | .deliver k => s.deliver k

/-- A history (controller/api.py:371-580); `none` if a step is not possible. -/
def run : State → List Op → Option State
  | s, [] => some s
  | s, o :: l => (step s o).bind fun s' => run s' l

/-! ## The sequential backend -/

namespace Seq

/-- The objects, the store (pyseq/core/object_store.py:17, 53) with the values at the time they were stored, for reference, and what was
seen. -/
structure State where
  heap : List Val
  store : List (Nat × Val)
  seen : List Seen
deriving DecidableEq, Repr

/-- At the start (pyseq/core/object_store.py:17). -/
def State.init : State := ⟨[], [], []⟩

/-- What happens: an object is made or changed; an object is stored by `put` or as a result (pyseq/core/api.py:43-57, 111-123); `get`, or
the use as an argument (60-74, 103-109). -/
inductive Op
  | create (v : Val)
  | change (a : Nat) (v : Val)
  | put (a : Nat)
  | get (id : Nat)
deriving DecidableEq, Repr

/-- One step (pyseq/core/object_store.py:35-85): the store holds the object itself. -/
def step (s : State) : Op → Option State
  | .create v => some { s with heap := s.heap ++ [v] }
  | .change a v => (s.heap[a]?).map fun _ => { s with heap := s.heap.set a v }
  | .put a => (s.heap[a]?).map fun v => { s with store := s.store ++ [(a, v)] }
  | .get id => (s.store[id]?).bind fun e => (s.heap[e.1]?).map fun v => { s with seen := s.seen ++ [⟨e.2, v⟩] }

/-- A history (pyseq/core/object_store.py:35-85). -/
def run : State → List Op → Option State
  | s, [] => some s
  | s, o :: l => (step s o).bind fun s' => run s' l

end Seq

/-! ## The multiprocessing backend -/

namespace Pymp

/-- The objects of all processes, the dictionary of the manager process (pymp/core/object_store.py:33) and the queues
(process_manager.py:100) with, for reference, the values at the time they were made, and what was seen. -/
structure State where
  heap : List Cell
  store : List (Val × Val)
  queue : List (Val × Val)
  seen : List Seen
deriving DecidableEq, Repr

/-- At the start (pymp/core/object_store.py:33). -/
def State.init : State := ⟨[], [], [], []⟩

/-- What happens: an object is made or changed; it is stored by `put` or as a result (pymp/core/object_store.py:69, process_manager.py:44-56);
`get`, or the use as an argument (pymp/core/object_store.py:97-106, process_manager.py:221-229); a task with an object as argument is
submitted (pymp/core/api.py:145-147); a worker takes it (process_manager.py:38-39). -/
inductive Op
  | create (p : Nat) (v : Val)
  | change (p a : Nat) (v : Val)
  | put (p a : Nat)
  | get (p id : Nat)
  | submit (p a : Nat)
  | start (p k : Nat)
deriving DecidableEq, Repr

/-- An object of a process (pymp/core/process_manager.py:38-39). -/
def State.own (s : State) (p a : Nat) : Option Val := (s.heap[a]?).bind fun c => if c.proc = p then some c.val else none

/-- One step (as listed at `Op`): the manager and the queues hold serialized copies, and every read makes a new object
(pymp/core/object_store.py:69, 100; pymp/core/api.py:147). -/
def step (s : State) : Op → Option State
  | .create p v => some { s with heap := s.heap ++ [⟨p, v⟩] }
  | .change p a v => (s.own p a).map fun _ => { s with heap := s.heap.set a ⟨p, v⟩ }
  | .put p a => (s.own p a).map fun v => { s with store := s.store ++ [(v, v)] }
  | .get p id => (s.store[id]?).map fun e => { s with heap := s.heap ++ [⟨p, e.1⟩], seen := s.seen ++ [⟨e.2, e.1⟩] }
  | .submit p a => (s.own p a).map fun v => { s with queue := s.queue ++ [(v, v)] }
  | .start p k => (s.queue[k]?).map fun e =>
      { s with heap := s.heap ++ [⟨p, e.1⟩], queue := s.queue.eraseIdx k, seen := s.seen ++ [⟨e.2, e.1⟩] }

/-- A history (pymp/core/api.py:55-149). -/
def run : State → List Op → Option State
  | s, [] => some s
  | s, o :: l => (step s o).bind fun s' => run s' l

end Pymp

end Verif.Isolation
