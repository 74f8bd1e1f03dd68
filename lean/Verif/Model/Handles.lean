import Verif.Model.Calls
/-!
# Handles of actors

Models how a method is found through the handle of an actor (`/repo/unidist/core/base/actor.py` 140-157, the `__getattr__` of the
backends and of their native actors) and how a handle is passed to another process (`__reduce__`, base/actor.py 92-138,
mpi/actor.py 88-140, `/repo/unidist/core/backends/mpi/core/controller/actor.py` 91-182).
-/
namespace Verif.Handles
open Verif.Calls (Kw Val Backend enter takenValue)

/-! ## Finding a method -/

/-- The attributes of the outer handle that do not begin with two underscores: the instance attribute of `__init__` (base/actor.py:90)
and the methods of the class (base/actor.py:92, 109). Python calls `__getattr__` (base/actor.py:140) only for other names. -/
def frontNames : List String := ["_actor_cls", "_serialization_helper", "_deserialization_helper"]

/-- The same for the handle of the backend: the instance attributes (mpi/actor.py:82-86, pymp/actor.py:80-84, pyseq/actor.py:80-84),
the method `_remote` (mpi/actor.py:160, pymp/actor.py:104, pyseq/actor.py:104) and the methods of the base class (base/actor.py:92,
109) or their overridings (mpi/actor.py:88, 108). -/
def backendNames : List String :=
  ["_cls", "_num_cpus", "_resources", "_actor_handle", "_remote", "_serialization_helper", "_deserialization_helper"]

/-- The same for the native actor. MPI: instance attributes (controller/actor.py:91-105), methods (controller/actor.py:130, 151) and the
cache of the class (controller/actor.py:187). Multiprocessing: instance attributes (pymp/core/actor.py:99-110) and the method `submit`
(pymp/core/actor.py:130). Sequential: the native actor is the user's object (pyseq/actor.py:132). -/
def nativeNames : Backend → List String
  | .mpi => ["_cls", "_args", "_kwargs", "_owner_rank", "_handler_id", "_serialization_helper", "_deserialization_helper", "actor_methods"]
  | .pymp => ["_worker", "_worker_id", "_obj_store", "_cls_obj", "submit"]
  | .pyseq => []

/-- `name.startswith("_")`. The proxy of `BaseManager` (pymp/core/actor.py:105-109) offers only the methods whose names do not begin
with an underscore (Python's `multiprocessing.managers.public_methods`). -/
def isPrivate (m : String) : Bool := m.toList.head? == some '_'

/-- What `handle.m.remote()` leads to (base/actor.py:140-157, 56-73). -/
inductive Reached
  /-- The method `m` of the user's object runs. -/
  | runs (m : String)
  /-- An attribute of one of the handles was found instead. -/
  | elsewhere
  /-- `AttributeError` in the caller. -/
  | refused
  /-- `AttributeError` in the loop of the worker (worker/loop.py:192), which ends. -/
  | endsWorker
deriving DecidableEq, Repr

/-- The user's object is asked for the method: on MPI by the worker (worker/loop.py:185-200), on multiprocessing by the caller through
the proxy (pymp/core/actor.py:69-72), on the sequential backend by the caller (pyseq/actor.py:55-56). `ms` are the methods of the
user's class. -/
def atObject (b : Backend) (ms : List String) (m : String) : Reached :=
  match b with
  | .mpi => if ms.contains m then .runs m else .endsWorker
  | .pymp => if ms.contains m && !isPrivate m then .runs m else .refused
  | .pyseq => if ms.contains m then .runs m else .refused

/-- `handle.m.remote()`: the outer handle (base/actor.py:156), the handle of the backend (mpi/actor.py:158, pymp/actor.py:102,
pyseq/actor.py:102) and, when `_remote` is called, the native actor (mpi/actor.py:55, controller/actor.py:189-194; pymp/actor.py:55,
pymp/core/actor.py:128; pyseq/actor.py:55) look the name up in this order. Names beginning with two underscores are not modelled. -/
def callMethod (b : Backend) (ms : List String) (m : String) : Reached :=
  if frontNames.contains m then .elsewhere
  else if backendNames.contains m then .elsewhere
  else if (nativeNames b).contains m then .elsewhere
  else atObject b ms m

/-! ## Passing a handle to another process -/

/-- Name of an actor: the rank of the process that created it and the value of its counter (`MpiDataID`, mpi/core/common.py:266-305;
local_object_store.py:182-200). -/
abbrev Id := Nat × Nat

/-- The native actor on MPI: class, arguments, rank of the worker and name (controller/actor.py:91-105). -/
structure Native where
  cls : Nat
  args : List Val
  kwargs : Kw
  owner : Val
  handler : Id ⊕ Val
deriving DecidableEq, Repr

/-- What the outer handle wraps: the handle of the backend with its options and the native actor (mpi/actor.py:82-86). -/
structure Handle where
  cls : Nat
  numCpus : Val
  resources : Val
  native : Option Native
deriving DecidableEq, Repr

/-- The message `ACTOR_CREATE` (controller/actor.py:114-127) with its receiver. -/
structure Create where
  receiver : Val
  cls : Nat
  args : List Val
  kwargs : Kw
  handler : Id ⊕ Val
deriving DecidableEq, Repr

/-- What a process knows: the counter for names (local_object_store.py:196-200), known owners (local_object_store.py:98), ranks that
are reserved for actors (controller/actor.py:109), and the `ACTOR_CREATE` messages it sent. -/
structure Proc where
  rank : Nat
  counter : Nat
  owners : List ((Id ⊕ Val) × Val)
  reserved : List Val
  sent : List Create
deriving DecidableEq, Repr

/-- A process after initialization (local_object_store.py:24-38). -/
def Proc.init (rank : Nat) : Proc := ⟨rank, 0, [], [], []⟩

/-- `Actor.__init__(cls, *args, owner_rank, handler_id, **kwargs)` of the native actor (controller/actor.py:91-128). `rank` is what
`schedule_rank` gives (see `Verif.Model.Scheduler`). -/
def nativeInit (p : Proc) (rank cls : Nat) (args : List Val) (ownerRank : Val) (handlerId : Id ⊕ Val) (kw : Kw) : Proc × Native :=
  let owner := if ownerRank = .none then Val.obj rank else ownerRank
  let handler : Id ⊕ Val := if handlerId = .inr .none then .inl (p.rank, p.counter) else handlerId
  let counter := if handlerId = .inr .none then p.counter + 1 else p.counter
  let sent := if ownerRank = .none ∧ handlerId = .inr .none then p.sent ++ [⟨owner, cls, args, kw, handler⟩] else p.sent
  (⟨p.rank, counter, p.owners ++ [(handler, owner)], p.reserved ++ [owner], sent⟩, ⟨cls, args, kw, owner, handler⟩)

/-- Python's call `Actor(cls, *args, **kwargs)` with the signature of controller/actor.py:91: the names `owner_rank` and `handler_id`
are taken out of the keyword arguments; `self` and `cls` are a `TypeError` (`none`). -/
def nativeCall (p : Proc) (rank cls : Nat) (args : List Val) (kw : Kw) : Option (Proc × Native) :=
  (enter ["self", "cls"] ["owner_rank", "handler_id"] kw).map fun r =>
    nativeInit p rank cls args (takenValue r.1 "owner_rank") (.inr (takenValue r.1 "handler_id")) r.2

/-- `ActorClass.remote(*args, **kwargs)` on MPI, without options (base/actor.py:220-238, mpi/actor.py:160-187). -/
def create (p : Proc) (rank cls : Nat) (args : List Val) (kw : Kw) : Option (Proc × Handle) :=
  match enter ["self"] ["num_cpus", "resources"] kw with
  | none => none
  | some (taken, kw) =>
    if takenValue taken "num_cpus" ≠ .none then none
    else if takenValue taken "resources" ≠ .none then none
    else (nativeCall p rank cls args kw).map fun r => (r.1, ⟨cls, .none, .none, some r.2⟩)

/-- The state of a native actor that is written to the pickle (controller/actor.py:141-148). -/
structure NativeState where
  cls : Nat
  args : List Val
  ownerRank : Val
  handlerId : Id ⊕ Val
  kwargs : Kw
deriving DecidableEq, Repr

/-- The state of a handle that is written to the pickle (mpi/actor.py:99-105), inside that of the outer handle (base/actor.py:103-106). -/
structure HandleState where
  cls : Nat
  numCpus : Val
  resources : Val
  actorHandle : Option NativeState
deriving DecidableEq, Repr

/-- `_serialization_helper` of the native actor (controller/actor.py:130-148). -/
def Native.state (a : Native) : NativeState := ⟨a.cls, a.args, a.owner, a.handler, a.kwargs⟩

/-- `_serialization_helper` of the handle (mpi/actor.py:88-105; ray/actor.py:89-106 and dask/actor.py:116-133 are the same). -/
def Handle.state (h : Handle) : HandleState := ⟨h.cls, h.numCpus, h.resources, h.native.map Native.state⟩

/-- `_deserialization_helper` of the native actor (controller/actor.py:150-172) in process `p`: Python's call
`cls(state["cls"], *state["args"], owner_rank=…, handler_id=…, **state["kwargs"])`, a `TypeError` (`none`) if the keyword arguments
contain one of these names. -/
def NativeState.load (p : Proc) (s : NativeState) : Option (Proc × Native) :=
  if s.kwargs.any (fun e => ["self", "cls", "owner_rank", "handler_id"].contains e.1) then none
  else some (nativeInit p 0 s.cls s.args s.ownerRank s.handlerId s.kwargs)

/-- `_deserialization_helper` of the handle (mpi/actor.py:107-128, base/actor.py:108-126). -/
def HandleState.load (p : Proc) (s : HandleState) : Option (Proc × Handle) :=
  match s.actorHandle with
  | none => some (p, ⟨s.cls, s.numCpus, s.resources, none⟩)
  | some n => (n.load p).map fun r => (r.1, ⟨s.cls, s.numCpus, s.resources, some r.2⟩)

/-- All processes, and the handles each of them has got (mpi/actor.py:82-86). -/
structure System where
  proc : Nat → Proc
  handles : List (Nat × Handle)

/-- All processes after initialization (local_object_store.py:24-38). -/
def System.init : System := ⟨Proc.init, []⟩

/-- What happens: a process creates an actor, or the `i`-th handle is passed to process `q`, as an argument of a task or inside some
data (base/actor.py:220-238, 128-138). -/
inductive Op
  | create (p rank cls : Nat) (args : List Val) (kw : Kw)
  | pass (i q : Nat)

/-- One step; calls that raise change nothing (base/actor.py:220-238, 108-138). -/
def System.step (s : System) : Op → System
  | .create p rank cls args kw =>
    match create (s.proc p) rank cls args kw with
    | none => s
    | some (p', h) => ⟨fun q => if q = p then p' else s.proc q, s.handles ++ [(p, h)]⟩
  | .pass i q =>
    match s.handles[i]? with
    | none => s
    | some (_, h) =>
      match h.state.load (s.proc q) with
      | none => s
      | some (q', h') => ⟨fun r => if r = q then q' else s.proc r, s.handles ++ [(q, h')]⟩

/-- A history (base/actor.py:220-238, 108-138). -/
def System.run (s : System) (ops : List Op) : System := ops.foldl System.step s

/-- The class of the backend defines its own `_serialization_helper` and `_deserialization_helper` (mpi/actor.py:88-128); those of the
multiprocessing and the sequential backend inherit the ones of the outer handle (pymp/actor.py:66-133, pyseq/actor.py:66-133). -/
def ownHelpers : Backend → Bool
  | .mpi => true
  | .pymp => false
  | .pyseq => false

/-- Number of positional arguments of the constructor of the backend's handle without default (mpi/actor.py:82, pymp/actor.py:80,
pyseq/actor.py:80). -/
def requiredArguments : Nat := 3

/-- Number of positional arguments `_deserialization_helper` gives to the constructor: three (mpi/actor.py:123-128), or one if it is
inherited (base/actor.py:124-126). -/
def givenArguments (b : Backend) : Nat := if ownHelpers b then 3 else 1

/-- Arguments of tasks are pickled: on MPI when they are sent (controller/api.py:568-574), on multiprocessing when the task is
submitted (pymp/core/api.py:147); not on the sequential backend (pyseq/core/api.py:103-112). -/
def pickles : Backend → Bool
  | .mpi => true
  | .pymp => true
  | .pyseq => false

/-- Whether a handle given to a task arrives there. Without own helpers, unpickling calls the constructor of the backend's handle with
too few arguments, a `TypeError` (base/actor.py:124-126, pymp/actor.py:80). -/
def arrives (b : Backend) : Bool := !pickles b || givenArguments b == requiredArguments

end Verif.Handles
