/-!
# A worker process: task store, request store and operation loop

Models `/repo/unidist/core/backends/mpi/core/worker/task_store.py`, `worker/request_store.py`, `worker/loop.py` and the
parts of `controller/common.py` and `local_object_store.py` they use. References are numbers (their uniqueness is C20).
Keyword arguments are treated like positional ones in the code and are not modelled separately; tuples and dictionaries
in arguments are represented by lists here (they are modelled in `Verif.Model.Arguments`). Clean-up, shared memory
and shut-down are modelled elsewhere.
-/
namespace Verif.Worker

/-- A Python value as far as the worker inspects it: opaque data, an `Exception` instance, a callable or method name, a
reference (`is_data_id`), a list (mpi/core/common.py:395-440, task_store.py:239-244, 329-334). -/
inductive Val
  | data (n : Nat)
  | exc (n : Nat)
  | code (n : Nat)
  | ref (id : Nat)
  | list (vs : List Val)
deriving Repr, Inhabited

/-- Result of calling a user function: a value or a raised exception (task_store.py:326-345). -/
inductive Ret
  | ret (v : Val)
  | raise (e : Nat)
deriving Repr

/-- The user code: functions, actor methods (state before, arguments, state after) and which callables are coroutine
functions (task_store.py:233, 339; worker/loop.py:176-192). -/
structure World where
  call : Nat → List Val → Ret
  method : Nat → Val → List Val → Val × Ret
  isAsync : Nat → Bool

/-- What a request executes: a function given by reference (task_store.py:427-428) or a bound actor method
(worker/loop.py:190-193). -/
inductive Task
  | fn (id : Nat)
  | method (handler : Nat) (name : Nat)
deriving DecidableEq, Repr

/-- A task request (controller/api.py:561-566, controller/actor.py:48-54). `outs` is empty for `None`, has one element
for a single reference and more for a list. `tag` numbers the submissions and is not used by the code. -/
structure Request where
  tag : Nat
  task : Task
  args : List Val
  outs : List Nat
deriving Repr

/-- Operations and replies exchanged by processes (mpi/core/common.py:30-89). `data` is the direct reply to a blocking request
(tag `OBJECT_BLOCKING`). `taskDone` carries `None` for missing outputs. -/
inductive Msg
  | execute (r : Request)
  | get (source id : Nat) (blocking : Bool)
  | putData (id : Nat) (v : Val)
  | putOwner (id owner : Nat)
  | actorCreate (handler : Nat) (state : Val)
  | actorExecute (r : Request) (handler name : Nat)
  | data (id : Nat) (v : Val)
  | taskDone (ids : List (Option Nat))
deriving Repr

/-- Exceptions that leave the worker loop and so end the process (worker/loop.py:77-233). -/
inductive Crash
  /-- `ValueError("DataID is missing!")` (task_store.py:204). -/
  | missingId
  /-- `ValueError` of `ObjectStore.get` (object_store.py:88) for the function reference. -/
  | missingTask
  /-- `TypeError` of `local_store.put(None, e)`: no weak reference to `None` (task_store.py:356, local_object_store.py:84). -/
  | putNone
  /-- `TypeError` of `zip` over a non-iterable result (task_store.py:364-366). -/
  | notIterable
  /-- `KeyError` of `actor_map[handler]` (loop.py:188). -/
  | noActor
deriving DecidableEq, Repr

/-- A started coroutine: its outputs and the result it will have (task_store.py:233-324). -/
structure Coroutine where
  outs : List Nat
  result : Ret
deriving Repr

/-- State of a worker process. `sent` is `_sent_data_map`, `requested` is `_data_requests`, `nbGet`/`bGet` are the
non-blocking/blocking get requests (pairs of reference and requester), `outbox` are the messages sent so far, `log` the
tasks executed so far with the arguments they were called with (worker/task_store.py:34-42, worker/request_store.py:46-54). -/
structure Worker where
  rank : Nat
  monitor : Nat
  store : Nat → Option Val
  owner : Nat → Option Nat
  sent : List (Nat × Nat)
  requested : List Nat
  nbGet : List (Nat × Nat)
  bGet : List (Nat × Nat)
  pending : List Request
  pendingActor : List Request
  actors : Nat → Option Val
  running : List Coroutine
  outbox : List (Nat × Msg)
  log : List Request

/-- A worker at start-up (task_store.py:34-42, request_store.py:46-54, local_object_store.py:24-38). -/
def Worker.init (rank monitor : Nat) : Worker :=
  ⟨rank, monitor, fun _ => none, fun _ => none, [], [], [], [], [], [], fun _ => none, [], [], []⟩

/-- Update of one key of a dictionary (local_object_store.py:84, 98). -/
def upd {α : Type} (f : Nat → Option α) (k : Nat) (v : α) : Nat → Option α := fun i => if i = k then some v else f i

/-- Send a message (communication.py:857-1025). -/
def Worker.send (w : Worker) (dest : Nat) (m : Msg) : Worker := { w with outbox := w.outbox ++ [(dest, m)] }

/-- `LocalObjectStore.put` (local_object_store.py:73-85). -/
def Worker.put (w : Worker) (id : Nat) (v : Val) : Worker := { w with store := upd w.store id v }

/-- `unwrap_local_data_id` (task_store.py:168-206): value, flag for "not available", new state. -/
def Worker.unwrap (w : Worker) : Val → Except Crash (Val × Bool × Worker)
  | .ref id =>
    match w.store id with
    | some v => .ok (v, false, w)
    | none =>
      match w.owner id with
      | none => .error .missingId
      | some o =>
        if id ∈ w.requested ∨ o = w.rank then .ok (.ref id, true, w)
        else .ok (.ref id, true, { w.send o (.get w.rank id false) with requested := id :: w.requested })
  | v => .ok (v, false, w)

mutual
/-- `materialize_data_ids` (mpi/core/common.py:395-440). -/
def materialize (w : Worker) (pending : Bool) : Val → Except Crash (Val × Bool × Worker)
  | .list vs =>
    match materializeList w pending vs with
    | .ok (vs', p, w') => .ok (.list vs', p, w')
    | .error e => .error e
  | .data n =>
    match w.unwrap (.data n) with
    | .ok (v', p, w') => .ok (v', pending || p, w')
    | .error e => .error e
  | .exc n =>
    match w.unwrap (.exc n) with
    | .ok (v', p, w') => .ok (v', pending || p, w')
    | .error e => .error e
  | .code n =>
    match w.unwrap (.code n) with
    | .ok (v', p, w') => .ok (v', pending || p, w')
    | .error e => .error e
  | .ref id =>
    match w.unwrap (.ref id) with
    | .ok (v', p, w') => .ok (v', pending || p, w')
    | .error e => .error e

/-- The loop over the elements of a container (mpi/core/common.py:424-436): every element is materialized and the result
unwrapped once more. -/
def materializeList (w : Worker) (pending : Bool) : List Val → Except Crash (List Val × Bool × Worker)
  | [] => .ok ([], pending, w)
  | v :: vs =>
    match materialize w pending v with
    | .error e => .error e
    | .ok (v1, p1, w1) =>
      match w1.unwrap v1 with
      | .error e => .error e
      | .ok (v2, p2, w2) =>
        match materializeList w2 (p1 || p2) vs with
        | .error e => .error e
        | .ok (vs', p3, w3) => .ok (v2 :: vs', p3, w3)
end

/-- `push_data` of data that is present, through `_push_local_data` (controller/common.py:255-294, 398-415): sent only
once to each process. -/
def Worker.push (w : Worker) (dest id : Nat) (blocking : Bool) (v : Val) : Worker :=
  if (id, dest) ∈ w.sent then w
  else { w.send dest (if blocking then .data id v else .putData id v) with sent := (id, dest) :: w.sent }

/-- Add to a set of requests (worker/request_store.py:69-96). -/
def addReq (l : List (Nat × Nat)) (x : Nat × Nat) : List (Nat × Nat) := if x ∈ l then l else l ++ [x]

/-- `process_get_request` (request_store.py:230-268). -/
def Worker.getRequest (w : Worker) (source id : Nat) (blocking : Bool) : Worker :=
  match w.store id with
  | some v => w.push source id (source = 0 || blocking) v
  | none =>
    if blocking then { w with bGet := addReq w.bGet (id, source) }
    else { w with nbGet := addReq w.nbGet (id, source) }

/-- `check_request` (request_store.py:146-160): serve the kept requests for `id`, then forget them. -/
def Worker.checkGet (w : Worker) (id : Nat) : Worker :=
  let w := (w.nbGet.filter (·.1 = id)).foldl (fun w x => w.getRequest x.2 id false) w
  let w := { w with nbGet := w.nbGet.filter (·.1 ≠ id) }
  let w := (w.bGet.filter (·.1 = id)).foldl (fun w x => w.getRequest x.2 id true) w
  { w with bGet := w.bGet.filter (·.1 ≠ id) }

/-- `check_pending_get_requests` (request_store.py:134-166). -/
def Worker.checkGets (w : Worker) (ids : List Nat) : Worker := ids.foldl Worker.checkGet w

/-- The values stored for the outputs and the list reported to the monitor (task_store.py:346-391). -/
def outputs (outs : List Nat) : Ret → Except Crash (List (Nat × Val) × List (Option Nat))
  | .raise e =>
    match outs with
    | [] => .error .putNone
    | _ => .ok (outs.map fun o => (o, .exc e), [])
  | .ret v =>
    match outs with
    | [] => .ok ([], [])
    | [o] => .ok ([(o, v)], [some o])
    | _ =>
      match v with
      | .list vs => .ok (outs.zip vs, outs.mapIdx fun i o => if i < vs.length then some o else none)
      | _ => .error .notIterable

/-- Store several results (worker/task_store.py:353-354, 364-378). -/
def Worker.putAll (w : Worker) (l : List (Nat × Val)) : Worker := l.foldl (fun w x => w.put x.1 x.2) w

/-- The end of a regular task (task_store.py:346-404). -/
def Worker.finish (w : Worker) (outs : List Nat) (r : Ret) : Except Crash Worker :=
  match outputs outs r with
  | .error e => .error e
  | .ok (l, completed) => .ok (((w.putAll l).checkGets outs).send w.monitor (.taskDone completed))

/-- The end of a coroutine (task_store.py:257-316). An exception inside the coroutine does not reach the worker loop. In
particular `completed_data_ids` is only assigned if the function succeeded and has outputs; otherwise its use raises
`UnboundLocalError` and the monitor is not told (268-316). -/
def Worker.finishAsync (w : Worker) (outs : List Nat) (r : Ret) : Worker :=
  match outputs outs r with
  | .error _ => w
  | .ok (l, completed) =>
    let w := (w.putAll l).checkGets outs
    match r, outs with
    | .ret _, _ :: _ => w.send w.monitor (.taskDone completed)
    | _, _ => w

/-- The first argument that is an exception (task_store.py:329-334). -/
def firstExc : List Val → Option Nat
  | [] => none
  | .exc e :: _ => some e
  | _ :: t => firstExc t

/-- Result of the user code for materialized arguments and the new actor state (task_store.py:326-345). Calling
something that is not callable raises `TypeError` (exception 0). The state effect of coroutine methods is not modelled. -/
def Worker.evaluate (W : World) (w : Worker) (t : Task) (args : List Val) : Ret × Worker :=
  match firstExc args with
  | some e => (.raise e, w)
  | none =>
    match t with
    | .fn id =>
      match w.store id with
      | some (.code c) => (W.call c args, w)
      | _ => (.raise 0, w)
    | .method h c =>
      match w.actors h with
      | some s =>
        if W.isAsync c then ((W.method c s args).2, w)
        else ((W.method c s args).2, { w with actors := upd w.actors h (W.method c s args).1 })
      | none => (.raise 0, w)

/-- Whether the callable is a coroutine function (task_store.py:233). -/
def Worker.taskAsync (W : World) (w : Worker) : Task → Bool
  | .fn id =>
    match w.store id with
    | some (.code c) => W.isAsync c
    | _ => false
  | .method _ c => W.isAsync c

/-- `execute_received_task` (task_store.py:208-404). -/
def Worker.execute (W : World) (w : Worker) (r : Request) (args : List Val) : Except Crash Worker :=
  let w1 := { w with log := w.log ++ [{ r with args := args }] }
  let e := w1.evaluate W r.task args
  if w.taskAsync W r.task then .ok { e.2 with running := e.2.running ++ [⟨r.outs, e.1⟩] }
  else e.2.finish r.outs e.1

/-- Whether the callable is available (task_store.py:427-428, object_store.py:88). -/
def Worker.known (w : Worker) : Task → Bool
  | .fn id => (w.store id).isSome
  | .method _ _ => true

/-- `process_task_request` (task_store.py:406-459): the request to be kept, or none if it was executed or its coroutine
started. In both cases the requests for its outputs are looked at (456-457), although those of a coroutine do not exist yet. The wait
requests of workers (458) are never made by the controller and not modelled. -/
def Worker.process (W : World) (w : Worker) (r : Request) : Except Crash (Option Request × Worker) :=
  if w.known r.task then
    match materializeList w false r.args with
    | .error e => .error e
    | .ok (args, true, w') => .ok (some { r with args := args }, w')
    | .ok (args, false, w') =>
      match w'.execute W r args with
      | .ok w'' => .ok (none, w''.checkGets r.outs)
      | .error e => .error e
  else .error .missingTask

/-- The loop of `check_pending_tasks` (task_store.py:91-97): requests still to be kept. -/
def Worker.processAll (W : World) : Worker → List Request → Except Crash (List Request × Worker)
  | w, [] => .ok ([], w)
  | w, r :: rs =>
    match w.process W r with
    | .error e => .error e
    | .ok (o, w1) =>
      match Worker.processAll W w1 rs with
      | .error e => .error e
      | .ok (l, w2) => .ok (o.toList ++ l, w2)

/-- `check_pending_tasks` (task_store.py:83-97). -/
def Worker.checkTasks (W : World) (w : Worker) : Except Crash Worker :=
  match w.processAll W w.pending with
  | .error e => .error e
  | .ok (l, w') => .ok { w' with pending := l }

/-- `check_pending_actor_tasks` (task_store.py:107-121). -/
def Worker.checkActorTasks (W : World) (w : Worker) : Except Crash Worker :=
  match w.processAll W w.pendingActor with
  | .error e => .error e
  | .ok (l, w') => .ok { w' with pendingActor := l }

/-- Handling of one operation in the worker loop (worker/loop.py:113-208). Messages that a worker never receives as operation
(`data`, `taskDone`) are ignored here. -/
def Worker.handle (W : World) (w : Worker) : Msg → Except Crash Worker
  | .execute r =>
    match w.process W r with
    | .error e => .error e
    | .ok (some r', w') => .ok { w' with pending := w'.pending ++ [r'] }
    | .ok (none, w') => w'.checkTasks W
  | .get source id blocking => .ok (w.getRequest source id blocking)
  | .putData id v =>
    let w := { w.put id v with requested := w.requested.filter (· ≠ id) }
    match w.checkTasks W with
    | .error e => .error e
    | .ok w' => w'.checkActorTasks W
  | .putOwner id o => .ok { w with owner := upd w.owner id o }
  | .actorCreate h s => .ok { w with actors := upd w.actors h s }
  | .actorExecute r h name =>
    match w.actors h with
    | none => .error .noActor
    | some _ =>
      match w.process W { r with task := .method h name } with
      | .error e => .error e
      | .ok (some r', w') => .ok { w' with pendingActor := w'.pendingActor ++ [r'] }
      | .ok (none, w') => w'.checkActorTasks W
  | .data _ _ => .ok w
  | .taskDone _ => .ok w

/-- Completion of the `i`-th running coroutine, between two operations (task_store.py:318-324). -/
def Worker.complete (w : Worker) (i : Nat) : Worker :=
  match w.running[i]? with
  | none => w
  | some c => ({ w with running := w.running.eraseIdx i }).finishAsync c.outs c.result

/-- What happens to a worker: an operation arrives or a coroutine completes (worker/loop.py:77-233). -/
inductive Event
  | op (m : Msg)
  | complete (i : Nat)
deriving Repr

/-- A history of a worker (worker/loop.py:77-233). -/
def Worker.run (W : World) : Worker → List Event → Except Crash Worker
  | w, [] => .ok w
  | w, .op m :: es =>
    match w.handle W m with
    | .error e => .error e
    | .ok w' => Worker.run W w' es
  | w, .complete i :: es => Worker.run W (w.complete i) es

end Verif.Worker
