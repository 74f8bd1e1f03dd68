/-!
# Methods of an actor in the event loop of its worker

A worker runs one event loop (`asyncio.run(worker_loop())`): the loop that handles requests is one coroutine of it, every coroutine
method of an actor becomes another one (`/repo/unidist/core/backends/mpi/core/worker/loop.py` 77-233,
`/repo/unidist/core/backends/mpi/core/worker/task_store.py` 107-121, 208-459). The code between two `await`s of a coroutine is called a
part of it. A part runs without interruption. Regular methods run within the handling of the request.
-/
namespace Verif.EventLoop

/-- A call of a method of the actor (task_store.py:422-457): its number in the order of arrival, whether the method is a coroutine
function (task_store.py:233), the references among its arguments, the reference of its result, and how often the coroutine awaits
something before it ends. Exceptions and several results are in `Verif.Model.Worker`. -/
structure Call where
  id : Nat
  coroutine : Bool
  needs : List Nat
  out : Nat
  awaits : Nat
deriving DecidableEq, Repr

/-- The worker: the references with values (local_object_store.py), `_pending_actor_tasks_list` (task_store.py:38), the coroutines
that the event loop will continue, in this order, with the number of the next part, the coroutines that wait for something
else than the event loop (both are kept by `background_tasks`, task_store.py:318-324), and the parts that have run, in this order
(call and number of the part; a regular method is one part). -/
structure Loop where
  store : List Nat
  pending : List Call
  ready : List (Call × Nat)
  sleeping : List (Call × Nat)
  log : List (Nat × Nat)
deriving DecidableEq, Repr

/-- A worker with a new actor and these values (worker/loop.py:176-183). -/
def Loop.init (store : List Nat) : Loop := ⟨store, [], [], [], []⟩

/-- Whether all references among the arguments have values (task_store.py:192-195, 442-453). -/
def Loop.available (s : Loop) (c : Call) : Bool := c.needs.all fun x => s.store.contains x

/-- `execute_received_task` (task_store.py:208-404): a coroutine is handed to the event loop (318-324), a regular method runs and its
result is stored. -/
def Loop.exec (s : Loop) (c : Call) : Loop :=
  if c.coroutine then { s with ready := s.ready ++ [(c, 0)] }
  else { s with log := s.log ++ [(c.id, 0)], store := c.out :: s.store }

/-- The loop of `check_pending_actor_tasks` (task_store.py:115-120): the requests that are still kept. -/
def Loop.checkList (s : Loop) : List Call → Loop × List Call
  | [] => (s, [])
  | c :: cs =>
    if s.available c then (s.exec c).checkList cs
    else
      let r := s.checkList cs
      (r.1, c :: r.2)

/-- `check_pending_actor_tasks` (task_store.py:107-121). -/
def Loop.check (s : Loop) : Loop :=
  let r := s.checkList s.pending
  { r.1 with pending := r.2 }

/-- What happens in the worker (worker/loop.py:103-233). -/
inductive Op
  /-- `ACTOR_EXECUTE` is handled (worker/loop.py:185-201). -/
  | call (c : Call)
  /-- `PUT_DATA` or `PUT_SHARED_DATA` is handled (worker/loop.py:130-169). -/
  | data (x : Nat)
  /-- The event loop continues the next ready coroutine (task_store.py:235-316). -/
  | turn
  /-- What the `i`-th sleeping coroutine awaits has happened (task_store.py:251). -/
  | wake (i : Nat)
deriving DecidableEq, Repr

/-- Whether a request can be handled now. A coroutine made by `create_task` (task_store.py:318) is put at the end of the ready
queue before the worker loop awaits the next request (worker/loop.py:105-107), and the worker loop is put there after the thread that
receives has finished: no request is handled while such a coroutine has not started. -/
def Loop.free (s : Loop) : Bool := !s.ready.any fun r => r.2 == 0

/-- One step; `none` if it is not possible (worker/loop.py:103-233, task_store.py:235-324). The result of a coroutine is stored by
its last part, without a look at the kept requests (task_store.py:268-302). -/
def Loop.step (s : Loop) : Op → Option Loop
  | .call c =>
    if s.free then
      if s.available c then some (s.exec c).check else some { s with pending := s.pending ++ [c] }
    else none
  | .data x => if s.free then some { s with store := x :: s.store }.check else none
  | .turn =>
    match s.ready with
    | [] => none
    | (c, k) :: rest =>
      if k < c.awaits then
        some { s with ready := rest, sleeping := s.sleeping ++ [(c, k + 1)], log := s.log ++ [(c.id, k)] }
      else some { s with ready := rest, store := c.out :: s.store, log := s.log ++ [(c.id, k)] }
  | .wake i =>
    match s.sleeping[i]? with
    | none => none
    | some r => some { s with sleeping := s.sleeping.eraseIdx i, ready := s.ready ++ [r] }

/-- A run (worker/loop.py:103-233). -/
def Loop.run (s : Loop) : List Op → Option Loop
  | [] => some s
  | op :: ops =>
    match s.step op with
    | none => none
    | some s => s.run ops

end Verif.EventLoop
