/-!
# Lifetime of objects over all processes

Models how objects come and go in the whole MPI backend when the main process submits tasks and actor method calls:
`put`, `get`, `submit` (`/repo/unidist/core/backends/mpi/core/controller/api.py` 370-580), `ActorMethod.__call__`
(controller/actor.py:36-63), `push_data` (controller/common.py:236-415), the worker loop (worker/loop.py:100-208), held back
tasks (worker/task_store.py:82-200, 406-460), data requests (worker/request_store.py:60-268), the stores with weak entries
(local_object_store.py:24-260) and the broadcast of dropped references (controller/garbage_collector.py:47-147).

References are numbers, all created by the main process, which has rank 0. Values are not represented, only where they are;
they contain no references. The function of a task is treated like one of its arguments. The thresholds of the collector
are in `Verif.Model.GarbageCollector`; here a cleanup may be attempted at any time.
-/
namespace Verif.Lifetime

/-- A submitted task or actor method call: the references it still needs, its outputs, and whether it is a method
(api.py:555-566, actor.py:43-54). -/
structure Task where
  args : List Nat
  outs : List Nat
  method : Bool
deriving DecidableEq, Repr

/-- Messages (mpi/core/common.py:30-89): data of a reference (`PUT_DATA`, or the reply to the main process), its owner (`PUT_OWNER`), a
task (`EXECUTE` or `ACTOR_EXECUTE`), a request for data (`GET`) and a cleanup list (`CLEANUP`). -/
inductive Msg
  | data (id : Nat)
  | owner (id rank : Nat)
  | task (t : Task)
  | ask (id src : Nat)
  | clean (ids : List Nat)
deriving DecidableEq, Repr

/-- A worker: references with data, strong references, known owners, held back tasks and method calls, references it asked
for, requests it could not answer, data already sent, whether its loop was ended by an error, and what the current step sends
and finishes (local_object_store.py:24-38, task_store.py:34-42, request_store.py:46-54). -/
structure Proc where
  data : List Nat
  strong : List Nat
  owners : List (Nat × Nat)
  tasks : List Task
  methods : List Task
  asked : List Nat
  asks : List (Nat × Nat)
  sent : List (Nat × Nat)
  crashed : Bool
  outbox : List (Nat × Msg)
  done : Nat
deriving DecidableEq, Repr

/-- A new worker (local_object_store.py:24-38). -/
def Proc.init : Proc := ⟨[], [], [], [], [], [], [], [], false, [], 0⟩

/-- The reference object exists in the worker: it is kept by `_data_id_map`, a held back task, or a table of requests
(local_object_store.py:24-38, request_store.py:46-54). -/
def Proc.alive (p : Proc) (i : Nat) : Bool :=
  i ∈ p.strong || p.tasks.any (fun t => i ∈ t.args || i ∈ t.outs) || p.methods.any (fun t => i ∈ t.args || i ∈ t.outs) ||
    i ∈ p.asked || p.asks.any (fun a => a.1 = i)

/-- The weak dictionaries drop the entries of dead references (local_object_store.py:26-38). -/
def Proc.sweep (p : Proc) : Proc :=
  { p with data := p.data.filter (fun i => p.alive i), owners := p.owners.filter (fun e => p.alive e.1), sent := p.sent.filter (fun e => p.alive e.1) }

/-- `maybe_update_data_id_map` for a reference of the main process (local_object_store.py:53-71). -/
def Proc.keep (p : Proc) (i : Nat) : Proc := if i ∈ p.strong then p else { p with strong := i :: p.strong }

/-- `put` of the local store (local_object_store.py:73-85). -/
def Proc.store (p : Proc) (i : Nat) : Proc := { p with data := i :: p.data }.keep i

/-- Sending data unless it was sent before (controller/common.py:255-294). -/
def Proc.push (p : Proc) (i dst : Nat) : Proc :=
  if (i, dst) ∈ p.sent then p else { p with outbox := p.outbox ++ [(dst, .data i)], sent := (i, dst) :: p.sent }

/-- `check_pending_get_requests` for one reference (request_store.py:134-166). -/
def Proc.answer (p : Proc) (i : Nat) : Proc :=
  (p.asks.filter (fun a => a.1 = i)).foldl (fun p a => p.push a.1 a.2) { p with asks := p.asks.filter (fun a => a.1 ≠ i) }

/-- Running a task whose arguments are all there (task_store.py:326-404): its outputs are stored, requests for them are
answered and it is reported to the monitor. -/
def Proc.execute (p : Proc) (t : Task) : Proc :=
  let p := t.outs.foldl Proc.store p
  let p := t.outs.foldl Proc.answer p
  { p with done := p.done + 1 }

/-- Asking the owner of a missing argument (task_store.py:196-202): once, and never the worker itself. -/
def Proc.request (me : Nat) (p : Proc) (i : Nat) : Proc :=
  match p.owners.lookup i with
  | none => p
  | some o => if i ∈ p.asked ∨ o = me then p else { p with asked := i :: p.asked, outbox := p.outbox ++ [(o, .ask i me)] }

/-- `process_task_request` (task_store.py:406-459): the task runs, or it is held back with the arguments that are missing, or
a missing argument has no known owner and the error ends the loop of the worker (`"DataID is missing!"`, line 204). -/
def Proc.attempt (me : Nat) (p : Proc) (t : Task) : Proc × Option Task :=
  let missing := t.args.filter (fun i => i ∉ p.data)
  if missing = [] then (p.execute t, none)
  else if missing.any (fun i => (p.owners.lookup i).isNone) then ({ p with crashed := true }, none)
  else (missing.foldl (Proc.request me) p, some { t with args := missing })

/-- One pass over held back tasks (task_store.py:83-97, 107-121): what is left. -/
def Proc.pass (me : Nat) : List Task → Proc → Proc × List Task
  | [], p => (p, [])
  | t :: ts, p =>
    let r := p.attempt me t
    let q := Proc.pass me ts r.1
    (q.1, r.2.toList ++ q.2)

/-- `check_pending_tasks` (task_store.py:83-97). -/
def Proc.checkTasks (me : Nat) (p : Proc) : Proc :=
  let r := Proc.pass me p.tasks p
  { r.1 with tasks := r.2 }

/-- `check_pending_actor_tasks` (task_store.py:107-121). -/
def Proc.checkMethods (me : Nat) (p : Proc) : Proc :=
  let r := Proc.pass me p.methods p
  { r.1 with methods := r.2 }

/-- A worker receives a message (worker/loop.py:106-208). -/
def Proc.receive (me : Nat) (p : Proc) : Msg → Proc
  | .data i => Proc.checkMethods me (Proc.checkTasks me { p.store i with asked := p.asked.filter (fun j => j ≠ i) })
  | .owner i r => { p with owners := (i, r) :: p.owners.filter (fun e => e.1 ≠ i) }.keep i
  | .task t =>
    let r := p.attempt me t
    match r.2, t.method with
    | some t', false => { r.1 with tasks := r.1.tasks ++ [t'] }
    | some t', true => { r.1 with methods := r.1.methods ++ [t'] }
    | none, false => r.1.checkTasks me
    | none, true => r.1.checkMethods me
  | .ask i src => if i ∈ p.data then p.push i src else if (i, src) ∈ p.asks then p else { p with asks := (i, src) :: p.asks }
  | .clean ids => { p with strong := p.strong.filter (fun i => i ∉ ids) }

/-- All processes: the workers, the number of references created, those the program holds, those the main process has data
for, their owners, what it has sent, dropped references not yet broadcast, references a `get` waits for, the numbers of
submitted and executed tasks, reports under way to the monitor, messages under way, and the references broadcast so far
(garbage_collector.py:33-45, monitor/loop.py:32-53). -/
structure Sys where
  ws : List Nat
  worker : Nat → Proc
  next : Nat
  held : List Nat
  stored : List Nat
  owner : Nat → Option Nat
  sent : List (Nat × Nat)
  queue : List Nat
  waiting : List Nat
  submitted : Nat
  executed : Nat
  reports : Nat
  net : List (Nat × Nat × Msg)
  cleaned : List Nat

/-- Start (controller/api.py:117-288). -/
def Sys.init (ws : List Nat) : Sys := ⟨ws, fun _ => .init, 0, [], [], fun _ => none, [], [], [], 0, 0, 0, [], []⟩

/-- What happens: the program puts an object; it drops its last copy of a reference; it submits a task or calls an actor
method on worker `d` with `n` outputs; it calls `get`; process `d` receives the next message of process `s`; the monitor
receives a report; the program reaches `regular_cleanup` with the thresholds exceeded (controller/api.py:371-580,
monitor/loop.py:197-218, garbage_collector.py:94-144). -/
inductive Op
  | put
  | drop (id : Nat)
  | submit (args : List Nat) (n d : Nat) (method : Bool)
  | get (ids : List Nat)
  | deliver (s d : Nat)
  | report
  | cleanup
deriving DecidableEq, Repr

/-- `push_data` of one argument (controller/common.py:395-415). -/
def Sys.push (d : Nat) (s : Sys) (i : Nat) : Sys :=
  if i ∈ s.stored then
    if (i, d) ∈ s.sent then s else { s with net := s.net ++ [(0, d, .data i)], sent := (i, d) :: s.sent }
  else
    match s.owner i with
    | some o => { s with net := s.net ++ [(0, d, .owner i o)] }
    | none => s

/-- The next message of process `s` to process `d`, and the others (MPI keeps the order of messages between two processes,
communication.py:440-461, 554-596). -/
def takeMsg (s d : Nat) : List (Nat × Nat × Msg) → Option (Msg × List (Nat × Nat × Msg))
  | [] => none
  | m :: rest => if m.1 = s ∧ m.2.1 = d then some (m.2.2, rest) else (takeMsg s d rest).map fun r => (r.1, m :: r.2)

/-- Replacing the state of worker `d` after a step: dead entries are dropped, messages are sent and finished tasks reported
(worker/loop.py:100-233). -/
def Sys.setWorker (s : Sys) (d : Nat) (p : Proc) : Sys :=
  { s with worker := fun w => if w = d then { p.sweep with outbox := [], done := 0 } else s.worker w, reports := s.reports + p.done, net := s.net ++ p.outbox.map (fun m => (d, m.1, m.2)) }

/-- One step (files as above); `none` if it cannot happen. While `get` waits the program does nothing else; every reply
counts for one of the requests (controller/common.py:217-231). A worker whose
loop has ended receives nothing (worker/loop.py:100-233, controller/api.py:371-580). -/
def Sys.step (s : Sys) : Op → Option Sys
  | .put =>
    if s.waiting ≠ [] then none
    else some { s with next := s.next + 1, held := s.next :: s.held, stored := s.next :: s.stored }
  | .drop i =>
    if s.waiting ≠ [] ∨ i ∉ s.held then none
    else some { s with held := s.held.erase i, queue := s.queue ++ [i], stored := s.stored.filter (fun j => j ≠ i), sent := s.sent.filter (fun e => e.1 ≠ i) }
  | .submit args n d m =>
    if s.waiting ≠ [] ∨ d ∉ s.ws ∨ args.any (fun i => i ∉ s.held) then none
    else
      let outs := List.range' s.next n
      let s := { s with next := s.next + n, held := outs ++ s.held, owner := fun i => if i ∈ outs then some d else s.owner i }
      let s := args.foldl (Sys.push d) s
      some { s with net := s.net ++ [(0, d, .task ⟨args, outs, m⟩)], submitted := if m then s.submitted else s.submitted + 1 }
  | .get ids =>
    if s.waiting ≠ [] ∨ ids.any (fun i => i ∉ s.held) then none
    else
      let far := ids.filter (fun i => i ∉ s.stored)
      some { s with waiting := far, net := s.net ++ far.map (fun i => (0, (s.owner i).getD 0, .ask i 0)) }
  | .deliver src d =>
    match takeMsg src d s.net with
    | none => none
    | some (m, rest) =>
      if d = 0 then
        match m with
        | .data i => some { s with net := rest, stored := if i ∈ s.held then i :: s.stored else s.stored, waiting := s.waiting.erase i }
        | _ => none
      else if (s.worker d).crashed then none
      else some ({ s with net := rest }.setWorker d ((s.worker d).receive d m))
  | .report => if s.reports = 0 then none else some { s with reports := s.reports - 1, executed := s.executed + 1 }
  | .cleanup =>
    if s.waiting ≠ [] ∨ s.executed ≠ s.submitted then none
    else some { s with queue := [], cleaned := s.cleaned ++ s.queue, net := s.net ++ s.ws.map (fun w => (0, w, .clean s.queue)) }

/-- A history of steps (files as above) (controller/api.py:371-580). -/
def Sys.run (s : Sys) : List Op → Option Sys
  | [] => some s
  | op :: ops => (s.step op).bind fun s' => s'.run ops

end Verif.Lifetime
