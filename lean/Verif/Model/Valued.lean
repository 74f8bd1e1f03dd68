import Verif.Model.Lifetime

/-!
# Values of objects over all processes

The whole MPI backend of `Verif.Model.Lifetime` with the values of objects: which value each process stores, sends, passes to
functions and returns from `get` (`/repo/unidist/core/backends/mpi/core/controller/api.py` 370-580, controller/common.py:120-415,
worker/loop.py:100-208, worker/task_store.py:82-459, worker/request_store.py:60-268, local_object_store.py:24-260,
controller/garbage_collector.py:47-147). Everything that is dropped or cleaned up there is dropped or cleaned up here.

The function of a task is the first of its arguments. Values contain no references; a function returns as many values as
announced; methods of actors do not change their actor.
-/
namespace Verif.Valued

/-- An object: a value or an exception (task_store.py:329-334). -/
inductive Val
  | ok (n : Nat)
  | exc (e : Nat)
deriving DecidableEq, Repr

/-- User code (task_store.py:339-345): for a function and its arguments, the raised exception or the values of the outputs. -/
structure World where
  call : List Nat → Except Nat (Nat → Nat)

/-- An argument of a task (task_store.py:427-441): a value or a reference. -/
inductive Arg
  | val (v : Val)
  | ref (id : Nat)
deriving DecidableEq, Repr

/-- A submitted task or actor method call (api.py:555-566, actor.py:43-54). -/
structure Task where
  args : List Arg
  outs : List Nat
  method : Bool
deriving DecidableEq, Repr

/-- The references among arguments (mpi/core/common.py:395-440). -/
def refs (args : List Arg) : List Nat := args.filterMap fun | .ref i => some i | .val _ => none

/-- The values among arguments (mpi/core/common.py:395-440). -/
def vals (args : List Arg) : List Val := args.filterMap fun | .val v => some v | .ref _ => none

/-- Messages as in `Verif.Lifetime.Msg`, data with their value (mpi/core/common.py:30-89). -/
inductive Msg
  | data (id : Nat) (v : Val)
  | owner (id rank : Nat)
  | task (t : Task)
  | ask (id src : Nat)
  | clean (ids : List Nat)
deriving DecidableEq, Repr

/-- A worker as in `Verif.Lifetime.Proc`, the store with values (local_object_store.py:24-38, task_store.py:34-42,
request_store.py:46-54). -/
structure Proc where
  data : List (Nat × Val)
  strong : List Nat
  owners : List (Nat × Nat)
  tasks : List Task
  methods : List Task
  asked : List Nat
  asks : List (Nat × Nat)
  sent : List (Nat × Nat)
  crashed : Bool
  outbox : List (Nat × Msg)
  done : Nat
deriving DecidableEq, Repr

/-- A new worker (local_object_store.py:24-38). -/
def Proc.init : Proc := ⟨[], [], [], [], [], [], [], [], false, [], 0⟩

/-- The reference object exists in the worker (local_object_store.py:24-38, request_store.py:46-54). -/
def Proc.alive (p : Proc) (i : Nat) : Bool :=
  i ∈ p.strong || p.tasks.any (fun t => i ∈ refs t.args || i ∈ t.outs) || p.methods.any (fun t => i ∈ refs t.args || i ∈ t.outs) ||
    i ∈ p.asked || p.asks.any (fun a => a.1 = i)

/-- The weak dictionaries drop the entries of dead references (local_object_store.py:26-38). -/
def Proc.sweep (p : Proc) : Proc :=
  { p with data := p.data.filter (fun e => p.alive e.1), owners := p.owners.filter (fun e => p.alive e.1), sent := p.sent.filter (fun e => p.alive e.1) }

/-- `maybe_update_data_id_map` for a reference of the main process (local_object_store.py:53-71). -/
def Proc.keep (p : Proc) (i : Nat) : Proc := if i ∈ p.strong then p else { p with strong := i :: p.strong }

/-- `put` of the local store (local_object_store.py:73-85): a new value replaces the old one. -/
def Proc.store (p : Proc) (i : Nat) (v : Val) : Proc := { p with data := (i, v) :: p.data }.keep i

/-- Sending data that is in the store unless it was sent before (controller/common.py:255-294, 398-415). -/
def Proc.push (p : Proc) (i dst : Nat) : Proc :=
  match p.data.lookup i with
  | none => p
  | some v => if (i, dst) ∈ p.sent then p else { p with outbox := p.outbox ++ [(dst, .data i v)], sent := (i, dst) :: p.sent }

/-- `check_pending_get_requests` for one reference (request_store.py:134-166). -/
def Proc.answer (p : Proc) (i : Nat) : Proc :=
  (p.asks.filter (fun a => a.1 = i)).foldl (fun p a => p.push a.1 a.2) { p with asks := p.asks.filter (fun a => a.1 ≠ i) }

/-- The first argument that is an exception (task_store.py:329-334). -/
def firstExc : List Val → Option Nat
  | [] => none
  | .exc e :: _ => some e
  | .ok _ :: vs => firstExc vs

/-- What the function is called with (task_store.py:339-341). -/
def plain (vs : List Val) : List Nat := vs.filterMap fun | .ok n => some n | .exc _ => none

/-- The values stored for `n` outputs (task_store.py:326-378): an exception among the arguments or raised by the function is stored
for all of them. -/
def results (W : World) (vs : List Val) (n : Nat) : List Val :=
  match firstExc vs with
  | some e => List.replicate n (.exc e)
  | none =>
    match W.call (plain vs) with
    | .error e => List.replicate n (.exc e)
    | .ok f => (List.range n).map fun k => .ok (f k)

/-- Running a task with these arguments (task_store.py:326-404): its outputs are stored, requests for them are answered and it is
reported to the monitor. -/
def Proc.execute (W : World) (p : Proc) (t : Task) (vs : List Val) : Proc :=
  let p := (t.outs.zip (results W vs t.outs.length)).foldl (fun p e => p.store e.1 e.2) p
  let p := t.outs.foldl Proc.answer p
  { p with done := p.done + 1 }

/-- Asking the owner of a missing argument (task_store.py:196-202): once, and never the worker itself. -/
def Proc.request (me : Nat) (p : Proc) (i : Nat) : Proc :=
  match p.owners.lookup i with
  | none => p
  | some o => if i ∈ p.asked ∨ o = me then p else { p with asked := i :: p.asked, outbox := p.outbox ++ [(o, .ask i me)] }

/-- An argument whose value is in the store is replaced by it (task_store.py:192-194). -/
def Proc.resolve (p : Proc) : Arg → Arg
  | .val v => .val v
  | .ref i =>
    match p.data.lookup i with
    | some v => .val v
    | none => .ref i

/-- `process_task_request` (task_store.py:406-459): the task runs, or it is held back with the values found so far, or a missing
argument has no known owner and the error ends the loop of the worker (line 204). -/
def Proc.attempt (W : World) (me : Nat) (p : Proc) (t : Task) : Proc × Option Task :=
  let args := t.args.map p.resolve
  if refs args = [] then (p.execute W t (vals args), none)
  else if (refs args).any (fun i => (p.owners.lookup i).isNone) then ({ p with crashed := true }, none)
  else ((refs args).foldl (Proc.request me) p, some { t with args := args })

/-- One pass over held back tasks (task_store.py:83-97, 107-121): what is left. -/
def Proc.pass (W : World) (me : Nat) : List Task → Proc → Proc × List Task
  | [], p => (p, [])
  | t :: ts, p =>
    let r := p.attempt W me t
    let q := Proc.pass W me ts r.1
    (q.1, r.2.toList ++ q.2)

/-- `check_pending_tasks` (task_store.py:83-97). -/
def Proc.checkTasks (W : World) (me : Nat) (p : Proc) : Proc :=
  let r := Proc.pass W me p.tasks p
  { r.1 with tasks := r.2 }

/-- `check_pending_actor_tasks` (task_store.py:107-121). -/
def Proc.checkMethods (W : World) (me : Nat) (p : Proc) : Proc :=
  let r := Proc.pass W me p.methods p
  { r.1 with methods := r.2 }

/-- A worker receives a message (worker/loop.py:106-208). -/
def Proc.receive (W : World) (me : Nat) (p : Proc) : Msg → Proc
  | .data i v => Proc.checkMethods W me (Proc.checkTasks W me { p.store i v with asked := p.asked.filter (fun j => j ≠ i) })
  | .owner i r => { p with owners := (i, r) :: p.owners.filter (fun e => e.1 ≠ i) }.keep i
  | .task t =>
    let r := p.attempt W me t
    match r.2, t.method with
    | some t', false => { r.1 with tasks := r.1.tasks ++ [t'] }
    | some t', true => { r.1 with methods := r.1.methods ++ [t'] }
    | none, false => r.1.checkTasks W me
    | none, true => r.1.checkMethods W me
  | .ask i src =>
    if (p.data.lookup i).isSome then p.push i src else if (i, src) ∈ p.asks then p else { p with asks := (i, src) :: p.asks }
  | .clean ids => { p with strong := p.strong.filter (fun i => i ∉ ids) }

/-- All processes as in `Verif.Lifetime.Sys`, the store of the main process with values, and what the calls of `get` have
returned so far (garbage_collector.py:33-45, monitor/loop.py:32-53, api.py:404-440). -/
structure Sys where
  ws : List Nat
  worker : Nat → Proc
  next : Nat
  held : List Nat
  stored : List (Nat × Val)
  owner : Nat → Option Nat
  sent : List (Nat × Nat)
  queue : List Nat
  waiting : List Nat
  submitted : Nat
  executed : Nat
  reports : Nat
  net : List (Nat × Nat × Msg)
  cleaned : List Nat
  got : List (Nat × Val)

/-- Start (controller/api.py:117-288). -/
def Sys.init (ws : List Nat) : Sys := ⟨ws, fun _ => .init, 0, [], [], fun _ => none, [], [], [], 0, 0, 0, [], [], []⟩

/-- What happens, as in `Verif.Lifetime.Op`, with the value of `put` and the arguments of calls (controller/api.py:371-580,
monitor/loop.py:197-218, garbage_collector.py:94-144). -/
inductive Op
  | put (v : Val)
  | drop (id : Nat)
  | submit (args : List Arg) (n d : Nat) (method : Bool)
  | get (ids : List Nat)
  | deliver (s d : Nat)
  | report
  | cleanup
deriving DecidableEq, Repr

/-- `push_data` of one argument (controller/common.py:395-415). -/
def Sys.push (d : Nat) (s : Sys) (i : Nat) : Sys :=
  match s.stored.lookup i with
  | some v => if (i, d) ∈ s.sent then s else { s with net := s.net ++ [(0, d, .data i v)], sent := (i, d) :: s.sent }
  | none =>
    match s.owner i with
    | some o => { s with net := s.net ++ [(0, d, .owner i o)] }
    | none => s

/-- The next message of process `s` to process `d`, and the others (MPI keeps the order of messages between two processes,
communication.py:440-461, 554-596). -/
def nextMsg (s d : Nat) : List (Nat × Nat × Msg) → Option (Msg × List (Nat × Nat × Msg))
  | [] => none
  | m :: rest => if m.1 = s ∧ m.2.1 = d then some (m.2.2, rest) else (nextMsg s d rest).map fun r => (r.1, m :: r.2)

/-- Replacing the state of worker `d` after a step: dead entries are dropped, messages are sent and finished tasks reported
(worker/loop.py:100-233). -/
def Sys.setWorker (s : Sys) (d : Nat) (p : Proc) : Sys :=
  { s with worker := fun w => if w = d then { p.sweep with outbox := [], done := 0 } else s.worker w, reports := s.reports + p.done, net := s.net ++ p.outbox.map (fun m => (d, m.1, m.2)) }

/-- One step (files as above); `none` if it cannot happen. `get` finds values in the store of the main process or waits for
replies (controller/api.py:404-440, controller/common.py:142-233). -/
def Sys.step (W : World) (s : Sys) : Op → Option Sys
  | .put v =>
    if s.waiting ≠ [] then none
    else some { s with next := s.next + 1, held := s.next :: s.held, stored := (s.next, v) :: s.stored }
  | .drop i =>
    if s.waiting ≠ [] ∨ i ∉ s.held then none
    else some { s with held := s.held.erase i, queue := s.queue ++ [i], stored := s.stored.filter (fun e => e.1 ≠ i), sent := s.sent.filter (fun e => e.1 ≠ i) }
  | .submit args n d m =>
    if s.waiting ≠ [] ∨ d ∉ s.ws ∨ (refs args).any (fun i => i ∉ s.held) then none
    else
      let outs := List.range' s.next n
      let s := { s with next := s.next + n, held := outs ++ s.held, owner := fun i => if i ∈ outs then some d else s.owner i }
      let s := (refs args).foldl (Sys.push d) s
      some { s with net := s.net ++ [(0, d, .task ⟨args, outs, m⟩)], submitted := if m then s.submitted else s.submitted + 1 }
  | .get ids =>
    if s.waiting ≠ [] ∨ ids.any (fun i => i ∉ s.held) then none
    else
      let far := ids.filter (fun i => (s.stored.lookup i).isNone)
      some { s with waiting := far, net := s.net ++ far.map (fun i => (0, (s.owner i).getD 0, .ask i 0)), got := s.got ++ ids.filterMap (fun i => (s.stored.lookup i).map fun v => (i, v)) }
  | .deliver src d =>
    match nextMsg src d s.net with
    | none => none
    | some (m, rest) =>
      if d = 0 then
        match m with
        | .data i v => some { s with net := rest, stored := if i ∈ s.held then (i, v) :: s.stored else s.stored, waiting := s.waiting.erase i, got := s.got ++ [(i, v)] }
        | _ => none
      else if (s.worker d).crashed then none
      else some ({ s with net := rest }.setWorker d ((s.worker d).receive W d m))
  | .report => if s.reports = 0 then none else some { s with reports := s.reports - 1, executed := s.executed + 1 }
  | .cleanup =>
    if s.waiting ≠ [] ∨ s.executed ≠ s.submitted then none
    else some { s with queue := [], cleaned := s.cleaned ++ s.queue, net := s.net ++ s.ws.map (fun w => (0, w, .clean s.queue)) }

/-- A history of steps (controller/api.py:371-580). -/
def Sys.run (W : World) (s : Sys) : List Op → Option Sys
  | [] => some s
  | op :: ops => (s.step W op).bind fun s' => s'.run W ops

end Verif.Valued
