import Verif.Model.Worker

/-!
# The main process and the workers with message channels

Models the controller side of `/repo/unidist/core/backends/mpi/core/controller/api.py` (`put` 371-397, `get` 400-433,
`submit` 508-580) and `controller/common.py` (`request_worker_data` 174-233, `push_data` 368-415) together with worker
processes (`Verif.Model.Worker`). Each ordered pair of processes is connected by a channel that keeps the order (MPI
non-overtaking rule; an operation and its payload are received together, see C12–C14). Only the main process makes
calls. Clean-up, shared memory, actors and `wait` are modelled elsewhere.
-/
namespace Verif.Cluster
open Verif.Worker (Val Ret World Request Task Msg Crash Worker upd)

/-- What `get` gave to the caller (controller/api.py:400-433). -/
inductive GetResult
  | values (vs : List Val)
  | raised (e : Nat)

/-- A `get` in progress (controller/common.py:213-233): the list given by the caller, the references requested from workers, how
many replies are missing and the first exception received. -/
structure Waiting where
  ids : List Nat
  remote : List Nat
  missing : Nat
  failed : Option Nat

/-- State of the main process (local_object_store.py:24-38, controller/common.py:26-38): stored values, owners, `_sent_data_map`,
number of references and of submissions made so far, the `get` in progress and the results of earlier ones. -/
structure Root where
  store : Nat → Option Val
  owner : Nat → Option Nat
  sent : List (Nat × Nat)
  nextId : Nat
  nextTag : Nat
  waiting : Option Waiting
  results : List (List Nat × GetResult)

/-- All processes and the channels between them (controller/api.py:508-580, worker/loop.py:77-233). -/
structure Cluster where
  root : Root
  worker : Nat → Worker
  chan : Nat → Nat → List Msg

/-- Start of the cluster; the monitor has rank `monitor` (controller/api.py:117-288). -/
def Cluster.init (monitor : Nat) : Cluster :=
  ⟨⟨fun _ => none, fun _ => none, [], 0, 0, none, []⟩, fun r => Worker.init r monitor, fun _ _ => []⟩

/-- Append messages to the channels of a sender (communication.py:857-1025). -/
def sendAll (chan : Nat → Nat → List Msg) (src : Nat) (l : List (Nat × Msg)) : Nat → Nat → List Msg :=
  fun s d => if s = src then chan s d ++ (l.filter (·.1 = d)).map (·.2) else chan s d

/-- `push_data` of one reference (controller/common.py:395-415): data the process has is sent once to each destination, otherwise
the location is sent; an unknown reference is a `ValueError`. -/
def Root.pushRef (r : Root) (dest id : Nat) : Option (Root × List (Nat × Msg)) :=
  match r.store id with
  | some v =>
    if (id, dest) ∈ r.sent then some (r, [])
    else some ({ r with sent := (id, dest) :: r.sent }, [(dest, .putData id v)])
  | none =>
    match r.owner id with
    | some o => some (r, [(dest, .putOwner id o)])
    | none => none

mutual
/-- `push_data` (controller/common.py:368-415). -/
def Root.push (r : Root) (dest : Nat) : Val → Option (Root × List (Nat × Msg))
  | .ref id => r.pushRef dest id
  | .list vs => Root.pushList r dest vs
  | .data _ => some (r, [])
  | .exc _ => some (r, [])
  | .code _ => some (r, [])
/-- `push_data` of the elements of a list (controller/common.py:389-391). -/
def Root.pushList (r : Root) (dest : Nat) : List Val → Option (Root × List (Nat × Msg))
  | [] => some (r, [])
  | v :: vs =>
    match Root.push r dest v with
    | none => none
    | some (r1, l1) =>
      match Root.pushList r1 dest vs with
      | none => none
      | some (r2, l2) => some (r2, l1 ++ l2)
end

/-- `generate_output_data_id` (local_object_store.py:202-231): fresh references owned by `dest`. -/
def Root.genOuts (r : Root) (dest n : Nat) : List Nat × Root :=
  let outs := (List.range n).map (r.nextId + ·)
  (outs, { r with nextId := r.nextId + n, owner := fun i => if i ∈ outs then some dest else r.owner i })

/-- What the caller of a remote function gets: nothing, a reference, a list of references (local_object_store.py:220-231). -/
inductive SubmitResult
  | nothing
  | one (id : Nat)
  | many (ids : List Nat)
deriving DecidableEq, Repr

/-- The references in the result of a call (mpi/remote_function.py:85-90). -/
def SubmitResult.ids : SubmitResult → List Nat
  | .nothing => []
  | .one id => [id]
  | .many ids => ids

/-- Result of a call of a remote function with `num_returns = n` (mpi/remote_function.py:85-90, local_object_store.py:220-231):
the three cases of `num_returns`. -/
def Root.submitResult (r : Root) (dest n : Nat) : SubmitResult :=
  if n = 1 then .one ((r.genOuts dest 1).1.headD 0)
  else if n = 0 then .nothing
  else .many (r.genOuts dest n).1

/-- Actions: calls of the main process, receipt of a reply by it, receipt of an operation by a worker, completion of a
coroutine in a worker (controller/api.py:371-580, worker/loop.py:77-233). -/
inductive Act
  /-- `put` (api.py:371-397). -/
  | put (v : Val)
  /-- `submit` to a destination chosen by the scheduler (api.py:508-580). The function reference was made by `put`
  (remote_function.py:75-76). The outputs are generated after the data was pushed here; in the code before, which makes
  no difference because the caller cannot know the new references. -/
  | submit (fn : Nat) (args : List Val) (n : Nat) (dest : Nat)
  /-- `get` (api.py:400-433) up to the point where it waits. -/
  | get (ids : List Nat)
  /-- Receipt of a reply from `src` inside `get` (common.py:216-233). -/
  | reply (src : Nat)
  /-- A worker receives its next operation from `src` (worker/loop.py:103-195). -/
  | deliver (src dst : Nat)
  /-- A coroutine of a worker completes. -/
  | complete (w i : Nat)

/-- End of `get` (controller/common.py:232-233, api.py:427-433): an exception received during the call is raised, otherwise the
values are read from the store. A missing value would be a `ValueError`; it is not reachable. -/
def Root.finishGet (r : Root) (ids : List Nat) (failed : Option Nat) : Root :=
  let res : GetResult := match failed with
    | some e => .raised e
    | none => .values (ids.map fun i => (r.store i).getD (.data 0))
  { r with waiting := none, results := r.results ++ [(ids, res)] }

/-- An exception value (worker/task_store.py:346-356). -/
def excOf : Val → Option Nat
  | .exc e => some e
  | _ => none

/-- Move the messages a worker has sent to the channels (communication.py:857-1025). -/
def Cluster.flush (c : Cluster) (d : Nat) (w : Worker) : Cluster :=
  { c with
    worker := fun i => if i = d then { w with outbox := [] } else c.worker i
    chan := sendAll c.chan d w.outbox }

/-- One action; `none` if it is not possible, an error if a worker crashes. The workers are given by a predicate
(controller/api.py:371-580, worker/loop.py:77-233). -/
def Cluster.step (W : World) (isWorker : Nat → Bool) (c : Cluster) : Act → Option (Except Crash Cluster)
  | .put v =>
    if c.root.waiting.isSome then none
    else
      let id := c.root.nextId
      some (.ok { c with root := { c.root with store := upd c.root.store id v, nextId := id + 1 } })
  | .submit fn args n dest =>
    if c.root.waiting.isSome || !isWorker dest || (c.root.store fn).isNone then none
    else
      match c.root.pushRef dest fn with
      | none => none
      | some (r1, l1) =>
        match r1.pushList dest args with
        | none => none
        | some (r2, l2) =>
          let (outs, r3) := r2.genOuts dest n
          let req : Request := ⟨r3.nextTag, .fn fn, args, outs⟩
          some (.ok { c with
            root := { r3 with nextTag := r3.nextTag + 1 }
            chan := sendAll c.chan 0 (l1 ++ l2 ++ [(dest, .execute req)]) })
  | .get ids =>
    if c.root.waiting.isSome then none
    else
      let remote := ids.filter fun i => (c.root.store i).isNone
      if remote.isEmpty then some (.ok { c with root := c.root.finishGet ids none })
      else if remote.all fun i => (c.root.owner i).isSome then
        some (.ok { c with
          root := { c.root with waiting := some ⟨ids, remote, remote.length, none⟩ }
          chan := sendAll c.chan 0 (remote.map fun i => ((c.root.owner i).getD 0, .get 0 i true)) })
      else none
  | .reply src =>
    match c.root.waiting, c.chan src 0 with
    | some wt, .data id v :: t =>
      if id ∈ wt.remote then
        let root := { c.root with store := upd c.root.store id v }
        let failed := wt.failed <|> excOf v
        let root := if wt.missing ≤ 1 then root.finishGet wt.ids failed
          else { root with waiting := some { wt with missing := wt.missing - 1, failed := failed } }
        some (.ok { c with root := root, chan := fun s d => if s = src ∧ d = 0 then t else c.chan s d })
      else none
    | _, _ => none
  | .deliver src dst =>
    if isWorker dst then
      match c.chan src dst with
      | [] => none
      | m :: t =>
        let c' := { c with chan := fun s d => if s = src ∧ d = dst then t else c.chan s d }
        match (c.worker dst).handle W m with
        | .error e => some (.error e)
        | .ok w => some (.ok (c'.flush dst w))
    else none
  | .complete w i =>
    if isWorker w ∧ i < (c.worker w).running.length then some (.ok (c.flush w ((c.worker w).complete i)))
    else none

/-- Runs of the cluster; `none` if some action is not possible or a worker crashes (controller/api.py:371-580,
worker/loop.py:77-233). -/
def Cluster.run (W : World) (isWorker : Nat → Bool) : Cluster → List Act → Option Cluster
  | c, [] => some c
  | c, a :: as =>
    match c.step W isWorker a with
    | some (.ok c') => Cluster.run W isWorker c' as
    | _ => none

end Verif.Cluster
