/-!
# Results that cannot be restored

Some objects can be serialized but raise when they are restored, for example exceptions whose constructor needs other arguments than those that they
store. Models the way of such a result of a task on the MPI backend: the main process restores it in `get`, after it has received the message
(`/repo/unidist/core/backends/mpi/core/controller/common.py` 113-168, 217-230; `communication.py` 816-849), a worker restores it in its loop when it
arrives as an argument of a task (`worker/loop.py` 131-146); a process that has sent a result to another one does not send it again
(`controller/common.py` 256-298).

Tasks are submitted at the beginning, have one result and do not call unidist; shared memory, actors, coroutines, `wait` and clean-ups are left out.
A result that the main process knows when the task is submitted comes from the main process; here it comes from its owner.
-/
namespace Verif.Unrestorable

/-- The tasks, on whose results they depend, the workers that they are sent to (controller/api.py:500-580), and whether their results raise when they are
restored in another process (serialization.py:259-282). -/
structure Prog where
  deps : Nat → List Nat
  place : Nat → Nat
  bad : Nat → Bool

/-- How a `get` of the main process ended: with the values, with the exception of the restoration, or with the error that an unexpected object arrived
(controller/common.py:217-230). -/
inductive Out
  | values
  | restore
  | stray
deriving DecidableEq, Repr

/-- The executed tasks, the results that arrived at other workers, those that were sent to them, the workers whose loop was left by an exception; the
results sent to the main process, those it has, those that it has not received, the requests that were not handled, the `get` that it waits in with the
number of results counted, and the ends of the earlier ones (controller/common.py:171-230, local_object_store.py:26-58). -/
structure State where
  done : List Nat
  has : List (Nat × Nat)
  shipped : List (Nat × Nat)
  dead : List Nat
  sent : List Nat
  root : List Nat
  mail : List Nat
  asked : List Nat
  getting : Option (List Nat × Nat)
  log : List Out
deriving DecidableEq, Repr

/-- Nothing was executed (controller/api.py:500-580). -/
def State.init : State := ⟨[], [], [], [], [], [], [], [], none, []⟩

/-- A task is executed (worker/task_store.py:326-404); a result is sent to a worker that has asked for it (request_store.py:235-268) and arrives; the main
process calls `get` with different references (controller/api.py:401-433); a worker handles a request of the main process; the main process receives a
result (controller/common.py:217-230). -/
inductive Act
  | exec (i : Nat)
  | ship (j i : Nat)
  | get (ids : List Nat)
  | reply (j : Nat)
  | take
deriving DecidableEq, Repr

/-- Whether a result is at hand for a task (object_store.py:36-55, task_store.py:168-206). -/
def State.here (p : Prog) (s : State) (i j : Nat) : Bool := if p.place j = p.place i then decide (j ∈ s.done) else decide ((j, p.place i) ∈ s.has)

/-- One step; `none` if it is not possible (worker/loop.py:113-146, controller/common.py:171-298). -/
def State.step (p : Prog) (s : State) : Act → Option State
  | .exec i => if i ∉ s.done ∧ p.place i ∉ s.dead ∧ (p.deps i).all (s.here p i) then some { s with done := s.done ++ [i] } else none
  | .ship j i =>
    let w := p.place i
    if i ∉ s.done ∧ j ∈ p.deps i ∧ p.place j ≠ w ∧ j ∈ s.done ∧ p.place j ∉ s.dead ∧ w ∉ s.dead ∧ (j, w) ∉ s.shipped then
      if p.bad j then some { s with shipped := s.shipped ++ [(j, w)], dead := s.dead ++ [w] }
      else some { s with shipped := s.shipped ++ [(j, w)], has := s.has ++ [(j, w)] }
    else none
  | .get ids =>
    if s.getting = none ∧ ids.Nodup then
      let r := ids.filter fun j => decide (j ∉ s.root)
      if r = [] then some { s with log := s.log ++ [.values] } else some { s with asked := s.asked ++ r, getting := some (r, 0) }
    else none
  | .reply j =>
    if j ∈ s.asked ∧ j ∈ s.done ∧ p.place j ∉ s.dead then
      if j ∈ s.sent then some { s with asked := s.asked.erase j }
      else some { s with asked := s.asked.erase j, sent := s.sent ++ [j], mail := s.mail ++ [j] }
    else none
  | .take =>
    match s.getting, s.mail with
    | some (r, c), j :: rest =>
      if p.bad j then some { s with mail := rest, getting := none, log := s.log ++ [.restore] }
      else if j ∈ r then
        if c + 1 = r.length then some { s with mail := rest, root := s.root ++ [j], getting := none, log := s.log ++ [.values] }
        else some { s with mail := rest, root := s.root ++ [j], getting := some (r, c + 1) }
      else some { s with mail := rest, root := s.root ++ [j], getting := none, log := s.log ++ [.stray] }
    | _, _ => none

/-- A history (worker/loop.py:103-225). -/
def State.run (p : Prog) : State → List Act → Option State
  | s, [] => some s
  | s, a :: as => (s.step p a).bind fun s' => s'.run p as

end Verif.Unrestorable
