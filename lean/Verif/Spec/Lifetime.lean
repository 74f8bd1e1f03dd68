import Verif.Model.Lifetime

/-! What it means that an object still exists somewhere. -/
namespace Verif.Lifetime

/-- The task was sent to worker `w` and has not been executed (worker/loop.py:106-131, task_store.py:34-42). -/
def Unfinished (s : Sys) (w : Nat) (t : Task) : Prop :=
  (0, w, Msg.task t) ∈ s.net ∨ t ∈ (s.worker w).tasks ∨ t ∈ (s.worker w).methods

/-- The worker on which the object is computed has it or has still to compute it (local_object_store.py:88-103). -/
def AtHome (s : Sys) (i : Nat) : Prop :=
  ∃ o, s.owner i = some o ∧ (i ∈ (s.worker o).data ∨ ∃ t, Unfinished s o t ∧ i ∈ t.outs)

/-- The object is in worker `w`, on the way to it, or at home (local_object_store.py:88-120). -/
def Reaches (s : Sys) (w i : Nat) : Prop :=
  i ∈ (s.worker w).data ∨ (∃ src, (src, w, Msg.data i) ∈ s.net) ∨ AtHome s i

/-- Nothing of the object is left in worker `w` (local_object_store.py:24-38). -/
def Forgotten (s : Sys) (w i : Nat) : Prop :=
  i ∉ (s.worker w).data ∧ i ∉ (s.worker w).strong ∧ (s.worker w).owners.lookup i = none ∧ ∀ d, (i, d) ∉ (s.worker w).sent

/-- No task gets a reference to a result of another task whose value the main process has already got
(controller/common.py:395-413). -/
def Unfetched : Sys → List Op → Prop
  | _, [] => True
  | s, op :: ops =>
    (match op with | .submit args _ _ _ => ∀ a ∈ args, a ∈ s.stored → s.owner a = none | _ => True) ∧
    ∀ s', s.step op = some s' → Unfetched s' ops

/-- The program keeps its references to the arguments of a call until the call is finished: whenever a cleanup goes ahead, no
reference dropped since the last one is an argument that an unfinished task or method call still waits for
(garbage_collector.py:94-144, task_store.py:34-42). -/
def KeepsArguments : Sys → List Op → Prop
  | _, [] => True
  | s, op :: ops =>
    (op = .cleanup → s.step .cleanup ≠ none → ∀ w t, Unfinished s w t → ∀ i ∈ t.args, i ∉ s.queue) ∧
    ∀ s', s.step op = some s' → KeepsArguments s' ops

/-- The program keeps its references to the results of a call until the call is finished: whenever a cleanup goes ahead, no
reference dropped since the last one is a result of an unfinished task or method call
(garbage_collector.py:94-144, task_store.py:34-42). -/
def KeepsResults : Sys → List Op → Prop
  | _, [] => True
  | s, op :: ops =>
    (op = .cleanup → s.step .cleanup ≠ none → ∀ w t, Unfinished s w t → ∀ i ∈ t.outs, i ∉ s.queue) ∧
    ∀ s', s.step op = some s' → KeepsResults s' ops

/-- No task is sent to a worker on which a method call is unfinished: the rank of an actor is reserved until the last copy of
its handle is gone (controller/common.py:53-109, controller/actor.py:109, 196-200). -/
def ActorsAlone : Sys → List Op → Prop
  | _, [] => True
  | s, op :: ops =>
    (∀ args n d, op = .submit args n d false → ∀ t, t.method = true → ¬ Unfinished s d t) ∧
    ∀ s', s.step op = some s' → ActorsAlone s' ops

/-- The number of tasks and method calls of a history (controller/api.py:471-580, controller/actor.py:36-63). -/
def callCount (ops : List Op) : Nat := ops.countP fun op => match op with | .submit .. => true | _ => false

/-- Something that was sent arrives: a message at a process (worker/loop.py:100-208, controller/common.py:217-231) or a report
at the monitor (monitor/loop.py:197-218). The program does nothing. -/
def Arrives (op : Op) : Prop := (∃ src d, op = .deliver src d) ∨ op = .report

/-- No `get` names a reference twice (controller/api.py:396-440). -/
def GetsOnce (ops : List Op) : Prop := ∀ ids, Op.get ids ∈ ops → ids.Nodup

end Verif.Lifetime
