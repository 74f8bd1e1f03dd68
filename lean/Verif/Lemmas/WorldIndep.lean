import Verif.Lemmas.ClusterExtra

/-! A run depends only on the calls of user functions whose direct arguments are not errors. -/
namespace Verif.Worker
open Verif.Spec

/-- Two worlds that may differ only in calls with a failed direct argument. -/
structure Agree (W W' : World) : Prop where
  call : ∀ f args, firstFailure args = none → W.call f args = W'.call f args
  method : ∀ f s args, firstFailure args = none → W.method f s args = W'.method f s args
  isAsync : W.isAsync = W'.isAsync

variable {W W' : World}

theorem evaluate_agree (h : Agree W W') (w : Worker) (t : Task) (args : List Val) :
    w.evaluate W t args = w.evaluate W' t args := by
  simp only [Worker.evaluate]
  cases hf : firstExc args with
  | some e => rfl
  | none =>
    rw [firstExc_eq] at hf
    simp only
    cases t with
    | fn id => simp only [h.call _ _ hf]
    | method k c => simp only [h.method _ _ _ hf, h.isAsync]

theorem execute_agree (h : Agree W W') (w : Worker) (r : Request) (args : List Val) :
    w.execute W r args = w.execute W' r args := by
  have ht : w.taskAsync W r.task = w.taskAsync W' r.task := by
    cases r.task <;> simp only [Worker.taskAsync, h.isAsync]
  simp only [Worker.execute, evaluate_agree h, ht]

theorem process_agree (h : Agree W W') (w : Worker) (r : Request) : w.process W r = w.process W' r := by
  simp only [Worker.process, execute_agree h]

theorem processAll_agree (h : Agree W W') : ∀ (rs : List Request) (w : Worker), w.processAll W rs = w.processAll W' rs
  | [], w => rfl
  | r :: rs, w => by
    simp only [Worker.processAll, process_agree h]
    cases w.process W' r with
    | error e => rfl
    | ok q => simp only [processAll_agree h rs]

theorem handle_agree (h : Agree W W') (w : Worker) (m : Msg) : w.handle W m = w.handle W' m := by
  cases m <;> simp only [Worker.handle, process_agree h, Worker.checkTasks, Worker.checkActorTasks, processAll_agree h]

end Verif.Worker

namespace Verif.Cluster
open Verif.Spec
open Verif.Worker

theorem step_agree {W W' : World} (h : Agree W W') (isW : Nat → Bool) (c : Cluster) (a : Act) :
    c.step W isW a = c.step W' isW a := by
  cases a <;> simp only [Cluster.step, handle_agree h]

theorem run_agree {W W' : World} (h : Agree W W') (isW : Nat → Bool) : ∀ (acts : List Act) (c : Cluster),
    c.run W isW acts = c.run W' isW acts
  | [], c => rfl
  | a :: as, c => by
    simp only [Cluster.run, step_agree h]
    cases c.step W' isW a with
    | none => rfl
    | some r =>
      cases r with
      | error e => rfl
      | ok c1 => simp only [run_agree h isW as]

end Verif.Cluster
