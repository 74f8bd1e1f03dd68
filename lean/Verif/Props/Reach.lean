import Verif.Lemmas.Reach

/-! Property C78 for several processes: which process can use a reference. -/
namespace Verif.Props
open Verif.Reach

/-- **C78** for several processes without any clean-up: a reference that the code of a process holds, however it obtained it,
can be used there. -/
def C78_everywhere_full : Prop :=
  ∀ (ops : List Op) (s : Sys), Sys.init.run ops = some s → ∀ r p, p ∈ s.held r →
    s.getRaises r p = false ∧ s.submitRaises r [p] = false

/-- A task returns a reference that it created; the main process gets it and cannot use it. -/
def exReturned : List Op := [.submit 0 1 0 [] [], .put 1 1 [], .work 1 0 [1], .fetch 0 0, .get 0 0]

/-- A set of references as an argument: the task cannot use them. -/
def exInside : List Op := [.put 0 0 [], .submit 0 1 1 [] [0], .work 1 0 []]

/-- The code violates it for references returned by tasks. -/
theorem C78_returned_violated : ¬ C78_everywhere_full := by
  intro h
  obtain ⟨s, hr, hs⟩ := Option.map_eq_some_iff.1
    (show (Sys.init.run exReturned).map (fun s => (s.held 0, s.getRaises 0 1)) = some ([1, 0], true) by decide)
  simp only [Prod.mk.injEq] at hs
  have := (h exReturned s hr 0 1 (by rw [hs.1]; simp)).1
  rw [hs.2] at this
  cases this

/-- The code violates it for references hidden in other objects, although the caller still has the data. -/
theorem C78_inside_violated : ¬ C78_everywhere_full := by
  intro h
  obtain ⟨s, hr, hs⟩ := Option.map_eq_some_iff.1
    (show (Sys.init.run exInside).map (fun s => (s.held 1, s.submitRaises 1 [0])) = some ([0], true) by decide)
  simp only [Prod.mk.injEq] at hs
  have := (h exInside s hr 1 0 (by rw [hs.1]; simp)).2
  rw [hs.2] at this
  cases this

/-- Exactly which references a process can use after any history: those it created by `put` or by a call, those that were
arguments of calls sent to it and were not hidden in other objects, and those it computed. Missing from C78: all others that
its code obtained inside values. -/
theorem C78_usable_exact_partial (ops : List Op) (s : Sys) (hr : Sys.init.run ops = some s) (r p : Nat) :
    s.getRaises r p = false ↔
      (∃ c, Op.put r p c ∈ ops) ∨ (∃ d a i, Op.submit r d p a i ∈ ops) ∨
      (∃ r' n a i, Op.submit r' r n a i ∈ ops ∧ p ∈ a) ∨
      (∃ r' a i, Op.submit r' r p a i ∈ ops) ∧ ∀ t ∈ s.tasks r, t.out ≠ p := by
  have hi := inv_run inv_init hr
  have := hi.known r p
  simp only [List.nil_append] at this
  rw [Sys.getRaises, Bool.not_eq_false', this, Told, Sent]
  grind

/-- If no value contains references and no reference is hidden in an object, every held reference can be used. -/
theorem C78_open_partial (ops : List Op) (s : Sys) (hr : Sys.init.run ops = some s)
    (hp : ∀ r n c, Op.put r n c ∈ ops → c = []) (hs : ∀ r d n a i, Op.submit r d n a i ∈ ops → i = [])
    (hw : ∀ r i c, Op.work r i c ∈ ops → c = []) (r p : Nat) (hh : p ∈ s.held r) :
    s.getRaises r p = false ∧ s.submitRaises r [p] = false := by
  have ho : ∀ op ∈ ops, Open op := by
    intro op hm
    cases op with
    | put r n c => exact hp r n c hm
    | submit r d n a i => exact hs r d n a i hm
    | work r i c => exact hw r i c hm
    | fetch r p => trivial
    | get r p => trivial
  have := (plain_run ⟨by simp [Sys.init], by simp [Sys.init], by simp [Sys.init]⟩ ho hr).held r p hh
  simp [Sys.getRaises, Sys.submitRaises, this]

/-- A reference passed on through two workers: worker 2 is told the owner and obtains the data from worker 1. -/
example : (Sys.init.run [.put 0 0 [], .submit 0 1 1 [0] [], .submit 0 2 2 [1, 0] [], .work 1 0 [], .fetch 2 1,
      .work 2 0 [], .fetch 0 2, .get 0 2]).map
      (fun s => ((s.data 2 1, s.data 2 0, s.owner 2 1), s.known 0 1, s.held 2, s.held 0)) =
    some ((true, true, some 1), true, [], [2, 1, 0]) := by decide

end Verif.Props
