import Verif.Model.AsyncOperations

/-! Properties of pending sends (C52). -/
namespace Verif.Props
open Verif.AsyncOps

/-- The sends started in a history, with their data. -/
def startedSends (ops : List Op) : List (Nat × Nat) := ops.flatMap fun op => match op with
  | .extend hs => hs
  | _ => []

theorem kept_general (ops : List Op) (s : State) (t : Nat × Nat) (h : t ∈ s.handlers ∨ t ∈ startedSends ops)
    (hc : t.1 ∉ (s.run ops).completed) : t ∈ (s.run ops).handlers := by
  induction ops generalizing s with
  | nil => simpa [startedSends, State.run] using h
  | cons op l ih =>
    have hmono : ∀ (l : List Op) (s : State) (x : Nat), x ∈ s.completed → x ∈ (s.run l).completed := by
      intro l
      induction l with
      | nil => intro s x h; exact h
      | cons op l ih' =>
        intro s x h
        apply ih'
        cases op <;> simp [State.step, h]
    have hc' : t.1 ∉ (s.step op).completed := fun hx => hc (hmono l _ _ hx)
    refine ih (s.step op) ?_ hc
    rcases h with h | h
    · left
      cases op with
      | extend hs => simp [State.step, h]
      | complete x => simpa [State.step] using h
      | check late seen =>
        simp only [State.step, List.mem_append, not_or] at hc'
        simp [State.step, h, tested, hc'.1, hc'.2]
      | finish =>
        simp only [State.step, List.mem_append, not_or] at hc'
        exact absurd (List.mem_map_of_mem h) hc'.1
    · simp only [startedSends, List.flatMap_cons, List.mem_append] at h
      rcases h with h | h
      · left
        cases op with
        | extend hs => simp only at h; simp [State.step, h]
        | _ => simp at h
      · right; exact h

/-- **C52**, kept: in every history the data of every started send that has not completed is still in the list. -/
theorem C52_kept (ops : List Op) (t : Nat × Nat) (h : t ∈ startedSends ops) (hc : t.1 ∉ (State.init.run ops).completed) :
    t ∈ (State.init.run ops).handlers :=
  kept_general ops State.init t (Or.inr h) hc

/-- **C52**, released: a send that completed before a check is not in the list after it, and a check removes no unfinished
send. -/
theorem C52_released (ops : List Op) (late seen : List Nat) (t : Nat × Nat) (hc : t.1 ∈ (State.init.run ops).completed) :
    t ∉ (State.init.run (ops ++ [.check late seen])).handlers := by
  simp only [State.run, List.foldl_append, List.foldl_cons, List.foldl_nil, State.step, List.mem_filter, not_and]
  intro _
  simp only [State.run] at hc
  simp [tested, hc]

/-- **C52**, finish: afterwards no send is in the list and every send started before has completed. -/
theorem C52_finish (ops : List Op) : (State.init.run (ops ++ [.finish])).handlers = [] ∧
    ∀ t ∈ startedSends ops, t.1 ∈ (State.init.run (ops ++ [.finish])).completed := by
  constructor
  · simp [State.run, State.step]
  · intro t ht
    simp only [State.run, List.foldl_append, List.foldl_cons, List.foldl_nil, State.step, List.mem_append]
    by_cases hc : t.1 ∈ (State.init.run ops).completed
    · exact Or.inr hc
    · exact Or.inl (List.mem_map_of_mem (C52_kept ops t ht hc))

-- three sends, completed out of order
example : (State.init.run [.extend [(1, 10), (2, 20)], .extend [(3, 30)], .complete 3, .check [1, 2] [2]]).handlers = [(1, 10)] := by
  decide

end Verif.Props
