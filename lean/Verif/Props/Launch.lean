import Verif.Model.Launch

/-! Properties of the start of the processes (C126). -/
namespace Verif.Props
open Verif.Launch

/-- All processes are in one communicator, none waits for ever in `init`, exactly one goes on with the script of the user, and no other
started process does, after its loop. -/
def StartsWell (s : Setting) : Prop :=
  (∀ p ∈ s.processes, s.comm p = s.comm (.started 0) ∧ p ∈ s.comm p ∧ s.after p ≠ .waits) ∧
  (∀ p ∈ s.processes, s.after p = .script ↔ p = .started 0) ∧
  (∀ r, Who.started r ∈ s.processes → s.after (.started r) ≠ .servesAndReturns)

/-- **C126**, full statement. -/
def C126_full : Prop := ∀ s : Setting, 1 ≤ s.started → StartsWell s

/-- The code violates C126: with `mpiexec -n N`, `N > 1`, and spawning left on, the first process spawns its own processes and runs the
script, and all other started processes wait for it for ever. -/
theorem C126_spawning_violated (n k : Nat) (h : 2 ≤ n) :
    (Setting.mk n true k).after (.started 0) = .script ∧
    ∀ r, 1 ≤ r → r < n → (Setting.mk n true k).after (.started r) = .waits := by
  have h0 : (Setting.mk n true k).comm (.started 0) = (Setting.mk n true k).merged := by simp [Setting.comm]
  constructor
  · have hm : (Setting.mk n true k).meets (.started 0) = true := by
      simp only [Setting.meets, List.all_eq_true, h0]
      intro q hq
      simp only [Setting.merged, List.mem_cons, List.mem_map] at hq
      rcases hq with rfl | ⟨i, -, rfl⟩
      · simp [h0]
      · simp [Setting.comm]
    simp only [Setting.after, hm, h0, if_true]
    rw [if_pos]
    simp [Setting.merged]
  · intro r h1 hr
    have hc : (Setting.mk n true k).comm (.started r) = (Setting.mk n true k).world := by
      simp only [Setting.comm]
      rw [if_neg (by omega)]
    have hm : ¬ (Setting.mk n true k).meets (.started r) = true := by
      simp only [Setting.meets, List.all_eq_true, hc]
      intro hall
      have he := hall (.started 0) (by simp [Setting.world]; omega)
      rw [h0] at he
      have he := eq_of_beq he
      have hlen : Who.started 1 ∈ (Setting.mk n true k).world := by simp [Setting.world]; omega
      rw [← he] at hlen
      simp [Setting.merged] at hlen
    simp only [Setting.after, if_neg hm]

theorem C126_violated : ¬ C126_full := by
  intro h
  exact ((h ⟨2, true, 3⟩ (by decide)).1 (.started 1) (by decide)).2.2
    ((C126_spawning_violated 2 3 (by decide)).2 1 (by decide) (by decide))

/-- **C126**, proved part: with one started process, or with spawning switched off as documented, all processes come together and only
the first one runs the script. Missing: several started processes with spawning on. -/
theorem C126_starts_partial (s : Setting) (h1 : 1 ≤ s.started) (h : s.started = 1 ∨ s.spawn = false) : StartsWell s := by
  obtain ⟨n, spawn, k⟩ := s
  simp only at h1 h
  -- a common communicator suffices
  have common : ∀ c : List Who, (∀ p ∈ (Setting.mk n spawn k).processes, (Setting.mk n spawn k).comm p = c) →
      (∀ p ∈ (Setting.mk n spawn k).processes, p ∈ c) → (∀ p ∈ c, p ∈ (Setting.mk n spawn k).processes) →
      c.head? = some (.started 0) → (spawn = true → n = 1) → StartsWell ⟨n, spawn, k⟩ := by
    intro c hc hin hout hhead hs
    obtain ⟨c', rfl⟩ : ∃ c', c = .started 0 :: c' := by
      cases c with
      | nil => cases hhead
      | cons a c' => exact ⟨c', by simp at hhead; rw [hhead]⟩
    have h0 := hc (.started 0) (hout _ (by simp))
    have hm : ∀ p ∈ (Setting.mk n spawn k).processes, (Setting.mk n spawn k).meets p = true := by
      intro p hp
      simp only [Setting.meets, List.all_eq_true, hc p hp]
      intro q hq
      rw [hc q (hout q hq)]
      simp
    have hidx : ∀ p : Who, List.idxOf p (Who.started 0 :: c') = 0 ↔ p = .started 0 := by
      intro p
      by_cases hp : p = .started 0
      · simp [hp]
      · simp [List.idxOf_cons, hp, beq_false_of_ne (fun e => hp e.symm)]
    refine ⟨?_, ?_, ?_⟩
    · intro p hp
      refine ⟨by rw [hc p hp, h0], by rw [hc p hp]; exact hin p hp, ?_⟩
      simp only [Setting.after, if_pos (hm p hp)]
      split
      · simp
      · split <;> simp
    · intro p hp
      simp only [Setting.after, if_pos (hm p hp), hc p hp]
      constructor
      · intro e
        apply (hidx p).1
        by_cases hi : List.idxOf p (Who.started 0 :: c') = 0
        · exact hi
        · rw [if_neg hi] at e
          split at e <;> cases e
      · intro e
        rw [if_pos ((hidx p).2 e)]
    · intro r hr e
      have hr' := hm _ hr
      simp only [Setting.after, if_pos hr', hc _ hr] at e
      split at e
      · cases e
      · rename_i hne
        split at e
        · rename_i hsp
          have hn := hs hsp
          subst hn
          simp only [Setting.processes, hsp, if_true, Setting.world] at hr
          simp at hr
          subst hr
          exact hne ((hidx _).2 rfl)
        · cases e
  by_cases hs : spawn = true
  · subst hs
    have hn : n = 1 := by simpa using h
    subst hn
    refine common (Setting.mk 1 true k).merged ?_ ?_ ?_ rfl (fun _ => rfl)
    · intro p hp
      simp only [Setting.processes, if_true, Setting.world, List.mem_append, List.mem_map, List.mem_range] at hp
      rcases hp with ⟨r, hr, rfl⟩ | ⟨i, -, rfl⟩
      · have : r = 0 := by omega
        subst this
        simp [Setting.comm]
      · rfl
    · intro p hp
      simp only [Setting.processes, if_true, Setting.world, List.mem_append, List.mem_map, List.mem_range] at hp
      rcases hp with ⟨r, hr, rfl⟩ | ⟨i, hi, rfl⟩
      · have : r = 0 := by omega
        subst this
        simp [Setting.merged]
      · simp [Setting.merged, hi]
    · intro p hp
      simp only [Setting.merged, List.mem_cons, List.mem_map, List.mem_range] at hp
      rcases hp with rfl | ⟨i, hi, rfl⟩
      · simp [Setting.processes, Setting.world]
      · simp [Setting.processes, hi]
  · have hs : spawn = false := by simpa using hs
    subst hs
    refine common (Setting.mk n false k).world ?_ ?_ ?_ ?_ (by simp)
    · intro p hp
      have hp : p ∈ (Setting.mk n false k).world := by simpa [Setting.processes] using hp
      simp only [Setting.world, List.mem_map] at hp
      obtain ⟨r, -, rfl⟩ := hp
      simp [Setting.comm]
    · intro p hp
      simpa [Setting.processes] using hp
    · intro p hp
      simpa [Setting.processes] using hp
    · obtain ⟨m, rfl⟩ : ∃ m, n = m + 1 := ⟨n - 1, by omega⟩
      simp [Setting.world, List.range_succ_eq_map]

/-- **C126**, exactly: the start goes well if there is one started process or spawning is switched off, and only then. -/
theorem C126_exactly_partial (s : Setting) (h1 : 1 ≤ s.started) : StartsWell s ↔ s.started = 1 ∨ s.spawn = false := by
  refine ⟨fun h => ?_, C126_starts_partial s h1⟩
  obtain ⟨n, spawn, k⟩ := s
  cases spawn with
  | false => exact .inr rfl
  | true =>
    refine .inl (Classical.byContradiction fun hn => ?_)
    simp only at h1 hn
    exact (h.1 (.started 1) (by simp [Setting.processes, Setting.world]; omega)).2.2
      ((C126_spawning_violated n k (by omega)).2 1 (by decide) (by omega))

example : ¬ StartsWell ⟨4, true, 3⟩ := fun h => by simpa using (C126_exactly_partial _ (by decide)).1 h

/-- The number of processes in the communicator, from which the roles are given out. -/
theorem C126_size (s : Setting) (h1 : 1 ≤ s.started) :
    (s.comm (.started 0)).length = if s.spawn then s.toSpawn + 1 else s.started := by
  obtain ⟨n, spawn, k⟩ := s
  cases spawn <;> simp [Setting.comm, Setting.merged, Setting.world]

-- one process that spawns three; four processes without spawning
example : (Setting.mk 1 true 3).processes.map (Setting.mk 1 true 3).after =
    [.script, .servesAndReturns, .servesAndReturns, .servesAndReturns] := by decide
example : (Setting.mk 4 false 3).processes.map (Setting.mk 4 false 3).after =
    [.script, .servesAndExits, .servesAndExits, .servesAndExits] := by decide

end Verif.Props
