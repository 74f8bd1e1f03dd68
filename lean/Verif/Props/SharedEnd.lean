import Verif.Lemmas.SharedEnd

/-! C139: values from shared memory after the end. -/
namespace Verif.Props

open Verif.SharedEnd

/-- Actions of the program that need no unidist any more: using and copying values, forgetting references. -/
def EndUses : Act → Prop
  | .use _ => True
  | .copy _ _ => True
  | .drop _ => True
  | _ => False

/-- C139: using values and forgetting references does not end the process, at any time. -/
def C139_full : Prop :=
  ∀ (sh : Bool) (acts : List Act) (a : Act) (s : State), (State.init sh).run (acts ++ [a]) = some s → EndUses a → s.fault = none

/-- What ends the process after a history, by the history: a call of MPI by `put` after the end, memory that was freed in all other cases. -/
def EndFault (sh : Bool) (acts : List Act) (f : Fault) : Act → Prop
  | .put _ _ => f = .mpi ∧ sh = true ∧ .detach ∈ acts
  | .get _ i => f = .memory ∧ sh = true ∧ .detach ∈ acts ∧ ∀ w, .get w i ∉ acts
  | .use v => f = .memory ∧ sh = true ∧ .free ∈ acts ∧ ∃ i n, 0 < n ∧ .put i n ∈ acts ∧ .get v i ∈ acts
  | .copy _ v => f = .memory ∧ sh = true ∧ .free ∈ acts ∧ ∃ i n, 0 < n ∧ .put i n ∈ acts ∧ .get v i ∈ acts
  | .drop _ => f = .memory ∧ sh = true ∧ .free ∈ acts ∧ .detach ∉ acts
  | .free => False
  | .detach => False

private theorem gone_iff {sh : Bool} {acts : List Act} {u : State} (h : Inv sh acts u) {v : Nat} {b : Bool} (hv : u.view v = some b) :
    u.gone b = true ↔ sh = true ∧ .free ∈ acts ∧ ∃ i n, 0 < n ∧ .put i n ∈ acts ∧ .get v i ∈ acts := by
  have hr := h.running
  have hvb := h.view v
  have hg : u.gone b = true ↔ b = true ∧ .free ∈ acts := by
    simp only [State.gone, Bool.and_eq_true, decide_eq_true_eq, ne_eq, hr, Classical.not_not]
  rw [hg]
  constructor
  · rintro ⟨rfl, hf⟩
    rcases (hvb true).1 hv with ⟨i, n, h1, h2, h3⟩ | ⟨w, _, h3⟩
    · simp only [Bool.true_eq, Bool.and_eq_true, decide_eq_true_eq] at h3
      exact ⟨h3.1, hf, i, n, h3.2, h2, h1⟩
    · cases h3
  · rintro ⟨h1, h2, i, n, h3, h4, h5⟩
    have := (hvb true).2 (.inl ⟨i, n, h5, h4, by simp [h1, h3]⟩)
    rw [hv] at this
    exact ⟨by simpa using this, h2⟩

/-- Exactly: a step ends the process if and only if the history says so, and by this fault. -/
theorem C139_exactly_partial (sh : Bool) (acts : List Act) (a : Act) (f : Fault) (s : State) (h : (State.init sh).run (acts ++ [a]) = some s) :
    s.fault = some f ↔ EndFault sh acts f a := by
  obtain ⟨u, hu, hs⟩ := run_concat h
  have h0 := step_fault hs
  have hi := inv_run acts hu h0
  have e1 := hi.shared
  have e2 := hi.ended
  unfold State.step at hs
  simp only [h0, Option.isSome_none, Bool.false_eq_true, if_false] at hs
  cases a with
  | put i n =>
    simp only [EndFault] at hs ⊢
    split at hs
    · cases hs
    · split at hs
      · split at hs <;> cases hs <;> grind [State.fail]
      · cases hs; simp_all
  | get v i =>
    simp only [EndFault] at hs ⊢
    split at hs
    · cases hs
    · split at hs
      · cases hs
      · split at hs
        · rename_i hk
          cases hs
          obtain ⟨w, hw⟩ := (hi.known i).1 hk
          simp only [h0, reduceCtorEq, false_iff]
          exact fun hh => hh.2.2.2 w hw
        · rename_i hk
          have hk' : ∀ w, Act.get w i ∉ acts := fun w hw => hk ((hi.known i).2 ⟨w, hw⟩)
          split at hs <;> cases hs <;> grind [State.fail]
  | use v =>
    simp only [EndFault] at hs ⊢
    split at hs
    · cases hs
    · split at hs
      · cases hs
      · rename_i b hb
        have := gone_iff hi hb
        split at hs <;> cases hs
        · rename_i hg
          have := this.1 hg
          simp only [State.fail, Option.some.injEq]
          exact ⟨fun e => ⟨e.symm, this⟩, fun e => e.1.symm⟩
        · rename_i hg
          simp only [h0, reduceCtorEq, false_iff]
          exact fun e => hg (this.2 e.2)
  | copy w v =>
    simp only [EndFault] at hs ⊢
    split at hs
    · cases hs
    · split at hs
      · cases hs
      · rename_i b hb
        have := gone_iff hi hb
        split at hs <;> cases hs
        · rename_i hg
          have := this.1 hg
          simp only [State.fail, Option.some.injEq]
          exact ⟨fun e => ⟨e.symm, this⟩, fun e => e.1.symm⟩
        · rename_i hg
          simp only [h0, reduceCtorEq, false_iff]
          exact fun e => hg (this.2 e.2)
  | drop i =>
    simp only [EndFault] at hs ⊢
    have hfi := hi.finalizers i
    have hr := hi.running
    split at hs
    · cases hs
    · rename_i hc
      simp only [not_or] at hc
      have hb : ∃ n, Act.put i n ∈ acts := by
        cases hq : u.bufs i with
        | none => simp [hq] at hc
        | some n => exact ⟨n, (hi.bufs i n).1 hq⟩
      have hd : Act.drop i ∉ acts := fun hd => hc.2 ((hi.dropped i).2 hd)
      split at hs
      · split at hs <;> cases hs <;> grind [State.fail]
      · cases hs
        simp only [h0, reduceCtorEq, false_iff]
        rename_i hni
        exact fun e => hni (hfi.2 ⟨e.2.1, e.2.2.2, hb, hd⟩)
  | free =>
    simp only [EndFault, iff_false] at hs ⊢
    split at hs <;> cases hs
    simp [h0]
  | detach =>
    simp only [EndFault, iff_false] at hs ⊢
    split at hs <;> cases hs
    simp [h0]

example : ((State.init true).run [.put 1 2, .get 5 1, .copy 6 5, .use 5, .free, .detach, .use 6, .drop 1, .get 7 1]).isNone ∧
    ((State.init true).run [.put 1 2, .get 5 1, .copy 6 5, .use 5, .free, .detach, .use 6, .drop 1, .use 5]).map (·.fault) = some (some .memory) := by
  decide

/-- C139 (part): without shared memory, and for values without out-of-band buffers or copies of values, values can be used before and after the end.
Missing: values that are views. -/
theorem C139_usable_partial (sh : Bool) (acts : List Act) (u : State) (v : Nat) (h : (State.init sh).run acts = some u) (hf : u.fault = none)
    (hst : .free ∉ acts ∨ .detach ∈ acts)
    (hv : (∃ i, .get v i ∈ acts ∧ (sh = false ∨ .free ∉ acts ∨ .put i 0 ∈ acts)) ∨ ∃ w, .copy v w ∈ acts) :
    ∃ s, (State.init sh).run (acts ++ [.use v]) = some s ∧ s.fault = none := by
  have hi := inv_run acts h hf
  have hview : ∃ b, u.view v = some b := by
    rcases hv with ⟨i, hg, _⟩ | ⟨w, hw⟩
    · obtain ⟨n, hn⟩ := hi.got v i hg
      exact ⟨_, (hi.view v _).2 (.inl ⟨i, n, hg, hn, rfl⟩)⟩
    · exact ⟨false, (hi.view v false).2 (.inr ⟨w, hw, rfl⟩)⟩
  obtain ⟨b, hb⟩ := hview
  have hnf : u.stage ≠ .freed := by
    have e1 := hi.running
    have e2 := hi.ended
    intro e
    rcases hst with hh | hh
    · rw [← e1, e] at hh; cases hh
    · rw [← e2, e] at hh; cases hh
  have hng : u.gone b = false := by
    by_cases hg : u.gone b = true
    · exfalso
      have hbt : b = true := by
        simp only [State.gone, Bool.and_eq_true] at hg; exact hg.1
      subst hbt
      have hfree : .free ∈ acts := ((gone_iff hi hb).1 hg).2.1
      have hsh : sh = true := ((gone_iff hi hb).1 hg).1
      rcases hv with ⟨i, h1, h2⟩ | ⟨w, hw⟩
      · rcases h2 with h2 | h2 | h2
        · rw [h2] at hsh; cases hsh
        · exact h2 hfree
        · have := (hi.view v _).2 (.inl ⟨i, 0, h1, h2, rfl⟩)
          rw [hb] at this
          simp at this
      · have := (hi.view v false).2 (.inr ⟨w, hw, rfl⟩)
        rw [hb] at this
        cases this
    · simpa using hg
  refine ⟨u, ?_, hf⟩
  rw [run_append, h]
  simp [State.run, State.step, hf, hnf, hb, hng]

example : ((State.init true).run [.put 1 0, .get 5 1, .free, .detach, .use 5]).map (·.fault) = some none ∧
    ((State.init false).run [.put 1 3, .free, .detach, .get 5 1, .use 5]).map (·.fault) = some none := by decide

/-- C139 (part): references can be forgotten before and after the end. Missing: references that the collector finds while `finalize` runs. -/
theorem C139_forgotten_partial (sh : Bool) (acts : List Act) (u : State) (i n : Nat) (h : (State.init sh).run acts = some u) (hf : u.fault = none)
    (hst : .free ∉ acts ∨ .detach ∈ acts) (hp : .put i n ∈ acts) (hd : .drop i ∉ acts) :
    ∃ s, (State.init sh).run (acts ++ [.drop i]) = some s ∧ s.fault = none := by
  have hi := inv_run acts h hf
  have hb := (hi.bufs i n).2 hp
  have hnd : i ∉ u.dropped := fun e => hd ((hi.dropped i).1 e)
  have hstep : ∃ s, u.step (.drop i) = some s := by
    simp only [State.step, hf, hb, hnd, Option.isSome_none, Bool.false_eq_true, if_false, Option.isNone_some, or_self]
    split
    · split <;> exact ⟨_, rfl⟩
    · exact ⟨_, rfl⟩
  obtain ⟨s, hs⟩ := hstep
  have hr : (State.init sh).run (acts ++ [.drop i]) = some s := by rw [run_append, h]; simp [State.run, hs]
  refine ⟨s, hr, ?_⟩
  cases hq : s.fault with
  | none => rfl
  | some f =>
    have := (C139_exactly_partial sh acts (.drop i) f s hr).1 hq
    rcases hst with hh | hh
    · exact absurd this.2.2.1 hh
    · exact absurd hh this.2.2.2

example : ((State.init true).run [.put 1 2, .put 2 2, .drop 2, .free, .detach, .drop 1]).map (fun s => (s.fault, s.finalizers)) = some (none, []) := by
  decide

/-- C139 is violated: after the end the use of any value with buffers that was got from shared memory ends the process. -/
theorem C139_values_violated (acts : List Act) (u : State) (v i n : Nat) (h : (State.init true).run acts = some u) (hf : u.fault = none)
    (he : .detach ∈ acts) (hp : .put i n ∈ acts) (hn : 0 < n) (hg : .get v i ∈ acts) :
    ∃ s, (State.init true).run (acts ++ [.use v]) = some s ∧ s.fault = some .memory := by
  have hi := inv_run acts h hf
  have hv := (hi.view v _).2 (.inl ⟨i, n, hg, hp, rfl⟩)
  have hst := hi.ended.2 he
  refine ⟨u.fail .memory, ?_, rfl⟩
  rw [run_append, h]
  simp [State.run, State.step, hf, hst, hv, hn, State.gone]

example : ((State.init true).run [.put 1 1, .get 5 1, .free, .detach, .use 5]).map (·.fault) = some (some .memory) := by decide

/-- C139 is violated: a value that was used before and whose reference is forgotten. -/
theorem C139_violated : ¬ C139_full := by
  intro h
  have := h true [.put 1 1, .get 5 1, .use 5, .drop 1, .free, .detach] (.use 5) _ rfl trivial
  exact absurd this (by decide)

example : ((State.init true).run [.put 1 1, .get 5 1, .use 5, .drop 1, .free, .detach, .use 5]).map (·.fault) = some (some .memory) := by decide

/-- C139 is violated: a reference that the collector finds between the release of the windows and the detaching of its finalizer ends the process. -/
theorem C139_collected_violated (acts : List Act) (u : State) (i n : Nat) (h : (State.init true).run acts = some u) (hf : u.fault = none)
    (hfr : .free ∈ acts) (he : .detach ∉ acts) (hp : .put i n ∈ acts) (hd : .drop i ∉ acts) :
    ∃ s, (State.init true).run (acts ++ [.drop i]) = some s ∧ s.fault = some .memory := by
  have hi := inv_run acts h hf
  have hb := (hi.bufs i n).2 hp
  have hnd : i ∉ u.dropped := fun e => hd ((hi.dropped i).1 e)
  have hfi := (hi.finalizers i).2 ⟨rfl, he, ⟨n, hp⟩, hd⟩
  have hst : u.stage ≠ .running := fun e => hi.running.1 e hfr
  refine ⟨u.fail .memory, ?_, rfl⟩
  rw [run_append, h]
  simp [State.run, State.step, hf, hb, hnd, hfi, hst]

example : ((State.init true).run [.put 1 0, .free, .drop 1]).map (·.fault) = some (some .memory) := by decide

end Verif.Props
