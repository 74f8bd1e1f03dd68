import Verif.Lemmas.ActorNet
import Verif.Lemmas.ActorOvertake

/-! Property C90: actor handles passed between processes. -/
namespace Verif.ActorNet

theorem run_append (s : State) (as bs : List Act) : s.run (as ++ bs) = (s.run as).bind (·.run bs) := by
  induction as generalizing s with
  | nil => rfl
  | cons a as ih =>
    rw [List.cons_append, State.run, State.run]
    split
    · next s1 h1 => exact ih s1
    · rfl

theorem inv_run {s0 s s' : State} {before : List Act} (acts : List Act) (h0 : s0.run before = some s)
    (hc : ∀ b p q h after, before ++ acts = b ++ .pass p q h :: after → ∀ s1, s0.run b = some s1 →
      p = s1.creator h → h ∈ s1.confirmed p)
    (hi : Inv s) (h : s.run acts = some s') : Inv s' := by
  induction acts generalizing s before with
  | nil => simp only [State.run, Option.some.injEq] at h; exact h ▸ hi
  | cons a as ih =>
    rw [State.run] at h
    split at h
    · next s1 h1 =>
      have hb : s0.run (before ++ [a]) = some s1 := by
        rw [run_append, h0]
        simp [State.run, h1]
      refine ih hb (fun b p q k after he => ?_) (inv_step a ?_ hi h1) h
      · exact hc b p q k after (by simpa using he)
      · cases a with
        | pass p q k => exact hc before p q k as rfl s h0
        | _ => trivial
    · cases h

end Verif.ActorNet

namespace Verif.Props
open Verif.ActorNet

/-- C90 in full: a method call through a handle finds its actor, so no worker ends. -/
def C90_full : Prop :=
  ∀ (acts : List ActorNet.Act) (s : ActorNet.State), State.init.run acts = some s → ∀ q, s.crashed q = false

/-- The main process creates an actor on worker 1 and passes the handle to a task on worker 2. The call of the task
overtakes the creation. -/
theorem C90_call_before_creation_violated : ¬ C90_full := by
  intro h
  obtain ⟨s, hr, hs⟩ := Option.map_eq_some_iff.1 (show (State.init.run
    [.new 0 1, .pass 0 2 0, .deliver 0 2, .use 2 0, .deliver 2 1]).map (fun s => (s.crashed 1, s.chan 0 1)) =
      some (true, [.create 0]) by decide +kernel)
  have := h _ s hr 1
  simp only [Prod.mk.injEq] at hs
  rw [this] at hs
  cases hs.1

/-- C90 as far as it holds: no worker ends if the creator of an actor passes the handle on only after it has got a result of
one of its methods. Processes that received a handle may pass it on freely. In particular nothing happens to handles used
only by their creator. Missing: handles passed on earlier. -/
theorem C90_confirmed_handles_partial (acts : List ActorNet.Act) (s : ActorNet.State) (hr : State.init.run acts = some s)
    (hc : ∀ before p q h after, acts = before ++ .pass p q h :: after → ∀ s1, State.init.run before = some s1 →
      p = s1.creator h → h ∈ s1.confirmed p) (q : Nat) : s.crashed q = false :=
  (ActorNet.inv_run (before := []) acts rfl hc ActorNet.inv_init hr).safe q

/-- A handle that goes from the creator to worker 2 and on to worker 3 after a first result came back. -/
example : (State.init.run [.new 0 1, .use 0 0, .deliver 0 1, .deliver 0 1, .deliver 1 0, .pass 0 2 0, .deliver 0 2,
    .pass 2 3 0, .deliver 2 3, .use 3 0, .use 2 0, .deliver 3 1, .deliver 2 1, .deliver 1 3]).map
    (fun s => (s.crashed 1, s.confirmed 0, s.confirmed 3, s.knows 3, s.chan 1 2)) =
    some (false, [0], [0], [0], [.result 0]) := by decide +kernel

/-- C90, exactly when it fails: in every history a step ends a worker if and only if the worker takes a call of an actor whose
creation is still under way to it, and such a call comes from another process than the creator. Missing: such calls are not
excluded. -/
theorem C90_overtaken_partial (acts : List ActorNet.Act) (s : ActorNet.State) (hr : State.init.run acts = some s)
    (a : ActorNet.Act) (s' : ActorNet.State) (hs : s.step a = some s') (q : Nat) :
    s'.crashed q = true ↔ s.crashed q = true ∨ ∃ p h, a = .deliver p q ∧ (s.chan p q).head? = some (.call h) ∧
      .create h ∈ s.chan (s.creator h) q ∧ p ≠ s.creator h := by
  have hi := ActorNet.always_run acts ActorNet.always_init hr
  cases a with
  | new p dst =>
    simp only [State.step] at hs
    split at hs
    · cases hs
    · cases hs; simp [State.send]
  | use p k =>
    simp only [State.step] at hs
    split at hs
    · cases hs
    · cases hs; simp [State.send]
  | pass p r k =>
    simp only [State.step] at hs
    split at hs
    · cases hs
    · cases hs; simp [State.send]
  | deliver p r =>
    simp only [State.step] at hs
    split at hs
    · cases hs
    · next m l hc =>
      split at hs
      · cases hs
      · next hal =>
        cases hs
        cases m with
        | create k =>
          simp only [State.handle, ActorNet.Act.deliver.injEq]
          refine ⟨Or.inl, fun h => h.elim (fun h => h) ?_⟩
          rintro ⟨_, _, ⟨rfl, rfl⟩, h, -⟩
          simp [hc] at h
        | task k =>
          simp only [State.handle, ActorNet.Act.deliver.injEq]
          refine ⟨Or.inl, fun h => h.elim (fun h => h) ?_⟩
          rintro ⟨_, _, ⟨rfl, rfl⟩, h, -⟩
          simp [hc] at h
        | result k =>
          simp only [State.handle, ActorNet.Act.deliver.injEq]
          refine ⟨Or.inl, fun h => h.elim (fun h => h) ?_⟩
          rintro ⟨_, _, ⟨rfl, rfl⟩, h, -⟩
          simp [hc] at h
        | call k =>
          obtain ⟨ho, hk⟩ := hi.calls p r k (by rw [hc]; exact List.mem_cons_self)
          simp only [State.handle]
          split
          · next hm =>
            have hm : k ∈ s.actors r := hm
            refine ⟨Or.inl, fun h => h.elim (fun h => h) ?_⟩
            rintro ⟨p', h, e, hh, hcr, -⟩
            simp only [ActorNet.Act.deliver.injEq] at e
            obtain ⟨rfl, rfl⟩ := e
            simp only [hc, List.head?_cons, Option.some.injEq, Msg.call.injEq] at hh
            subst hh
            rcases hi.once k hk with ⟨-, hn⟩ | ⟨hn, -⟩
            · rw [← ho] at hn; exact absurd hcr hn
            · rw [← ho] at hn; exact absurd hm hn
          · next hm =>
            have hm : k ∉ s.actors r := hm
            rcases hi.once k hk with ⟨hn, -⟩ | ⟨-, hn, hord⟩
            · rw [← ho] at hn; exact absurd hn hm
            · rw [← ho] at hn hord
              simp only [Bool.or_eq_true, decide_eq_true_eq]
              constructor
              · rintro (rfl | h)
                · refine Or.inr ⟨p, k, rfl, by simp [hc], List.count_pos_iff.1 (by omega), fun e => ?_⟩
                  rw [← e, hc] at hord
                  exact hord.1 rfl
                · exact Or.inl h
              · rintro (h | ⟨p', h, e, -⟩)
                · exact Or.inr h
                · simp only [ActorNet.Act.deliver.injEq] at e
                  exact Or.inl e.2.symm

/-- The state before the last step of the violation: the call of worker 2 is ahead while the creation is under way. If the
creation is delivered first, nothing happens. -/
example : (State.init.run [.new 0 1, .pass 0 2 0, .deliver 0 2, .use 2 0]).map (fun s => ((s.chan 2 1).head?, s.chan 0 1,
      s.creator 0, (s.step (.deliver 2 1)).map (·.crashed 1),
      ((s.step (.deliver 0 1)).bind (·.step (.deliver 2 1))).map (·.crashed 1))) =
    some (some (.call 0), [.create 0], 0, some true, some false) := by decide +kernel

end Verif.Props
