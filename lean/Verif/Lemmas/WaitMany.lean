import Verif.Model.WaitMany
import Verif.Props.Wait

/-! If only process 0 waits, the processes behave like the main process and the monitor of `Verif.Wait`. -/
namespace Verif.WaitMany
open Verif.Wait (Monitor Call localLoop)

/-- Only process 0 calls `wait`. -/
def RootOnly (acts : List Act) : Prop := ∀ p ids num, Act.wait p ids num ∈ acts → p = 0

/-- The steps as seen by process 0 and the monitor. -/
def project : Act → List Wait.Act
  | .store p id => if p = 0 then [.store id] else []
  | .finish outs r => [.finish outs r]
  | .report k => [.report k]
  | .wait _ ids num => [.wait ids num]
  | .request _ => [.request]
  | .reply => [.reply]

/-- The two states agree. -/
structure Sim (s : State) (t : Wait.State) : Prop where
  has : ∀ i, s.has 0 i = t.has i
  call : s.call 0 = t.call
  others : ∀ p, p ≠ 0 → s.call p = none
  requests : s.requests = t.request.toList
  busy : t.request.isSome → t.call.isSome
  replies : s.replies = t.replies
  reports : s.reports = t.reports
  monitor : s.monitor = t.monitor
  results : ∀ p ids num o, (p, ids, num, o) ∈ s.results → ∃ ready notReady, (ids, num, ready, notReady) ∈ t.results ∧
    (o = some (ready, notReady) ∨ (o = none ∧ ∃ i ∈ ready ++ notReady, i ∉ ids))

theorem sim_init : Sim State.init Wait.State.init :=
  ⟨fun _ => rfl, rfl, fun _ _ => rfl, rfl, by simp [Wait.State.init], rfl, rfl, rfl, by simp [State.init]⟩

theorem sim_step {s s' : State} {t : Wait.State} {acts : List Wait.Act} (hw : Wait.Inv acts t) (a : Act)
    (ha : ∀ p ids num, a = .wait p ids num → p = 0) (hi : Sim s t) (h : s.step a = some s') : ∃ t', t.run (project a) = some t' ∧ Sim s' t' := by
  cases a with
  | store p id =>
    simp only [State.step] at h
    split at h
    · cases h
    · next hc =>
      injection h with h
      subst h
      simp only [project]
      split
      · next hp =>
        subst hp
        refine ⟨{ t with has := fun i => i = id || t.has i }, ?_, ?_⟩
        · simp only [Wait.State.run, Wait.State.step]
          rw [← hi.call, if_neg hc]
        · refine ⟨?_, hi.call, hi.others, hi.requests, hi.busy, hi.replies, hi.reports, hi.monitor, hi.results⟩
          intro i
          simp [hi.has]
      · next hp =>
        refine ⟨t, rfl, ?_⟩
        refine ⟨?_, hi.call, hi.others, hi.requests, hi.busy, hi.replies, hi.reports, hi.monitor, hi.results⟩
        intro i
        simp [hi.has, Ne.symm hp]
  | finish outs r =>
    simp only [State.step] at h
    simp only [project, Wait.State.run, Wait.State.step]
    split at h
    · cases h
    · next l c hc =>
      injection h with h
      subst h
      simp only [hc]
      exact ⟨_, rfl, hi.has, hi.call, hi.others, hi.requests, hi.busy, hi.replies, by simp [hi.reports], hi.monitor, hi.results⟩
  | report k =>
    simp only [State.step] at h
    simp only [project, Wait.State.run, Wait.State.step]
    rw [hi.reports] at h
    split at h
    · cases h
    · next ids hk =>
      injection h with h
      subst h
      simp only [hk]
      exact ⟨_, rfl, hi.has, hi.call, hi.others, hi.requests, hi.busy, by simp [hi.replies, hi.monitor], rfl,
        by simp [hi.monitor], hi.results⟩
  | wait p ids num =>
    have hp := ha p ids num rfl
    subst hp
    simp only [State.step] at h
    simp only [project, Wait.State.run, Wait.State.step]
    split at h
    · cases h
    · next hc =>
      have hc' : t.call.isSome = false := by rw [← hi.call]; simpa using hc
      have hreq : t.request = none := by
        cases hr : t.request with
        | none => rfl
        | some x => have := hi.busy (by simp [hr]); rw [hc'] at this; cases this
      have hhas : s.has 0 = t.has := funext hi.has
      rw [hhas] at h
      simp only [hc', Bool.false_eq_true, if_false]
      split at h
      · next ready notReady hl =>
        injection h with h
        subst h
        simp only [hl]
        refine ⟨_, rfl, hi.has, hi.call, hi.others, hi.requests, hi.busy, hi.replies, hi.reports, hi.monitor, ?_⟩
        intro p ids' num' o hm
        simp only [List.mem_append, List.mem_singleton] at hm
        rcases hm with hm | hm
        · obtain ⟨a, b, h1, h2⟩ := hi.results p ids' num' o hm
          exact ⟨a, b, List.mem_append_left _ h1, h2⟩
        · simp only [Prod.mk.injEq] at hm
          obtain ⟨rfl, rfl, rfl, rfl⟩ := hm
          exact ⟨ready, notReady, by simp, Or.inl rfl⟩
      · next ready notReady hl =>
        injection h with h
        subst h
        simp only [hl]
        refine ⟨_, rfl, hi.has, by simp, ?_, ?_, by simp, hi.replies, hi.reports, hi.monitor, hi.results⟩
        · intro p hp
          simp only [if_neg hp]
          exact hi.others p hp
        · simp [hi.requests, hreq]
  | request k =>
    simp only [State.step] at h
    simp only [project, Wait.State.run, Wait.State.step]
    rw [hi.requests] at h
    cases hr : t.request with
    | none => rw [hr] at h; simp at h
    | some x =>
      rw [hr] at h
      obtain ⟨ids, num⟩ := x
      cases k with
      | succ k => simp at h
      | zero =>
        simp only [Option.toList_some, List.getElem?_cons_zero, Option.some.injEq] at h
        subst h
        refine ⟨_, rfl, hi.has, hi.call, hi.others, by simp, by simp, by simp [hi.replies, hi.monitor], hi.reports,
          by simp [hi.monitor], hi.results⟩
  | reply =>
    simp only [State.step] at h
    simp only [project, Wait.State.run, Wait.State.step]
    rw [hi.call, hi.replies] at h
    split at h
    · next c ready notReady l hc hl =>
      injection h with h
      subst h
      simp only [hc, hl]
      have hreq : t.request = none := by
        rcases (hw.call c hc).2.2.2.2.2 with h1 | h1 | h1
        · rw [hl] at h1; simp at h1
        · exact h1.1
        · exact h1.1
      refine ⟨_, rfl, hi.has, by simp, ?_, hi.requests, by simp [hreq], rfl, hi.reports, hi.monitor, ?_⟩
      · intro p hp
        simp only [if_neg hp]
        exact hi.others p hp
      · intro p ids' num' o hm
        simp only [List.mem_append, List.mem_singleton] at hm
        rcases hm with hm | hm
        · obtain ⟨a, b, h1, h2⟩ := hi.results p ids' num' o hm
          exact ⟨a, b, List.mem_append_left _ h1, h2⟩
        · simp only [Prod.mk.injEq] at hm
          obtain ⟨rfl, rfl, rfl, rfl⟩ := hm
          refine ⟨c.ready ++ ready, notReady, by simp, ?_⟩
          simp only [answer]
          split
          · exact Or.inl rfl
          · next hn =>
            simp only [Classical.not_forall] at hn
            obtain ⟨i, h1, h2⟩ := hn
            exact Or.inr ⟨rfl, i, h1, h2⟩
    · cases h

theorem wait_run_append {s : Wait.State} (as bs : List Wait.Act) : ∀ {s1 s2 : Wait.State}, s.run as = some s1 →
    s1.run bs = some s2 → s.run (as ++ bs) = some s2 := by
  induction as generalizing s with
  | nil => intro s1 s2 h1 h2; simp only [Wait.State.run, Option.some.injEq] at h1; subst h1; exact h2
  | cons a as ih =>
    intro s1 s2 h1 h2
    rw [List.cons_append, Wait.State.run]
    rw [Wait.State.run] at h1
    split at h1
    · next s3 h3 => exact ih h1 h2
    · cases h1

theorem sim_run {s s' : State} {t : Wait.State} {before : List Wait.Act} (hw : Wait.State.init.run before = some t)
    (acts : List Act) (ha : RootOnly acts) (hi : Sim s t) (h : s.run acts = some s') :
    ∃ t', Wait.State.init.run (before ++ acts.flatMap project) = some t' ∧ Sim s' t' := by
  induction acts generalizing s t before with
  | nil =>
    simp only [State.run, Option.some.injEq] at h
    exact ⟨t, by simpa using hw, h ▸ hi⟩
  | cons a as ih =>
    rw [State.run] at h
    split at h
    · next s1 h1 =>
      have hwi : Wait.Inv before t := by simpa using Wait.inv_run before [] Wait.inv_init hw
      obtain ⟨t1, h2, h3⟩ := sim_step hwi a (fun p ids num e => ha p ids num (by simp [e])) hi h1
      obtain ⟨t2, h4, h5⟩ := ih (wait_run_append _ _ hw h2) (fun p ids num hm => ha p ids num (List.mem_cons_of_mem _ hm)) h3 h
      exact ⟨t2, by simpa using h4, h5⟩
    · cases h

/-- A `wait` of another process than 0 that has sent its request never returns. -/
theorem call_stays {s s' : State} (acts : List Act) (h : s.run acts = some s') {p : Nat} {c : Call} (hp : p ≠ 0)
    (hc : s.call p = some c) : s'.call p = some c := by
  induction acts generalizing s with
  | nil => simp only [State.run, Option.some.injEq] at h; exact h ▸ hc
  | cons a as ih =>
    rw [State.run] at h
    split at h
    · next s1 h1 =>
      apply ih h
      cases a with
      | store q id => simp only [State.step] at h1; split at h1 <;> simp at h1; subst h1; exact hc
      | finish outs r => simp only [State.step] at h1; split at h1 <;> simp at h1; subst h1; exact hc
      | report k => simp only [State.step] at h1; split at h1 <;> simp at h1; subst h1; exact hc
      | request k => simp only [State.step] at h1; split at h1 <;> simp at h1; subst h1; exact hc
      | wait q ids num =>
        simp only [State.step] at h1
        split at h1
        · cases h1
        · next hq =>
          split at h1
          · injection h1 with h1; subst h1; exact hc
          · injection h1 with h1
            subst h1
            have : p ≠ q := fun hpq => hq (by rw [← hpq, hc]; rfl)
            simp only [if_neg this, hc]
      | reply =>
        simp only [State.step] at h1
        split at h1
        · injection h1 with h1
          subst h1
          simp only [if_neg hp, hc]
        · cases h1
    · cases h

end Verif.WaitMany
