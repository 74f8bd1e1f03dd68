import Verif.Model.ActorLife

/-!
# C107 An actor exists as long as it is needed and no longer
-/
namespace Verif.Props
open Verif.ActorLife

/-- On both backends, whenever nothing is left to be done: every call that was made has the value of its method, whatever handles were
dropped in the meantime, and every actor that still exists has a handle. -/
def C107_full : Prop :=
  (∀ n os s, (Pymp.init n).run os = some s → (∀ w, s.step (.take w) = none ∧ s.step (.finish w) = none) →
    (∀ c < s.jobs, s.result c = some .value) ∧ ∀ a ∈ s.servers, a ∈ s.live) ∧
  (∀ ws os s, (Mpi.init ws).run os = some s → (∀ w, s.step (.deliver w) = none) → s.queue = [] →
    (∀ c < s.calls, s.result c = some .value) ∧ ∀ w, ∀ a ∈ s.map w, a ∈ s.live)

/-! ## Multiprocessing -/

theorem pympLife_append : ∀ (a : List POp) (s : Pymp) (b : List POp), s.run (a ++ b) = (s.run a).bind fun t => t.run b
  | [], s, b => rfl
  | o :: a, s, b => by
    simp only [List.cons_append, Pymp.run]
    cases s.step o with
    | none => rfl
    | some t => exact pympLife_append a t b

/-- Whatever happens, only actors with a handle have a manager process. -/
theorem pympLife_servers (n : Nat) : ∀ (os : List POp) (s t : Pymp), s.servers = s.live → s.run os = some t → t.servers = t.live
  | [], s, t, h, hr => by simp only [Pymp.run, Option.some.injEq] at hr; rw [← hr]; exact h
  | o :: os, s, t, h, hr => by
    simp only [Pymp.run] at hr
    split at hr
    · rename_i s1 h1
      refine pympLife_servers n os s1 t ?_ hr
      cases o with
      | create w =>
        simp only [Pymp.step] at h1; split at h1
        · simp only [Option.some.injEq] at h1; rw [← h1]; simp [h]
        · simp at h1
      | call a =>
        simp only [Pymp.step] at h1; split at h1
        · simp only [Option.some.injEq] at h1; rw [← h1]; simp [h]
        · simp at h1
      | task w =>
        simp only [Pymp.step] at h1; split at h1
        · simp only [Option.some.injEq] at h1; rw [← h1]; simp [h]
        · simp at h1
      | drop a =>
        simp only [Pymp.step] at h1; split at h1
        · simp only [Option.some.injEq] at h1; rw [← h1]; simp [h]
        · simp at h1
      | take w =>
        simp only [Pymp.step] at h1
        split at h1
        · simp at h1
        · split at h1
          · simp at h1
          · split at h1
            · simp only [Option.some.injEq] at h1; rw [← h1]; exact h
            · split at h1 <;> (simp only [Option.some.injEq] at h1; rw [← h1]; exact h)
      | finish w =>
        simp only [Pymp.step] at h1
        split at h1
        · simp at h1
        · simp only [Option.some.injEq] at h1; rw [← h1]; exact h
    · simp at hr

/-- Second half of the claim on multiprocessing: after any history, an actor without a handle has no manager process. Missing: calls that
were made before the handle was dropped are lost (`C107_dropped_violated`). -/
theorem C107_object_partial (n : Nat) (os : List POp) (s : Pymp) (h : (Pymp.init n).run os = some s) (a : Nat) :
    a ∈ s.servers ↔ a ∈ s.live := by
  rw [pympLife_servers n os _ s rfl h]

/-- Live actors are numbered, have grabbed their workers and share none. -/
structure PympAlone (s : Pymp) : Prop where
  lt : ∀ a ∈ s.live, a < s.actors
  grabbed : ∀ a ∈ s.live, s.grabbed (s.place a) = true
  apart : ∀ a ∈ s.live, ∀ b ∈ s.live, a ≠ b → s.place a ≠ s.place b

theorem pympAlone_step {s t : Pymp} (h : PympAlone s) {o : POp} (hs : s.step o = some t) : PympAlone t := by
  cases o with
  | create w =>
    simp only [Pymp.step] at hs; split at hs
    · rename_i hc
      simp only [Option.some.injEq] at hs; subst hs
      have hne : ∀ a ∈ s.live, a ≠ s.actors := fun a ha => by have := h.lt a ha; omega
      have hw : ∀ a ∈ s.live, s.place a ≠ w := fun a ha e => by have := h.grabbed a ha; rw [e, hc.2] at this; cases this
      refine ⟨fun a ha => ?_, fun a ha => ?_, fun a ha b hb hab => ?_⟩
      · rcases List.mem_cons.1 ha with rfl | ha
        · exact Nat.lt_succ_self _
        · exact Nat.lt_succ_of_lt (h.lt a ha)
      · rcases List.mem_cons.1 ha with rfl | ha
        · simp [setAt]
        · simp [setAt, hne a ha, h.grabbed a ha]
      · rcases List.mem_cons.1 ha with rfl | ha <;> rcases List.mem_cons.1 hb with rfl | hb
        · exact absurd rfl hab
        · simpa [setAt, hne b hb] using Ne.symm (hw b hb)
        · simpa [setAt, hne a ha] using hw a ha
        · simpa [setAt, hne a ha, hne b hb] using h.apart a ha b hb hab
    · cases hs
  | call a =>
    simp only [Pymp.step] at hs; split at hs
    · simp only [Option.some.injEq] at hs; subst hs; exact ⟨h.lt, h.grabbed, h.apart⟩
    · cases hs
  | task w =>
    simp only [Pymp.step] at hs; split at hs
    · simp only [Option.some.injEq] at hs; subst hs; exact ⟨h.lt, h.grabbed, h.apart⟩
    · cases hs
  | drop a =>
    simp only [Pymp.step] at hs; split at hs
    · rename_i hl
      simp only [Option.some.injEq] at hs; subst hs
      have hm : ∀ b, b ∈ s.live.filter (· ≠ a) → b ∈ s.live ∧ b ≠ a := fun b hb => by simpa using hb
      refine ⟨fun b hb => h.lt b (hm b hb).1, fun b hb => ?_, fun b hb c hc => h.apart b (hm b hb).1 c (hm c hc).1⟩
      have := h.apart b (hm b hb).1 a hl (hm b hb).2
      simp [setAt, this, h.grabbed b (hm b hb).1]
    · cases hs
  | take w =>
    simp only [Pymp.step] at hs
    split at hs
    · cases hs
    · split at hs
      · cases hs
      · split at hs
        · simp only [Option.some.injEq] at hs; subst hs; exact ⟨h.lt, h.grabbed, h.apart⟩
        · split at hs <;> (simp only [Option.some.injEq] at hs; subst hs; exact ⟨h.lt, h.grabbed, h.apart⟩)
  | finish w =>
    simp only [Pymp.step] at hs
    split at hs
    · cases hs
    · simp only [Option.some.injEq] at hs; subst hs; exact ⟨h.lt, h.grabbed, h.apart⟩

theorem pympAlone_run : ∀ (os : List POp) {s t : Pymp}, PympAlone s → s.run os = some t → PympAlone t
  | [], s, t, h, hr => by simp only [Pymp.run, Option.some.injEq] at hr; rw [← hr]; exact h
  | o :: os, s, t, h, hr => by
    simp only [Pymp.run] at hr
    split at hr
    · rename_i s1 h1; exact pympAlone_run os (pympAlone_step h h1) hr
    · cases hr

/-- C107, the rest for multiprocessing: an actor with a handle has its worker to itself. No other actor with a handle has the same worker,
and nothing can be given to this worker other than calls of its methods. -/
theorem C107_alone_partial (n : Nat) (os : List POp) (s : Pymp) (h : (Pymp.init n).run os = some s) (a : Nat) (ha : a ∈ s.live) :
    (∀ b ∈ s.live, b ≠ a → s.place b ≠ s.place a) ∧
    (∀ o t, s.step o = some t → (∃ j, t.queue (s.place a) = s.queue (s.place a) ++ [j]) → o = .call a) ∧
    ∀ o t, s.step o = some t → t.actors = s.actors + 1 → t.place s.actors ≠ s.place a := by
  have hi := pympAlone_run os (s := Pymp.init n) ⟨by simp [Pymp.init], by simp [Pymp.init], by simp [Pymp.init]⟩ h
  refine ⟨fun b hb hab => hi.apart b hb a ha hab, fun o t ht ⟨j, hj⟩ => ?_, fun o t ht hc => ?_⟩
  · have hno : ∀ (l : List Job), l ≠ l ++ [j] := fun l e => by simpa using congrArg List.length e
    cases o with
    | create w =>
      simp only [Pymp.step] at ht; split at ht
      · simp only [Option.some.injEq] at ht; subst ht; exact absurd hj (hno _)
      · cases ht
    | call b =>
      simp only [Pymp.step] at ht; split at ht
      · rename_i hb
        simp only [Option.some.injEq] at ht; subst ht
        by_cases e : b = a
        · rw [e]
        · have := hi.apart a ha b hb (Ne.symm e)
          simp only [setAt, if_neg this] at hj
          exact absurd hj (hno _)
      · cases ht
    | task w =>
      simp only [Pymp.step] at ht; split at ht
      · rename_i hc
        simp only [Option.some.injEq] at ht; subst ht
        have : s.place a ≠ w := fun e => by have := hi.grabbed a ha; rw [e, hc.2] at this; cases this
        simp only [setAt, if_neg this] at hj
        exact absurd hj (hno _)
      · cases ht
    | drop b =>
      simp only [Pymp.step] at ht; split at ht
      · simp only [Option.some.injEq] at ht; subst ht; exact absurd hj (hno _)
      · cases ht
    | take w =>
      have key : ∀ (x : Job) (l : List Job), s.queue w = x :: l → setAt s.queue w l (s.place a) ≠ s.queue (s.place a) ++ [j] := by
        intro x l hq e
        simp only [setAt] at e
        split at e
        · rename_i e2
          rw [e2, hq] at e
          have := congrArg List.length e
          simp at this
          omega
        · exact absurd e (hno _)
      simp only [Pymp.step] at ht
      split at ht
      · cases ht
      · split at ht
        · cases ht
        · rename_i x l hq
          split at ht
          · simp only [Option.some.injEq] at ht; subst ht; exact absurd hj (key _ _ hq)
          · split at ht <;> (simp only [Option.some.injEq] at ht; subst ht; exact absurd hj (key _ _ hq))
    | finish w =>
      simp only [Pymp.step] at ht
      split at ht
      · cases ht
      · simp only [Option.some.injEq] at ht; subst ht; exact absurd hj (hno _)
  · cases o with
    | create w =>
      simp only [Pymp.step] at ht; split at ht
      · rename_i hw
        simp only [Option.some.injEq] at ht; subst ht
        simp only [setAt, if_true]
        intro e
        have := hi.grabbed a ha; rw [← e, hw.2] at this; cases this
      · cases ht
    | call b =>
      simp only [Pymp.step] at ht; split at ht
      · simp only [Option.some.injEq] at ht; subst ht; simp at hc
      · cases ht
    | task w =>
      simp only [Pymp.step] at ht; split at ht
      · simp only [Option.some.injEq] at ht; subst ht; simp at hc
      · cases ht
    | drop b =>
      simp only [Pymp.step] at ht; split at ht
      · simp only [Option.some.injEq] at ht; subst ht; simp at hc
      · cases ht
    | take w =>
      simp only [Pymp.step] at ht
      split at ht
      · cases ht
      · split at ht
        · cases ht
        · split at ht
          · simp only [Option.some.injEq] at ht; subst ht; simp at hc
          · split at ht <;> (simp only [Option.some.injEq] at ht; subst ht; simp at hc)
    | finish w =>
      simp only [Pymp.step] at ht
      split at ht
      · cases ht
      · simp only [Option.some.injEq] at ht; subst ht; simp at hc

/-- With actors on workers 0 and 1 of three, tasks go to worker 2 only; after the first actor is dropped, also to worker 0. -/
example : ((Pymp.init 3).run [.create 0, .create 1]).map (fun s => (s.live, [0, 1, 2].map fun w => (s.step (.task w)).isSome)) =
      some ([1, 0], [false, false, true]) ∧
    ((Pymp.init 3).run [.create 0, .create 1, .drop 0]).map (fun s => (s.live, [0, 1, 2].map fun w => (s.step (.task w)).isSome)) =
      some ([1], [true, false, true]) := by decide

/-- The invariant of a history in which no handle with unfinished calls is dropped. -/
structure PympCareful (s : Pymp) : Prop where
  ended : ∀ w, s.ended w = false
  servers : s.servers = s.live
  queued : ∀ w, ∀ j ∈ s.queue w, ∀ a, j.actor = some a → a ∈ s.live
  running : ∀ w j, s.running w = some j → ∀ a, j.actor = some a → a ∈ s.live
  jobs : ∀ c < s.jobs, s.result c = some .value ∨ (∃ w, ∃ j ∈ s.queue w, j.number = c) ∨ ∃ w j, s.running w = some j ∧ j.number = c

theorem pympCareful_step {s t : Pymp} (h : PympCareful s) {o : POp}
    (hd : ∀ a, o = .drop a → ∀ w, (∀ j ∈ s.queue w, j.actor ≠ some a) ∧ ∀ j, s.running w = some j → j.actor ≠ some a)
    (hs : s.step o = some t) : PympCareful t := by
  have hjobs : ∀ c < s.jobs + 1, c < s.jobs ∨ c = s.jobs := by omega
  have hadd : ∀ w x, ∀ j, (∃ u, j ∈ s.queue u) → ∃ u, j ∈ setAt s.queue w (s.queue w ++ [x]) u := by
    rintro w x j ⟨u, hu⟩
    refine ⟨u, ?_⟩
    by_cases e : u = w
    · subst e; simp [setAt, hu]
    · simp [setAt, e, hu]
  cases o with
  | create w =>
    simp only [Pymp.step] at hs; split at hs
    · simp only [Option.some.injEq] at hs; subst hs
      exact ⟨h.ended, by simp [h.servers], fun w j hj a ha => List.mem_cons_of_mem _ (h.queued w j hj a ha),
        fun w j hj a ha => List.mem_cons_of_mem _ (h.running w j hj a ha), h.jobs⟩
    · simp at hs
  | call a =>
    simp only [Pymp.step] at hs; split at hs
    · rename_i ha
      simp only [Option.some.injEq] at hs; subst hs
      refine ⟨h.ended, h.servers, ?_, h.running, ?_⟩
      · intro w j hj b hb
        simp only [setAt] at hj
        split at hj
        · rename_i hw
          rw [List.mem_append, List.mem_singleton] at hj
          rcases hj with hj | rfl
          · exact h.queued _ j hj b hb
          · simp only [Option.some.injEq] at hb; subst hb; exact ha
        · exact h.queued w j hj b hb
      · intro c hc
        rcases hjobs c hc with hc | rfl
        · rcases h.jobs c hc with h1 | ⟨w, j, h1, h2⟩ | h1
          · exact Or.inl h1
          · obtain ⟨u, hu⟩ := hadd (s.place a) ⟨some a, s.jobs⟩ j ⟨w, h1⟩
            exact Or.inr (Or.inl ⟨u, j, hu, h2⟩)
          · exact Or.inr (Or.inr h1)
        · exact Or.inr (Or.inl ⟨s.place a, ⟨some a, s.jobs⟩, by simp [setAt], rfl⟩)
    · simp at hs
  | task w0 =>
    simp only [Pymp.step] at hs; split at hs
    · simp only [Option.some.injEq] at hs; subst hs
      refine ⟨h.ended, h.servers, ?_, h.running, ?_⟩
      · intro w j hj b hb
        simp only [setAt] at hj
        split at hj
        · rw [List.mem_append, List.mem_singleton] at hj
          rcases hj with hj | rfl
          · exact h.queued _ j hj b hb
          · simp at hb
        · exact h.queued w j hj b hb
      · intro c hc
        rcases hjobs c hc with hc | rfl
        · rcases h.jobs c hc with h1 | ⟨w, j, h1, h2⟩ | h1
          · exact Or.inl h1
          · obtain ⟨u, hu⟩ := hadd w0 ⟨none, s.jobs⟩ j ⟨w, h1⟩
            exact Or.inr (Or.inl ⟨u, j, hu, h2⟩)
          · exact Or.inr (Or.inr h1)
        · exact Or.inr (Or.inl ⟨w0, ⟨none, s.jobs⟩, by simp [setAt], rfl⟩)
    · simp at hs
  | drop a =>
    have hno := hd a rfl
    simp only [Pymp.step] at hs; split at hs
    · simp only [Option.some.injEq] at hs; subst hs
      refine ⟨h.ended, by simp [h.servers], ?_, ?_, h.jobs⟩
      · intro w j hj b hb
        simp only [List.mem_filter, ne_eq, decide_not, Bool.not_eq_eq_eq_not, Bool.not_true, decide_eq_false_iff_not]
        exact ⟨h.queued w j hj b hb, fun e => (hno w).1 j hj (e ▸ hb)⟩
      · intro w j hj b hb
        simp only [List.mem_filter, ne_eq, decide_not, Bool.not_eq_eq_eq_not, Bool.not_true, decide_eq_false_iff_not]
        exact ⟨h.running w j hj b hb, fun e => (hno w).2 j hj (e ▸ hb)⟩
    · simp at hs
  | take w0 =>
    simp only [Pymp.step] at hs
    split at hs
    · simp at hs
    · rename_i hidle
      simp only [not_or, ne_eq, Classical.not_not] at hidle
      split at hs
      · simp at hs
      · rename_i j l hq
        have hal : ∀ a, j.actor = some a → a ∈ s.servers := by
          intro a ha; rw [h.servers]; exact h.queued w0 j (by rw [hq]; simp) a ha
        have key : PympCareful { s with queue := setAt s.queue w0 l, running := setAt s.running w0 (some j) } := by
          refine ⟨h.ended, h.servers, ?_, ?_, ?_⟩
          · intro w j' hj b hb
            simp only [setAt] at hj
            split at hj
            · exact h.queued w0 j' (by rw [hq]; exact List.mem_cons_of_mem _ hj) b hb
            · exact h.queued w j' hj b hb
          · intro w j' hj b hb
            simp only [setAt] at hj
            split at hj
            · simp only [Option.some.injEq] at hj; subst hj
              exact h.queued w0 j (by rw [hq]; simp) b hb
            · exact h.running w j' hj b hb
          · intro c hc
            rcases h.jobs c hc with h1 | ⟨w, j', h1, h2⟩ | ⟨w, j', h1, h2⟩
            · exact Or.inl h1
            · by_cases e : w = w0
              · subst e
                rw [hq, List.mem_cons] at h1
                rcases h1 with rfl | h1
                · exact Or.inr (Or.inr ⟨w, j', by simp [setAt], h2⟩)
                · exact Or.inr (Or.inl ⟨w, j', by simp [setAt, h1], h2⟩)
              · exact Or.inr (Or.inl ⟨w, j', by simp [setAt, e, h1], h2⟩)
            · have e : w ≠ w0 := by rintro rfl; rw [hidle.2] at h1; simp at h1
              exact Or.inr (Or.inr ⟨w, j', by simp [setAt, e, h1], h2⟩)
        split at hs
        · simp only [Option.some.injEq] at hs; subst hs; exact key
        · rename_i a ha
          rw [if_pos (hal a ha)] at hs
          simp only [Option.some.injEq] at hs; subst hs; exact key
  | finish w0 =>
    simp only [Pymp.step] at hs
    split at hs
    · simp at hs
    · rename_i j hj
      have hv : s.outcome j = .value := by
        rw [Pymp.outcome]
        split
        · rfl
        · rename_i a ha
          rw [if_pos (by rw [h.servers]; exact h.running w0 j hj a ha)]
      simp only [Option.some.injEq] at hs
      rw [hv] at hs
      subst hs
      refine ⟨h.ended, h.servers, h.queued, ?_, ?_⟩
      · intro w j' hj' b hb
        simp only [setAt] at hj'
        split at hj'
        · simp at hj'
        · exact h.running w j' hj' b hb
      · intro c hc
        by_cases e : c = j.number
        · exact Or.inl (by simp [setAt, e])
        · rcases h.jobs c hc with h1 | h1 | ⟨w, j', h1, h2⟩
          · exact Or.inl (by simp [setAt, e, h1])
          · exact Or.inr (Or.inl h1)
          · have : w ≠ w0 := by
              rintro rfl
              rw [hj, Option.some.injEq] at h1
              exact e (by rw [h1]; exact h2.symm)
            exact Or.inr (Or.inr ⟨w, j', by simp [setAt, this, h1], h2⟩)

theorem pympCareful_run {s : Pymp} (h : PympCareful s) : ∀ (os : List POp) {t : Pymp}, s.run os = some t →
    (∀ pre a post u, os = pre ++ .drop a :: post → s.run pre = some u →
      ∀ w, (∀ j ∈ u.queue w, j.actor ≠ some a) ∧ ∀ j, u.running w = some j → j.actor ≠ some a) → PympCareful t := by
  intro os
  induction os generalizing s with
  | nil => intro t hr _; simp only [Pymp.run, Option.some.injEq] at hr; rw [← hr]; exact h
  | cons o os ih =>
    intro t hr hd
    simp only [Pymp.run] at hr
    split at hr
    · rename_i s1 h1
      refine ih (pympCareful_step h ?_ h1) hr ?_
      · rintro a rfl
        exact hd [] a os s rfl rfl
      · intro pre a post u he hu
        refine hd (o :: pre) a post u (by rw [he]; rfl) ?_
        simp only [Pymp.run, h1]
        exact hu
    · simp at hr

/-- First half on multiprocessing, if no handle is dropped while one of its calls is queued or running: then every call and every task has
its value once nothing is left to be done. Missing: handles dropped earlier (`C107_dropped_violated`, `C107_running_violated`). -/
theorem C107_calls_partial (n : Nat) (os : List POp) (s : Pymp) (h : (Pymp.init n).run os = some s)
    (hd : ∀ pre a post u, os = pre ++ .drop a :: post → (Pymp.init n).run pre = some u →
      ∀ w, (∀ j ∈ u.queue w, j.actor ≠ some a) ∧ ∀ j, u.running w = some j → j.actor ≠ some a)
    (hidle : ∀ w, s.step (.take w) = none ∧ s.step (.finish w) = none) (c : Nat) (hc : c < s.jobs) :
    s.result c = some .value := by
  have hi : PympCareful (Pymp.init n) :=
    ⟨fun _ => rfl, rfl, by simp [Pymp.init], by simp [Pymp.init], by simp [Pymp.init]⟩
  have hs := pympCareful_run hi os h hd
  have hrun : ∀ w, s.running w = none := by
    intro w
    cases hr : s.running w with
    | none => rfl
    | some j => have := (hidle w).2; simp [Pymp.step, hr] at this
  rcases hs.jobs c hc with h1 | ⟨w, j, h1, -⟩ | ⟨w, j, h1, -⟩
  · exact h1
  · have h2 := (hidle w).1
    cases hq : s.queue w with
    | nil => rw [hq] at h1; simp at h1
    | cons j' l =>
      simp only [Pymp.step, hs.ended w, hrun w, hq] at h2
      simp only [Bool.false_eq_true, ne_eq, not_true_eq_false, or_self, if_false] at h2
      split at h2
      · simp at h2
      · split at h2 <;> simp at h2
  · rw [hrun w] at h1; simp at h1

/-- Two actors: a call, its end and the drop of the first handle, then a call of the second actor on the other worker. -/
example : ((Pymp.init 2).run [.create 0, .create 1, .call 0, .take 0, .finish 0, .drop 0, .task 0, .call 1, .take 0, .take 1,
    .finish 0, .finish 1]).map (fun s => (s.jobs, s.result 0, s.result 1, s.result 2, s.servers)) =
    some (3, some .value, some .value, some .value, [1]) := by decide

/-- `Actor.remote().method.remote()`: the handle is dropped right after the call. -/
def exPympDropped : List POp := [.create 0, .call 0, .drop 0, .take 0]

/-- The call never gets a result: its worker ends when it unpickles the call. -/
theorem C107_dropped_violated : ¬ C107_full := by
  rintro ⟨h, -⟩
  have := (h 1 exPympDropped _ rfl (by
    intro w
    by_cases e : w = 0 <;> simp [Pymp.step, setAt, e, Pymp.init])).1 0 (by decide)
  simp [Pymp.init] at this

/-- The handle is dropped while the call runs. -/
def exPympRunning : List POp := [.create 0, .call 0, .take 0, .drop 0, .finish 0]

/-- The result is an exception. -/
theorem C107_running_violated : ¬ C107_full := by
  rintro ⟨h, -⟩
  have := (h 1 exPympRunning _ rfl (by
    intro w
    by_cases e : w = 0 <;> simp [Pymp.step, setAt, e, Pymp.init])).1 0 (by decide)
  simp [Pymp.init, setAt, Pymp.outcome] at this

/-- A task is given to the worker that a dropped actor has freed. -/
def exPympOther : List POp := [.create 0, .call 0, .drop 0, .task 0, .take 0]

/-- The task is lost together with the call. -/
theorem C107_others_violated : ¬ C107_full := by
  rintro ⟨h, -⟩
  have := (h 1 exPympOther _ rfl (by
    intro w
    by_cases e : w = 0 <;> simp [Pymp.step, setAt, e, Pymp.init])).1 1 (by decide)
  simp [Pymp.init] at this

/-! ## MPI -/

/-- Calls come after the creation of their actor, and none is lost. -/
structure MpiLife (s : Mpi) : Prop where
  ended : ∀ w, s.ended w = false
  order : ∀ w pre a c post, s.chan w = pre ++ .call a c :: post → a ∈ s.map w ∨ .create a ∈ pre
  live : ∀ a ∈ s.live, a ∈ s.map (s.place a) ∨ .create a ∈ s.chan (s.place a)
  bound : ∀ a ∈ s.live, a < s.actors
  calls : ∀ c < s.calls, s.result c = some .value ∨ ∃ w a, .call a c ∈ s.chan w

theorem mpiLife_append {s : Mpi} (h : MpiLife s) (w : Nat) {m : Msg} (hm : ∀ a c, m ≠ .call a c)
    {pre post : List Msg} {a c : Nat} (e : s.chan w ++ [m] = pre ++ .call a c :: post) : a ∈ s.map w ∨ .create a ∈ pre := by
  rcases List.eq_nil_or_concat post with rfl | ⟨p, x, rfl⟩
  · have := congrArg List.getLast? e
    simp at this
    exact absurd this (hm a c)
  · have e' : s.chan w ++ [m] = (pre ++ .call a c :: p) ++ [x] := by simpa using e
    have := List.append_inj_left' e' rfl
    exact h.order w pre a c p this

theorem mpiLife_step {s t : Mpi} (h : MpiLife s) {o : MOp} (hs : s.step o = some t) : MpiLife t := by
  cases o with
  | create w =>
    simp only [Mpi.step] at hs; split at hs
    · simp only [Option.some.injEq] at hs; subst hs
      refine ⟨h.ended, ?_, ?_, ?_, ?_⟩
      · intro v pre a c post e
        simp only [setAt] at e
        split at e
        · rename_i hv; subst hv
          exact mpiLife_append h v (by simp) e
        · exact h.order v pre a c post e
      · intro a ha
        simp only [List.mem_cons] at ha
        rcases ha with rfl | ha
        · right; simp [setAt]
        · have hb := h.bound a ha
          have hne : a ≠ s.actors := by omega
          simp only [setAt, if_neg hne]
          rcases h.live a ha with h1 | h1
          · exact Or.inl h1
          · right; split
            · rename_i e; rw [e] at h1; simp [h1]
            · exact h1
      · intro a ha
        simp only [List.mem_cons] at ha
        rcases ha with rfl | ha
        · simp
        · have := h.bound a ha; simp only; omega
      · intro c hc
        rcases h.calls c hc with h1 | ⟨v, a, h1⟩
        · exact Or.inl h1
        · refine Or.inr ⟨v, a, ?_⟩
          simp only [setAt]; split
          · rename_i e; subst e; simp [h1]
          · exact h1
    · simp at hs
  | call a =>
    simp only [Mpi.step] at hs; split at hs
    · rename_i ha
      simp only [Option.some.injEq] at hs; subst hs
      refine ⟨h.ended, ?_, ?_, h.bound, ?_⟩
      · intro v pre b c post e
        simp only [setAt] at e
        split at e
        · rename_i hv; subst hv
          rcases List.eq_nil_or_concat post with rfl | ⟨p, x, rfl⟩
          · have h1 := List.append_inj' e rfl
            simp only [List.cons.injEq, Msg.call.injEq, and_true] at h1
            obtain ⟨h1, rfl, rfl⟩ := h1
            rw [← h1]
            exact h.live a ha
          · have e' : s.chan (s.place a) ++ [Msg.call a s.calls] = (pre ++ .call b c :: p) ++ [x] := by simpa using e
            exact h.order _ pre b c p (List.append_inj_left' e' rfl)
        · exact h.order v pre b c post e
      · intro b hb
        simp only [setAt]
        rcases h.live b hb with h1 | h1
        · exact Or.inl h1
        · right; split
          · rename_i e; rw [e] at h1; simp [h1]
          · exact h1
      · intro c hc
        simp only at hc
        by_cases e : c = s.calls
        · exact Or.inr ⟨s.place a, a, by simp [setAt, e]⟩
        · rcases h.calls c (by omega) with h1 | ⟨v, b, h1⟩
          · exact Or.inl h1
          · refine Or.inr ⟨v, b, ?_⟩
            simp only [setAt]; split
            · rename_i e; subst e; simp [h1]
            · exact h1
    · simp at hs
  | drop a =>
    simp only [Mpi.step] at hs; split at hs
    · simp only [Option.some.injEq] at hs; subst hs
      exact ⟨h.ended, h.order, fun b hb => h.live b (List.mem_filter.1 hb).1, fun b hb => h.bound b (List.mem_filter.1 hb).1, h.calls⟩
    · simp at hs
  | cleanup =>
    simp only [Mpi.step, Option.some.injEq] at hs; subst hs
    refine ⟨h.ended, ?_, ?_, h.bound, ?_⟩
    · intro v pre a c post e
      simp only at e
      split at e
      · exact mpiLife_append h v (by simp) e
      · exact h.order v pre a c post e
    · intro b hb
      rcases h.live b hb with h1 | h1
      · exact Or.inl h1
      · right; simp only; split
        · simp [h1]
        · exact h1
    · intro c hc
      rcases h.calls c hc with h1 | ⟨v, b, h1⟩
      · exact Or.inl h1
      · refine Or.inr ⟨v, b, ?_⟩
        simp only; split
        · simp [h1]
        · exact h1
  | deliver w =>
    simp only [Mpi.step, h.ended w, Bool.false_eq_true, if_false] at hs
    split at hs
    · simp at hs
    · rename_i a l hq
      simp only [Option.some.injEq] at hs; subst hs
      refine ⟨h.ended, ?_, ?_, h.bound, ?_⟩
      · intro v pre b c post e
        simp only [setAt] at e ⊢
        split at e
        · rename_i hv; subst hv
          rcases h.order v (.create a :: pre) b c post (by rw [hq, e]; rfl) with h1 | h1
          · simp [h1]
          · simp only [List.mem_cons, Msg.create.injEq] at h1
            rcases h1 with rfl | h1
            · simp
            · exact Or.inr h1
        · rename_i hv
          rw [if_neg hv]
          exact h.order v pre b c post e
      · intro b hb
        simp only [setAt]
        rcases h.live b hb with h1 | h1
        · left; split
          · rename_i e; rw [e] at h1; simp [h1]
          · exact h1
        · split
          · rename_i e
            rw [e, hq] at h1
            simp only [List.mem_cons, Msg.create.injEq] at h1
            rcases h1 with rfl | h1
            · simp
            · exact Or.inr h1
          · exact Or.inr h1
      · intro c hc
        rcases h.calls c hc with h1 | ⟨v, b, h1⟩
        · exact Or.inl h1
        · refine Or.inr ⟨v, b, ?_⟩
          simp only [setAt]; split
          · rename_i e; subst e; rw [hq] at h1; simpa using h1
          · exact h1
    · rename_i a c0 l hq
      have hin : a ∈ s.map w := by
        rcases h.order w [] a c0 l (by rw [hq]; rfl) with h1 | h1
        · exact h1
        · simp at h1
      rw [if_pos hin] at hs
      simp only [Option.some.injEq] at hs; subst hs
      refine ⟨h.ended, ?_, ?_, h.bound, ?_⟩
      · intro v pre b c post e
        simp only [setAt] at e
        split at e
        · rename_i hv; subst hv
          rcases h.order v (.call a c0 :: pre) b c post (by rw [hq, e]; rfl) with h1 | h1
          · exact Or.inl h1
          · simpa using Or.inr h1
        · exact h.order v pre b c post e
      · intro b hb
        simp only [setAt]
        rcases h.live b hb with h1 | h1
        · exact Or.inl h1
        · right; split
          · rename_i e; rw [e, hq] at h1; simpa using h1
          · exact h1
      · intro c hc
        by_cases e : c = c0
        · exact Or.inl (by simp [setAt, e])
        · rcases h.calls c hc with h1 | ⟨v, b, h1⟩
          · exact Or.inl (by simp [setAt, e, h1])
          · refine Or.inr ⟨v, b, ?_⟩
            simp only [setAt]; split
            · rename_i e'; subst e'; rw [hq] at h1
              simp only [List.mem_cons, Msg.call.injEq] at h1
              rcases h1 with ⟨-, rfl⟩ | h1
              · exact absurd rfl e
              · exact h1
            · exact h1
    · rename_i ids l hq
      simp only [Option.some.injEq] at hs; subst hs
      refine ⟨h.ended, ?_, ?_, h.bound, ?_⟩
      · intro v pre b c post e
        simp only [setAt] at e
        split at e
        · rename_i hv; subst hv
          rcases h.order v (.clean ids :: pre) b c post (by rw [hq, e]; rfl) with h1 | h1
          · exact Or.inl h1
          · simpa using Or.inr h1
        · exact h.order v pre b c post e
      · intro b hb
        simp only [setAt]
        rcases h.live b hb with h1 | h1
        · exact Or.inl h1
        · right; split
          · rename_i e; rw [e, hq] at h1; simpa using h1
          · exact h1
      · intro c hc
        rcases h.calls c hc with h1 | ⟨v, b, h1⟩
        · exact Or.inl h1
        · refine Or.inr ⟨v, b, ?_⟩
          simp only [setAt]; split
          · rename_i e'; subst e'; rw [hq] at h1; simpa using h1
          · exact h1

theorem mpiLife_run : ∀ (os : List MOp) {s t : Mpi}, MpiLife s → s.run os = some t → MpiLife t
  | [], s, t, h, hr => by simp only [Mpi.run, Option.some.injEq] at hr; rw [← hr]; exact h
  | o :: os, s, t, h, hr => by
    simp only [Mpi.run] at hr
    split at hr
    · rename_i s1 h1; exact mpiLife_run os (mpiLife_step h h1) hr
    · simp at hr

/-- First half on MPI: whatever is dropped and cleaned up, every call has its value once all messages have arrived, and no worker ends.
Missing: the actors are never destroyed (`C107_mpi_violated`). -/
theorem C107_mpi_partial (ws : List Nat) (os : List MOp) (s : Mpi) (h : (Mpi.init ws).run os = some s)
    (hidle : ∀ w, s.step (.deliver w) = none) (c : Nat) (hc : c < s.calls) : s.result c = some .value ∧ ∀ w, s.ended w = false := by
  have hi : MpiLife (Mpi.init ws) :=
    ⟨fun _ => rfl, by simp [Mpi.init], by simp [Mpi.init], by simp [Mpi.init], by simp [Mpi.init]⟩
  have hs := mpiLife_run os hi h
  refine ⟨?_, hs.ended⟩
  rcases hs.calls c hc with h1 | ⟨w, a, h1⟩
  · exact h1
  · have h2 := hidle w
    simp only [Mpi.step, hs.ended w, Bool.false_eq_true, if_false] at h2
    split at h2
    · rename_i e; rw [e] at h1; simp at h1
    · simp at h2
    · split at h2 <;> simp at h2
    · simp at h2

/-- The handle is dropped right after the call: the call has its value all the same. -/
def exMpiDropped : List MOp := [.create 2, .call 0, .drop 0, .cleanup, .deliver 2, .deliver 2, .deliver 2]

set_option synthInstance.maxSize 1000 in
example : ((Mpi.init [2]).run exMpiDropped).map (fun s => (s.calls, s.result 0, s.chan 2, s.queue, s.live, s.map 2)) =
    some (1, some .value, [], [], [], [0]) := by decide

/-- The actor stays in the worker although no handle is left. -/
theorem C107_mpi_violated : ¬ C107_full := by
  rintro ⟨-, h⟩
  have := (h [2] exMpiDropped _ rfl (by
    intro w
    by_cases e : w = 2 <;> simp [Mpi.step, setAt, e, Mpi.init]) rfl).2 2 0 (by simp [setAt, Mpi.init])
  simp [Mpi.init] at this

/-- On MPI no actor is ever destroyed: nothing that the program does later removes it. -/
theorem C107_mpi_forever (a w : Nat) : ∀ (os : List MOp) (s t : Mpi), s.run os = some t → a ∈ s.map w → a ∈ t.map w
  | [], s, t, hr, h => by simp only [Mpi.run, Option.some.injEq] at hr; rw [← hr]; exact h
  | o :: os, s, t, hr, h => by
    simp only [Mpi.run] at hr
    split at hr
    · rename_i s1 h1
      refine C107_mpi_forever a w os s1 t hr ?_
      cases o with
      | create v => simp only [Mpi.step] at h1; split at h1 <;> simp at h1; rw [← h1]; exact h
      | call b => simp only [Mpi.step] at h1; split at h1 <;> simp at h1; rw [← h1]; exact h
      | drop b => simp only [Mpi.step] at h1; split at h1 <;> simp at h1; rw [← h1]; exact h
      | cleanup => simp only [Mpi.step, Option.some.injEq] at h1; rw [← h1]; exact h
      | deliver v =>
        simp only [Mpi.step] at h1
        split at h1
        · simp at h1
        · split at h1
          · simp at h1
          · simp only [Option.some.injEq] at h1; rw [← h1]; simp only [setAt]; split
            · rename_i e; subst e; simp [h]
            · exact h
          · split at h1 <;> (simp only [Option.some.injEq] at h1; rw [← h1]; exact h)
          · simp only [Option.some.injEq] at h1; rw [← h1]; exact h
    · simp at hr

theorem pympGrab_run : ∀ (os : List POp) {s t : Pymp}, PympAlone s → (∀ w, s.grabbed w = true → ∃ a ∈ s.live, s.place a = w) →
    s.run os = some t → ∀ w, t.grabbed w = true → ∃ a ∈ t.live, t.place a = w
  | [], s, t, _, h, hr => by simp only [Pymp.run, Option.some.injEq] at hr; rw [← hr]; exact h
  | o :: os, s, t, ha, h, hr => by
    simp only [Pymp.run] at hr
    split at hr
    · rename_i s1 h1
      refine pympGrab_run os (pympAlone_step ha h1) ?_ hr
      intro w hw
      cases o with
      | create v =>
        simp only [Pymp.step] at h1; split at h1
        · simp only [Option.some.injEq] at h1; subst h1
          simp only [setAt] at hw ⊢
          by_cases e : w = v
          · exact ⟨s.actors, by simp, by simp [e]⟩
          · rw [if_neg e] at hw
            obtain ⟨a, h2, h3⟩ := h w hw
            have := ha.lt a h2
            exact ⟨a, by simp [h2], by rw [if_neg (by omega)]; exact h3⟩
        · cases h1
      | call b => simp only [Pymp.step] at h1; split at h1 <;> simp at h1; subst h1; exact h w hw
      | task v => simp only [Pymp.step] at h1; split at h1 <;> simp at h1; subst h1; exact h w hw
      | drop b =>
        simp only [Pymp.step] at h1; split at h1
        · simp only [Option.some.injEq] at h1; subst h1
          simp only [setAt] at hw ⊢
          by_cases e : w = s.place b
          · simp [e] at hw
          · rw [if_neg e] at hw
            obtain ⟨a, h2, h3⟩ := h w hw
            exact ⟨a, by simp only [List.mem_filter, decide_eq_true_eq]; exact ⟨h2, fun e2 => e (by rw [← h3, e2])⟩, h3⟩
        · cases h1
      | take v =>
        simp only [Pymp.step] at h1
        split at h1
        · cases h1
        · split at h1
          · cases h1
          · split at h1
            · simp only [Option.some.injEq] at h1; subst h1; exact h w hw
            · split at h1 <;> (simp only [Option.some.injEq] at h1; subst h1; exact h w hw)
      | finish v =>
        simp only [Pymp.step] at h1
        split at h1
        · cases h1
        · simp only [Option.some.injEq] at h1; subst h1; exact h w hw
    · cases hr

/-- C107, the worker of an actor on multiprocessing: after any history exactly the workers of the actors with a handle are
taken, so a worker can be given to tasks and actors again as soon as the handle of its actor is dropped. -/
theorem C107_freed_partial (n : Nat) (os : List POp) (s : Pymp) (h : (Pymp.init n).run os = some s) (w : Nat) :
    (s.grabbed w = true ↔ ∃ a ∈ s.live, s.place a = w) ∧
    (w < n → ((s.step (.task w)).isSome = true ↔ ∀ a ∈ s.live, s.place a ≠ w) ∧
      ((s.step (.create w)).isSome = true ↔ ∀ a ∈ s.live, s.place a ≠ w)) := by
  have hi := pympAlone_run os (s := Pymp.init n) ⟨by simp [Pymp.init], by simp [Pymp.init], by simp [Pymp.init]⟩ h
  have hn : ∀ (os : List POp) (s t : Pymp), s.run os = some t → t.n = s.n := by
    intro os
    induction os with
    | nil => intro s t hr; simp only [Pymp.run, Option.some.injEq] at hr; rw [hr]
    | cons o os ih =>
      intro s t hr
      simp only [Pymp.run] at hr
      split at hr
      · rename_i s1 h1
        rw [ih s1 t hr]
        cases o <;> simp only [Pymp.step] at h1 <;> repeat' split at h1
        all_goals first | cases h1; done | (simp only [Option.some.injEq] at h1; rw [← h1])
      · cases hr
  have hg : s.grabbed w = true ↔ ∃ a ∈ s.live, s.place a = w :=
    ⟨pympGrab_run os (s := Pymp.init n) ⟨by simp [Pymp.init], by simp [Pymp.init], by simp [Pymp.init]⟩ (by simp [Pymp.init]) h w,
      fun ⟨a, ha, e⟩ => e ▸ hi.grabbed a ha⟩
  have hf : s.grabbed w = false ↔ ∀ a ∈ s.live, s.place a ≠ w := by
    rw [← Bool.not_eq_true, hg]; simp
  refine ⟨hg, fun hw => ?_⟩
  have : s.n = n := hn os _ _ h
  simp only [Pymp.step, this, hw, true_and, hf]
  constructor <;> (split <;> simp_all)

/-- The worker of a dropped actor takes tasks again. -/
example : ((Pymp.init 1).run [.create 0]).map (fun s => (s.step (.task 0)).isSome) = some false ∧
    ((Pymp.init 1).run [.create 0, .drop 0]).map (fun s => (s.step (.task 0)).isSome) = some true := by decide

/-- Live actors are numbered, and the reserved ranks are their workers, each once. -/
structure MpiAlone (s : Mpi) : Prop where
  lt : ∀ a ∈ s.live, a < s.actors
  nodup : s.reserved.Nodup
  reserved : ∀ w, w ∈ s.reserved ↔ ∃ a ∈ s.live, s.place a = w
  apart : ∀ a ∈ s.live, ∀ b ∈ s.live, s.place a = s.place b → a = b

theorem mpiAlone_step {s t : Mpi} (h : MpiAlone s) {o : MOp} (hs : s.step o = some t) : MpiAlone t := by
  cases o with
  | create w =>
    simp only [Mpi.step] at hs; split at hs
    · rename_i hc
      simp only [Option.some.injEq] at hs; subst hs
      have hne : ∀ a ∈ s.live, a ≠ s.actors := fun a ha => by have := h.lt a ha; omega
      have hw : ∀ a ∈ s.live, s.place a ≠ w := fun a ha e => hc.2 ((h.reserved w).2 ⟨a, ha, e⟩)
      refine ⟨fun a ha => ?_, List.nodup_cons.2 ⟨hc.2, h.nodup⟩, fun v => ?_, fun a ha b hb hab => ?_⟩
      · rcases List.mem_cons.1 ha with rfl | ha
        · exact Nat.lt_succ_self _
        · exact Nat.lt_succ_of_lt (h.lt a ha)
      · simp only [List.mem_cons, h.reserved, setAt]
        constructor
        · rintro (rfl | ⟨a, ha, e⟩)
          · exact ⟨_, Or.inl rfl, if_pos rfl⟩
          · exact ⟨a, Or.inr ha, by rw [if_neg (hne a ha)]; exact e⟩
        · rintro ⟨a, rfl | ha, e⟩
          · rw [if_pos rfl] at e; exact Or.inl e.symm
          · rw [if_neg (hne a ha)] at e; exact Or.inr ⟨a, ha, e⟩
      · rcases List.mem_cons.1 ha with rfl | ha <;> rcases List.mem_cons.1 hb with rfl | hb
        · rfl
        · simp [setAt, hne b hb] at hab; exact absurd hab.symm (hw b hb)
        · simp [setAt, hne a ha] at hab; exact absurd hab (hw a ha)
        · simp only [setAt, if_neg (hne a ha), if_neg (hne b hb)] at hab; exact h.apart a ha b hb hab
    · cases hs
  | call a =>
    simp only [Mpi.step] at hs; split at hs
    · simp only [Option.some.injEq] at hs; subst hs; exact ⟨h.lt, h.nodup, h.reserved, h.apart⟩
    · cases hs
  | drop a =>
    simp only [Mpi.step] at hs; split at hs
    · rename_i hl
      simp only [Option.some.injEq] at hs; subst hs
      have hm : ∀ b, b ∈ s.live.filter (· ≠ a) ↔ b ∈ s.live ∧ b ≠ a := fun b => by simp
      refine ⟨fun b hb => h.lt b ((hm b).1 hb).1, h.nodup.erase _, fun w => ?_,
        fun b hb c hc => h.apart b ((hm b).1 hb).1 c ((hm c).1 hc).1⟩
      rw [h.nodup.mem_erase_iff, h.reserved]
      constructor
      · rintro ⟨hne, b, hb, e⟩
        exact ⟨b, (hm b).2 ⟨hb, fun e2 => hne (by rw [← e, e2])⟩, e⟩
      · rintro ⟨b, hb, e⟩
        obtain ⟨h1, h2⟩ := (hm b).1 hb
        exact ⟨fun e2 => h2 (h.apart b h1 a hl (by rw [← e2]; exact e)), b, h1, e⟩
    · cases hs
  | cleanup => simp only [Mpi.step, Option.some.injEq] at hs; subst hs; exact ⟨h.lt, h.nodup, h.reserved, h.apart⟩
  | deliver w =>
    simp only [Mpi.step] at hs
    split at hs
    · cases hs
    · split at hs
      · cases hs
      · simp only [Option.some.injEq] at hs; subst hs; exact ⟨h.lt, h.nodup, h.reserved, h.apart⟩
      · split at hs <;> (simp only [Option.some.injEq] at hs; subst hs; exact ⟨h.lt, h.nodup, h.reserved, h.apart⟩)
      · simp only [Option.some.injEq] at hs; subst hs; exact ⟨h.lt, h.nodup, h.reserved, h.apart⟩

/-- C107, the worker of an actor on MPI: after any history exactly the ranks of the actors with a handle are reserved, and no
two such actors share a rank. So a rank can be given to another actor as soon as the handle of its actor is dropped. -/
theorem C107_mpi_freed_partial (ws : List Nat) (os : List MOp) (s : Mpi) (h : (Mpi.init ws).run os = some s) :
    (∀ w, w ∈ s.reserved ↔ ∃ a ∈ s.live, s.place a = w) ∧
    (∀ a ∈ s.live, ∀ b ∈ s.live, s.place a = s.place b → a = b) ∧
    ∀ w ∈ ws, (s.step (.create w)).isSome = true ↔ ∀ a ∈ s.live, s.place a ≠ w := by
  have key : ∀ (os : List MOp) (s t : Mpi), MpiAlone s → s.run os = some t → MpiAlone t ∧ t.workers = s.workers := by
    intro os
    induction os with
    | nil => intro s t hs hr; simp only [Mpi.run, Option.some.injEq] at hr; rw [← hr]; exact ⟨hs, rfl⟩
    | cons o os ih =>
      intro s t hs hr
      simp only [Mpi.run] at hr
      split at hr
      · rename_i s1 h1
        obtain ⟨h2, h3⟩ := ih s1 t (mpiAlone_step hs h1) hr
        refine ⟨h2, h3.trans ?_⟩
        cases o <;> simp only [Mpi.step] at h1 <;> repeat' split at h1
        all_goals first | cases h1; done | (simp only [Option.some.injEq] at h1; rw [← h1])
      · cases hr
  obtain ⟨hi, hw⟩ := key os _ s ⟨by simp [Mpi.init], by simp [Mpi.init], by simp [Mpi.init], by simp [Mpi.init]⟩ h
  refine ⟨hi.reserved, hi.apart, fun w hm => ?_⟩
  have hm' : w ∈ s.workers := by rw [hw]; exact hm
  have hf : w ∉ s.reserved ↔ ∀ a ∈ s.live, s.place a ≠ w := by rw [hi.reserved]; simp
  simp only [Mpi.step, hm', true_and, hf]
  split <;> simp_all

/-- The rank of a dropped actor is given to the next one. -/
example : ((Mpi.init [2]).run [.create 2]).map (fun s => (s.step (.create 2)).isSome) = some false ∧
    ((Mpi.init [2]).run [.create 2, .drop 0, .create 2]).map (fun s => (s.reserved, s.live)) = some ([2], [1]) := by decide

end Verif.Props
