import Verif.Lemmas.WaitMany
import Verif.Lemmas.Decide

/-! Property C89: `wait` called by several processes. -/
namespace Verif.Props
open Verif.WaitMany

set_option synthInstance.maxSize 1000

/-- C89 in full, first half: whoever called it, `wait` returns a partition of its list with `num_returns` ready references. -/
def C89_full : Prop :=
  ∀ (acts : List WaitMany.Act) (s : WaitMany.State), State.init.run acts = some s →
    ∀ p ids num o, (p, ids, num, o) ∈ s.results →
      ∃ ready notReady, o = some (ready, notReady) ∧ (ready ++ notReady).Perm ids ∧ (ready.length : Int) = num

/-- C89 in full, second half: when no message is under way, no `wait` is in progress all of whose references are
computed. -/
def C89_live_full : Prop :=
  ∀ (acts : List WaitMany.Act) (s : WaitMany.State), State.init.run acts = some s →
    s.requests = [] → s.reports = [] → s.replies = [] → ∀ p c, s.call p = some c → 1 ≤ c.num → c.num ≤ c.ids.length →
      ¬ ∀ i ∈ c.ids, ∃ v, Act.finish [i] (.ret v) ∈ acts

/-- A task on process 2 waits for reference 7, the main process for reference 8. The reply for the task goes to the main
process, which looks up a reference that it never asked for. -/
theorem C89_stolen_reply_violated : ¬ C89_full := by
  intro h
  obtain ⟨s, hr, hs⟩ := Option.map_eq_some_iff.1 (show (State.init.run
    [.wait 2 [7] 1, .request 0, .wait 0 [8] 1, .finish [7] (.ret (.data 0)), .report 0, .reply]).map (·.results) =
      some [(0, [8], 1, none)] by decide +kernel)
  obtain ⟨a, b, h1, _⟩ := h _ s hr 0 [8] 1 none (by rw [hs]; simp)
  cases h1

/-- A task on process 2 waits for a reference that is computed; the reply went to process 0. -/
theorem C89_task_waits_forever_violated : ¬ C89_live_full := by
  intro h
  obtain ⟨s, hr, hs⟩ := Option.map_eq_some_iff.1 (show (State.init.run
    [.wait 0 [8] 1, .wait 2 [7] 1, .request 1, .finish [7] (.ret (.data 0)), .report 0, .reply, .request 0]).map
      (fun s => (s.call 2, s.requests.isEmpty, s.reports.isEmpty, s.replies.isEmpty)) =
      some (some ⟨[7], 1, [], [7]⟩, true, true, true) by decide +kernel)
  simp only [Prod.mk.injEq, List.isEmpty_iff] at hs
  refine h _ s hr hs.2.1 hs.2.2.1 hs.2.2.2 2 _ hs.1 (by decide) (by decide) ?_
  intro i hi
  simp only [List.mem_singleton] at hi
  subst hi
  exact ⟨.data 0, by simp⟩

/-- More than a witness: once a task (a process other than 0) has sent its `WAIT` request, its `wait` is still in progress
after every continuation. -/
theorem C89_wait_in_task_never_returns (acts more : List WaitMany.Act) (s s' : WaitMany.State) (p : Nat) (c : Wait.Call)
    (hp : p ≠ 0) (_hr : State.init.run acts = some s) (hc : s.call p = some c) (hm : s.run more = some s') :
    s'.call p = some c :=
  call_stays more hm hp hc

/-- Two requests at the monitor: the second replaces the first, so the main process waits for a computed reference. -/
example : (State.init.run [.wait 0 [8] 1, .request 0, .wait 2 [7] 1, .request 0, .finish [8] (.ret (.data 0)), .report 0]).map
    (fun s => ((s.call 0).isSome, s.replies, s.monitor.awaited)) = some (true, [], [7]) := by decide +kernel

/-- C89 as far as it holds: if only the main process calls `wait`, every result is a partition with `num_returns` ready
references, each of them stored or computed. Missing: `wait` in tasks. -/
theorem C89_main_process_only_partial (acts : List WaitMany.Act) (s : WaitMany.State) (hr : State.init.run acts = some s)
    (ha : ∀ p ids num, Act.wait p ids num ∈ acts → p = 0) (p : Nat) (ids : List Nat) (num : Int) (o : Option (List Nat × List Nat))
    (hm : (p, ids, num, o) ∈ s.results) :
    ∃ ready notReady, o = some (ready, notReady) ∧ (ready ++ notReady).Perm ids ∧ (ready.length : Int) = num ∧
      ∀ i ∈ ready, Act.store 0 i ∈ acts ∨ ∃ outs r, Act.finish outs r ∈ acts ∧ Wait.Computed outs r i := by
  obtain ⟨t, ht, hs⟩ := sim_run (before := []) rfl acts ha sim_init hr
  obtain ⟨ready, notReady, h1, h2⟩ := hs.results p ids num o hm
  obtain ⟨h3, h4, h5⟩ := C39_partition _ t ht ids num ready notReady h1
  rcases h2 with h2 | ⟨_, i, hi, hn⟩
  · refine ⟨ready, notReady, h2, h3, h4, fun i hi => ?_⟩
    rcases h5 i hi with h6 | ⟨outs, r, h6, h7⟩
    · left
      rw [List.nil_append, List.mem_flatMap] at h6
      obtain ⟨a, h8, h9⟩ := h6
      cases a with
      | store q j =>
        simp only [project] at h9
        split at h9
        · next hq => simp at h9; subst hq h9; exact h8
        · cases h9
      | _ => simp [project] at h9
    · right
      refine ⟨outs, r, ?_, h7⟩
      rw [List.nil_append, List.mem_flatMap] at h6
      obtain ⟨a, h8, h9⟩ := h6
      cases a with
      | store q j => simp only [project] at h9; split at h9 <;> simp at h9
      | finish outs' r' => simp [project] at h9; obtain ⟨rfl, rfl⟩ := h9; exact h8
      | _ => simp [project] at h9
  · exact absurd ((h3.mem_iff).1 hi) hn

/-- The main process waits twice while other processes only store data. -/
example : (State.init.run [.store 2 5, .store 0 3, .wait 0 [1, 3, 4] 2, .request 0, .finish [4] (.ret (.data 0)), .report 0,
    .reply, .wait 0 [3] 1]).map (·.results) =
    some [(0, [1, 3, 4], 2, some ([3, 4], [1])), (0, [3], 1, some ([3], []))] := by decide +kernel

/-- C89 as far as it holds, second half: if only the main process calls `wait`, then a `wait` that is in progress while no message is under
way has fewer than `num_returns` references that were stored in the main process or computed, whatever the other processes store.
Missing: `wait` in tasks. -/
theorem C89_main_process_returns_partial (acts : List WaitMany.Act) (s : WaitMany.State) (hr : State.init.run acts = some s)
    (ha : ∀ p ids num, Act.wait p ids num ∈ acts → p = 0) (h1 : s.requests = []) (h2 : s.reports = []) (h3 : s.replies = [])
    (p : Nat) (c : Wait.Call) (hc : s.call p = some c) (hn : 1 ≤ c.num) (fin : List Nat) (hf : fin.Sublist c.ids)
    (hd : ∀ i ∈ fin, Act.store 0 i ∈ acts ∨ ∃ outs r, Act.finish outs r ∈ acts ∧ Wait.Computed outs r i) :
    p = 0 ∧ (fin.length : Int) < c.num := by
  obtain ⟨t, ht, hs⟩ := sim_run (before := []) rfl acts ha sim_init hr
  by_cases hp : p = 0
  · subst hp
    refine ⟨rfl, C40_succeeded_partial _ t c ht ?_ (hs.reports ▸ h2) (hs.replies ▸ h3) (hs.call ▸ hc) hn fin hf ?_⟩
    · have := hs.requests
      rw [h1] at this
      cases hq : t.request with
      | none => rfl
      | some q => rw [hq] at this; simp at this
    · intro i hi
      simp only [List.nil_append, List.mem_flatMap]
      rcases hd i hi with h | ⟨outs, r, h, hcomp⟩
      · exact .inl ⟨_, h, by simp [project]⟩
      · exact .inr ⟨outs, r, ⟨_, h, by simp [project]⟩, hcomp⟩
  · rw [hs.others p hp] at hc
    cases hc

/-- Of two references one is computed, and a task stores the other one in its own process: `wait` for both goes on. -/
example : (State.init.run [.wait 0 [8, 9] 2, .request 0, .store 3 9, .finish [8] (.ret (.data 0)), .report 0]).map
    (fun s => ((s.call 0).map (·.num), s.requests, s.reports.length, s.replies)) = some (some 2, [], 0, []) := by decide +kernel

end Verif.Props
