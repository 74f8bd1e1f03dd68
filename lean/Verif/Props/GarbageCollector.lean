import Verif.Lemmas.GarbageCollector

/-! Properties of the clean-up of dropped references (C45, C46, C47). -/
namespace Verif.Props
open Verif.GC

/-- Process `p` broadcasts a cleanup list when it reaches `regular_cleanup` in state `s`. -/
def Broadcasts (s : State) (p : Nat) (a : Attempt) : Prop := ∃ ids, (s.step (.cleanup p a)).sent = s.sent ++ [(p, ids)]

theorem broadcasts_iff {s : State} {p : Nat} {a : Attempt} :
    Broadcasts s p a ↔ ∃ ids, ((s.collectors p).cleanup s.executed a).2 = some ids := by
  unfold Broadcasts
  rw [sent_cleanup]
  constructor
  · rintro ⟨ids, h⟩
    rw [List.append_cancel_left_eq] at h
    cases hc : ((s.collectors p).cleanup s.executed a).2 with
    | none => rw [hc] at h; simp at h
    | some l => exact ⟨l, rfl⟩
  · rintro ⟨ids, h⟩
    exact ⟨ids, by rw [h]⟩

/-! ### C45 -/

/-- **C45** as stated: at a broadcast nothing submitted before is unfinished. -/
def C45_full : Prop := ∀ (acts : List Act) (p : Nat) (a : Attempt), Broadcasts (State.init.run acts) p a →
  (State.init.run acts).pending = []

/-- Eleven dropped references and four earlier API calls of process `p`. -/
def exDrops (p : Nat) : List Act :=
  (List.range 11).map (fun i => .drop p (p, i)) ++ List.replicate 4 (.cleanup p ⟨2000000000, [], 2000000000⟩)

/-- The code violates C45: an actor method that finished makes up for a task that has not. -/
theorem C45_method_violated : ¬ C45_full := by
  intro h
  have hb : Broadcasts (State.init.run ([.task 0, .method 0, .finish 1, .report] ++ exDrops 0)) 0 ⟨2000000000, [], 2000000000⟩ :=
    broadcasts_iff.2 (Option.isSome_iff_exists.1 (by decide +kernel))
  exact absurd (h _ _ _ hb) (by decide +kernel)

/-- The code violates C45 also without actors: a worker compares the tasks it submitted with the tasks executed for all
processes. -/
theorem C45_processes_violated : ¬ C45_full := by
  intro h
  have hb : Broadcasts (State.init.run ([.task 0, .task 2, .finish 0, .report] ++ exDrops 2)) 2 ⟨2000000000, [], 2000000000⟩ :=
    broadcasts_iff.2 (Option.isSome_iff_exists.1 (by decide +kernel))
  exact absurd (h _ _ _ hb) (by decide +kernel)

/-- The part of C45 that holds: if only one process submits work and it calls no actor methods, then at a broadcast
everything submitted before has finished (and was reported to the monitor). Missing: actor methods and several submitting
processes, for which it is false. -/
theorem C45_single_partial (acts : List Act) (p : Nat) (a : Attempt) (hm : ∀ q, Act.method q ∉ acts)
    (ht : ∀ q, Act.task q ∈ acts → q = p) (hb : Broadcasts (State.init.run acts) p a) :
    (State.init.run acts).pending = [] ∧ (State.init.run acts).flight = 0 := by
  obtain ⟨ids, h⟩ := broadcasts_iff.1 hb
  obtain ⟨-, -, -, he, -⟩ := cleanup_some h
  have h1 := submitted_run State.init acts p
  have h2 := jobs_le inv_init acts
  have h3 := jobsIn_eq_tasksOf hm ht
  have h4 : (State.init.collectors p).submitted = 0 := rfl
  have h5 : State.init.executed = 0 ∧ State.init.flight = 0 ∧ State.init.pending.length = 0 := ⟨rfl, rfl, rfl⟩
  have h6 : (State.init.run acts).pending.length = 0 := by omega
  exact ⟨List.length_eq_zero_iff.1 h6, by omega⟩

/-- Work that the collector of process `p` does not count: actor methods, and tasks of other processes. -/
def uncounted (p : Nat) : Act → Bool
  | .method _ => true
  | .task q => q != p
  | _ => false

private theorem jobsIn_split (p : Nat) (acts : List Act) : jobsIn acts = tasksOf p acts + acts.countP (uncounted p) := by
  induction acts with
  | nil => rfl
  | cons a l ih =>
    simp only [jobsIn, tasksOf, List.countP_cons, List.count_cons] at ih ⊢
    cases a with
    | task q =>
      by_cases e : q = p
      · subst e; simp [uncounted]; omega
      · simp [uncounted, e]; omega
    | method q => simp [uncounted]; omega
    | _ => simp [uncounted]; omega

/-- How much of C45 fails: at a broadcast of process `p` exactly as many pieces of work are unfinished or not yet reported as there were actor
methods and tasks of other processes (fewer if coroutine tasks failed, which are not reported at all). -/
theorem C45_count_partial (acts : List Act) (p : Nat) (a : Attempt) (hb : Broadcasts (State.init.run acts) p a) :
    (State.init.run acts).pending.length + (State.init.run acts).flight ≤ acts.countP (uncounted p) ∧
    ((∀ n, Act.failCoroutine n ∉ acts) →
      (State.init.run acts).pending.length + (State.init.run acts).flight = acts.countP (uncounted p)) := by
  obtain ⟨ids, h⟩ := broadcasts_iff.1 hb
  obtain ⟨-, -, -, he, -⟩ := cleanup_some h
  have h1 := submitted_run State.init acts p
  have h2 := jobs_le inv_init acts
  have h3 := jobsIn_split p acts
  have h4 : (State.init.collectors p).submitted = 0 := rfl
  have h5 : State.init.executed = 0 ∧ State.init.flight = 0 ∧ State.init.pending.length = 0 := ⟨rfl, rfl, rfl⟩
  refine ⟨by omega, fun hf => ?_⟩
  have h6 := jobs_eq inv_init acts hf
  omega

/-- Process 0 submits a task and calls a method, process 3 submits a task. When one of the three has finished, process 0 broadcasts. -/
example : Broadcasts (State.init.run ([.task 0, .method 0, .task 3, .finish 1, .report] ++ exDrops 0)) 0 ⟨2000000000, [], 2000000000⟩ ∧
    (State.init.run ([.task 0, .method 0, .task 3, .finish 1, .report] ++ exDrops 0)).pending.length = 2 :=
  ⟨broadcasts_iff.2 (Option.isSome_iff_exists.1 (by decide +kernel)), by decide +kernel⟩

-- two tasks, one finished: no broadcast; both finished: broadcast
example : ¬ Broadcasts (State.init.run ([.task 0, .task 0, .finish 1, .report] ++ exDrops 0)) 0 ⟨2000000000, [], 2000000000⟩ := by
  rw [broadcasts_iff, ← Option.isSome_iff_exists]
  decide +kernel

example : Broadcasts (State.init.run ([.task 0, .task 0, .finish 1, .report, .finish 0, .report] ++ exDrops 0)) 0
    ⟨2000000000, [], 2000000000⟩ :=
  broadcasts_iff.2 (Option.isSome_iff_exists.1 (by decide +kernel))

/-! ### C46 -/

/-- The references of process `p` finalized in a history: those of the `drop` steps, and those finalized while a cleanup
list was being sent. -/
def droppedIn (p : Nat) : State → List Act → List Id
  | _, [] => []
  | s, .drop q id :: l => (if q = p then [id] else []) ++ droppedIn p (s.step (.drop q id)) l
  | s, .cleanup q a :: l =>
    (if q = p ∧ (s.step (.cleanup q a)).sent.length ≠ s.sent.length then a.late else []) ++ droppedIn p (s.step (.cleanup q a)) l
  | s, .task q :: l => droppedIn p (s.step (.task q)) l
  | s, .method q :: l => droppedIn p (s.step (.method q)) l
  | s, .finish n :: l => droppedIn p (s.step (.finish n)) l
  | s, .failCoroutine n :: l => droppedIn p (s.step (.failCoroutine n)) l
  | s, .report :: l => droppedIn p (s.step .report) l

/-- The references process `p` broadcast, in order. -/
def broadcastBy (p : Nat) (s : State) : List Id := ((s.sent.filter (·.1 = p)).map (·.2)).flatten

/-- **C46** as stated: what was finalized is, in order and each occurrence once, what was broadcast and what is queued. -/
def C46_full : Prop := ∀ (acts : List Act) (p : Nat),
  broadcastBy p (State.init.run acts) ++ ((State.init.run acts).collectors p).queue = droppedIn p State.init acts

/-- The code violates C46: a reference finalized while the list is being sent is neither sent nor kept. -/
theorem C46_late_violated : ¬ C46_full := by
  intro h
  have h1 := h (exDrops 0 ++ [.cleanup 0 ⟨2000000000, [(0, 77)], 2000000000⟩]) 0
  exact absurd h1 (by decide +kernel)

theorem dropped_general (s : State) (acts : List Act) (p : Nat) (hl : ∀ q a, Act.cleanup q a ∈ acts → a.late = []) :
    broadcastBy p (s.run acts) ++ ((s.run acts).collectors p).queue =
      broadcastBy p s ++ (s.collectors p).queue ++ droppedIn p s acts := by
  induction acts generalizing s with
  | nil => simp [droppedIn, State.run]
  | cons a l ih =>
    have ih' := ih (s.step a) fun q a' h => hl q a' (List.mem_cons_of_mem _ h)
    rw [run_cons, ih']
    cases a with
    | task q =>
      by_cases h : p = q
      · subst h; simp [droppedIn, State.step, State.setCollector, broadcastBy, Collector.increment]
      · simp [droppedIn, State.step, State.setCollector, broadcastBy, h]
    | method q => simp [droppedIn, State.step, broadcastBy]
    | finish n => simp only [droppedIn, State.step]; split <;> simp [broadcastBy]
    | failCoroutine n => simp [droppedIn, State.step, broadcastBy]
    | report => simp only [droppedIn, State.step]; split <;> simp [broadcastBy]
    | drop q id =>
      by_cases h : q = p
      · subst h; simp [droppedIn, State.step, State.setCollector, broadcastBy, Collector.collect]
      · have h' : ¬ p = q := fun e => h e.symm
        simp [droppedIn, State.step, State.setCollector, broadcastBy, h, h']
    | cleanup q a =>
      have hlate := hl q a (List.mem_cons_self)
      simp only [droppedIn, hlate, ite_self, List.nil_append]
      cases hc : ((s.collectors q).cleanup s.executed a).2 with
      | none =>
        have h1 := (cleanup_none hc).1
        by_cases h : p = q
        · subst h; simp [State.step, hc, State.setCollector, broadcastBy, h1]
        · simp [State.step, hc, State.setCollector, broadcastBy, h]
      | some ids =>
        obtain ⟨-, -, -, -, hq, h1⟩ := cleanup_some hc
        by_cases h : p = q
        · subst h
          have : (s.step (.cleanup p a)).collectors p = ((s.collectors p).cleanup s.executed a).1 := by
            simp [State.step, hc, State.setCollector]
          rw [this, h1]
          simp [State.step, hc, broadcastBy, hq]
        · have h' : ¬ q = p := fun e => h e.symm
          simp [State.step, hc, State.setCollector, broadcastBy, h, h']

/-- The part of C46 that holds: if no reference is finalized between serializing and clearing the list, then for every
process what it broadcast followed by what is queued is exactly what was dropped, in order, so every occurrence is broadcast
at most once and stays queued until then. Missing: references finalized while the list is being sent, which are lost. -/
theorem C46_exactly_once_partial (acts : List Act) (p : Nat) (hl : ∀ q a, Act.cleanup q a ∈ acts → a.late = []) :
    broadcastBy p (State.init.run acts) ++ ((State.init.run acts).collectors p).queue = droppedIn p State.init acts := by
  rw [dropped_general _ _ _ hl]
  simp [State.init, broadcastBy, Collector.init]

/-- The reference that process `p` finalizes with this step, not counting those finalized while a list is being sent. -/
def droppedBy (p : Nat) : Act → Option Id
  | .drop q id => if q = p then some id else none
  | _ => none

theorem onTime_general (s : State) (acts : List Act) (p : Nat) :
    broadcastBy p (s.run acts) ++ ((s.run acts).collectors p).queue =
      broadcastBy p s ++ (s.collectors p).queue ++ acts.filterMap (droppedBy p) := by
  induction acts generalizing s with
  | nil => simp [State.run]
  | cons a l ih =>
    rw [run_cons, ih (s.step a)]
    cases a with
    | task q =>
      by_cases h : p = q
      · subst h; simp [List.filterMap_cons, droppedBy, State.step, State.setCollector, broadcastBy, Collector.increment]
      · simp [List.filterMap_cons, droppedBy, State.step, State.setCollector, broadcastBy, h]
    | method q => simp [List.filterMap_cons, droppedBy, State.step, broadcastBy]
    | finish n => simp only [State.step]; split <;> simp [broadcastBy, List.filterMap_cons, droppedBy]
    | failCoroutine n => simp [List.filterMap_cons, droppedBy, State.step, broadcastBy]
    | report => simp only [State.step]; split <;> simp [broadcastBy, List.filterMap_cons, droppedBy]
    | drop q id =>
      by_cases h : q = p
      · subst h; simp [List.filterMap_cons, droppedBy, State.step, State.setCollector, broadcastBy, Collector.collect]
      · have h' : ¬ p = q := fun e => h e.symm
        simp [List.filterMap_cons, droppedBy, State.step, State.setCollector, broadcastBy, h, h']
    | cleanup q a =>
      have hf : (Act.cleanup q a :: l).filterMap (droppedBy p) = l.filterMap (droppedBy p) := by simp [List.filterMap_cons, droppedBy]
      rw [hf]
      cases hc : ((s.collectors q).cleanup s.executed a).2 with
      | none =>
        have h1 := (cleanup_none hc).1
        by_cases h : p = q
        · subst h; simp [State.step, hc, State.setCollector, broadcastBy, h1]
        · simp [State.step, hc, State.setCollector, broadcastBy, h]
      | some ids =>
        obtain ⟨-, -, -, -, hq, h1⟩ := cleanup_some hc
        by_cases h : p = q
        · subst h
          have : (s.step (.cleanup p a)).collectors p = ((s.collectors p).cleanup s.executed a).1 := by
            simp [State.step, hc, State.setCollector]
          rw [this, h1]
          simp [State.step, hc, broadcastBy, hq]
        · have h' : ¬ q = p := fun e => h e.symm
          simp [State.step, hc, State.setCollector, broadcastBy, h, h']

/-- C46 exactly, for all histories: what a process broadcast followed by what is queued are the references it dropped at other times than while a list was
being sent, in order and each occurrence once. Missing: the references finalized while a list is being sent, all of which are lost. -/
theorem C46_onTime_partial (acts : List Act) (p : Nat) :
    broadcastBy p (State.init.run acts) ++ ((State.init.run acts).collectors p).queue = acts.filterMap (droppedBy p) := by
  rw [onTime_general]
  simp [State.init, broadcastBy, Collector.init]

-- eleven references are broadcast, two finalized meanwhile are lost, a later one is queued
example : let s := State.init.run (exDrops 0 ++ [.cleanup 0 ⟨2000000000, [(0, 77), (0, 78)], 2000000000⟩, .drop 0 (0, 50)])
    broadcastBy 0 s ++ (s.collectors 0).queue = (List.range 11).map (fun i => (0, i)) ++ [(0, 50)] ∧ (0, 50) ∈ (s.collectors 0).queue := by
  decide +kernel

/-- A broadcast is sent once to every worker and monitor except the sender, and to nobody else. -/
theorem C46_receivers (workers monitors : List Nat) (self : Nat) (hn : (workers ++ monitors).Nodup) (r : Nat) :
    (receivers workers monitors self).count r = if (r ∈ workers ∨ r ∈ monitors) ∧ r ≠ self then 1 else 0 := by
  unfold receivers
  by_cases hr : r = self
  · subst hr
    rw [if_neg (by simp), List.count_eq_zero]
    simp
  · rw [List.count_filter (by simpa using hr), List.Nodup.count hn]
    simp [hr]

example : receivers [3, 4, 5] [1, 2] 4 = [3, 5, 1, 2] := by decide

-- two processes; process 0 broadcasts its eleven references and keeps the later one
example : broadcastBy 0 (State.init.run (exDrops 0 ++ [.cleanup 0 ⟨2000000000, [], 2000000000⟩, .drop 0 (0, 50), .drop 2 (2, 1)]))
    = (List.range 11).map (fun i => (0, i)) := by decide +kernel

/-! ### C47 -/

/-- **C47** as stated: if everything submitted has finished and was reported and more than ten references are queued, then
five further API calls, made more than a second after the last broadcast, broadcast the queued references. -/
def C47_full : Prop := ∀ (acts : List Act) (p : Nat) (more : List Attempt),
  (State.init.run acts).pending = [] → (State.init.run acts).flight = 0 →
  10 < ((State.init.run acts).collectors p).queue.length → 5 ≤ more.length →
  (∀ a ∈ more, a.now > ((State.init.run acts).collectors p).timestamp + 1000000000) →
  (p, ((State.init.run acts).collectors p).queue) ∈ ((State.init.run acts).run (more.map (.cleanup p))).sent

/-- If no coroutine failed and everything finished and was reported, then no process broadcasts at all once somebody called
an actor method or two processes submitted tasks. -/
theorem C47_stops (acts : List Act) (p : Nat) (a : Attempt) (hf : ∀ n, Act.failCoroutine n ∉ acts)
    (h : (∃ q, Act.method q ∈ acts) ∨ ∃ q, Act.task q ∈ acts ∧ q ≠ p) (hp : (State.init.run acts).pending = [])
    (hfl : (State.init.run acts).flight = 0) : ¬ Broadcasts (State.init.run acts) p a := by
  intro hb
  obtain ⟨ids, hi⟩ := broadcasts_iff.1 hb
  obtain ⟨-, -, -, he, -⟩ := cleanup_some hi
  have h1 := submitted_run State.init acts p
  have h2 := jobs_eq inv_init acts hf
  have h3 := tasksOf_lt_jobsIn (p := p) h
  have h4 : (State.init.collectors p).submitted = 0 := rfl
  have h5 : State.init.executed = 0 ∧ State.init.flight = 0 ∧ State.init.pending.length = 0 := ⟨rfl, rfl, rfl⟩
  rw [hp, hfl] at h2
  simp only [List.length_nil] at h2
  omega

/-- The code violates C47: after one actor method cleanup stops for good. -/
theorem C47_method_violated : ¬ C47_full := by
  intro h
  have h1 := h ([.method 0, .finish 0, .report] ++ exDrops 0) 0 (List.replicate 5 ⟨2000000000, [], 2000000000⟩)
    (by decide +kernel) (by decide +kernel) (by decide +kernel) (by decide) (by decide +kernel)
  exact absurd h1 (by decide +kernel)

/-- The code violates C47: after a worker submitted a task the main process stops cleaning up. -/
theorem C47_processes_violated : ¬ C47_full := by
  intro h
  have h1 := h ([.task 2, .finish 0, .report] ++ exDrops 0) 0 (List.replicate 5 ⟨2000000000, [], 2000000000⟩)
    (by decide +kernel) (by decide +kernel) (by decide +kernel) (by decide) (by decide +kernel)
  exact absurd h1 (by decide +kernel)

/-- The code violates C47: after a coroutine task raised an error the main process stops cleaning up. -/
theorem C47_coroutine_violated : ¬ C47_full := by
  intro h
  have h1 := h ([.task 0, .failCoroutine 0] ++ exDrops 0) 0 (List.replicate 5 ⟨2000000000, [], 2000000000⟩)
    (by decide +kernel) (by decide +kernel) (by decide +kernel) (by decide) (by decide +kernel)
  exact absurd h1 (by decide +kernel)

theorem attempts_broadcast {s : State} {p : Nat} (more : List Attempt) (he : s.executed = (s.collectors p).submitted)
    (hq : 10 < (s.collectors p).queue.length) (hlen : 5 - (s.collectors p).counter % 5 ≤ more.length - (if (s.collectors p).counter % 5 = 0 then 0 else 1) + 5 * (if (s.collectors p).counter % 5 = 0 then 1 else 0))
    (hne : more ≠ []) (ht : ∀ a ∈ more, a.now > (s.collectors p).timestamp + 1000000000) :
    (p, (s.collectors p).queue) ∈ (s.run (more.map (.cleanup p))).sent := by
  induction more generalizing s with
  | nil => exact absurd rfl hne
  | cons a more ih =>
    rw [List.map_cons, run_cons]
    have hkeep : ∀ (t : State) (l : List Attempt), ∀ x ∈ t.sent, x ∈ (t.run (l.map (.cleanup p))).sent := by
      intro t l
      induction l generalizing t with
      | nil => intro x hx; exact hx
      | cons b l ih' =>
        intro x hx
        rw [List.map_cons, run_cons]
        apply ih'
        rw [sent_cleanup]
        exact List.mem_append_left _ hx
    by_cases hc : (s.collectors p).counter % 5 = 0
    · apply hkeep
      have ha := ht a (List.mem_cons_self)
      rw [sent_cleanup]
      apply List.mem_append_right
      have : ((s.collectors p).cleanup s.executed a).2 = some (s.collectors p).queue := by
        unfold Collector.cleanup
        rw [if_pos hq, if_pos hc, if_pos (by omega), if_pos he]
      rw [this]
      simp
    · have h1 : (s.collectors p).cleanup s.executed a = ({ s.collectors p with counter := (s.collectors p).counter + 1 }, none) := by
        unfold Collector.cleanup
        rw [if_pos hq, if_neg hc]
      have h2 : (s.step (.cleanup p a)).collectors p = { s.collectors p with counter := (s.collectors p).counter + 1 } := by
        simp [State.step, h1, State.setCollector]
      have h3 : (s.step (.cleanup p a)).executed = s.executed := by
        simp [State.step, h1, State.setCollector]
      have := ih (s := s.step (.cleanup p a)) (by rw [h2, h3]; exact he) (by rw [h2]; exact hq)
        (by
          rw [h2]
          simp only [hc, if_false, List.length_cons] at hlen
          simp only
          split <;> omega)
        (by
          rintro rfl
          simp only [hc, if_false, List.length_cons, List.length_nil] at hlen
          omega)
        (by rw [h2]; exact fun b hb => ht b (List.mem_cons_of_mem _ hb))
      rw [h2] at this
      exact this

/-- The part of C47 that holds: if only process `p` submits tasks, nobody calls actor methods and no coroutine task failed,
then once everything has finished and was reported, five API calls of `p` made more than a second after the last broadcast
broadcast the queued references. Missing: the other workloads, for which it is false. -/
theorem C47_progress_partial (acts : List Act) (p : Nat) (more : List Attempt) (hm : ∀ q, Act.method q ∉ acts)
    (ht : ∀ q, Act.task q ∈ acts → q = p) (hf : ∀ n, Act.failCoroutine n ∉ acts) (hp : (State.init.run acts).pending = [])
    (hfl : (State.init.run acts).flight = 0) (hq : 10 < ((State.init.run acts).collectors p).queue.length)
    (hlen : 5 ≤ more.length) (hclock : ∀ a ∈ more, a.now > ((State.init.run acts).collectors p).timestamp + 1000000000) :
    (p, ((State.init.run acts).collectors p).queue) ∈ ((State.init.run acts).run (more.map (.cleanup p))).sent := by
  have h1 := submitted_run State.init acts p
  have h2 := jobs_eq inv_init acts hf
  have h3 := jobsIn_eq_tasksOf hm ht
  have h4 : (State.init.collectors p).submitted = 0 := rfl
  have h5 : State.init.executed = 0 ∧ State.init.flight = 0 ∧ State.init.pending.length = 0 := ⟨rfl, rfl, rfl⟩
  rw [hp, hfl] at h2
  simp only [List.length_nil] at h2
  apply attempts_broadcast more (by omega) hq
  · split <;> omega
  · rintro rfl; simp at hlen
  · exact hclock

-- three tasks, all finished and reported; the fifth API call broadcasts
example : ((State.init.run ([.task 0, .task 0, .task 0, .finish 0, .finish 2, .finish 1, .report, .report, .report] ++ exDrops 0)).run
    (List.replicate 5 (.cleanup 0 ⟨3000000000, [], 3000000000⟩))).sent.length = 1 := by decide +kernel

end Verif.Props
