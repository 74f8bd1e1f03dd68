import Verif.Model.GarbageCollector

/-! Lemmas about the garbage collector model. -/
namespace Verif.GC

theorem run_cons (s : State) (a : Act) (l : List Act) : s.run (a :: l) = (s.step a).run l := rfl
theorem run_nil (s : State) : s.run [] = s := rfl
theorem run_append (s : State) (l m : List Act) : s.run (l ++ m) = (s.run l).run m := by simp [State.run]

theorem foldl_collect (l : List Id) (c : Collector) :
    l.foldl Collector.collect c = { c with queue := c.queue ++ l } := by
  induction l generalizing c with
  | nil => simp
  | cons a l ih => simp [ih, Collector.collect]

theorem cleanup_submitted (c : Collector) (e : Nat) (a : Attempt) : (c.cleanup e a).1.submitted = c.submitted := by
  unfold Collector.cleanup
  repeat' split
  all_goals simp [foldl_collect]

theorem cleanup_some {c : Collector} {e : Nat} {a : Attempt} {l : List Id} (h : (c.cleanup e a).2 = some l) :
    c.queue.length > 10 ∧ c.counter % 5 = 0 ∧ a.now - c.timestamp > 1000000000 ∧ e = c.submitted ∧ l = c.queue ∧
      (c.cleanup e a).1 = { counter := c.counter + 1, timestamp := a.after, queue := [], submitted := c.submitted } := by
  unfold Collector.cleanup at h ⊢
  split at h
  · split at h
    · split at h
      · split at h
        · rename_i h1 h2 h3 h4
          simp only [Option.some.injEq] at h
          refine ⟨h1, h2, h3, h4, h.symm, ?_⟩
          simp [h1, h2, h3, h4, foldl_collect]
        · simp at h
      · simp at h
    · simp at h
  · simp at h

theorem cleanup_none {c : Collector} {e : Nat} {a : Attempt} (h : (c.cleanup e a).2 = none) :
    (c.cleanup e a).1.queue = c.queue ∧ (c.cleanup e a).1.timestamp = c.timestamp := by
  unfold Collector.cleanup at h ⊢
  repeat' split
  all_goals simp_all

/-- Jobs have distinct numbers below `jobs`, and the counters fit together. `started` counts the calls of `submit`. -/
structure Inv (s : State) : Prop where
  below : ∀ j ∈ s.pending, j.number < s.jobs
  nodup : (s.pending.map (·.number)).Nodup

theorem inv_init : Inv State.init := ⟨by simp [State.init], by simp [State.init]⟩

theorem nodup_filter_numbers {l : List Job} (h : (l.map (·.number)).Nodup) (q : Job → Bool) :
    ((l.filter q).map (·.number)).Nodup :=
  (List.filter_sublist.map _).nodup h

theorem nodup_snoc {l : List Job} {n p : Nat} {m : Bool} (hb : ∀ j ∈ l, j.number < n) (h : (l.map (·.number)).Nodup) :
    ((l ++ [(⟨n, p, m⟩ : Job)]).map (fun j => j.number)).Nodup := by
  rw [List.map_append, List.nodup_append]
  refine ⟨h, by simp, ?_⟩
  intro a ha b hb'
  simp only [List.map_cons, List.map_nil, List.mem_singleton] at hb'
  obtain ⟨j, hj, rfl⟩ := List.mem_map.1 ha
  have := hb j hj
  subst hb'
  exact Nat.ne_of_lt this

theorem inv_step {s : State} (h : Inv s) (a : Act) : Inv (s.step a) := by
  obtain ⟨hb, hn⟩ := h
  cases a with
  | task p =>
    refine ⟨?_, nodup_snoc hb hn⟩
    intro j hj
    simp only [State.step, List.mem_append, List.mem_singleton] at hj ⊢
    rcases hj with hj | rfl
    · have := hb j hj; omega
    · simp
  | method p =>
    refine ⟨?_, nodup_snoc hb hn⟩
    intro j hj
    simp only [State.step, List.mem_append, List.mem_singleton] at hj ⊢
    rcases hj with hj | rfl
    · have := hb j hj; omega
    · simp
  | finish n =>
    simp only [State.step]
    split
    · exact ⟨fun j hj => hb j (List.mem_filter.1 hj).1, nodup_filter_numbers hn _⟩
    · exact ⟨hb, hn⟩
  | failCoroutine n => exact ⟨fun j hj => hb j (List.mem_filter.1 hj).1, nodup_filter_numbers hn _⟩
  | report =>
    simp only [State.step]
    split
    · exact ⟨hb, hn⟩
    · exact ⟨hb, hn⟩
  | drop p id => exact ⟨hb, hn⟩
  | cleanup p a =>
    simp only [State.step]
    split
    · exact ⟨hb, hn⟩
    · exact ⟨hb, hn⟩

theorem inv_run {s : State} (h : Inv s) (acts : List Act) : Inv (s.run acts) := by
  induction acts generalizing s with
  | nil => exact h
  | cons a l ih => exact ih (inv_step h a)

theorem filter_number_length {l : List Job} {n : Nat} (hn : (l.map (·.number)).Nodup) (h : l.any (·.number = n) = true) :
    (l.filter (·.number ≠ n)).length + 1 = l.length := by
  induction l with
  | nil => simp at h
  | cons j l ih =>
    simp only [List.map_cons, List.nodup_cons] at hn
    by_cases hj : j.number = n
    · have : l.filter (·.number ≠ n) = l := by
        rw [List.filter_eq_self]
        intro k hk
        simp only [ne_eq, decide_not, Bool.not_eq_eq_eq_not, Bool.not_true, decide_eq_false_iff_not]
        intro hkn
        exact hn.1 (List.mem_map.2 ⟨k, hk, by rw [hkn, hj]⟩)
      rw [List.filter_cons]
      simp only [hj, ne_eq, not_true_eq_false, decide_false, Bool.false_eq_true, if_false]
      simp only [ne_eq] at this
      rw [this]; rfl
    · rw [List.filter_cons]
      simp only [hj, ne_eq, not_false_eq_true, decide_true, if_true, List.length_cons]
      have h' : l.any (·.number = n) = true := by simpa [hj] using h
      have := ih hn.2 h'
      simp only [ne_eq] at this
      omega

theorem filter_number_le (l : List Job) (n : Nat) : (l.filter (·.number ≠ n)).length ≤ l.length :=
  List.length_filter_le _ _

/-- The calls of `submit` by process `p` among some steps. -/
def tasksOf (p : Nat) (acts : List Act) : Nat := acts.count (.task p)

/-- All jobs submitted among some steps. -/
def jobsIn (acts : List Act) : Nat := acts.countP fun a => match a with
  | .task _ => true
  | .method _ => true
  | _ => false

theorem submitted_run (s : State) (acts : List Act) (p : Nat) :
    ((s.run acts).collectors p).submitted = (s.collectors p).submitted + tasksOf p acts := by
  induction acts generalizing s with
  | nil => rfl
  | cons a l ih =>
    rw [run_cons, ih]
    unfold tasksOf
    rw [List.count_cons]
    cases a with
    | task q =>
      by_cases h : q = p
      · subst h; simp [State.step, State.setCollector, Collector.increment]; omega
      · have h' : ¬ p = q := fun e => h e.symm
        simp [State.step, State.setCollector, h, h']
    | drop q id =>
      by_cases h : q = p
      · subst h; simp [State.step, State.setCollector, Collector.collect]
      · have h' : ¬ p = q := fun e => h e.symm
        simp [State.step, State.setCollector, h']
    | cleanup q at' =>
      have : (((s.step (.cleanup q at')).collectors p)).submitted = (s.collectors p).submitted := by
        by_cases h : p = q
        · subst h
          simp only [State.step]
          split <;> simp [State.setCollector, cleanup_submitted]
        · simp only [State.step]
          split <;> simp [State.setCollector, h]
      rw [this]; simp
    | method q => simp [State.step]
    | finish n => simp only [State.step]; split <;> simp
    | failCoroutine n => simp [State.step]
    | report => simp only [State.step]; split <;> simp

theorem jobs_le {s : State} (h : Inv s) (acts : List Act) :
    (s.run acts).executed + (s.run acts).flight + (s.run acts).pending.length ≤
      s.executed + s.flight + s.pending.length + jobsIn acts := by
  induction acts generalizing s with
  | nil => simp [State.run]
  | cons a l ih =>
    rw [run_cons, jobsIn, List.countP_cons, ← jobsIn]
    refine Nat.le_trans (ih (inv_step h a)) ?_
    cases a with
    | task q => simp [State.step, State.setCollector]; omega
    | method q => simp [State.step]; omega
    | drop q id => simp [State.step, State.setCollector]
    | cleanup q at' => simp only [State.step]; split <;> simp [State.setCollector]
    | finish n =>
      simp only [State.step]
      split
      · rename_i hn
        have := filter_number_length h.nodup hn
        simp only [Bool.false_eq_true, if_false]
        omega
      · simp
    | failCoroutine n =>
      simp only [State.step]
      have := filter_number_le s.pending n
      simp only [Bool.false_eq_true, if_false]
      omega
    | report =>
      simp only [State.step]; split <;> simp; omega

theorem jobs_eq {s : State} (h : Inv s) (acts : List Act) (hf : ∀ n, Act.failCoroutine n ∉ acts) :
    (s.run acts).executed + (s.run acts).flight + (s.run acts).pending.length =
      s.executed + s.flight + s.pending.length + jobsIn acts := by
  induction acts generalizing s with
  | nil => simp [State.run, jobsIn]
  | cons a l ih =>
    rw [run_cons, jobsIn, List.countP_cons, ← jobsIn, ih (inv_step h a) fun n hn => hf n (List.mem_cons_of_mem _ hn)]
    cases a with
    | task q => simp [State.step, State.setCollector]; omega
    | method q => simp [State.step]; omega
    | drop q id => simp [State.step, State.setCollector]
    | cleanup q at' => simp only [State.step]; split <;> simp [State.setCollector]
    | finish n =>
      simp only [State.step]
      split
      · rename_i hn
        have := filter_number_length h.nodup hn
        simp only [Bool.false_eq_true, if_false]
        omega
      · simp
    | failCoroutine n => exact absurd (List.mem_cons_self) (hf n)
    | report =>
      simp only [State.step]; split <;> simp; omega

theorem jobsIn_eq_tasksOf {acts : List Act} {p : Nat} (hm : ∀ q, Act.method q ∉ acts) (ht : ∀ q, Act.task q ∈ acts → q = p) :
    jobsIn acts = tasksOf p acts := by
  rw [jobsIn, tasksOf, List.count, List.countP_congr]
  intro a ha
  cases a with
  | task q => simp [ht q ha]
  | method q => exact absurd ha (hm q)
  | _ => simp

theorem tasksOf_lt_jobsIn {acts : List Act} {p : Nat} (h : (∃ q, Act.method q ∈ acts) ∨ ∃ q, Act.task q ∈ acts ∧ q ≠ p) :
    tasksOf p acts < jobsIn acts := by
  induction acts with
  | nil => simp at h
  | cons a l ih =>
    have hle : tasksOf p l ≤ jobsIn l := by
      rw [jobsIn, tasksOf, List.count]
      apply List.countP_mono_left
      intro b _ hb
      rw [beq_iff_eq] at hb
      subst hb; rfl
    rw [jobsIn, List.countP_cons, ← jobsIn, tasksOf, List.count_cons, ← tasksOf]
    by_cases h0 : (∃ q, a = Act.method q) ∨ ∃ q, a = Act.task q ∧ q ≠ p
    · rcases h0 with ⟨q, rfl⟩ | ⟨q, rfl, hq⟩
      · simp; omega
      · simp [hq]; omega
    · have h1 := ih (by
        rcases h with ⟨q, hq⟩ | ⟨q, hq, hp⟩
        · rcases List.mem_cons.1 hq with he | he
          · exact absurd (Or.inl ⟨q, he.symm⟩) h0
          · exact Or.inl ⟨q, he⟩
        · rcases List.mem_cons.1 hq with he | he
          · exact absurd (Or.inr ⟨q, he.symm, hp⟩) h0
          · exact Or.inr ⟨q, he, hp⟩)
      cases a with
      | task q =>
        have : q = p := by
          by_cases hq : q = p
          · exact hq
          · exact absurd (Or.inr ⟨q, rfl, hq⟩) h0
        subst this; simp; omega
      | method q => exact absurd (Or.inl ⟨q, rfl⟩) h0
      | _ => simp; omega

theorem sent_cleanup (s : State) (p : Nat) (a : Attempt) :
    (s.step (.cleanup p a)).sent = s.sent ++ (match ((s.collectors p).cleanup s.executed a).2 with
      | none => []
      | some ids => [(p, ids)]) := by
  simp only [State.step]
  split <;> rename_i h <;> simp [h, State.setCollector]

end Verif.GC
