import Verif.Model.LastTasks
import Mathlib.Data.List.Induction
import Mathlib.Data.List.Nodup

/-! Lemmas about the last tasks of a program (C141). -/
namespace Verif.LastTasks

variable {p : Prog}

theorem run_append (as bs : List Act) (s : State) : s.run p (as ++ bs) = (s.run p as).bind fun t => t.run p bs := by
  induction as generalizing s with
  | nil => rfl
  | cons a as ih =>
    simp only [List.cons_append, State.run]
    cases s.step p a with
    | none => rfl
    | some t => simp [ih]

theorem run_concat {as : List Act} {a : Act} {s s' : State} (h : s.run p (as ++ [a]) = some s') :
    ∃ t, s.run p as = some t ∧ t.step p a = some s' := by
  rw [run_append, Option.bind_eq_some_iff] at h
  obtain ⟨t, ht, h⟩ := h
  simp only [State.run, Option.bind_eq_some_iff] at h
  obtain ⟨u, hu, h⟩ := h
  cases h
  exact ⟨t, ht, hu⟩

@[simp] theorem upd_same (s : State) (w : Nat) (x : Worker) (d : List Nat) : (s.upd w x d).workers w = x := by simp [State.upd]
@[simp] theorem upd_done (s : State) (w : Nat) (x : Worker) (d : List Nat) : (s.upd w x d).done = d := rfl
theorem upd_other (s : State) {w v : Nat} (x : Worker) (d : List Nat) (h : v ≠ w) : (s.upd w x d).workers v = s.workers v := by simp [State.upd, h]

/-- A scan executes some of the pending tasks and leaves the others; those that it leaves were not ready. -/
theorem scan_spec (P : List Nat) : ∀ (store done : List Nat), ∃ l, (p.scan P store done).2 = (store ++ l, done ++ l) ∧
    (l ++ (p.scan P store done).1).Perm P := by
  induction P with
  | nil => intro store done; exact ⟨[], by simp [Prog.scan], by simp [Prog.scan]⟩
  | cons i P ih =>
    intro store done
    rw [Prog.scan]
    split
    · obtain ⟨l, h1, h2⟩ := ih (store ++ [i]) (done ++ [i])
      refine ⟨i :: l, by rw [h1]; simp, ?_⟩
      simpa using h2
    · obtain ⟨l, h1, h2⟩ := ih store done
      refine ⟨l, h1, ?_⟩
      exact List.perm_middle.trans (List.Perm.cons i h2)

/-- A property of tasks that holds for every task whose arguments have it holds for what a scan executes. -/
theorem scan_keeps (Q : Nat → Prop) (P : List Nat) : ∀ (store done : List Nat), (∀ i ∈ store, Q i) → (∀ i ∈ done, Q i) →
    (∀ i ∈ P, (∀ j ∈ p.deps i, Q j) → Q i) → (∀ i ∈ (p.scan P store done).2.1, Q i) ∧ (∀ i ∈ (p.scan P store done).2.2, Q i) := by
  induction P with
  | nil => intro store done h1 h2 _; exact ⟨h1, h2⟩
  | cons i P ih =>
    intro store done h1 h2 h3
    rw [Prog.scan]
    split
    · rename_i hr
      have hi : Q i := h3 i (by simp) fun j hj => h1 j (by simpa using (List.all_eq_true.1 hr) j hj)
      refine ih _ _ ?_ ?_ fun k hk => h3 k (by simp [hk])
      · intro k hk
        rcases List.mem_append.1 hk with hk | hk
        · exact h1 k hk
        · rw [List.mem_singleton.1 hk]; exact hi
      · intro k hk
        rcases List.mem_append.1 hk with hk | hk
        · exact h2 k hk
        · rw [List.mem_singleton.1 hk]; exact hi
    · exact ih store done h1 h2 fun k hk => h3 k (by simp [hk])

theorem mem_tasks {w i : Nat} : i ∈ p.tasks w ↔ i < p.num ∧ p.place i = w := by
  simp [Prog.tasks]

theorem tasks_sorted (w : Nat) : (p.tasks w).Pairwise (· < ·) :=
  List.Pairwise.filter _ List.pairwise_lt_range

/-- The tasks in the inbox. -/
def Worker.coming (x : Worker) : List Nat :=
  x.inbox.filterMap fun
    | .exec i => some i
    | .cancel => none

theorem coming_init (l : List Nat) : (l.map Msg.exec ++ [Msg.cancel]).filterMap (fun | .exec i => some i | .cancel => none) = l := by
  induction l with
  | nil => rfl
  | cons i l ih => simp only [List.map_cons, List.cons_append, List.filterMap_cons]; rw [ih]

/-- The workers and the executed tasks after a history. -/
structure Inv (p : Prog) (s : State) : Prop where
  left : ∀ w, ((s.workers w).pending ++ (s.workers w).coming).Nodup
  at_ : ∀ w, ∀ i ∈ (s.workers w).pending ++ (s.workers w).coming, i < p.num ∧ p.place i = w ∧ i ∉ s.done
  done : s.done.Nodup
  num : ∀ i ∈ s.done, i < p.num

theorem inv_init : Inv p (.init p) := by
  refine ⟨fun w => ?_, fun w i hi => ?_, by simp [State.init], by simp [State.init]⟩
  · simp only [State.init, Worker.coming, coming_init, List.nil_append]
    exact List.Nodup.filter _ List.nodup_range
  · simp only [State.init, Worker.coming, coming_init, List.nil_append] at hi
    have := mem_tasks.1 hi
    exact ⟨this.1, this.2, by simp [State.init]⟩

/-- A worker executes tasks that were pending or coming. -/
theorem inv_exec {s : State} {w : Nat} {x : Worker} {l : List Nat} (h : Inv p s)
    (hp : (l ++ (x.pending ++ x.coming)).Perm ((s.workers w).pending ++ (s.workers w).coming)) : Inv p (s.upd w x (s.done ++ l)) := by
  have hn : (l ++ (x.pending ++ x.coming)).Nodup := hp.nodup_iff.2 (h.left w)
  obtain ⟨hl, hx, hd⟩ := List.nodup_append.1 hn
  have hm : ∀ i ∈ l ++ (x.pending ++ x.coming), i < p.num ∧ p.place i = w ∧ i ∉ s.done := fun i hi => h.at_ w i (hp.mem_iff.1 hi)
  refine ⟨fun v => ?_, fun v i hi => ?_, ?_, ?_⟩
  · by_cases hv : v = w
    · subst hv; rw [upd_same]; exact hx
    · rw [upd_other _ _ _ hv]; exact h.left v
  · by_cases hv : v = w
    · subst hv
      rw [upd_same] at hi
      have := hm i (List.mem_append_right _ hi)
      refine ⟨this.1, this.2.1, fun hc => ?_⟩
      rcases List.mem_append.1 hc with hc | hc
      · exact this.2.2 hc
      · exact hd i hc i hi rfl
    · rw [upd_other _ _ _ hv] at hi
      have := h.at_ v i hi
      refine ⟨this.1, this.2.1, fun hc => ?_⟩
      rcases List.mem_append.1 hc with hc | hc
      · exact this.2.2 hc
      · exact hv (this.2.1.symm.trans (hm i (List.mem_append_left _ hc)).2.1)
  · exact List.nodup_append.2 ⟨h.done, hl, fun a ha b hb e => (hm b (List.mem_append_left _ hb)).2.2 (e ▸ ha)⟩
  · intro i hi
    rcases List.mem_append.1 hi with hi | hi
    · exact h.num i hi
    · exact (hm i (List.mem_append_left _ hi)).1

/-- A worker forgets tasks. -/
theorem inv_forget {s : State} {w : Nat} {x : Worker} (h : Inv p s)
    (hp : (x.pending ++ x.coming).Sublist ((s.workers w).pending ++ (s.workers w).coming)) : Inv p (s.upd w x s.done) := by
  refine ⟨fun v => ?_, fun v i hi => ?_, h.done, h.num⟩
  · by_cases hv : v = w
    · subst hv; rw [upd_same]; exact hp.nodup (h.left v)
    · rw [upd_other _ _ _ hv]; exact h.left v
  · by_cases hv : v = w
    · subst hv
      rw [upd_same] at hi
      exact h.at_ v i (hp.subset hi)
    · rw [upd_other _ _ _ hv] at hi
      exact h.at_ v i hi

theorem inv_step {s s' : State} {a : Act} (h : Inv p s) (hs : s.step p a = some s') : Inv p s' := by
  cases a with
  | read w =>
    simp only [State.step] at hs
    split at hs
    · cases hs
    · rename_i rest hin
      cases hs
      refine inv_forget h ?_
      simp only [Worker.coming, hin, List.filterMap_cons, List.nil_append]
      exact List.sublist_append_right _ _
    · rename_i i rest hin
      have hco : (s.workers w).coming = i :: rest.filterMap (fun | .exec i => some i | .cancel => none) := by
        simp only [Worker.coming, hin, List.filterMap_cons]
      split at hs
      · cases hs
        refine inv_forget h ?_
        rw [hco]
        exact List.Sublist.append_left (List.sublist_cons_self _ _) _
      · split at hs
        · cases hs
          obtain ⟨l, h1, h2⟩ := scan_spec (p := p) (s.workers w).pending ((s.workers w).store ++ [i]) (s.done ++ [i])
          rw [h1]
          have := inv_exec (s := s) (w := w) (l := i :: l)
            (x := { s.workers w with
              inbox := rest, pending := (p.scan (s.workers w).pending ((s.workers w).store ++ [i]) (s.done ++ [i])).1,
              store := (s.workers w).store ++ [i] ++ l }) h (by
              rw [hco]
              simp only [Worker.coming, List.cons_append]
              refine (List.Perm.cons i ?_).trans List.perm_middle.symm
              rw [← List.append_assoc]
              exact List.Perm.append_right _ h2)
          simpa using this
        · cases hs
          have := inv_exec (s := s) (w := w) (l := [])
            (x := { s.workers w with inbox := rest, pending := (s.workers w).pending ++ [i] }) h (by
              rw [hco]; simp [Worker.coming])
          simpa using this
  | data w j =>
    simp only [State.step] at hs
    split at hs
    · cases hs
      obtain ⟨l, h1, h2⟩ := scan_spec (p := p) (s.workers w).pending ((s.workers w).store ++ [j]) s.done
      rw [h1]
      refine inv_exec h ?_
      rw [← List.append_assoc]
      exact List.Perm.append_right _ h2
    · cases hs

theorem inv_run (acts : List Act) {s : State} (h : (State.init p).run p acts = some s) : Inv p s := by
  induction acts using List.reverseRecOn generalizing s with
  | nil => cases h; exact inv_init
  | append_singleton as a ih =>
    obtain ⟨t, ht, hs⟩ := run_concat h
    exact inv_step (ih ht) hs

end Verif.LastTasks
