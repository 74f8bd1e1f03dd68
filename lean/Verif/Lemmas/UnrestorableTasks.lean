import Verif.Lemmas.Unrestorable

/-! The tasks and the workers in the presence of results that cannot be restored. -/
namespace Verif.Unrestorable

variable {p : Prog}

/-- The steps as the workers see them. -/
theorem step_workers {s s' : State} {a : Act} (h : s.step p a = some s') :
    (∃ i, a = .exec i ∧ i ∉ s.done ∧ p.place i ∉ s.dead ∧ (∀ j ∈ p.deps i, s.here p i j = true) ∧ s'.done = s.done ++ [i] ∧ s'.has = s.has ∧
      s'.shipped = s.shipped ∧ s'.dead = s.dead) ∨
    (∃ j i, a = .ship j i ∧ j ∈ s.done ∧ p.place j ∉ s.dead ∧ p.place i ∉ s.dead ∧ s'.done = s.done ∧ s'.shipped = s.shipped ++ [(j, p.place i)] ∧
      ((p.bad j = true ∧ s'.has = s.has ∧ s'.dead = s.dead ++ [p.place i]) ∨
        (p.bad j = false ∧ s'.has = s.has ++ [(j, p.place i)] ∧ s'.dead = s.dead))) ∨
    (s'.done = s.done ∧ s'.has = s.has ∧ s'.shipped = s.shipped ∧ s'.dead = s.dead) := by
  cases a with
  | exec i =>
    left
    simp only [State.step] at h
    split at h
    · rename_i hc
      cases h
      exact ⟨i, rfl, hc.1, hc.2.1, by simpa [List.all_eq_true] using hc.2.2, rfl, rfl, rfl, rfl⟩
    · cases h
  | ship j i =>
    right; left
    simp only [State.step] at h
    split at h
    · rename_i hc
      split at h
      · rename_i hb
        cases h
        exact ⟨j, i, rfl, hc.2.2.2.1, hc.2.2.2.2.1, hc.2.2.2.2.2.1, rfl, rfl, .inl ⟨hb, rfl, rfl⟩⟩
      · rename_i hb
        cases h
        exact ⟨j, i, rfl, hc.2.2.2.1, hc.2.2.2.2.1, hc.2.2.2.2.2.1, rfl, rfl, .inr ⟨by simpa using hb, rfl, rfl⟩⟩
    · cases h
  | get ids =>
    right; right
    simp only [State.step] at h
    split at h
    · split at h <;> cases h <;> exact ⟨rfl, rfl, rfl, rfl⟩
    · cases h
  | reply j =>
    right; right
    simp only [State.step] at h
    split at h
    · split at h <;> cases h <;> exact ⟨rfl, rfl, rfl, rfl⟩
    · cases h
  | take =>
    right; right
    simp only [State.step] at h
    split at h
    · repeat' split at h
      all_goals cases h
      all_goals exact ⟨rfl, rfl, rfl, rfl⟩
    · cases h

/-- Executed tasks come once, after those whose results they need; results arrive after they were computed. -/
structure Tasks (p : Prog) (s : State) : Prop where
  nodup : s.done.Nodup
  order : ∀ pre i post, s.done = pre ++ i :: post → ∀ j ∈ p.deps i, j ∈ pre
  has : ∀ x ∈ s.has, x.1 ∈ s.done
  ship : ∀ x ∈ s.shipped, x ∈ s.has ∨ x.2 ∈ s.dead

theorem tasks_init : Tasks p .init := by constructor <;> simp [State.init]

theorem here_done {s : State} {i j : Nat} (ht : Tasks p s) (h : s.here p i j = true) : j ∈ s.done := by
  simp only [State.here] at h
  split at h
  · simpa using h
  · exact ht.has _ (by simpa using h)

theorem tasks_step {s s' : State} {a : Act} (ht : Tasks p s) (h : s.step p a = some s') : Tasks p s' := by
  rcases step_workers h with ⟨i, -, hi, -, hd, h1, h2, h3, h4⟩ | ⟨j, i, -, hj, -, -, h1, h2, ⟨-, h3, h4⟩ | ⟨-, h3, h4⟩⟩ | ⟨h1, h2, h3, h4⟩
  · refine ⟨?_, ?_, ?_, ?_⟩
    · rw [h1]
      exact List.nodup_append.2 ⟨ht.nodup, by simp, fun x hx y hy e => by
        simp only [List.mem_singleton] at hy; subst hy; subst e; exact hi hx⟩
    · intro pre k post e j hj
      rw [h1] at e
      rcases List.eq_nil_or_concat post with rfl | ⟨post', l, rfl⟩
      · have := List.append_inj' e rfl
        obtain ⟨rfl, hk⟩ := this
        simp only [List.cons.injEq, and_true] at hk
        subst hk
        exact here_done ht (hd j hj)
      · rw [List.concat_eq_append, ← List.cons_append, ← List.append_assoc] at e
        have := List.append_inj' e rfl
        exact ht.order pre k post' this.1 j hj
    · rw [h1, h2]; exact fun x hx => List.mem_append_left _ (ht.has x hx)
    · rw [h2, h3, h4]; exact ht.ship
  · refine ⟨h1 ▸ ht.nodup, h1 ▸ ht.order, by rw [h1, h3]; exact ht.has, ?_⟩
    rw [h2, h3, h4]
    intro x hx
    rcases List.mem_append.1 hx with hx | hx
    · exact (ht.ship x hx).imp_right fun hh => List.mem_append_left _ hh
    · simp only [List.mem_singleton] at hx; subst hx; exact .inr (by simp)
  · refine ⟨h1 ▸ ht.nodup, h1 ▸ ht.order, ?_, ?_⟩
    · rw [h1, h3]
      intro x hx
      rcases List.mem_append.1 hx with hx | hx
      · exact ht.has x hx
      · simp only [List.mem_singleton] at hx; subst hx; exact hj
    · rw [h2, h3, h4]
      intro x hx
      rcases List.mem_append.1 hx with hx | hx
      · exact (ht.ship x hx).imp_left fun hh => List.mem_append_left _ hh
      · exact .inl (List.mem_append_right _ hx)
  · exact ⟨h1 ▸ ht.nodup, h1 ▸ ht.order, by rw [h1, h2]; exact ht.has, by rw [h2, h3, h4]; exact ht.ship⟩

theorem tasks_run (acts : List Act) {s s' : State} (ht : Tasks p s) (h : s.run p acts = some s') : Tasks p s' := by
  induction acts generalizing s with
  | nil => cases h; exact ht
  | cons a acts ih =>
    simp only [State.run, Option.bind_eq_some_iff] at h
    obtain ⟨u, hu, h⟩ := h
    exact ih (tasks_step ht hu) h

/-- The results that a task needs can be brought to it. -/
theorem bring {i : Nat} (l : List Nat) : ∀ {s : State}, Tasks p s → i ∉ s.done → p.place i ∉ s.dead →
    (∀ j ∈ l, j ∈ p.deps i ∧ j ∈ s.done ∧ (p.place j ≠ p.place i → p.place j ∉ s.dead ∧ p.bad j = false)) →
    ∃ more t, s.run p more = some t ∧ t.done = s.done ∧ t.dead = s.dead ∧ (∀ j, s.here p i j = true → t.here p i j = true) ∧ (∀ j ∈ l, t.here p i j = true) ∧
      ∀ a ∈ more, ∃ j, a = .ship j i := by
  induction l with
  | nil => intro s _ _ _ _; exact ⟨[], s, rfl, rfl, rfl, fun _ h => h, by simp, by simp⟩
  | cons j l ih =>
    intro s ht hi hw hl
    obtain ⟨hdep, hdone, hoth⟩ := hl j List.mem_cons_self
    by_cases hh : s.here p i j = true
    · obtain ⟨more, t, h1, h2, h3, h4, h5, h6⟩ := ih ht hi hw fun k hk => hl k (List.mem_cons_of_mem _ hk)
      refine ⟨more, t, h1, h2, h3, h4, fun k hk => ?_, h6⟩
      rcases List.mem_cons.1 hk with rfl | hk
      · exact h4 _ hh
      · exact h5 k hk
    · have hp : p.place j ≠ p.place i := by
        intro e
        exact hh (by simp [State.here, e, hdone])
      obtain ⟨hd, hb⟩ := hoth hp
      have hns : (j, p.place i) ∉ s.shipped := by
        intro hm
        rcases ht.ship _ hm with hx | hx
        · exact hh (by simp [State.here, hp, hx])
        · exact hw hx
      have hstep : s.step p (.ship j i) = some { s with shipped := s.shipped ++ [(j, p.place i)], has := s.has ++ [(j, p.place i)] } := by
        simp [State.step, hi, hdep, hp, hdone, hd, hw, hns, hb]
      obtain ⟨more, t, h1, h2, h3, h4, h5, h6⟩ := ih (tasks_step ht hstep) hi hw fun k hk => hl k (List.mem_cons_of_mem _ hk)
      have hmono : ∀ k, s.here p i k = true → ({ s with shipped := s.shipped ++ [(j, p.place i)], has := s.has ++ [(j, p.place i)] } : State).here p i k = true := by
        intro k hk
        simp only [State.here] at hk ⊢
        split
        · rename_i e; simpa [e] using hk
        · rename_i e
          simp only [e, if_false, decide_eq_true_eq] at hk
          simp [hk]
      refine ⟨.ship j i :: more, t, by simp only [State.run, hstep, Option.bind_some]; exact h1, h2, h3, fun k hk => h4 k (hmono k hk), fun k hk => ?_, fun a ha => ?_⟩
      · rcases List.mem_cons.1 hk with rfl | hk
        · exact h4 _ (by simp [State.here, hp])
        · exact h5 k hk
      · rcases List.mem_cons.1 ha with rfl | ha
        · exact ⟨j, rfl⟩
        · exact h6 a ha

/-- Nothing comes from a worker that has ended. -/
theorem ended_run (more : List Act) (w : Nat) : ∀ {s t : State}, w ∈ s.dead → s.run p more = some t →
    w ∈ t.dead ∧ (∀ i, p.place i = w → (i ∈ t.done ↔ i ∈ s.done)) ∧ (∀ x : Nat × Nat, p.place x.1 = w ∨ x.2 = w → (x ∈ t.has ↔ x ∈ s.has)) := by
  induction more with
  | nil => intro s t hw h; cases h; exact ⟨hw, fun _ _ => Iff.rfl, fun _ _ => Iff.rfl⟩
  | cons a more ih =>
    intro s t hw h
    simp only [State.run, Option.bind_eq_some_iff] at h
    obtain ⟨u, hu, h⟩ := h
    rcases step_workers hu with ⟨i, -, hi, hl, hd, h1, h2, h3, h4⟩ | ⟨j, i, -, hj, hl, hl', h1, h2, ⟨-, h3, h4⟩ | ⟨-, h3, h4⟩⟩ | ⟨h1, h2, h3, h4⟩
    · obtain ⟨g1, g2, g3⟩ := ih (h4 ▸ hw) h
      refine ⟨g1, fun k hk => ?_, fun x hx => by rw [g3 x hx, h2]⟩
      rw [g2 k hk, h1]
      simp only [List.mem_append, List.mem_singleton, or_iff_left_iff_imp]
      rintro rfl
      exact absurd (hk ▸ hw) hl
    · obtain ⟨g1, g2, g3⟩ := ih (by rw [h4]; exact List.mem_append_left _ hw) h
      exact ⟨g1, fun k hk => by rw [g2 k hk, h1], fun x hx => by rw [g3 x hx, h3]⟩
    · obtain ⟨g1, g2, g3⟩ := ih (h4 ▸ hw) h
      refine ⟨g1, fun k hk => by rw [g2 k hk, h1], fun x hx => ?_⟩
      rw [g3 x hx, h3]
      simp only [List.mem_append, List.mem_singleton, or_iff_left_iff_imp]
      rintro rfl
      rcases hx with hx | hx
      · exact absurd (by rw [show p.place j = w from hx]; exact hw) hl
      · exact absurd (by rw [show p.place i = w from hx]; exact hw) hl'
    · obtain ⟨g1, g2, g3⟩ := ih (h4 ▸ hw) h
      exact ⟨g1, fun k hk => by rw [g2 k hk, h1], fun x hx => by rw [g3 x hx, h2]⟩

end Verif.Unrestorable
