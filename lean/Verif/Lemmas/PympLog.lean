import Verif.Lemmas.PympLive

/-! Helper lemmas about runs of the multiprocessing backend: order of the calls of an actor. -/
namespace Verif.Pymp
open Verif.Spec.Pymp

/-- The calls of an actor do not overlap and are in order. -/
structure LogOk (a : Nat) (s : State) (ks : List Nat) (last : Option Nat) : Prop where
  shape : eventsOf a s.log = (ks.flatMap fun k => [(true, k), (false, k)]) ++ last.toList.map fun k => (true, k)
  sorted : ks.Pairwise (· < ·)
  behind : ∀ (w : Nat) (x : Worker), s.workers[w]? = some x → ∀ t ∈ pend x, isOf a t → ∀ k ∈ ks, k < t.idx
  now : ∀ k, last = some k → ∃ (w : Nat) (x : Worker) (t : Task) (vs : List Val), s.workers[w]? = some x ∧ x.cur = some (t, .running vs) ∧
    isOf a t ∧ t.idx = k
  rest : last = none → ∀ (w : Nat) (x : Worker) (t : Task) (vs : List Val), s.workers[w]? = some x → x.cur = some (t, .running vs) → ¬ isOf a t
  calls : ∀ k ∈ ks, ∃ t, s.items[k]? = some (.task t) ∧ isOf a t

theorem logOk_init (a n : Nat) : LogOk a (State.init n) [] none := by
  have hw : ∀ (w : Nat) (x : Worker), (State.init n).workers[w]? = some x → x = ⟨[], none, false⟩ := by
    intro w x h
    simp only [State.init, List.getElem?_replicate] at h
    split at h
    · simp only [Option.some.injEq] at h; exact h.symm
    · cases h
  refine ⟨rfl, by simp, by simp, by simp, ?_, by simp⟩
  intro _ w x t vs h hc
  rw [hw w x h] at hc
  cases hc

theorem eventsOf_snoc (a : Nat) (log : List Event) (e : Event) : eventsOf a (log ++ [e]) = eventsOf a log ++ (eventOf a e).toList := by
  simp only [eventsOf, List.filterMap_append]
  cases h : eventOf a e <;> simp [h]

theorem eventOf_begins {a : Nat} {t : Task} (h : isOf a t) : eventOf a (.begins t.idx t.target) = some (true, t.idx) := by
  obtain ⟨c, m, e⟩ := h
  simp [eventOf, e]

theorem eventOf_ends {a : Nat} {t : Task} (h : isOf a t) : eventOf a (.ends t.idx t.target) = some (false, t.idx) := by
  obtain ⟨c, m, e⟩ := h
  simp [eventOf, e]

theorem eventOf_begins_other {a : Nat} {t : Task} (h : ¬ isOf a t) : eventOf a (.begins t.idx t.target) = none := by
  cases ht : t.target with
  | fn f => rfl
  | method b c m =>
    have : b ≠ a := fun e => h ⟨c, m, e ▸ ht⟩
    simp [eventOf, this]

theorem eventOf_ends_other {a : Nat} {t : Task} (h : ¬ isOf a t) : eventOf a (.ends t.idx t.target) = none := by
  cases ht : t.target with
  | fn f => rfl
  | method b c m =>
    have : b ≠ a := fun e => h ⟨c, m, e ▸ ht⟩
    simp [eventOf, this]

theorem same_home {n : Nat} {s : State} (hs : Shape n s) {a w v : Nat} {x y : Worker} {t u : Task} (hx : s.workers[w]? = some x)
    (hy : s.workers[v]? = some y) (ht : t ∈ tasks x) (hu : u ∈ tasks y) (hoft : isOf a t) (hofu : isOf a u) : w = v := by
  obtain ⟨c, m, e⟩ := hoft
  obtain ⟨c', m', e'⟩ := hofu
  obtain ⟨z, hz, r⟩ := hs.home w x hx t ht a c m e
  obtain ⟨z', hz', r'⟩ := hs.home v y hy u hu a c' m' e'
  rw [hz] at hz'
  simp only [Option.some.injEq] at hz'
  rw [← r, ← r', hz']

/-- A transition of a worker that concerns no running call. -/
theorem log_quiet {a : Nat} {s s' : State} {w : Nat} {x x' : Worker} {ks : List Nat} {last : Option Nat} (h : LogOk a s ks last)
    (hx : s.workers[w]? = some x) (hw : s'.workers = s.workers.set w x') (hi : s'.items = s.items)
    (hlog : eventsOf a s'.log = eventsOf a s.log) (hp : (pend x').Sublist (pend x))
    (hr : ∀ t vs, x.cur = some (t, .running vs) → ¬ isOf a t) (hr' : ∀ t vs, x'.cur = some (t, .running vs) → ¬ isOf a t) :
    LogOk a s' ks last := by
  refine ⟨by rw [hlog]; exact h.shape, h.sorted, ?_, ?_, ?_, by rw [hi]; exact h.calls⟩
  · intro v y hy t ht hof k hk
    rw [hw, set_getElem hx] at hy
    split at hy
    · simp only [Option.some.injEq] at hy
      subst hy
      exact h.behind w x hx t (hp.subset ht) hof k hk
    · exact h.behind v y hy t ht hof k hk
  · intro k hk
    obtain ⟨v, y, t, vs, hy, hc, hof, e⟩ := h.now k hk
    refine ⟨v, y, t, vs, ?_, hc, hof, e⟩
    rw [hw, set_getElem hx, if_neg]
    · exact hy
    · rintro rfl
      rw [hx] at hy
      simp only [Option.some.injEq] at hy
      subst hy
      exact hr t vs hc hof
  · intro hl v y t vs hy hc
    rw [hw, set_getElem hx] at hy
    split at hy
    · simp only [Option.some.injEq] at hy
      subst hy
      exact hr' t vs hc
    · exact h.rest hl v y t vs hy hc

/-- A running call of the actor ends. -/
theorem log_end {n a : Nat} {s s' : State} {w : Nat} {x x' : Worker} {t : Task} {vs : List Val} {ks : List Nat} {last : Option Nat}
    (hs : Shape n s) (h : LogOk a s ks last) (hx : s.workers[w]? = some x) (hc : x.cur = some (t, .running vs))
    (hw : s'.workers = s.workers.set w x') (hi : s'.items = s.items) (hlog : s'.log = s.log ++ [.ends t.idx t.target])
    (hp : pend x = t :: pend x') (hr' : ∀ t vs, x'.cur ≠ some (t, .running vs)) : ∃ ks last, LogOk a s' ks last := by
  by_cases hof : isOf a t
  · have htx : t ∈ tasks x := (pend_sub x).subset (by rw [hp]; simp)
    have hlast : last = some t.idx := by
      cases hl : last with
      | none => exact absurd hof (h.rest hl w x t vs hx hc)
      | some k =>
        obtain ⟨v, y, u, us, hy, hcu, hofu, e⟩ := h.now k hl
        have huy : u ∈ tasks y := by simp [tasks, held, hcu]
        have := same_home hs hx hy htx huy hof hofu
        subst this
        rw [hx] at hy
        simp only [Option.some.injEq] at hy
        subst hy
        rw [hc] at hcu
        simp only [Option.some.injEq, Prod.mk.injEq] at hcu
        rw [← e, hcu.1]
    have hbt := h.behind w x hx t (by rw [hp]; simp) hof
    refine ⟨ks ++ [t.idx], none, ?_, ?_, ?_, by simp, ?_, ?_⟩
    · rw [hlog, eventsOf_snoc, eventOf_ends hof, h.shape, hlast]
      simp
    · rw [List.pairwise_append]
      refine ⟨h.sorted, by simp, ?_⟩
      intro k hk j hj
      simp only [List.mem_singleton] at hj
      subst hj
      exact hbt k hk
    · intro v y hy u hu hofu k hk
      rw [List.mem_append, List.mem_singleton] at hk
      rw [hw, set_getElem hx] at hy
      split at hy
      · simp only [Option.some.injEq] at hy
        subst hy
        have hux : u ∈ pend x := by rw [hp]; exact List.mem_cons_of_mem _ hu
        rcases hk with hk | rfl
        · exact h.behind w x hx u hux hofu k hk
        · have hsort := (hs.sorted w x hx).sublist ((pend_sub x).map _)
          rw [hp] at hsort
          simp only [List.map_cons, List.pairwise_cons] at hsort
          exact hsort.1 u.idx (List.mem_map.2 ⟨u, hu, rfl⟩)
      · rename_i hne
        exact absurd (same_home hs hx hy htx ((pend_sub y).subset hu) hof hofu) hne
    · intro _ v y u us hy hcu hofu
      rw [hw, set_getElem hx] at hy
      split at hy
      · simp only [Option.some.injEq] at hy
        subst hy
        exact hr' u us hcu
      · rename_i hne
        exact absurd (same_home hs hx hy htx (by simp [tasks, held, hcu]) hof hofu) hne
    · intro k hk
      rw [hi]
      rw [List.mem_append, List.mem_singleton] at hk
      rcases hk with hk | rfl
      · exact h.calls k hk
      · exact ⟨t, hs.idx w x hx t htx, hof⟩
  · refine ⟨ks, last, log_quiet h hx hw hi ?_ ?_ ?_ fun u us hcu => absurd hcu (hr' u us)⟩
    · rw [hlog, eventsOf_snoc, eventOf_ends_other hof]; simp
    · rw [hp]; exact List.sublist_cons_self _ _
    · intro u us hcu
      rw [hc] at hcu
      simp only [Option.some.injEq, Prod.mk.injEq] at hcu
      rw [← hcu.1]; exact hof

theorem log_inner {W : World} {n a : Nat} {s s' : State} {w : Nat} (hs : Shape n s) (h : ∃ ks last, LogOk a s ks last) (hin : Inner W s w s') :
    ∃ ks last, LogOk a s' ks last := by
  obtain ⟨ks, last, h⟩ := h
  cases hin with
  | take hx => exact ⟨ks, last, log_quiet h hx rfl rfl rfl (List.Sublist.refl _) (by simp) (by simp)⟩
  | start hx =>
    rename_i queue t done
    by_cases hof : isOf a t
    · have htx : t ∈ tasks ⟨queue, some (t, .fetch done []), false⟩ := by simp [tasks, held]
      have hlast : last = none := by
        cases hl : last with
        | none => rfl
        | some k =>
          obtain ⟨v, y, u, us, hy, hcu, hofu, e⟩ := h.now k hl
          have := same_home hs hx hy htx (by simp [tasks, held, hcu]) hof hofu
          subst this
          rw [hx] at hy
          simp only [Option.some.injEq] at hy
          subst hy
          simp at hcu
      refine ⟨ks, some t.idx, ?_, h.sorted, ?_, ?_, by simp, h.calls⟩
      · simp only
        rw [eventsOf_snoc, eventOf_begins hof, h.shape, hlast]
        simp
      · intro v y hy u hu hofu k hk
        simp only [State.setWorker] at hy
        rw [set_getElem hx] at hy
        split at hy
        · simp only [Option.some.injEq] at hy
          subst hy
          exact h.behind w _ hx u hu hofu k hk
        · exact h.behind v y hy u hu hofu k hk
      · intro k hk
        simp only [Option.some.injEq] at hk
        refine ⟨w, _, t, done, by simp only [State.setWorker]; rw [set_getElem hx, if_pos rfl], rfl, hof, hk⟩
    · refine ⟨ks, last, log_quiet h hx rfl rfl ?_ (List.Sublist.refl _) (by simp) ?_⟩
      · simp only
        rw [eventsOf_snoc, eventOf_begins_other hof]; simp
      · intro u us hcu
        simp only [Option.some.injEq, Prod.mk.injEq] at hcu
        rw [← hcu.1]; exact hof
  | lit hx => exact ⟨ks, last, log_quiet h hx rfl rfl rfl (List.Sublist.refl _) (by simp) (by simp)⟩
  | value hx hst hg => exact ⟨ks, last, log_quiet h hx rfl rfl rfl (List.Sublist.refl _) (by simp) (by simp)⟩
  | error hx hst hg => exact ⟨ks, last, log_quiet h hx rfl rfl rfl (List.sublist_cons_self _ _) (by simp) (by simp)⟩
  | raised hx hc => exact log_end hs h hx rfl rfl rfl rfl rfl (by simp)
  | returned hx hc hd => exact log_end hs h hx rfl rfl rfl rfl rfl (by simp)
  | dies hx hc hd => exact log_end hs h hx rfl rfl rfl rfl rfl (by simp)
  | write hx => exact ⟨ks, last, log_quiet h hx rfl rfl rfl (List.Sublist.refl _) (by simp) (by simp)⟩
  | idle hx => exact ⟨ks, last, log_quiet h hx rfl rfl rfl (List.Sublist.refl _) (by simp) (by simp)⟩

theorem log_outer {W : World} {n a : Nat} {s s' : State} (hs : Shape n s) (h : ∃ ks last, LogOk a s ks last) (ho : Outer W n s s') :
    ∃ ks last, LogOk a s' ks last := by
  obtain ⟨ks, last, h⟩ := h
  have hc : ∀ ext, ∀ k ∈ ks, ∃ t, (s.items ++ ext)[k]? = some (.task t) ∧ isOf a t := by
    intro ext k hk
    obtain ⟨t, ht, hof⟩ := h.calls k hk
    exact ⟨t, by rw [List.getElem?_append_left (List.getElem?_eq_some_iff.1 ht).1]; exact ht, hof⟩
  cases ho with
  | put v => exact ⟨ks, last, h.shape, h.sorted, h.behind, h.now, h.rest, hc _⟩
  | refuse k pool hp => exact ⟨ks, last, h.shape, h.sorted, h.behind, h.now, h.rest, h.calls⟩
  | admin pool actors hp h1 h2 => exact ⟨ks, last, h.shape, h.sorted, h.behind, h.now, h.rest, h.calls⟩
  | task t w k pool hp hw hi ho ha hg ht =>
    refine ⟨ks, last, h.shape, h.sorted, ?_, ?_, ?_, hc _⟩
    · intro v y hy u hu hof j hj
      simp only at hy
      rw [addTask_getElem] at hy
      obtain ⟨x, hx, rfl⟩ := Option.map_eq_some_iff.1 hy
      by_cases e : w = v
      · simp only [e, if_true] at hu
        rw [pend_push, List.mem_append, List.mem_singleton] at hu
        rcases hu with hu | rfl
        · exact h.behind v x hx u hu hof j hj
        · obtain ⟨t', ht', -⟩ := h.calls j hj
          rw [hi]
          exact (List.getElem?_eq_some_iff.1 ht').1
      · simp only [e, if_false] at hu
        exact h.behind v x hx u hu hof j hj
    · intro j hj
      obtain ⟨v, x, u, us, hx, hcu, hof, e⟩ := h.now j hj
      refine ⟨v, _, u, us, by simp only; rw [addTask_getElem, hx]; rfl, ?_, hof, e⟩
      by_cases e : w = v <;> simp [e, hcu]
    · intro hl v y u us hy hcu
      simp only at hy
      rw [addTask_getElem] at hy
      obtain ⟨x, hx, rfl⟩ := Option.map_eq_some_iff.1 hy
      refine h.rest hl v x u us hx ?_
      by_cases e : w = v
      · simpa [e] using hcu
      · simpa [e] using hcu

theorem reach_log {W : World} {n a : Nat} {acts : List Act} : ∀ {s s' : State}, Shape n s → TodoOk s → (∃ ks last, LogOk a s ks last) →
    run W s acts = some s' → ∃ ks last, LogOk a s' ks last := by
  induction acts with
  | nil =>
    intro s s' h1 h2 h3 h
    simp only [run, Option.some.injEq] at h
    subst h
    exact h3
  | cons b acts ih =>
    intro s s' h1 h2 h3 h
    simp only [run] at h
    split at h
    · cases h
    · rename_i s1 hs1
      obtain ⟨k1, k2⟩ := shape_step h1 h2 hs1
      refine ih k1 k2 ?_ h
      cases hb : b.byWorker with
      | none => exact log_outer h1 h3 (outer_of_step h1 hb hs1)
      | some w => exact log_inner h1 h3 (inner_of_step hb hs1)

end Verif.Pymp
