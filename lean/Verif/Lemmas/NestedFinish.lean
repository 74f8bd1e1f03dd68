import Verif.Lemmas.NestedDeadlock

/-! If only the main program waits, every program of nested calls can be brought to its end (C88). -/
namespace Verif.Nested
open Verif.Spec

theorem runAll_trans {W : World} {s s1 s2 : State} {as bs : List Act} (h1 : s.runAll W as = some s1)
    (h2 : s1.runAll W bs = some s2) : s.runAll W (as ++ bs) = some s2 := by
  induction as generalizing s with
  | nil => simp only [State.runAll, Option.some.injEq] at h1; exact h1 ▸ h2
  | cons a as ih =>
    rw [State.runAll] at h1
    split at h1
    · next s3 h3 => simp [State.runAll, h3, ih h1]
    · cases h1

theorem runAll_one {W : World} {s s1 : State} {a : Act} (h : s.step W a = some s1) : s.runAll W [a] = some s1 := by
  simp [State.runAll, h]

/-- What happened since: nothing is lost, the main program has not gone on. -/
structure Later (s s' : State) : Prop where
  next : s.next ≤ s'.next
  home : ∀ p, p < s.next → s'.home p = s.home p
  store : ∀ r p, (s.store r p).isSome → (s'.store r p).isSome
  main : s'.run 0 = s.run 0
  task : ∀ r t, r ≠ 0 → t ∈ s.inbox r →
    t ∈ s'.inbox r ∨ (∃ f, s'.run r = some f ∧ f.out = t.out) ∨ (s'.store r t.out).isSome
  frame : ∀ r f, r ≠ 0 → s.run r = some f → (∃ f', s'.run r = some f' ∧ f'.out = f.out) ∨ (s'.store r f.out).isSome

theorem Later.refl (s : State) : Later s s :=
  ⟨Nat.le_refl _, fun _ _ => rfl, fun _ _ h => h, rfl, fun _ _ _ h => Or.inl h, fun _ f _ h => Or.inl ⟨f, h, rfl⟩⟩

theorem Later.trans {s s1 s2 : State} (h1 : Later s s1) (h2 : Later s1 s2) : Later s s2 where
  next := Nat.le_trans h1.next h2.next
  home := fun p hp => (h2.home p (Nat.lt_of_lt_of_le hp h1.next)).trans (h1.home p hp)
  store := fun r p h => h2.store r p (h1.store r p h)
  main := h2.main.trans h1.main
  task := by
    intro r t hr ht
    rcases h1.task r t hr ht with h | ⟨f, hf, ho⟩ | h
    · exact h2.task r t hr h
    · exact Or.inr (ho ▸ h2.frame r f hr hf)
    · exact Or.inr (Or.inr (h2.store _ _ h))
  frame := by
    intro r f hr hf
    rcases h1.frame r f hr hf with ⟨f', hf', ho⟩ | h
    · exact ho ▸ h2.frame r f' hr hf'
    · exact Or.inr (h2.store _ _ h)

/-- Storing a value. -/
theorem later_put (s : State) (r p : Nat) (v : Val) : Later s (s.put r p v) :=
  ⟨Nat.le_refl _, fun _ _ => rfl, put_keeps s r p v, rfl, fun _ _ _ h => Or.inl h, fun _ f _ h => Or.inl ⟨f, h, rfl⟩⟩

/-- A task goes on. -/
theorem later_run {s : State} {r : Nat} {f : Frame} (hr : r ≠ 0) (h : s.run r = some f) (g : Frame) (hg : g.out = f.out) :
    Later s (s.setRun r (some g)) where
  next := Nat.le_refl _
  home := fun _ _ => rfl
  store := fun _ _ h => h
  main := by simp [State.setRun, Ne.symm hr]
  task := fun _ _ _ h => Or.inl h
  frame := by
    intro r1 f1 _ h1
    left
    by_cases hc : r1 = r
    · subst hc
      rw [h] at h1
      injection h1 with h1
      exact ⟨g, by simp [State.setRun], by rw [hg, h1]⟩
    · exact ⟨f1, by simp [State.setRun, hc, h1], rfl⟩

/-- Every step except those of the main program. -/
theorem later_step {W : World} {s s' : State} (a : Act)
    (ha : match a with | .exec r _ => r ≠ 0 | .start _ _ => True | .fetch r _ => r ≠ 0)
    (h : s.step W a = some s') : Later s s' := by
  cases a with
  | exec r dest =>
    simp only at ha
    simp only [State.step, State.exec] at h
    split at h
    · cases h
    · next out v env hrun =>
      rw [if_neg ha] at h
      injection h with h
      subst h
      refine ⟨Nat.le_refl _, fun _ _ => rfl, put_keeps s r out v, ?_, fun _ _ _ h => Or.inl h, ?_⟩
      · simp [State.setRun, State.put, Ne.symm ha]
      · intro r1 f1 _ h1
        by_cases hc : r1 = r
        · subst hc
          rw [hrun] at h1
          injection h1 with h1
          subst h1
          right
          simp [State.setRun, State.put]
        · exact Or.inl ⟨f1, by simp [State.setRun, State.put, hc, h1], rfl⟩
    · next out v next env hrun =>
      injection h with h
      subst h
      have hl := (later_put s r s.next v).trans (later_run ha (s := s.put r s.next v) hrun ⟨out, next, env ++ [s.next]⟩ rfl)
      refine ⟨Nat.le_succ _, ?_, hl.store, hl.main, hl.task, hl.frame⟩
      intro p hp
      simp only
      rw [if_neg (by omega)]
    · next out fn args next env hrun =>
      split at h
      · split at h
        · cases h
        · next l hl =>
          injection h with h
          subst h
          have hpf := push_frame r dest l s
          refine ⟨Nat.le_succ _, ?_, push_keeps r dest l s, ?_, ?_, ?_⟩
          · intro p hp
            simp only
            rw [if_neg (by omega)]
          · simp [State.setRun, State.setInbox, Ne.symm ha, hpf.2.1]
          · intro r1 t _ ht
            left
            simp only [State.setRun, State.setInbox]
            split
            · next hc => exact List.mem_append_left _ (hc ▸ ht)
            · rw [hpf.1]; exact ht
          · intro r1 f1 _ h1
            left
            simp only [State.setRun, State.setInbox]
            by_cases hc : r1 = r
            · subst hc
              rw [hrun] at h1
              injection h1 with h1
              exact ⟨⟨out, next, env ++ [s.next]⟩, by simp, by rw [← h1]⟩
            · exact ⟨f1, by simp [hc, hpf.2.1, h1], rfl⟩
      · cases h
    · next out x next env hrun =>
      split at h
      · cases h
      · split at h
        · cases h
        · injection h with h
          subst h
          exact later_run ha hrun _ rfl
  | start r i =>
    simp only [State.step] at h
    split at h
    · cases h
    · next hc =>
      have hc1 : s.run r = none := by
        cases hr : s.run r with
        | none => rfl
        | some f => exact absurd (Or.inl (by simp [hr])) hc
      have hc2 : r ≠ 0 := fun hr => hc (Or.inr hr)
      split at h
      · cases h
      · next t ht =>
        split at h
        · cases h
        · next vs hvs =>
          injection h with h
          subst h
          refine ⟨Nat.le_refl _, fun _ _ => rfl, fun _ _ h => h, ?_, ?_, ?_⟩
          · simp [State.setRun, State.setInbox, Ne.symm hc2]
          · intro r1 u _ hu
            simp only [State.setRun, State.setInbox]
            by_cases hr : r1 = r
            · subst hr
              obtain ⟨j, hj⟩ := List.getElem?_of_mem hu
              by_cases hij : j = i
              · subst hij
                rw [ht] at hj
                injection hj with hj
                subst hj
                exact Or.inr (Or.inl ⟨_, by rw [if_pos rfl], rfl⟩)
              · left
                rw [if_pos rfl]
                exact List.mem_eraseIdx_iff_getElem?.2 ⟨j, hij, hj⟩
            · left
              rw [if_neg hr]
              exact hu
          · intro r1 f1 _ h1
            left
            have hr : r1 ≠ r := fun hc => by rw [hc, hc1] at h1; cases h1
            exact ⟨f1, by simp [State.setRun, State.setInbox, hr, h1], rfl⟩
  | fetch r p =>
    simp only at ha
    simp only [State.step] at h
    split at h
    · cases h
    · split at h
      · cases h
      · next v hv =>
        injection h with h
        rw [State.answer] at h
        split at h
        · next out x next env hrun =>
          split at h
          · subst h
            exact (later_put s r p v).trans (later_run (s := s.put r p v) ha hrun _ rfl)
          · exact h ▸ later_put s r p v
        · exact h ▸ later_put s r p v

/-- What is needed of the functions and the workers. -/
structure Good (W : World) : Prop where
  h0 : 0 ∉ W.workers
  h2 : ∃ a ∈ W.workers, ∃ b ∈ W.workers, a ≠ b
  hb : ∀ fn ns, Scoped 0 (W.body fn ns) ∧ NoGet (W.body fn ns)

theorem Good.dest {W : World} (hW : Good W) (r : Nat) : ∃ d ∈ W.workers, d ≠ r := by
  obtain ⟨wa, ha, wb, hb, hab⟩ := hW.h2
  by_cases h : wa = r
  · exact ⟨wb, hb, fun hc => hab (h.trans hc.symm)⟩
  · exact ⟨wa, ha, h⟩

theorem Good.step {W : World} (hW : Good W) {s s' : State} {a : Act} (hp : Place W NoGet s) (h : s.step W a = some s') :
    Place W NoGet s' := place_step closed_noGet a hW.hb hW.h0 hp h

theorem Good.run {W : World} (hW : Good W) {s s' : State} {as : List Act} (hp : Place W NoGet s)
    (h : s.runAll W as = some s') : Place W NoGet s' := place_run closed_noGet as hW.h0 hW.hb hp h

/-- A running task comes to its end. -/
theorem drain_task {W : World} (hW : Good W) (r : Nat) (hr : r ≠ 0) (prog : Prog) : ∀ (s : State) (out : Nat) (env : List Nat),
    Place W NoGet s → s.run r = some ⟨out, prog, env⟩ → ∃ as s', s.runAll W as = some s' ∧ Later s s' ∧ s'.run r = none := by
  induction prog with
  | ret v =>
    intro s out env hp hrun
    have hs : s.step W (.exec r 0) = some ((s.put r out v).setRun r none) := by simp [State.step, State.exec, hrun, hr]
    exact ⟨_, _, runAll_one hs, later_step (.exec r 0) hr hs, by simp [State.setRun]⟩
  | put v next ih =>
    intro s out env hp hrun
    have hs : s.step W (.exec r 0) ≠ none := by simp [State.step, State.exec, hrun]
    obtain ⟨s1, hs1⟩ := Option.ne_none_iff_exists'.1 hs
    have hr1 : s1.run r = some ⟨out, next, env ++ [s.next]⟩ := by
      have := hs1
      simp only [State.step, State.exec, hrun, Option.some.injEq] at this
      subst this
      simp [State.setRun]
    obtain ⟨as, s2, h1, h2, h3⟩ := ih s1 out _ (hW.step hp hs1) hr1
    exact ⟨_, s2, runAll_trans (runAll_one hs1) h1, (later_step (.exec r 0) hr hs1).trans h2, h3⟩
  | call fn args next ih =>
    intro s out env hp hrun
    obtain ⟨d, hd1, hd2⟩ := hW.dest r
    obtain ⟨l, hl⟩ := sendArgs_some (hp.frame r _ hrun).1.1
    have hs : s.step W (.exec r d) ≠ none := by simp [State.step, State.exec, hrun, hd1, hd2, hl]
    obtain ⟨s1, hs1⟩ := Option.ne_none_iff_exists'.1 hs
    have hr1 : s1.run r = some ⟨out, next, env ++ [s.next]⟩ := by
      have := hs1
      simp only [State.step, State.exec, hrun, hd1, hd2, hl, ne_eq, not_false_eq_true, and_self, if_true,
        Option.some.injEq] at this
      subst this
      simp [State.setRun]
    obtain ⟨as, s2, h1, h2, h3⟩ := ih s1 out _ (hW.step hp hs1) hr1
    exact ⟨_, s2, runAll_trans (runAll_one hs1) h1, (later_step (.exec r d) hr hs1).trans h2, h3⟩
  | get x next _ =>
    intro s out env hp hrun
    exact absurd ((hp.frame r _ hrun).2.2 hr).1 (by simp [NoGet])

/-- A worker becomes idle. -/
theorem drain {W : World} (hW : Good W) {s : State} (hp : Place W NoGet s) (r : Nat) (hr : r ≠ 0) :
    ∃ as s', s.runAll W as = some s' ∧ Later s s' ∧ s'.run r = none := by
  cases hrun : s.run r with
  | none => exact ⟨[], s, rfl, Later.refl s, hrun⟩
  | some f => exact drain_task hW r hr f.prog s f.out f.env hp hrun

/-- A value is fetched. -/
theorem fetched {W : World} {s s' : State} {r p : Nat} (h : s.step W (.fetch r p) = some s') : (s'.store r p).isSome := by
  simp only [State.step] at h
  split at h
  · cases h
  · split at h
    · cases h
    · next v hv =>
      injection h with h
      rw [State.answer] at h
      split at h
      · split at h
        · subst h; simp [State.put, State.setRun]
        · subst h; simp [State.put]
      · subst h; simp [State.put]

/-- The value of every reference can be made. -/
theorem make {W : World} (hW : Good W) : ∀ (n p : Nat) (s : State), p < n → Place W NoGet s → p < s.next → s.home p ≠ 0 →
    ∃ as s', s.runAll W as = some s' ∧ Later s s' ∧ s'.run (s.home p) = none ∧ (s'.store (s.home p) p).isSome := by
  intro n
  induction n with
  | zero => intro p s hlt; omega
  | succ n ih =>
    intro p s hlt hp hpn hh
    generalize hhome : s.home p = h at hh ⊢
    -- a worker that has the value or runs the task comes to rest with the value
    have rest : ∀ s1, Place W NoGet s1 → ((∃ f, s1.run h = some f ∧ f.out = p) ∨ (s1.store h p).isSome) →
        ∃ as s2, s1.runAll W as = some s2 ∧ Later s1 s2 ∧ s2.run h = none ∧ (s2.store h p).isSome := by
      intro s1 hp1 h1
      obtain ⟨as, s2, h3, h4, h5⟩ := drain hW hp1 h hh
      refine ⟨as, s2, h3, h4, h5, ?_⟩
      rcases h1 with ⟨f, h1, h2⟩ | h1
      · rcases h4.frame h f hh h1 with ⟨f', h6, _⟩ | h6
        · rw [h5] at h6; cases h6
        · exact h2 ▸ h6
      · exact h4.store _ _ h1
    rcases hp.ex p hpn with h1 | ⟨t, ht, hto⟩ | h1
    · exact rest s hp (Or.inr (hhome ▸ h1))
    · rw [hhome] at ht
      have hargs := (hp.inbox h t ht).2.2.1
      -- the arguments are gathered
      have gather : ∀ l : List Sent, (∀ x ∈ l, x ∈ t.args) → ∃ as s1, s.runAll W as = some s1 ∧ Later s s1 ∧
          (((∃ f, s1.run h = some f ∧ f.out = p) ∨ (s1.store h p).isSome) ∨
            (t ∈ s1.inbox h ∧ ∀ a, Sent.ref a ∈ l → (s1.store h a).isSome)) := by
        intro l
        induction l with
        | nil => exact fun _ => ⟨[], s, rfl, Later.refl s, Or.inr ⟨ht, by simp⟩⟩
        | cons x l ihl =>
          intro hl
          obtain ⟨as, s1, e1, e2, e3⟩ := ihl fun y hy => hl y (List.mem_cons_of_mem _ hy)
          rcases e3 with e3 | ⟨e3, e4⟩
          · exact ⟨as, s1, e1, e2, Or.inl e3⟩
          have hp1 := hW.run hp e1
          cases x with
          | val v => exact ⟨as, s1, e1, e2, Or.inr ⟨e3, fun a ha => e4 a (by simpa using ha)⟩⟩
          | ref a =>
            have haa := hl (.ref a) (by simp)
            by_cases hst : (s1.store h a).isSome
            · refine ⟨as, s1, e1, e2, Or.inr ⟨e3, fun b hb => ?_⟩⟩
              rcases List.mem_cons.1 hb with hb | hb
              · injection hb with hb; exact hb ▸ hst
              · exact e4 b hb
            · have hap := hargs a haa
              have hah : s1.home a ≠ 0 := fun hc => hst ((hp1.inbox h t e3).2.2.2.2 a haa hc)
              obtain ⟨bs, s2, f1, f2, f3, f4⟩ := ih a s1 (by omega) hp1 (by have := e2.next; omega) hah
              have hp2 := hW.run hp1 f1
              have f2' := e2.trans f2
              have f1' := runAll_trans e1 f1
              rcases f2.task h t hh e3 with g | g
              · by_cases hst2 : (s2.store h a).isSome
                · refine ⟨_, s2, f1', f2', Or.inr ⟨g, fun b hb => ?_⟩⟩
                  rcases List.mem_cons.1 hb with hb | hb
                  · injection hb with hb; exact hb ▸ hst2
                  · exact f2.store _ _ (e4 b hb)
                · have hha : s2.home a = s1.home a := f2.home a (by have := e2.next; omega)
                  have hneed : s2.needs h a = true := by
                    simp only [State.needs, Bool.or_eq_true, List.any_eq_true]
                    exact Or.inr ⟨t, g, _, haa, by simp⟩
                  obtain ⟨s3, hs3⟩ := Option.ne_none_iff_exists'.1 (can_fetch (W := W) (s := s2) (r := h) (p := a)
                    (hha ▸ f3) (hha ▸ hah) (by simpa using hst2) hneed (hha ▸ f4))
                  have hl3 := later_step (.fetch h a) hh hs3
                  refine ⟨_, s3, runAll_trans f1' (runAll_one hs3), f2'.trans hl3, ?_⟩
                  rcases hl3.task h t hh g with g3 | g3
                  · refine Or.inr ⟨g3, fun b hb => ?_⟩
                    rcases List.mem_cons.1 hb with hb | hb
                    · injection hb with hb; exact hb ▸ fetched hs3
                    · exact hl3.store _ _ (f2.store _ _ (e4 b hb))
                  · exact Or.inl (hto ▸ g3)
              · exact ⟨_, s2, f1', f2', Or.inl (hto ▸ g)⟩
      obtain ⟨as, s1, e1, e2, e3⟩ := gather t.args fun _ hx => hx
      have hp1 := hW.run hp e1
      rcases e3 with e3 | ⟨e3, e4⟩
      · obtain ⟨bs, s2, f1, f2, f3, f4⟩ := rest s1 hp1 e3
        exact ⟨_, s2, runAll_trans e1 f1, e2.trans f2, f3, f4⟩
      · obtain ⟨bs, s2, f1, f2, f3⟩ := drain hW hp1 h hh
        have hp2 := hW.run hp1 f1
        rcases f2.task h t hh e3 with g | g
        · obtain ⟨i, hti⟩ := List.getElem?_of_mem g
          obtain ⟨vs, hvs⟩ := values_some (store := s2.store h) (as := t.args) fun a ha => f2.store _ _ (e4 a ha)
          have hst : s2.step W (.start h i) =
              some ((s2.setInbox h ((s2.inbox h).eraseIdx i)).setRun h (some ⟨t.out, runTask (W.body t.fn) vs, []⟩)) := by
            simp [State.step, f3, hh, hti, hvs]
          have hp3 := hW.step hp2 hst
          obtain ⟨cs, s4, g1, g2, g3, g4⟩ := rest _ hp3 (Or.inl ⟨⟨t.out, runTask (W.body t.fn) vs, []⟩, by
            simp [State.setRun], hto⟩)
          exact ⟨_, s4, runAll_trans (runAll_trans (runAll_trans e1 f1) (runAll_one hst)) g1,
            ((e2.trans f2).trans (later_step (.start h i) trivial hst)).trans g2, g3, g4⟩
        · obtain ⟨cs, s3, g1, g2, g3, g4⟩ := rest s2 hp2 (hto ▸ g)
          exact ⟨_, s3, runAll_trans (runAll_trans e1 f1) g1, (e2.trans f2).trans g2, g3, g4⟩
    · rw [hhome] at h1
      exact rest s hp (Or.inl h1)

/-- The main program can be brought to its end. -/
theorem finish {W : World} (hW : Good W) (prog : Prog) : ∀ (s : State) (out : Nat) (env : List Nat),
    Place W NoGet s → s.run 0 = some ⟨out, prog, env⟩ → ∃ as s' v, s.runAll W as = some s' ∧ s'.done = some v := by
  induction prog with
  | ret v =>
    intro s out env hp hrun
    have hs : s.step W (.exec 0 0) = some { s.setRun 0 none with done := some v } := by simp [State.step, State.exec, hrun]
    exact ⟨_, _, v, runAll_one hs, rfl⟩
  | put v next ih =>
    intro s out env hp hrun
    have hs : s.step W (.exec 0 0) ≠ none := by simp [State.step, State.exec, hrun]
    obtain ⟨s1, hs1⟩ := Option.ne_none_iff_exists'.1 hs
    have hr1 : s1.run 0 = some ⟨out, next, env ++ [s.next]⟩ := by
      have := hs1
      simp only [State.step, State.exec, hrun, Option.some.injEq] at this
      subst this
      simp [State.setRun]
    obtain ⟨as, s2, v, h1, h2⟩ := ih s1 out _ (hW.step hp hs1) hr1
    exact ⟨_, s2, v, runAll_trans (runAll_one hs1) h1, h2⟩
  | call fn args next ih =>
    intro s out env hp hrun
    obtain ⟨d, hd1, hd2⟩ := hW.dest 0
    obtain ⟨l, hl⟩ := sendArgs_some (hp.frame 0 _ hrun).1.1
    have hs : s.step W (.exec 0 d) ≠ none := by simp [State.step, State.exec, hrun, hd1, hd2, hl]
    obtain ⟨s1, hs1⟩ := Option.ne_none_iff_exists'.1 hs
    have hr1 : s1.run 0 = some ⟨out, next, env ++ [s.next]⟩ := by
      have := hs1
      simp only [State.step, State.exec, hrun, hd1, hd2, hl, ne_eq, not_false_eq_true, and_self, if_true,
        Option.some.injEq] at this
      subst this
      simp [State.setRun]
    obtain ⟨as, s2, v, h1, h2⟩ := ih s1 out _ (hW.step hp hs1) hr1
    exact ⟨_, s2, v, runAll_trans (runAll_one hs1) h1, h2⟩
  | get x next ih =>
    intro s out env hp hrun
    obtain ⟨⟨hx, _⟩, henv, _⟩ := hp.frame 0 _ hrun
    have hx' : env[x]? = some env[x] := by simp [hx]
    have stored : ∀ s1, Place W NoGet s1 → s1.run 0 = some ⟨out, .get x next, env⟩ → (s1.store 0 env[x]).isSome →
        ∃ as s' v, s1.runAll W as = some s' ∧ s'.done = some v := by
      intro s1 hp1 hrun1 hst
      obtain ⟨v, hv⟩ := Option.isSome_iff_exists.1 hst
      have hs : s1.step W (.exec 0 0) = some (s1.setRun 0 (some ⟨out, next (.value v), env⟩)) := by
        simp [State.step, State.exec, hrun1, hx', hv]
      obtain ⟨as, s2, w, h1, h2⟩ := ih (.value v) _ out env (hW.step hp1 hs) (by simp [State.setRun])
      exact ⟨_, s2, w, runAll_trans (runAll_one hs) h1, h2⟩
    by_cases hst : (s.store 0 env[x]).isSome
    · exact stored s hp hrun hst
    · have hlt := henv env[x] (List.getElem_mem hx)
      have hh : s.home env[x] ≠ 0 := by
        intro hc
        rcases hp.homes env[x] hlt with h | h
        · exact hW.h0 (hc ▸ h)
        · exact hst h.2
      obtain ⟨as, s1, h1, h2, h3, h4⟩ := make hW _ env[x] s (Nat.lt_succ_self _) hp hlt hh
      have hp1 := hW.run hp h1
      have hrun1 : s1.run 0 = some ⟨out, .get x next, env⟩ := h2.main.trans hrun
      by_cases hst1 : (s1.store 0 env[x]).isSome
      · obtain ⟨bs, s2, w, g1, g2⟩ := stored s1 hp1 hrun1 hst1
        exact ⟨_, s2, w, runAll_trans h1 g1, g2⟩
      · have hho := h2.home env[x] hlt
        have hneed : s1.needs 0 env[x] = true := by simp [State.needs, hrun1, hx']
        obtain ⟨v, hv⟩ := Option.isSome_iff_exists.1 h4
        have hs : s1.step W (.fetch 0 env[x]) =
            some ((s1.put 0 env[x] v).setRun 0 (some ⟨out, next (requested v), env⟩)) := by
          simp only [State.step]
          rw [if_neg]
          · rw [hho, hv]
            simp only [State.answer, hrun1, hx', if_true]
          · simp [hho, h3, hh, hneed, by simpa using hst1]
        obtain ⟨bs, s2, w, g1, g2⟩ := ih (requested v) _ out env (hW.step hp1 hs) (by simp [State.setRun])
        exact ⟨_, s2, w, runAll_trans h1 (runAll_trans (runAll_one hs) g1), g2⟩

end Verif.Nested
