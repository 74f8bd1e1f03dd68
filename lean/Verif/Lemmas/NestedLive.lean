import Verif.Lemmas.Nested

/-! If only the main program calls `get`, some step is always possible until it has finished. -/
namespace Verif.Nested
open Verif.Spec

theorem sendArgs_some {env : List Nat} : ∀ {as : List Arg}, (∀ i, Arg.var i ∈ as → i < env.length) →
    ∃ l, sendArgs env as = some l
  | [], _ => ⟨[], rfl⟩
  | .lit n :: as, h => by
    obtain ⟨l, hl⟩ := sendArgs_some (as := as) (fun i hi => h i (List.mem_cons_of_mem _ hi))
    exact ⟨.val n :: l, by simp [sendArgs, hl]⟩
  | .var i :: as, h => by
    obtain ⟨l, hl⟩ := sendArgs_some (as := as) (fun i hi => h i (List.mem_cons_of_mem _ hi))
    have hi := h i (by simp)
    exact ⟨.ref env[i] :: l, by simp [sendArgs, hl, hi]⟩

theorem push_keeps (r dest : Nat) (l : List Sent) (s : State) (r' p : Nat) (h : (s.store r' p).isSome) :
    ((s.push r dest l).store r' p).isSome := by
  induction l generalizing s with
  | nil => exact h
  | cons a l ih =>
    cases a with
    | val n => exact ih s h
    | ref q =>
      rw [State.push]
      split
      · next w hw =>
        apply ih
        simp only [State.put]
        split
        · rfl
        · exact h
      · exact ih s h

/-- What the sender has arrives at the receiver. -/
theorem push_gives (r dest : Nat) (l : List Sent) (s : State) (p : Nat) (hp : Sent.ref p ∈ l) (h : (s.store r p).isSome) :
    ((s.push r dest l).store dest p).isSome := by
  induction l generalizing s with
  | nil => cases hp
  | cons a l ih =>
    cases a with
    | val n => exact ih s (by simpa using hp) h
    | ref q =>
      rw [State.push]
      have hkeep : ∀ v, ((s.put dest q v).store r p).isSome := by
        intro v
        simp only [State.put]
        split
        · rfl
        · exact h
      rcases List.mem_cons.1 hp with hpq | hpl
      · injection hpq with hpq
        subst hpq
        obtain ⟨v, hv⟩ := Option.isSome_iff_exists.1 h
        rw [hv]
        exact push_keeps r dest l _ dest p (by simp [State.put])
      · split
        · exact ih _ hpl (hkeep _)
        · exact ih s hpl h

theorem put_keeps (s : State) (r p : Nat) (v : Val) (r' q : Nat) (h : (s.store r' q).isSome) :
    ((s.put r p v).store r' q).isSome := by
  simp only [State.put]
  split
  · rfl
  · exact h

/-- What a task runs is a body of a function or ends at once. -/
theorem runTask_all {P : Prog → Prop} (hr : ∀ v, P (.ret v)) (vs : List Val) (b : List Nat → Prog) (hb : ∀ ns, P (b ns)) :
    P (runTask b vs) := by
  induction vs generalizing b with
  | nil => exact hb []
  | cons v vs ih =>
    cases v with
    | ok n => exact ih _ fun ns => hb (n :: ns)
    | exc e => exact hr _

/-- What is left of such a program after a step is again one. -/
structure Closed (Q : Prog → Prop) : Prop where
  ret : ∀ v, Q (.ret v)
  put : ∀ {v next}, Q (.put v next) → Q next
  call : ∀ {fn args next}, Q (.call fn args next) → Q next
  get : ∀ {x next}, Q (.get x next) → ∀ g, Q (next g)

theorem closed_noGet : Closed NoGet :=
  ⟨by simp [NoGet], by simp [NoGet], by simp [NoGet], by simp [NoGet]⟩

theorem closed_true : Closed fun _ => True := ⟨by simp, by simp, by simp, by simp⟩

/-- Where the references are; the tasks that run satisfy `Q`. -/
structure Place (W : World) (Q : Prog → Prop) (s : State) : Prop where
  inbox : ∀ r t, t ∈ s.inbox r → s.home t.out = r ∧ t.out < s.next ∧ (∀ p, Sent.ref p ∈ t.args → p < t.out) ∧
    r ∈ W.workers ∧ ∀ p, Sent.ref p ∈ t.args → s.home p = 0 → (s.store r p).isSome
  ex : ∀ p, p < s.next → (s.store (s.home p) p).isSome ∨ (∃ t ∈ s.inbox (s.home p), t.out = p) ∨
    ∃ f, s.run (s.home p) = some f ∧ f.out = p
  homes : ∀ p, p < s.next → s.home p ∈ W.workers ∨ (s.home p = 0 ∧ (s.store 0 p).isSome)
  frame : ∀ r f, s.run r = some f → Scoped f.env.length f.prog ∧ (∀ p ∈ f.env, p < s.next) ∧
    (r ≠ 0 → Q f.prog ∧ r ∈ W.workers ∧ ∀ p ∈ f.env, s.home p ≠ 0)
  main : s.run 0 = none → s.done.isSome

theorem place_init {W : World} {Q : Prog → Prop} (hm : Scoped 0 W.main) : Place W Q (State.init W) where
  inbox := by simp [State.init]
  ex := by simp [State.init]
  homes := by simp [State.init]
  frame := by
    intro r f h
    simp only [State.init] at h
    split at h
    · next hr =>
      injection h with h
      subst h
      exact ⟨hm, by simp, fun h0 => absurd hr h0⟩
    · cases h
  main := by simp [State.init]

/-- A value that arrives changes nothing about the places. -/
theorem Place.put {W : World} {Q : Prog → Prop} {s : State} (hi : Place W Q s) (r p : Nat) (v : Val) : Place W Q (s.put r p v) where
  inbox := by
    intro r' t ht
    obtain ⟨h1, h2, h3, h4, h5⟩ := hi.inbox r' t ht
    exact ⟨h1, h2, h3, h4, fun q hq hh => put_keeps s r p v _ _ (h5 q hq hh)⟩
  ex := fun q hq => (hi.ex q hq).imp (put_keeps s r p v _ _) id
  homes := fun q hq => (hi.homes q hq).imp id fun h => ⟨h.1, put_keeps s r p v _ _ h.2⟩
  frame := hi.frame
  main := hi.main

/-- A program that goes on after `get` changes nothing about the places. -/
theorem Place.goOn {W : World} {Q : Prog → Prop} (hQ : Closed Q) {s : State} (hi : Place W Q s) {r out x : Nat} {next : Got → Prog} {env : List Nat} (g : Got)
    (hrun : s.run r = some ⟨out, .get x next, env⟩) : Place W Q (s.setRun r (some ⟨out, next g, env⟩)) where
  inbox := hi.inbox
  ex := by
    intro q hq
    simp only [State.setRun]
    rcases hi.ex q hq with h1 | h1 | ⟨f, h1, h2⟩
    · exact Or.inl h1
    · exact Or.inr (Or.inl h1)
    · refine Or.inr (Or.inr ?_)
      by_cases hr : s.home q = r
      · rw [if_pos hr]
        rw [hr, hrun] at h1
        injection h1 with h1
        exact ⟨_, rfl, by rw [← h2, ← h1]⟩
      · rw [if_neg hr]
        exact ⟨f, h1, h2⟩
  homes := hi.homes
  frame := by
    obtain ⟨⟨hsc1, hsc2⟩, henv, hng⟩ := hi.frame r _ hrun
    intro r' f hf
    simp only [State.setRun] at hf
    split at hf
    · next hr =>
      injection hf with hf
      subst hf
      refine ⟨hsc2 g, henv, fun h => ?_⟩
      obtain ⟨h1, h2⟩ := hng (hr ▸ h)
      exact ⟨hQ.get h1 g, hr ▸ h2⟩
    · exact hi.frame r' f hf
  main := by
    intro hm
    simp only [State.setRun] at hm
    split at hm
    · cases hm
    · exact hi.main hm

theorem place_step {W : World} {Q : Prog → Prop} (hQ : Closed Q) {s s' : State} (a : Act)
    (hb : ∀ fn ns, Scoped 0 (W.body fn ns) ∧ Q (W.body fn ns)) (h0 : 0 ∉ W.workers) (hi : Place W Q s)
    (h : s.step W a = some s') : Place W Q s' := by
  cases a with
  | exec r dest =>
    simp only [State.step, State.exec] at h
    split at h
    · cases h
    · next out v env hrun =>
      split at h
      · next hr0 =>
        subst hr0
        injection h with h
        subst h
        refine ⟨hi.inbox, ?_, hi.homes, ?_, by simp⟩
        · intro p hp
          rcases hi.homes p hp with hh | hh
          · rcases hi.ex p hp with h1 | h1 | ⟨f, h1, h2⟩
            · exact Or.inl h1
            · exact Or.inr (Or.inl h1)
            · refine Or.inr (Or.inr ⟨f, ?_, h2⟩)
              have : s.home p ≠ 0 := fun hc => h0 (hc ▸ hh)
              simp only [State.setRun, if_neg this, h1]
          · left
            exact hh.1.symm ▸ hh.2
        · intro r f hf
          simp only [State.setRun] at hf
          split at hf
          · cases hf
          · exact hi.frame r f hf
      · next hr0 =>
        injection h with h
        subst h
        have hi' := hi.put r out v
        refine ⟨hi'.inbox, ?_, hi'.homes, ?_, ?_⟩
        · intro p hp
          simp only [State.put, State.setRun]
          by_cases hc : s.home p = r ∧ p = out
          · left; rw [if_pos hc]; rfl
          · rw [if_neg hc]
            rcases hi.ex p hp with h1 | h1 | ⟨f, h1, h2⟩
            · exact Or.inl h1
            · exact Or.inr (Or.inl h1)
            · refine Or.inr (Or.inr ⟨f, ?_, h2⟩)
              rw [if_neg]
              · exact h1
              · intro hr
                rw [hr, hrun] at h1
                injection h1 with h1
                exact hc ⟨hr, by rw [← h2, ← h1]⟩
        · intro r' f hf
          simp only [State.put, State.setRun] at hf
          split at hf
          · cases hf
          · exact hi.frame r' f hf
        · intro hm
          simp only [State.put, State.setRun, if_neg (Ne.symm hr0)] at hm
          exact hi.main hm
    · next out v next env hrun =>
      obtain ⟨hsc, henv, hng⟩ := hi.frame r _ hrun
      injection h with h
      subst h
      have hkeep := put_keeps s r s.next v
      refine ⟨?_, ?_, ?_, ?_, ?_⟩
      · intro r' t ht
        obtain ⟨h1, h2, h3, h4, h5⟩ := hi.inbox r' t ht
        refine ⟨?_, Nat.lt_succ_of_lt h2, h3, h4, fun q hq hh => hkeep _ _ (h5 q hq ?_)⟩
        · simp only
          rw [if_neg (by omega), h1]
        · have := h3 q hq
          simp only at hh
          rwa [if_neg (by omega)] at hh
      · intro p hp
        simp only at hp ⊢
        by_cases hpn : p = s.next
        · left
          rw [if_pos hpn]
          simp [State.put, State.setRun, hpn]
        · rw [if_neg hpn]
          rcases hi.ex p (by omega) with h1 | h1 | ⟨f, h1, h2⟩
          · exact Or.inl (hkeep _ _ h1)
          · exact Or.inr (Or.inl h1)
          · refine Or.inr (Or.inr ?_)
            simp only [State.setRun]
            by_cases hr : s.home p = r
            · rw [if_pos hr]
              rw [hr, hrun] at h1
              injection h1 with h1
              exact ⟨_, rfl, by rw [← h2, ← h1]⟩
            · rw [if_neg hr]
              exact ⟨f, h1, h2⟩
      · intro p hp
        simp only at hp ⊢
        by_cases hpn : p = s.next
        · rw [if_pos hpn]
          by_cases hr : r = 0
          · right
            exact ⟨hr, by simp [State.put, State.setRun, hpn, hr]⟩
          · exact Or.inl (hng hr).2.1
        · rw [if_neg hpn]
          exact (hi.homes p (by omega)).imp id fun h => ⟨h.1, hkeep _ _ h.2⟩
      · intro r' f hf
        simp only [State.put, State.setRun] at hf
        split at hf
        · next hr =>
          injection hf with hf
          subst hf hr
          refine ⟨by simpa [Scoped] using hsc, ?_, fun h => ⟨hQ.put (hng h).1, (hng h).2.1, ?_⟩⟩
          · intro p hp
            simp only [List.mem_append, List.mem_singleton] at hp ⊢
            rcases hp with hp | hp
            · have := henv p hp
              omega
            · omega
          · intro p hp
            simp only [List.mem_append, List.mem_singleton] at hp ⊢
            rcases hp with hp | hp
            · have := henv p hp
              rw [if_neg (by omega)]
              exact (hng h).2.2 p hp
            · rw [if_pos hp]
              exact h
        · obtain ⟨h1, h2, h3⟩ := hi.frame r' f hf
          refine ⟨h1, fun p hp => ?_, fun h => ⟨(h3 h).1, (h3 h).2.1, fun p hp => ?_⟩⟩
          · have := h2 p hp
            simp only
            omega
          · have := h2 p hp
            simp only
            rw [if_neg (by omega)]
            exact (h3 h).2.2 p hp
      · intro hm
        simp only [State.put, State.setRun] at hm
        split at hm
        · cases hm
        · exact hi.main hm
    · next out fn args next env hrun =>
      obtain ⟨⟨hsc1, hsc2⟩, henv, hng⟩ := hi.frame r _ hrun
      split at h
      · next hd =>
        split at h
        · cases h
        · next l hl =>
          injection h with h
          subst h
          have hpf := push_frame r dest l s
          have hrefs := sendArgs_refs hl
          have hkeep := push_keeps r dest l s
          refine ⟨?_, ?_, ?_, ?_, ?_⟩
          · intro r' t ht
            simp only [State.setRun, State.setInbox] at ht ⊢
            have old : t ∈ s.inbox r' → (if t.out = s.next then dest else s.home t.out) = r' ∧ t.out < s.next + 1 ∧
                (∀ p, Sent.ref p ∈ t.args → p < t.out) ∧ r' ∈ W.workers ∧ ∀ p, Sent.ref p ∈ t.args →
                  (if p = s.next then dest else s.home p) = 0 → ((s.push r dest l).store r' p).isSome := by
              intro ht
              obtain ⟨h1, h2, h3, h4, h5⟩ := hi.inbox r' t ht
              refine ⟨by rw [if_neg (by omega), h1], by omega, h3, h4, fun p hp hh => hkeep _ _ (h5 p hp ?_)⟩
              have := h3 p hp
              rwa [if_neg (by omega)] at hh
            split at ht
            · next hr =>
              simp only [List.mem_append, List.mem_singleton] at ht
              rcases ht with ht | ht
              · exact old (hr ▸ ht)
              · subst ht
                refine ⟨by simp [hr], by simp, fun p hp => henv p (hrefs p hp), hr ▸ hd.1, fun p hp hh => ?_⟩
                have hpe := hrefs p hp
                have hpn := henv p hpe
                rw [if_neg (by omega)] at hh
                by_cases hr0 : r = 0
                · rcases hi.homes p hpn with h1 | h1
                  · exact absurd (hh ▸ h1) h0
                  · rw [hr]
                    exact push_gives r dest l s p hp (hr0.symm ▸ h1.2)
                · exact absurd hh ((hng hr0).2.2 p hpe)
            · rw [hpf.1] at ht
              exact old ht
          · intro p hp
            simp only [State.setRun, State.setInbox] at hp ⊢
            by_cases hpn : p = s.next
            · right; left
              exact ⟨⟨s.next, fn, l⟩, by simp [hpn], hpn.symm⟩
            · rw [if_neg hpn]
              rcases hi.ex p (by omega) with h1 | ⟨t, h1, h2⟩ | ⟨f, h1, h2⟩
              · exact Or.inl (hkeep _ _ h1)
              · refine Or.inr (Or.inl ⟨t, ?_, h2⟩)
                split
                · next hr => rw [← hr]; exact List.mem_append_left _ h1
                · rw [hpf.1]; exact h1
              · refine Or.inr (Or.inr ?_)
                by_cases hr : s.home p = r
                · rw [if_pos hr]
                  rw [hr, hrun] at h1
                  injection h1 with h1
                  exact ⟨_, rfl, by rw [← h2, ← h1]⟩
                · rw [if_neg hr, hpf.2.1]
                  exact ⟨f, h1, h2⟩
          · intro p hp
            simp only [State.setRun, State.setInbox] at hp ⊢
            split
            · exact Or.inl hd.1
            · exact (hi.homes p (by omega)).imp id fun h => ⟨h.1, hkeep _ _ h.2⟩
          · intro r' f hf
            simp only [State.setRun, State.setInbox] at hf ⊢
            split at hf
            · next hr =>
              injection hf with hf
              subst hf hr
              refine ⟨by simpa using hsc2, ?_, fun h => ⟨hQ.call (hng h).1, (hng h).2.1, ?_⟩⟩
              · intro p hp
                simp only [List.mem_append, List.mem_singleton] at hp
                rcases hp with hp | hp
                · have := henv p hp
                  omega
                · omega
              · intro p hp
                simp only [List.mem_append, List.mem_singleton] at hp
                rcases hp with hp | hp
                · have := henv p hp
                  rw [if_neg (by omega)]
                  exact (hng h).2.2 p hp
                · rw [if_pos hp]
                  exact fun hc => h0 (hc ▸ hd.1)
            · rw [hpf.2.1] at hf
              obtain ⟨h1, h2, h3⟩ := hi.frame r' f hf
              refine ⟨h1, fun p hp => ?_, fun h => ⟨(h3 h).1, (h3 h).2.1, fun p hp => ?_⟩⟩
              · have := h2 p hp
                omega
              · have := h2 p hp
                rw [if_neg (by omega)]
                exact (h3 h).2.2 p hp
          · intro hm
            simp only [State.setRun, State.setInbox] at hm ⊢
            split at hm
            · cases hm
            · rw [hpf.2.1] at hm
              rw [hpf.2.2.2.2]
              exact hi.main hm
      · cases h
    · next out x next env hrun =>
      split at h
      · cases h
      · split at h
        · cases h
        · injection h with h
          subst h
          exact hi.goOn hQ _ hrun
  | start r i =>
    simp only [State.step] at h
    split at h
    · cases h
    · next hc =>
      have hc1 : s.run r = none := by
        cases hr : s.run r with
        | none => rfl
        | some f => exact absurd (Or.inl (by simp [hr])) hc
      have hc2 : r ≠ 0 := fun hr => hc (Or.inr hr)
      split at h
      · cases h
      · next t ht =>
        split at h
        · cases h
        · next vs hvs =>
          injection h with h
          subst h
          refine ⟨?_, ?_, hi.homes, ?_, ?_⟩
          · intro r' u hu
            simp only [State.setRun, State.setInbox] at hu ⊢
            split at hu
            · next hr =>
              exact hr ▸ hi.inbox r u (List.mem_of_mem_eraseIdx hu)
            · exact hi.inbox r' u hu
          · intro p hp
            simp only [State.setRun, State.setInbox]
            rcases hi.ex p hp with h1 | ⟨u, h1, h2⟩ | ⟨f, h1, h2⟩
            · exact Or.inl h1
            · by_cases hr : s.home p = r
              · rw [if_pos hr, if_pos hr]
                by_cases hup : t.out = p
                · exact Or.inr (Or.inr ⟨_, rfl, hup⟩)
                · refine Or.inr (Or.inl ⟨u, ?_, h2⟩)
                  rw [List.mem_eraseIdx_iff_getElem?]
                  rw [hr] at h1
                  obtain ⟨j, hj⟩ := List.getElem?_of_mem h1
                  refine ⟨j, ?_, hj⟩
                  intro hij
                  rw [hij, ht] at hj
                  injection hj with hj
                  exact hup (hj ▸ h2)
              · rw [if_neg hr]
                exact Or.inr (Or.inl ⟨u, h1, h2⟩)
            · refine Or.inr (Or.inr ⟨f, ?_, h2⟩)
              rw [if_neg]
              · exact h1
              · intro hr
                rw [hr, hc1] at h1
                cases h1
          · intro r' f hf
            simp only [State.setRun, State.setInbox] at hf
            split at hf
            · next hr =>
              injection hf with hf
              subst hf
              refine ⟨runTask_all (P := Scoped 0) (by simp [Scoped]) vs _ fun ns => (hb _ ns).1, by simp, fun _ => ?_⟩
              exact ⟨runTask_all (P := Q) hQ.ret vs _ fun ns => (hb _ ns).2,
                hr ▸ (hi.inbox r t (List.mem_of_getElem? ht)).2.2.2.1, by simp⟩
            · exact hi.frame r' f hf
          · intro hm
            simp only [State.setRun, State.setInbox, if_neg (Ne.symm hc2)] at hm
            exact hi.main hm
  | fetch r p =>
    simp only [State.step] at h
    split at h
    · cases h
    · split at h
      · cases h
      · next v hv =>
        injection h with h
        rw [State.answer] at h
        split at h
        · next out x next env hrun =>
          split at h
          · subst h
            exact (hi.put r p v).goOn hQ _ hrun
          · exact h ▸ hi.put r p v
        · exact h ▸ hi.put r p v

theorem place_run {W : World} {Q : Prog → Prop} (hQ : Closed Q) {s s' : State} (as : List Act) (h0 : 0 ∉ W.workers)
    (hb : ∀ fn ns, Scoped 0 (W.body fn ns) ∧ Q (W.body fn ns)) (hi : Place W Q s) (h : s.runAll W as = some s') :
    Place W Q s' := by
  induction as generalizing s with
  | nil => simp only [State.runAll, Option.some.injEq] at h; exact h ▸ hi
  | cons a as ih =>
    rw [State.runAll] at h
    split at h
    · next s1 h1 => exact ih (place_step hQ a hb h0 hi h1) h
    · cases h

theorem values_some {store : Nat → Option Val} : ∀ {as : List Sent}, (∀ p, Sent.ref p ∈ as → (store p).isSome) →
    ∃ vs, values store as = some vs
  | [], _ => ⟨[], rfl⟩
  | .val n :: as, h => by
    obtain ⟨l, hl⟩ := values_some (as := as) (fun i hi => h i (List.mem_cons_of_mem _ hi))
    exact ⟨n :: l, by simp [values, hl]⟩
  | .ref p :: as, h => by
    obtain ⟨l, hl⟩ := values_some (as := as) (fun i hi => h i (List.mem_cons_of_mem _ hi))
    obtain ⟨v, hv⟩ := Option.isSome_iff_exists.1 (h p (by simp))
    exact ⟨v :: l, by simp [values, hl, hv]⟩

end Verif.Nested
