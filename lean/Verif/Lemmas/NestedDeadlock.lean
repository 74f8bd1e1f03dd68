import Verif.Lemmas.NestedWait

/-! What a deadlock of nested calls looks like (C88). -/
namespace Verif.Nested
open Verif.Spec

/-- The value of a reference is held by a process that runs. -/
theorem HeldBy.running {s : State} {p q : Nat} (h : HeldBy s p q) : ∃ y, WaitsFor s q y := by
  induction h with
  | owner p y hw => exact ⟨y, hw⟩
  | argument _ _ _ _ _ _ _ _ _ ih => exact ih

/-- If nothing can happen, every running process waits. -/
theorem stuck_waits {W : World} {Q : Prog → Prop} {s : State} (h2 : ∃ a ∈ W.workers, ∃ b ∈ W.workers, a ≠ b)
    (hp : Place W Q s) (hs : ∀ a, s.step W a = none) {r : Nat} {f : Frame} (hr : s.run r = some f) :
    ∃ p, p ∈ f.env ∧ WaitsFor s r p ∧ s.needs r p = true := by
  obtain ⟨wa, ha, wb, hb, hab⟩ := h2
  obtain ⟨out, prog, env⟩ := f
  cases prog with
  | ret v =>
    have := hs (.exec r 0)
    simp only [State.step, State.exec, hr] at this
    split at this <;> cases this
  | put v next =>
    have := hs (.exec r 0)
    simp [State.step, State.exec, hr] at this
  | call fn args next =>
    obtain ⟨d, hd1, hd2⟩ : ∃ d ∈ W.workers, d ≠ r := by
      by_cases h : wa = r
      · exact ⟨wb, hb, fun hc => hab (h.trans hc.symm)⟩
      · exact ⟨wa, ha, h⟩
    obtain ⟨l, hl⟩ := sendArgs_some (hp.frame r _ hr).1.1
    have := hs (.exec r d)
    simp [State.step, State.exec, hr, hd1, hd2, hl] at this
  | get x next =>
    have hx := (hp.frame r _ hr).1.1
    have hx' : env[x]? = some env[x] := by simp [hx]
    refine ⟨env[x], List.getElem_mem hx, ⟨out, x, next, env, hr, hx', ?_⟩, by simp [State.needs, hr, hx']⟩
    cases hst : s.store r env[x] with
    | none => rfl
    | some v =>
      have := hs (.exec r 0)
      simp [State.step, State.exec, hr, hx', hst] at this

/-- A value that an idle worker has can be fetched. -/
theorem can_fetch {W : World} {s : State} {r p : Nat} (h1 : s.run (s.home p) = none) (h2 : s.home p ≠ 0)
    (h3 : s.store r p = none) (h4 : s.needs r p = true) (h5 : (s.store (s.home p) p).isSome) :
    s.step W (.fetch r p) ≠ none := by
  obtain ⟨v, hv⟩ := Option.isSome_iff_exists.1 h5
  simp [State.step, h1, h2, h3, h4, hv]

/-- If nothing can happen, each waiting process waits because of another waiting worker. -/
theorem stuck_held {W : World} {Q : Prog → Prop} {s : State}
    (h2 : ∃ a ∈ W.workers, ∃ b ∈ W.workers, a ≠ b) (hp : Place W Q s) (hi : Own s) (hs : ∀ a, s.step W a = none)
    {r : Nat} {f : Frame} (hr : s.run r = some f) :
    ∃ p q, WaitsFor s r p ∧ HeldBy s p q ∧ q ≠ r ∧ q ∈ W.workers := by
  have hne0 : ∀ p, p ∈ f.env → s.home p ≠ r → s.home p ≠ 0 ∧ s.home p ∈ W.workers := by
    intro p hpe hh
    have hlt := (hp.frame r f hr).2.1 p hpe
    by_cases hr0 : r = 0
    · have : s.home p ≠ 0 := fun hc => hh (hc.trans hr0.symm)
      exact ⟨this, (hp.homes p hlt).resolve_right fun h => this h.1⟩
    · have := ((hp.frame r f hr).2.2 hr0).2.2 p hpe
      exact ⟨this, (hp.homes p hlt).resolve_right fun h => this h.1⟩
  have key : ∀ n p, p < n → p ∈ f.env → s.home p ≠ r →
      (∃ q, HeldBy s p q ∧ q ≠ r ∧ q ∈ W.workers) ∨ (s.run (s.home p) = none ∧ (s.store (s.home p) p).isSome) := by
    intro n
    induction n with
    | zero => intro p hlt; omega
    | succ n ih =>
      intro p hlt hpe hh
      obtain ⟨hn0, hw⟩ := hne0 p hpe hh
      cases hrun : s.run (s.home p) with
      | some g =>
        obtain ⟨y, _, hy, _⟩ := stuck_waits h2 hp hs hrun
        exact Or.inl ⟨s.home p, .owner p y hy, hh, hw⟩
      | none =>
        rcases hp.ex p ((hp.frame r f hr).2.1 p hpe) with h1 | ⟨t, h1, h3⟩ | ⟨g, h1, _⟩
        · exact Or.inr ⟨rfl, h1⟩
        · left
          obtain ⟨i, hti⟩ := List.getElem?_of_mem h1
          by_cases hall : ∀ a, Sent.ref a ∈ t.args → (s.store (s.home p) a).isSome
          · obtain ⟨vs, hvs⟩ := values_some hall
            have := hs (.start (s.home p) i)
            simp [State.step, hrun, hn0, hti, hvs] at this
          · simp only [Classical.not_forall] at hall
            obtain ⟨a, ha, hna⟩ := hall
            have hna' : s.store (s.home p) a = none := by
              cases hc : s.store (s.home p) a with
              | none => rfl
              | some v => simp [hc] at hna
            obtain ⟨a1, a2⟩ := hi.args _ t h1 r f hr (h3 ▸ hpe) a ha
            have hap := (hp.inbox _ t h1).2.2.1 a ha
            rw [h3] at hap
            have hah : s.home a ≠ r := fun hc => hna (a2 hc)
            rcases ih a (by omega) a1 hah with ⟨q, hq, hq1, hq2⟩ | ⟨b1, b2⟩
            · exact ⟨q, .argument p a q t h1 h3 ha hna' hq, hq1, hq2⟩
            · exfalso
              refine can_fetch (W := W) (r := s.home p) b1 (hne0 a a1 hah).1 hna' ?_ b2 (hs _)
              simp only [State.needs, Bool.or_eq_true, List.any_eq_true]
              exact Or.inr ⟨t, h1, _, ha, by simp⟩
        · rw [hrun] at h1; cases h1
  obtain ⟨p, hpe, hw, hneeds⟩ := stuck_waits h2 hp hs hr
  obtain ⟨out, x, next, env, _, _, hst⟩ := hw
  have hh : s.home p ≠ r := by
    intro hc
    have := hi.own r f p hr hpe hc
    simp [hst] at this
  rcases key _ p (Nat.lt_succ_self _) hpe hh with ⟨q, hq, hq1, hq2⟩ | ⟨b1, b2⟩
  · exact ⟨p, q, ⟨out, x, next, env, by assumption, by assumption, hst⟩, hq, hq1, hq2⟩
  · exact absurd (hs _) (can_fetch (W := W) b1 (hne0 p hpe hh).1 hst hneeds b2)

/-- A sequence in a finite list repeats. -/
theorem repeats (l : List Nat) (c : Nat → Nat) (h : ∀ i, c i ∈ l) : ∃ i j, i < j ∧ c i = c j := by
  apply Classical.byContradiction
  intro hn
  have hinj : ∀ i j, i < j → c i ≠ c j := fun i j hij hc => hn ⟨i, j, hij, hc⟩
  have hnd : ((List.range (l.length + 1)).map c).Nodup := by
    refine List.Nodup.map_on ?_ List.nodup_range
    intro a _ b _ hab
    rcases Nat.lt_trichotomy a b with h | h | h
    · exact absurd hab (hinj a b h)
    · exact h
    · exact absurd hab.symm (hinj b a h)
  have hsub : (List.range (l.length + 1)).map c ⊆ l := by
    intro a ha
    obtain ⟨i, _, rfl⟩ := List.mem_map.1 ha
    exact h i
  have := (hnd.subperm hsub).length_le
  simp at this
  omega

/-- If nothing can happen before the end, workers wait for each other in a circle. -/
theorem stuck_cycle {W : World} {Q : Prog → Prop} {s : State}
    (h2 : ∃ a ∈ W.workers, ∃ b ∈ W.workers, a ≠ b) (hp : Place W Q s) (hi : Own s) (hs : ∀ a, s.step W a = none)
    (hd : s.done = none) : ∃ n c, WaitCycle W s n c := by
  have next : ∀ r : {r // (s.run r).isSome}, ∃ q : {q // (s.run q).isSome},
      q.1 ∈ W.workers ∧ q.1 ≠ r.1 ∧ ∃ p, WaitsFor s r.1 p ∧ HeldBy s p q.1 := by
    intro ⟨r, hr⟩
    obtain ⟨f, hf⟩ := Option.isSome_iff_exists.1 hr
    obtain ⟨p, q, h1, h3, h4, h5⟩ := stuck_held h2 hp hi hs hf
    obtain ⟨y, _, _, _, _, hy, _⟩ := HeldBy.running h3
    exact ⟨⟨q, by simp [hy]⟩, h5, h4, p, h1, h3⟩
  have hm : (s.run 0).isSome := by
    cases h : s.run 0 with
    | some f => rfl
    | none => have := hp.main h; simp [hd] at this
  let nx := fun r => (next r).choose
  have hnx : ∀ r, (nx r).1 ∈ W.workers ∧ (nx r).1 ≠ r.1 ∧ ∃ p, WaitsFor s r.1 p ∧ HeldBy s p (nx r).1 :=
    fun r => (next r).choose_spec
  let c : Nat → {r // (s.run r).isSome} := fun i => Nat.rec (nx ⟨0, hm⟩) (fun _ r => nx r) i
  have hc : ∀ i, c (i + 1) = nx (c i) := fun _ => rfl
  have hw : ∀ i, (c i).1 ∈ W.workers := by
    intro i
    cases i with
    | zero => exact (hnx _).1
    | succ i => exact (hnx _).1
  obtain ⟨i, j, hij, he⟩ := repeats W.workers (fun i => (c i).1) hw
  have hne : ∀ k, (c k).1 ≠ (c (k + 1)).1 := fun k => (hc k ▸ (hnx (c k)).2.1).symm
  refine ⟨j - i, fun k => (c (i + k)).1, ?_, ?_, ?_⟩
  · apply Classical.byContradiction
    intro hlt
    have hj : j = i + 1 := by omega
    exact hne i (hj ▸ he)
  · simp only [Nat.add_zero]
    rw [show i + (j - i) = j by omega]
    exact he.symm
  · intro k _
    refine ⟨hw _, hne (i + k), ?_⟩
    have := (hnx (c (i + k))).2.2
    rw [← hc] at this
    exact this

/-! ### Such workers wait for ever -/

/-- A reference that cannot be delivered is not fetched. -/
theorem HeldBy.no_fetch {s : State} (hi : Own s) {p q : Nat} (h : HeldBy s p q) :
    (s.run (s.home p)).isSome ∨ s.store (s.home p) p = none := by
  cases h with
  | owner _ y hw =>
    obtain ⟨_, _, _, _, h1, _⟩ := hw
    exact Or.inl (by simp [h1])
  | argument _ a _ t ht ho _ _ _ => exact Or.inr (ho ▸ (hi.out _ t ht).1 _)

theorem values_none {store : Nat → Option Val} : ∀ {as : List Sent} {p : Nat}, Sent.ref p ∈ as → store p = none →
    values store as = none
  | .val n :: as, p, h, hn => by
    simp only [List.mem_cons, reduceCtorEq, false_or] at h
    simp [values, values_none h hn]
  | .ref a :: as, p, h, hn => by
    rcases List.mem_cons.1 h with h | h
    · injection h with h
      subst h
      simp [values, hn]
    · rw [values, values_none h hn]
      split
      · next h2 => cases h2
      · rfl

/-- While the waiting processes of `C` wait for values held by each other, a step changes nothing about it. -/
theorem cycle_step {W : World} {Q : Prog → Prop} {s s' : State} (a : Act) (hp : Place W Q s) (hi : Own s) (C : Nat → Prop)
    (hC : ∀ r, C r → ∃ p q, WaitsFor s r p ∧ HeldBy s p q ∧ C q) (h : s.step W a = some s') :
    ∀ r p q, C r → WaitsFor s r p → HeldBy s p q → C q → WaitsFor s' r p ∧ HeldBy s' p q := by
  have mem : ∀ r f p, C r → s.run r = some f → WaitsFor s r p → p ∈ f.env := by
    intro r f p _ hf ⟨_, x, _, env, h1, h2, _⟩
    rw [hf] at h1
    injection h1 with h1
    subst h1
    exact List.mem_of_getElem? h2
  -- a process of `C` makes no step of its own
  have noexec : ∀ r dest, C r → s.step W (.exec r dest) = none := by
    intro r dest hr
    obtain ⟨p, _, ⟨_, x, _, env, h1, h2, h3⟩, _⟩ := hC r hr
    simp [State.step, State.exec, h1, h2, h3]
  have isrun : ∀ r, C r → (s.run r).isSome := by
    intro r hr
    obtain ⟨p, _, ⟨_, x, _, env, h1, _⟩, _⟩ := hC r hr
    simp [h1]
  -- undelivered values stay undelivered
  have miss : ∀ r f p q z, C r → s.run r = some f → p ∈ f.env → HeldBy s p q → C q → s.store z p = none →
      s'.store z p = none := by
    intro r f p q z hr hf hpe hh hq hz
    have hlt := (hp.frame r f hf).2.1 p hpe
    cases a with
    | exec r1 dest =>
      by_cases hr1 : C r1
      · rw [noexec r1 dest hr1] at h; cases h
      simp only [State.step, State.exec] at h
      split at h
      · cases h
      · next out v env hrun =>
        split at h
        · injection h with h; subst h; exact hz
        · next hr0 =>
          injection h with h
          subst h
          simp only [State.put, State.setRun]
          rw [if_neg]
          · exact hz
          · intro ⟨_, hc⟩
            obtain ⟨o1, o2, _⟩ := hi.runOut r1 _ hrun hr0
            simp only at o1 o2
            cases hh with
            | owner _ y hw => exact hr1 (by rw [← o2, ← hc]; exact hq)
            | argument _ b _ t ht ho _ _ _ =>
              rw [hc, o2] at ht
              exact (hi.out r1 t ht).2 _ hrun hr0 (by rw [ho, hc])
      · injection h with h
        subst h
        simp only [State.put, State.setRun]
        rw [if_neg (by omega)]
        exact hz
      · next out fn args next env hrun =>
        split at h
        · split at h
          · cases h
          · next l hl =>
            injection h with h
            subst h
            simp only [State.setRun, State.setInbox]
            rw [push_other]
            · exact hz
            · right
              intro hpl
              have := hi.envs r f r1 _ p hf hrun hpe (sendArgs_refs hl p hpl)
              exact hr1 (this ▸ hr)
        · cases h
      · split at h
        · cases h
        · split at h
          · cases h
          · injection h with h; subst h; exact hz
    | start r1 i =>
      simp only [State.step] at h
      split at h
      · cases h
      · split at h
        · cases h
        · split at h
          · cases h
          · injection h with h; subst h; exact hz
    | fetch r1 p1 =>
      simp only [State.step] at h
      split at h
      · cases h
      · next hcond =>
        split at h
        · cases h
        · next v hv =>
          have hne : p ≠ p1 := by
            intro hc
            subst hc
            rcases HeldBy.no_fetch hi hh with h1 | h1
            · exact hcond (Or.inl h1)
            · rw [h1] at hv; cases hv
          injection h with h
          have hput : (s.put r1 p1 v).store z p = none := by
            simp only [State.put]
            rw [if_neg (fun hc => hne hc.2)]
            exact hz
          rw [State.answer] at h
          split at h
          · split at h
            · subst h; exact hput
            · exact h ▸ hput
          · exact h ▸ hput
  -- the programs of `C` do not go on
  have same : ∀ r, C r → s'.run r = s.run r := by
    intro r hr
    obtain ⟨p, q, ⟨out, x, next, env, w1, w2, w3⟩, hh, hq⟩ := hC r hr
    cases a with
    | exec r1 dest =>
      by_cases hr1 : C r1
      · rw [noexec r1 dest hr1] at h; cases h
      have hne : r ≠ r1 := fun hc => hr1 (hc ▸ hr)
      simp only [State.step, State.exec] at h
      split at h
      · cases h
      · split at h
        · next h10 => injection h with h; subst h; subst h10; simp [State.setRun, hne]
        · injection h with h; subst h; simp [State.setRun, State.put, hne]
      · injection h with h; subst h; simp [State.setRun, State.put, hne]
      · split at h
        · split at h
          · cases h
          · next l hl => injection h with h; subst h; simp [State.setRun, State.setInbox, hne, (push_frame r1 dest l s).2.1]
        · cases h
      · split at h
        · cases h
        · split at h
          · cases h
          · injection h with h; subst h; simp [State.setRun, hne]
    | start r1 i =>
      simp only [State.step] at h
      split at h
      · cases h
      · next hcond =>
        have hne : r ≠ r1 := fun hc => hcond (Or.inl (hc ▸ isrun r hr))
        split at h
        · cases h
        · split at h
          · cases h
          · injection h with h; subst h; simp [State.setRun, State.setInbox, hne]
    | fetch r1 p1 =>
      simp only [State.step] at h
      split at h
      · cases h
      · next hcond =>
        split at h
        · cases h
        · next v hv =>
          have hne : p ≠ p1 := by
            intro hc
            subst hc
            rcases HeldBy.no_fetch hi hh with h1 | h1
            · exact hcond (Or.inl h1)
            · rw [h1] at hv; cases hv
          injection h with h
          by_cases hr1 : r = r1
          · subst hr1
            rw [State.answer] at h
            simp only [w1] at h
            rw [w2] at h
            simp only [Option.some.injEq, hne, if_false] at h
            rw [← h]
            rfl
          · rw [State.answer] at h
            split at h
            · split at h
              · subst h; simp [State.setRun, State.put, hr1]
              · exact h ▸ rfl
            · exact h ▸ rfl
  have homes : ∀ p, p < s.next → s'.home p = s.home p := by
    intro p hlt
    cases a with
    | exec r1 dest =>
      simp only [State.step, State.exec] at h
      split at h
      · cases h
      · split at h <;> (injection h with h; subst h; rfl)
      · injection h with h; subst h; simp only; rw [if_neg (by omega)]
      · split at h
        · split at h
          · cases h
          · injection h with h; subst h; simp only; rw [if_neg (by omega)]
        · cases h
      · split at h
        · cases h
        · split at h
          · cases h
          · injection h with h; subst h; rfl
    | start r1 i =>
      simp only [State.step] at h
      split at h
      · cases h
      · split at h
        · cases h
        · split at h
          · cases h
          · injection h with h; subst h; rfl
    | fetch r1 p1 =>
      simp only [State.step] at h
      split at h
      · cases h
      · split at h
        · cases h
        · injection h with h
          rw [State.answer] at h
          split at h
          · split at h <;> exact h ▸ rfl
          · exact h ▸ rfl
  -- a request that lacks an argument is kept
  have kept : ∀ z t b, t ∈ s.inbox z → Sent.ref b ∈ t.args → s.store z b = none → t ∈ s'.inbox z := by
    intro z t b ht hb hn
    cases a with
    | exec r1 dest =>
      simp only [State.step, State.exec] at h
      split at h
      · cases h
      · split at h <;> (injection h with h; subst h; exact ht)
      · injection h with h; subst h; exact ht
      · split at h
        · split at h
          · cases h
          · next l hl =>
            injection h with h; subst h
            simp only [State.setRun, State.setInbox]
            split
            · next hz => exact List.mem_append_left _ (hz ▸ ht)
            · rw [(push_frame r1 dest l s).1]; exact ht
        · cases h
      · split at h
        · cases h
        · split at h
          · cases h
          · injection h with h; subst h; exact ht
    | start r1 i =>
      simp only [State.step] at h
      split at h
      · cases h
      · split at h
        · cases h
        · next u hu =>
          split at h
          · cases h
          · next vs hvs =>
            injection h with h; subst h
            simp only [State.setRun, State.setInbox]
            split
            · next hz =>
              subst hz
              obtain ⟨j, hj⟩ := List.getElem?_of_mem ht
              refine List.mem_eraseIdx_iff_getElem?.2 ⟨j, ?_, hj⟩
              intro hij
              subst hij
              rw [hu] at hj
              injection hj with hj
              subst hj
              rw [values_none hb hn] at hvs
              cases hvs
            · exact ht
    | fetch r1 p1 =>
      simp only [State.step] at h
      split at h
      · cases h
      · split at h
        · cases h
        · injection h with h
          rw [State.answer] at h
          split at h
          · split at h <;> exact h ▸ ht
          · exact h ▸ ht
  have waits : ∀ r p q, C r → WaitsFor s r p → HeldBy s p q → C q → WaitsFor s' r p := by
    intro r p q hr hw hh hq
    obtain ⟨out, x, next, env, w1, w2, w3⟩ := hw
    exact ⟨out, x, next, env, (same r hr).trans w1, w2,
      miss r _ p q r hr w1 (List.mem_of_getElem? w2) hh hq w3⟩
  have held : ∀ p q, HeldBy s p q → ∀ r f, C r → s.run r = some f → p ∈ f.env → C q → HeldBy s' p q := by
    intro p q hh
    induction hh with
    | owner p y hw =>
      intro r f hr hf hpe hq
      have hlt := (hp.frame r f hf).2.1 p hpe
      obtain ⟨p2, q2, hw2, hh2, hq2⟩ := hC _ hq
      rw [← homes p hlt]
      refine .owner p p2 ?_
      rw [homes p hlt]
      exact waits _ p2 q2 hq hw2 hh2 hq2
    | argument p b q t ht ho hb hn hh ih =>
      intro r f hr hf hpe hq
      have hlt := (hp.frame r f hf).2.1 p hpe
      have hbe := (hi.args _ t ht r f hf (ho ▸ hpe) b hb).1
      refine .argument p b q t ?_ ho hb ?_ (ih r f hr hf hbe hq)
      · rw [homes p hlt]
        exact kept _ t b ht hb hn
      · rw [homes p hlt]
        exact miss r f b q _ hr hf hbe hh hq hn
  intro r p q hr hw hh hq
  obtain ⟨f, hf⟩ := Option.isSome_iff_exists.1 (isrun r hr)
  exact ⟨waits r p q hr hw hh hq, held p q hh r f hr hf (mem r f p hr hf hw) hq⟩

/-- The workers of a circle wait in all later states. -/
theorem cycle_run {W : World} {Q : Prog → Prop} (hQ : Closed Q) {s s' : State} (as : List Act) (h0 : 0 ∉ W.workers)
    (hb : ∀ fn ns, Scoped 0 (W.body fn ns) ∧ Q (W.body fn ns)) (hp : Place W Q s) (hi : Own s) {n : Nat} {c : Nat → Nat}
    (hc : WaitCycle W s n c) (h : s.runAll W as = some s') : WaitCycle W s' n c := by
  induction as generalizing s with
  | nil => simp only [State.runAll, Option.some.injEq] at h; exact h ▸ hc
  | cons a as ih =>
    rw [State.runAll] at h
    split at h
    · next s1 h1 =>
      refine ih (place_step hQ a hb h0 hp h1) (own_step a hp hi h1) ?_ h
      obtain ⟨c1, c2, c3⟩ := hc
      have hCs : ∀ i, i < n → ∃ j, j < n ∧ c (i + 1) = c j := by
        intro i hin
        by_cases hl : i + 1 < n
        · exact ⟨i + 1, hl, rfl⟩
        · exact ⟨0, by omega, by rw [← c2]; congr 1; omega⟩
      have key := cycle_step a hp hi (fun r => ∃ i, i < n ∧ c i = r) (by
        intro r ⟨i, hin, hci⟩
        obtain ⟨_, _, p, w1, w2⟩ := c3 i hin
        obtain ⟨j, hj, hj2⟩ := hCs i hin
        exact ⟨p, c (i + 1), hci ▸ w1, w2, j, hj, hj2.symm⟩) h1
      refine ⟨c1, c2, fun i hin => ?_⟩
      obtain ⟨d1, d2, p, w1, w2⟩ := c3 i hin
      obtain ⟨j, hj, hj2⟩ := hCs i hin
      exact ⟨d1, d2, p, key (c i) p (c (i + 1)) ⟨i, hin, rfl⟩ w1 w2 ⟨j, hj, hj2.symm⟩⟩
    · cases h

end Verif.Nested
