import Verif.Lemmas.NestedFinish

/-! A program whose calls wait for each other at most as deep as there are workers can be brought to its end (C88): the calls of
depth `k` run on the `k`-th worker. -/
namespace Verif.Nested
open Verif.Spec

variable {body : Nat → List Nat → Prog}

/-- The bounded evaluation gives the value. -/
theorem within_eval (n : Nat) :
    (∀ d t v, forceWithin body n d t = some v → force body true n t = some v) ∧
    (∀ d ts vs, forceAllWithin body n d ts = some vs → forceAll body true n ts = some vs) ∧
    (∀ d p env v, evalWithin body n d p env = some v → evalProg body true n p env = some v) := by
  induction n with
  | zero => refine ⟨?_, ?_, ?_⟩ <;> simp [forceWithin, forceAllWithin, evalWithin]
  | succ n ih =>
    refine ⟨?_, ?_, ?_⟩
    · intro d t v h
      cases t with
      | lit w => simpa [forceWithin, force] using h
      | call fn args =>
        rw [forceWithin] at h
        rw [force]
        split at h
        · cases h
        · next vs hvs =>
          simp only [ih.2.1 _ _ _ hvs]
          split at h
          · exact h
          · exact ih.2.2 _ _ _ _ h
    · intro d ts vs h
      cases ts with
      | nil => simpa [forceAllWithin, forceAll] using h
      | cons t ts =>
        rw [forceAllWithin] at h
        split at h
        · next v ws h1 h2 => rw [forceAll]; simp only [ih.1 _ _ _ h1, ih.2.1 _ _ _ h2]; exact h
        · cases h
    · intro d p env v h
      cases p with
      | ret w => simpa [evalWithin, evalProg] using h
      | put w next => rw [evalWithin] at h; rw [evalProg]; exact ih.2.2 _ _ _ _ h
      | call fn args next =>
        rw [evalWithin] at h
        rw [evalProg]
        split at h
        · cases h
        · exact ih.2.2 _ _ _ _ h
      | get x next =>
        rw [evalWithin] at h
        rw [evalProg]
        split at h
        · cases h
        · next t hx =>
          simp only [hx]
          split at h
          · cases h
          · next w hw =>
            simp only [Bool.or_self]
            have e : env.set x (t, true) = env := by
              obtain ⟨hlt, he⟩ := List.getElem?_eq_some_iff.1 hx
              rw [← he]; simp
            rw [e]
            exact ih.2.2 _ _ _ _ h
        · next t hx =>
          simp only [hx]
          split at h
          · cases h
          · next d =>
            split at h
            · cases h
            · next w hw =>
              simp only [ih.1 _ _ _ hw, Bool.or_true]
              exact ih.2.2 _ _ _ _ h

/-- Every evaluation is bounded. -/
theorem eval_within (n : Nat) :
    (∀ d t v, n ≤ d → force body true n t = some v → forceWithin body n d t = some v) ∧
    (∀ d ts vs, n ≤ d → forceAll body true n ts = some vs → forceAllWithin body n d ts = some vs) ∧
    (∀ d p env v, n ≤ d → evalProg body true n p env = some v → evalWithin body n d p env = some v) := by
  induction n with
  | zero => refine ⟨?_, ?_, ?_⟩ <;> simp [force, forceAll, evalProg]
  | succ n ih =>
    refine ⟨?_, ?_, ?_⟩
    · intro d t v hd h
      cases t with
      | lit w => simpa [forceWithin, force] using h
      | call fn args =>
        rw [force] at h
        rw [forceWithin]
        split at h
        · cases h
        · next vs hvs =>
          simp only [ih.2.1 d _ _ (by omega) hvs]
          split at h
          · exact h
          · exact ih.2.2 _ _ _ _ (by omega) h
    · intro d ts vs hd h
      cases ts with
      | nil => simpa [forceAllWithin, forceAll] using h
      | cons t ts =>
        rw [forceAll] at h
        split at h
        · next v ws h1 h2 => rw [forceAllWithin]; simp only [ih.1 d _ _ (by omega) h1, ih.2.1 d _ _ (by omega) h2]; exact h
        · cases h
    · intro d p env v hd h
      cases p with
      | ret w => simpa [evalWithin, evalProg] using h
      | put w next => rw [evalProg] at h; rw [evalWithin]; exact ih.2.2 _ _ _ _ (by omega) h
      | call fn args next =>
        rw [evalProg] at h
        rw [evalWithin]
        split at h
        · cases h
        · exact ih.2.2 _ _ _ _ (by omega) h
      | get x next =>
        rw [evalProg] at h
        rw [evalWithin]
        split at h
        · cases h
        · next t kept hx =>
          split at h
          · cases h
          · next w hw =>
            cases kept with
            | true =>
              simp only [hx, hw]
              have e : env.set x (t, true) = env := by
                obtain ⟨hlt, he⟩ := List.getElem?_eq_some_iff.1 hx
                rw [← he]; simp
              simp only [Bool.or_self, e] at h
              exact ih.2.2 _ _ _ _ (by omega) h
            | false =>
              obtain ⟨d', rfl⟩ : ∃ d', d = d' + 1 := ⟨d - 1, by omega⟩
              simp only [hx, ih.1 d' _ _ (by omega) hw]
              simp only [Bool.or_true] at h
              exact ih.2.2 _ _ _ _ (by omega) h

/-- The direct calls behind sent arguments. -/
def argsF (th : Nat → Thunk) : List Sent → List Thunk
  | [] => []
  | .val v :: as => .lit v :: argsF th as
  | .ref p :: as => th p :: argsF th as

theorem argsF_congr {th th' : Nat → Thunk} : ∀ {as : List Sent}, (∀ a, Sent.ref a ∈ as → th' a = th a) → argsF th' as = argsF th as
  | [], _ => rfl
  | .val v :: as, h => by rw [argsF, argsF, argsF_congr fun a ha => h a (List.mem_cons_of_mem _ ha)]
  | .ref p :: as, h => by rw [argsF, argsF, argsF_congr fun a ha => h a (List.mem_cons_of_mem _ ha), h p (by simp)]

/-- A request that its worker can start once the values with other processes are there: its arguments are older, and with this worker
or made by it. -/
def Ready (s : State) (th : Nat → Thunk) (p : Nat) (t : Task) : Prop :=
  th p = .call t.fn (argsF th t.args) ∧
    ∀ a, Sent.ref a ∈ t.args → a < p ∧ (s.home a = s.home p ∨ (s.store (s.home p) a).isSome)

/-- What holds in all states of the schedule; `th` are the direct calls behind the references. -/
structure Sim (W : World) (s : State) (th : Nat → Thunk) : Prop where
  val : ∀ r p v, s.store r p = some v → ∃ f, force W.body true f (th p) = some v
  fresh : ∀ r p, s.next ≤ p → s.store r p = none
  zero : ∀ p, p < s.next → s.home p = 0 → (s.store 0 p).isSome
  ex : ∀ p, p < s.next → s.home p ≠ 0 → (s.store (s.home p) p).isSome ∨
    (∃ t ∈ s.inbox (s.home p), t.out = p ∧ Ready s th p t) ∨ ∃ f, s.run (s.home p) = some f ∧ f.out = p

theorem Sim.agree {W : World} {s : State} {th : Nat → Thunk} (hs : Sim W s th) {r p n : Nat} {v w : Val}
    (h : s.store r p = some w) (hf : force W.body true n (th p) = some v) : w = v := by
  obtain ⟨f, h'⟩ := hs.val r p w h
  exact force_unique h' hf

/-- A value arrives. -/
theorem Sim.put {W : World} {s : State} {th : Nat → Thunk} (hs : Sim W s th) {r p n : Nat} {v : Val} (hp : p < s.next)
    (hf : force W.body true n (th p) = some v) : Sim W (s.put r p v) th where
  val := by
    intro r' p' w h
    simp only [State.put] at h
    split at h
    · next hc => injection h with h; subst h; rw [hc.2]; exact ⟨n, hf⟩
    · exact hs.val r' p' w h
  fresh := by
    intro r' p' h
    simp only [State.put]
    rw [if_neg]
    · exact hs.fresh r' p' h
    · rintro ⟨_, rfl⟩
      simp only [State.put] at h
      omega
  zero := fun q hq hz => put_keeps s r p v _ _ (hs.zero q hq hz)
  ex := by
    intro q hq hz
    rcases hs.ex q hq hz with h | ⟨t, h1, h2, h3, h4⟩ | h
    · exact Or.inl (put_keeps s r p v _ _ h)
    · exact Or.inr (Or.inl ⟨t, h1, h2, h3, fun a ha => ⟨(h4 a ha).1, (h4 a ha).2.imp id (put_keeps s r p v _ _)⟩⟩)
    · exact Or.inr (Or.inr h)

/-- A program goes on. -/
theorem Sim.goOn {W : World} {s : State} {th : Nat → Thunk} (hs : Sim W s th) {r : Nat} {f g : Frame} (h : s.run r = some f)
    (hg : g.out = f.out) : Sim W (s.setRun r (some g)) th where
  val := hs.val
  fresh := hs.fresh
  zero := hs.zero
  ex := by
    intro q hq hz
    rcases hs.ex q hq hz with h1 | h1 | ⟨f', h1, h2⟩
    · exact Or.inl h1
    · exact Or.inr (Or.inl h1)
    · refine Or.inr (Or.inr ?_)
      simp only [State.setRun]
      by_cases hr : s.home q = r
      · rw [hr, h] at h1
        injection h1 with h1
        exact ⟨g, by simp [hr], by rw [hg, h1, h2]⟩
      · exact ⟨f', by simp [hr, h1], h2⟩

/-- What is pushed are values that exist. -/
theorem Sim.push {W : World} {th : Nat → Thunk} (r dest : Nat) (l : List Sent) : ∀ {s : State}, Sim W s th →
    (∀ a, Sent.ref a ∈ l → a < s.next) → Sim W (s.push r dest l) th := by
  induction l with
  | nil => exact fun hs _ => hs
  | cons x l ih =>
    intro s hs hl
    have hl' : ∀ a, Sent.ref a ∈ l → a < s.next := fun a ha => hl a (List.mem_cons_of_mem _ ha)
    cases x with
    | val v => exact ih hs hl'
    | ref p =>
      rw [State.push]
      split
      · next v hv =>
        obtain ⟨f, hf⟩ := hs.val r p v hv
        exact ih (hs.put (hl p (by simp)) hf) hl'
      · exact ih hs hl'

/-- What happened since: only processes in `X` got values of references older than `N`. -/
structure Ext (N : Nat) (X : Nat → Prop) (s : State) (th : Nat → Thunk) (s' : State) (th' : Nat → Thunk) : Prop where
  next : s.next ≤ s'.next
  home : ∀ p, p < s.next → s'.home p = s.home p
  th : ∀ p, p < s.next → th' p = th p
  mono : ∀ q p, (s.store q p).isSome → (s'.store q p).isSome
  same : ∀ q p, ¬ X q → p < N → s'.store q p = s.store q p
  inbox : ∀ q t, t ∈ s.inbox q → t ∈ s'.inbox q ∨ (s'.store q t.out).isSome

theorem Ext.refl (N : Nat) (X : Nat → Prop) (s : State) (th : Nat → Thunk) : Ext N X s th s th :=
  ⟨Nat.le_refl _, fun _ _ => rfl, fun _ _ => rfl, fun _ _ h => h, fun _ _ _ _ => rfl, fun _ _ h => Or.inl h⟩

theorem Ext.trans {N : Nat} {X : Nat → Prop} {s s1 s2 : State} {th th1 th2 : Nat → Thunk} (h1 : Ext N X s th s1 th1)
    (h2 : Ext N X s1 th1 s2 th2) : Ext N X s th s2 th2 where
  next := Nat.le_trans h1.next h2.next
  home := fun p hp => (h2.home p (Nat.lt_of_lt_of_le hp h1.next)).trans (h1.home p hp)
  th := fun p hp => (h2.th p (Nat.lt_of_lt_of_le hp h1.next)).trans (h1.th p hp)
  mono := fun q p h => h2.mono q p (h1.mono q p h)
  same := fun q p hq hp => (h2.same q p hq hp).trans (h1.same q p hq hp)
  inbox := fun q t ht => (h1.inbox q t ht).elim (h2.inbox q t) fun h => Or.inr (h2.mono _ _ h)

theorem Ext.weaken {N N' : Nat} {X X' : Nat → Prop} {s s' : State} {th th' : Nat → Thunk} (h : Ext N' X' s th s' th') (hN : N ≤ N')
    (hX : ∀ q, X' q → X q) : Ext N X s th s' th' :=
  ⟨h.next, h.home, h.th, h.mono, fun q p hq hp => h.same q p (fun hc => hq (hX q hc)) (Nat.lt_of_lt_of_le hp hN), h.inbox⟩

/-- A new reference. -/
def bind (th : Nat → Thunk) (p : Nat) (t : Thunk) (q : Nat) : Thunk := if q = p then t else th q

/-- `put`. -/
theorem sim_put {W : World} {s : State} {th : Nat → Thunk} (hs : Sim W s th) {r out : Nat} {v : Val} {next : Prog} {env : List Nat}
    (hrun : s.run r = some ⟨out, .put v next, env⟩) : ∃ s', s.step W (.exec r 0) = some s' ∧ Sim W s' (bind th s.next (.lit v)) ∧
      (∀ N X, N ≤ s.next → Ext N X s th s' (bind th s.next (.lit v))) ∧ s'.run r = some ⟨out, next, env ++ [s.next]⟩ ∧
      (∀ q, q ≠ r → s'.run q = s.run q) ∧ s'.next = s.next + 1 ∧ (∀ q p, p < s.next → s'.store q p = s.store q p) ∧
      (s'.store r s.next).isSome := by
  have hold : ∀ q p, p < s.next → (s.put r s.next v).store q p = s.store q p := by
    intro q p hp
    simp only [State.put]
    rw [if_neg]
    rintro ⟨_, rfl⟩
    omega
  refine ⟨{ (s.put r s.next v).setRun r (some ⟨out, next, env ++ [s.next]⟩) with
      home := fun p => if p = s.next then r else s.home p, next := s.next + 1 },
    by simp only [State.step, State.exec, hrun], ⟨?_, ?_, ?_, ?_⟩, ?_, by simp [State.setRun],
    fun q hq => by simp [State.setRun, hq, State.put], rfl, hold, by simp [State.setRun, State.put]⟩
  · intro r' p w h
    simp only [State.setRun, State.put] at h
    split at h
    · next hc => injection h with h; subst h; exact ⟨1, by rw [show bind th s.next (.lit v) p = .lit v by simp [bind, hc.2], force]⟩
    · have hp : p ≠ s.next := by
        rintro rfl
        rw [hs.fresh r' _ (Nat.le_refl _)] at h
        cases h
      simpa [bind, hp] using hs.val r' p w h
  · intro r' p hp
    simp only [State.setRun, State.put]
    simp only at hp
    rw [if_neg (by omega)]
    exact hs.fresh r' p (by omega)
  · intro p hp hz
    simp only at hp hz
    simp only [State.setRun]
    split at hz
    · next hc => subst hc; simp [State.put, hz]
    · rw [hold _ _ (by omega)]
      exact hs.zero p (by omega) hz
  · intro p hp hz
    simp only at hp hz
    simp only [State.setRun]
    by_cases hc : p = s.next
    · left; simp [State.put, hc]
    · simp only [hc, if_false] at hz ⊢
      have hp' : p < s.next := by omega
      rcases hs.ex p hp' hz with h | ⟨t, h1, h2, h3, h4⟩ | ⟨f, h1, h2⟩
      · left; rw [hold _ _ hp']; exact h
      · refine Or.inr (Or.inl ⟨t, h1, h2, ?_, ?_⟩)
        · rw [argsF_congr (th := th) (as := t.args) fun a ha => ?_]
          · simpa [bind, hc] using h3
          · have := (h4 a ha).1
            simp [bind, show a ≠ s.next by omega]
        · intro a ha
          have hap := (h4 a ha).1
          refine ⟨hap, ?_⟩
          simp only [hc, if_false, show a ≠ s.next by omega]
          rw [hold _ _ (by omega)]
          exact (h4 a ha).2
      · right; right
        by_cases hr : s.home p = r
        · rw [hr, hrun] at h1
          injection h1 with h1
          exact ⟨⟨out, next, env ++ [s.next]⟩, by simp [hr], by rw [← h2, ← h1]⟩
        · exact ⟨f, by simp [hr, State.put, h1], h2⟩
  · intro N X hN
    refine ⟨Nat.le_succ _, ?_, ?_, ?_, ?_, fun _ _ h => Or.inl h⟩
    · intro p hp; simp only; rw [if_neg (by omega)]
    · intro p hp; simp [bind, show p ≠ s.next by omega]
    · exact put_keeps s r s.next v
    · intro q p _ hp
      exact hold q p (by omega)

/-- A call. -/
theorem sim_call {W : World} {s : State} {th : Nat → Thunk} (hs : Sim W s th) {r out dest fn : Nat} {args : List Arg} {next : Prog}
    {env : List Nat} {l : List Sent} (hrun : s.run r = some ⟨out, .call fn args next, env⟩) (hd : dest ∈ W.workers)
    (h0 : dest ≠ 0) (hdr : dest ≠ r) (hl : sendArgs env args = some l) (henv : ∀ p ∈ env, p < s.next)
    (hat : ∀ p ∈ env, s.home p = dest ∨ (s.store r p).isSome) :
    ∃ s', s.step W (.exec r dest) = some s' ∧ Sim W s' (bind th s.next (.call fn (argsF th l))) ∧
      (∀ N X, N ≤ s.next → (∀ p ∈ env, N ≤ p) → Ext N X s th s' (bind th s.next (.call fn (argsF th l)))) ∧
      s'.run r = some ⟨out, next, env ++ [s.next]⟩ ∧
      (∀ q, q ≠ r → s'.run q = s.run q) ∧ s'.next = s.next + 1 ∧ (∀ q p, q ≠ dest → s'.store q p = s.store q p) ∧
      s'.home s.next = dest := by
  have hrefs := sendArgs_refs hl
  have hlt : ∀ a, Sent.ref a ∈ l → a < s.next := fun a ha => henv a (hrefs a ha)
  have hpf := push_frame r dest l s
  have hps := Sim.push r dest l hs hlt
  refine ⟨_, by simp [State.step, State.exec, hrun, hd, hdr, hl]; rfl, ⟨?_, ?_, ?_, ?_⟩, ?_, by simp [State.setRun],
    fun q hq => by simp [State.setRun, State.setInbox, hq, hpf.2.1], rfl,
    fun q p hq => by simp only [State.setRun, State.setInbox]; exact push_other r dest l s q p (Or.inl hq), by simp⟩
  · intro r' p w h
    simp only [State.setRun, State.setInbox] at h
    have hp : p ≠ s.next := by
      rintro rfl
      rw [hps.fresh r' _ (by rw [hpf.2.2.2.1]; exact Nat.le_refl _)] at h
      cases h
    simpa [bind, hp] using hps.val r' p w h
  · intro r' p hp
    simp only [State.setRun, State.setInbox]
    simp only at hp
    exact hps.fresh r' p (by rw [hpf.2.2.2.1]; omega)
  · intro p hp hz
    simp only at hp hz
    simp only [State.setRun, State.setInbox]
    split at hz
    · exact absurd hz h0
    · exact push_keeps r dest l s _ _ (hs.zero p (by omega) hz)
  · intro p hp hz
    simp only at hp hz
    simp only [State.setRun, State.setInbox]
    by_cases hc : p = s.next
    · subst hc
      simp only [if_true]
      refine Or.inr (Or.inl ⟨⟨s.next, fn, l⟩, by simp, rfl, ?_, ?_⟩)
      · simp only
        rw [argsF_congr (th := th) (th' := bind th s.next (.call fn (argsF th l))) (as := l) fun a ha => ?_]
        · simp [bind]
        · simp [bind, show a ≠ s.next by have := hlt a ha; omega]
      · intro a ha
        have hal := hlt a ha
        refine ⟨hal, ?_⟩
        simp only [if_true, show a ≠ s.next by omega, if_false]
        rcases hat a (hrefs a ha) with h | h
        · exact Or.inl h
        · exact Or.inr (push_gives r dest l s a ha h)
    · simp only [hc, if_false] at hz ⊢
      have hp' : p < s.next := by omega
      rcases hs.ex p hp' hz with h | ⟨t, h1, h2, h3, h4⟩ | ⟨f, h1, h2⟩
      · left; exact push_keeps r dest l s _ _ h
      · refine Or.inr (Or.inl ⟨t, ?_, h2, ?_, ?_⟩)
        · split
          · next hh => rw [hh] at h1; exact List.mem_append_left _ h1
          · rw [hpf.1]; exact h1
        · rw [argsF_congr (th := th) (as := t.args) fun a ha => ?_]
          · simpa [bind, hc] using h3
          · have := (h4 a ha).1
            simp [bind, show a ≠ s.next by omega]
        · intro a ha
          have hap := (h4 a ha).1
          refine ⟨hap, ?_⟩
          simp only [hc, if_false, show a ≠ s.next by omega]
          exact (h4 a ha).2.imp id (push_keeps r dest l s _ _)
      · right; right
        by_cases hr : s.home p = r
        · rw [hr, hrun] at h1
          injection h1 with h1
          exact ⟨⟨out, next, env ++ [s.next]⟩, by simp [hr], by rw [← h2, ← h1]⟩
        · exact ⟨f, by simp [hr, hpf.2.1, h1], h2⟩
  · intro N X hN hNe
    refine ⟨Nat.le_succ _, ?_, ?_, push_keeps r dest l s, ?_, ?_⟩
    · intro p hp; simp only; rw [if_neg (by omega)]
    · intro p hp; simp [bind, show p ≠ s.next by omega]
    · intro q p _ hp
      simp only [State.setRun, State.setInbox]
      refine push_other r dest l s q p (Or.inr fun hm => ?_)
      have := hNe p (hrefs p hm)
      omega
    · intro q t ht
      left
      simp only [State.setRun, State.setInbox]
      split
      · next hh => rw [hh] at ht; exact List.mem_append_left _ ht
      · rw [hpf.1]; exact ht

/-- The workers for the calls of each depth, and where the programs of each depth submit to. -/
structure Lv (W : World) (D : Nat) (lev tgt : Nat → Nat) : Prop where
  none : 0 ∉ W.workers
  main : lev 0 = 0
  mem : ∀ k, 0 < k → k ≤ D → lev k ∈ W.workers
  inj : ∀ i j, i ≤ D → j ≤ D → lev i = lev j → i = j
  dst : ∀ k, k ≤ D → tgt k ∈ W.workers ∧ tgt k ≠ lev k
  up : ∀ k, k < D → tgt k = lev (k + 1)

/-- The workers from depth `k` on. -/
def From (D : Nat) (lev : Nat → Nat) (k q : Nat) : Prop := ∃ i, k ≤ i ∧ i ≤ D ∧ q = lev i

theorem From.mono {D : Nat} {lev : Nat → Nat} {k k' q : Nat} (hk : k ≤ k') (h : From D lev k' q) : From D lev k q := by
  obtain ⟨i, h1, h2, h3⟩ := h
  exact ⟨i, by omega, h2, h3⟩

theorem Lv.not_from {W : World} {D : Nat} {lev tgt : Nat → Nat} (hL : Lv W D lev tgt) {k : Nat} (hk : k < D) :
    ¬ From D lev (k + 1) (lev k) := by
  rintro ⟨i, h1, h2, h3⟩
  have := hL.inj k i (by omega) h2 h3
  omega

/-- How the references of a program and its direct calls belong together. -/
def Env (s : State) (th : Nat → Thunk) (r : Nat) (env : List Nat) (es : List (Thunk × Bool)) : Prop :=
  es = env.map fun p => (th p, (s.store r p).isSome)

theorem Env.get {s : State} {th : Nat → Thunk} {r : Nat} {env : List Nat} {es : List (Thunk × Bool)} (h : Env s th r env es)
    {x : Nat} {t : Thunk} {b : Bool} (hx : es[x]? = some (t, b)) :
    ∃ p, env[x]? = some p ∧ th p = t ∧ (s.store r p).isSome = b := by
  rw [h, List.getElem?_map, Option.map_eq_some_iff] at hx
  obtain ⟨p, h1, h2⟩ := hx
  injection h2 with h2 h3
  exact ⟨p, h1, h2, h3⟩

theorem Env.args {s : State} {th : Nat → Thunk} {r : Nat} {env : List Nat} {es : List (Thunk × Bool)} (h : Env s th r env es) :
    ∀ {as : List Arg} {ts : List Thunk}, thunkArgs es as = some ts → ∃ l, sendArgs env as = some l ∧ ts = argsF th l
  | [], ts, ht => by
    simp only [thunkArgs, Option.some.injEq] at ht
    exact ⟨[], rfl, ht.symm⟩
  | .lit v :: as, ts, ht => by
    simp only [thunkArgs, Option.map_eq_some_iff] at ht
    obtain ⟨ts', h1, rfl⟩ := ht
    obtain ⟨l, h2, h3⟩ := h.args h1
    exact ⟨.val v :: l, by simp [sendArgs, h2], by rw [argsF, h3]⟩
  | .var i :: as, ts, ht => by
    rw [thunkArgs] at ht
    split at ht
    · next t ts' h0 h1 =>
      obtain ⟨l, h2, h3⟩ := h.args h1
      obtain ⟨p, h4, h5, _⟩ := h.get (t := t.1) (b := t.2) h0
      injection ht with ht
      exact ⟨.ref p :: l, by simp [sendArgs, h2, h4], by rw [← ht, argsF, h5, h3]⟩
    · cases ht

/-- Nothing changed for this program. -/
theorem Env.same {s s' : State} {th th' : Nat → Thunk} {r : Nat} {env : List Nat} {es : List (Thunk × Bool)} (h : Env s th r env es)
    (h1 : ∀ p ∈ env, th' p = th p) (h2 : ∀ p ∈ env, s'.store r p = s.store r p) : Env s' th' r env es := by
  rw [Env, h]
  refine List.map_congr_left fun p hp => ?_
  rw [h1 p hp, h2 p hp]

/-- One of the values arrived. -/
theorem Env.arrived {s s' : State} {th : Nat → Thunk} {r : Nat} {env : List Nat} {es : List (Thunk × Bool)} (h : Env s th r env es)
    (hn : env.Nodup) {x p : Nat} (hx : env[x]? = some p) (h1 : (s'.store r p).isSome)
    (h2 : ∀ q, q ≠ p → s'.store r q = s.store r q) : Env s' th r env (es.set x (th p, true)) := by
  rw [Env, h]
  apply List.ext_getElem?
  intro i
  rw [List.getElem?_set]
  by_cases hi : x = i
  · subst hi
    obtain ⟨hlt, he⟩ := List.getElem?_eq_some_iff.1 hx
    simp [hlt, he, h1]
  · rw [if_neg hi, List.getElem?_map, List.getElem?_map]
    cases hq : env[i]? with
    | none => rfl
    | some q =>
      have hne : q ≠ p := by
        rintro rfl
        obtain ⟨hi1, he1⟩ := List.getElem?_eq_some_iff.1 hq
        obtain ⟨hi2, he2⟩ := List.getElem?_eq_some_iff.1 hx
        exact hi ((List.getElem_inj hn).1 (he2.trans he1.symm))
      simp [h2 q hne]

/-- The values of the arguments are those of the direct calls. -/
theorem values_force {W : World} {s : State} {th : Nat → Thunk} (hs : Sim W s th) (r : Nat) :
    ∀ {as : List Sent} {vs : List Val} {n : Nat}, (∀ a, Sent.ref a ∈ as → (s.store r a).isSome) →
      forceAll W.body true n (argsF th as) = some vs → values (s.store r) as = some vs
  | [], vs, n, _, h => by
    cases n with
    | zero => simp [forceAll] at h
    | succ n => simpa [argsF, forceAll, values] using h
  | .val v :: as, vs, n, hst, h => by
    cases n with
    | zero => simp [forceAll] at h
    | succ n =>
      rw [argsF, forceAll] at h
      split at h
      · next w ws h1 h2 =>
        injection h with h
        have := values_force hs r (fun a ha => hst a (List.mem_cons_of_mem _ ha)) h2
        have hw : w = v := by
          cases n with
          | zero => simp [force] at h1
          | succ n => rw [force] at h1; exact (Option.some.inj h1).symm
        simp [values, this, ← h, hw]
      · cases h
  | .ref p :: as, vs, n, hst, h => by
    cases n with
    | zero => simp [forceAll] at h
    | succ n =>
      rw [argsF, forceAll] at h
      split at h
      · next w ws h1 h2 =>
        injection h with h
        have := values_force hs r (fun a ha => hst a (List.mem_cons_of_mem _ ha)) h2
        obtain ⟨w', hw'⟩ := Option.isSome_iff_exists.1 (hst p (by simp))
        have hw : w' = w := hs.agree hw' h1
        simp [values, this, ← h, hw', hw]
      · cases h

/-- What a task runs. -/
theorem runTask_eq (vs : List Val) (b : List Nat → Prog) : runTask b vs =
    match failedOne vs with
    | some e => .ret (.exc e)
    | none => b (numbers vs) := by
  induction vs generalizing b with
  | nil => simp [failedOne, numbers, runTask]
  | cons w vs ih =>
    cases w with
    | ok k =>
      have h1 : failedOne (Val.ok k :: vs) = failedOne vs := by simp [failedOne]
      have h2 : numbers (Val.ok k :: vs) = k :: numbers vs := by simp [numbers]
      rw [runTask, ih, h1, h2]
    | exc e =>
      have h1 : failedOne (Val.exc e :: vs) = some e := by simp [failedOne]
      rw [runTask, h1]

/-- A task ends. -/
theorem Sim.stop {W : World} {s : State} {th : Nat → Thunk} (hs : Sim W s th) {r : Nat} {f : Frame} (h : s.run r = some f)
    (hst : (s.store r f.out).isSome) : Sim W (s.setRun r none) th where
  val := hs.val
  fresh := hs.fresh
  zero := hs.zero
  ex := by
    intro q hq hz
    rcases hs.ex q hq hz with h1 | h1 | ⟨f', h1, h2⟩
    · exact Or.inl h1
    · exact Or.inr (Or.inl h1)
    · simp only [State.setRun]
      by_cases hr : s.home q = r
      · rw [hr, h] at h1
        injection h1 with h1
        left
        rw [hr, ← h2, ← h1]
        exact hst
      · exact Or.inr (Or.inr ⟨f', by simp [hr, h1], h2⟩)

/-- A task starts. -/
theorem Sim.start {W : World} {s : State} {th : Nat → Thunk} (hs : Sim W s th) {r i : Nat} {t : Task} (h : s.run r = none)
    (ht : (s.inbox r)[i]? = some t) (prog : Prog) :
    Sim W ((s.setInbox r ((s.inbox r).eraseIdx i)).setRun r (some ⟨t.out, prog, []⟩)) th where
  val := hs.val
  fresh := hs.fresh
  zero := hs.zero
  ex := by
    intro q hq hz
    simp only [State.setRun, State.setInbox]
    rcases hs.ex q hq hz with h1 | ⟨u, h1, h2, h3⟩ | ⟨f, h1, h2⟩
    · exact Or.inl h1
    · by_cases hr : s.home q = r
      · rw [hr] at h1
        obtain ⟨j, hj⟩ := List.getElem?_of_mem h1
        by_cases hij : j = i
        · subst hij
          rw [ht] at hj
          injection hj with hj
          subst hj
          exact Or.inr (Or.inr ⟨⟨t.out, prog, []⟩, by simp [hr], h2⟩)
        · refine Or.inr (Or.inl ⟨u, ?_, h2, h3⟩)
          rw [if_pos hr]
          exact List.mem_eraseIdx_iff_getElem?.2 ⟨j, hij, hj⟩
      · refine Or.inr (Or.inl ⟨u, ?_, h2, h3⟩)
        rw [if_neg hr]
        exact h1
    · have hr : s.home q ≠ r := fun hc => by rw [hc, h] at h1; cases h1
      exact Or.inr (Or.inr ⟨f, by simp [hr, h1], h2⟩)

/-- The schedule: values are made when they are asked for. -/
theorem sim_all {W : World} {D : Nat} {lev tgt : Nat → Nat} (hL : Lv W D lev tgt) (n : Nat) :
    (∀ j p s th v, 0 < j → j ≤ D → Sim W s th → (∀ i, j ≤ i → i ≤ D → s.run (lev i) = none) → p < s.next → s.home p = lev j →
      forceWithin W.body n (D - j) (th p) = some v →
      ∃ as s' th', s.runAll W as = some s' ∧ Sim W s' th' ∧ Ext s.next (From D lev j) s th s' th' ∧ s'.run = s.run ∧
        s'.store (lev j) p = some v) ∧
    (∀ j l s th vs, 0 < j → j ≤ D → Sim W s th → (∀ i, j ≤ i → i ≤ D → s.run (lev i) = none) →
      (∀ a, Sent.ref a ∈ l → a < s.next ∧ (s.home a = lev j ∨ (s.store (lev j) a).isSome)) →
      forceAllWithin W.body n (D - j) (argsF th l) = some vs →
      ∃ as s' th', s.runAll W as = some s' ∧ Sim W s' th' ∧ Ext s.next (From D lev j) s th s' th' ∧ s'.run = s.run ∧
        ∀ a, Sent.ref a ∈ l → (s'.store (lev j) a).isSome) ∧
    (∀ k s th out prog env es v N, k ≤ D → Sim W s th → s.run (lev k) = some ⟨out, prog, env⟩ →
      (∀ i, k < i → i ≤ D → s.run (lev i) = none) → Env s th (lev k) env es → env.Nodup →
      (∀ p ∈ env, N ≤ p ∧ p < s.next ∧ (s.home p = tgt k ∨ (s.store (lev k) p).isSome)) → N ≤ s.next →
      evalWithin W.body n (D - k) prog es = some v →
      ∃ as s' th' env', s.runAll W as = some s' ∧ Sim W s' th' ∧ Ext N (From D lev k) s th s' th' ∧
        (∀ q, q ≠ lev k → s'.run q = s.run q) ∧ s'.run (lev k) = some ⟨out, .ret v, env'⟩) := by
  induction n with
  | zero => refine ⟨?_, ?_, ?_⟩ <;> simp [forceWithin, forceAllWithin, evalWithin]
  | succ n ih =>
    obtain ⟨ihF, ihA, ihE⟩ := ih
    refine ⟨?_, ?_, ?_⟩
    · intro j p s th v hj hjD hs hidle hp hh hf
      have hj0 : lev j ≠ 0 := fun hc => hL.none (hc ▸ hL.mem j hj hjD)
      have hforce := (within_eval (body := W.body) (n + 1)).1 _ _ _ hf
      rcases hs.ex p hp (hh ▸ hj0) with h1 | ⟨t, h1, h2, h3, h4⟩ | ⟨f, h1, _⟩
      · obtain ⟨w, hw⟩ := Option.isSome_iff_exists.1 h1
        rw [hh] at hw
        exact ⟨[], s, th, rfl, hs, Ext.refl _ _ _ _, rfl, by rw [hw, hs.agree hw hforce]⟩
      · rw [hh] at h1
        rw [h3, forceWithin] at hf
        split at hf
        · cases hf
        next vs hvs =>
        obtain ⟨as, s1, th1, e1, hs1, x1, r1, a1⟩ := ihA j t.args s th vs hj hjD hs hidle
          (fun a ha => ⟨by have := (h4 a ha).1; omega, hh ▸ (h4 a ha).2⟩) hvs
        rcases x1.inbox _ t h1 with g | g
        · obtain ⟨i, hti⟩ := List.getElem?_of_mem g
          have hvals : values (s1.store (lev j)) t.args = some vs := by
            refine values_force hs1 (lev j) a1 (n := n) ?_
            rw [argsF_congr (th := th) (as := t.args) fun a ha => x1.th a (by have := (h4 a ha).1; omega)]
            exact (within_eval n).2.1 _ _ _ hvs
          have hi1 : s1.run (lev j) = none := by rw [r1]; exact hidle j (Nat.le_refl _) hjD
          have hst : s1.step W (.start (lev j) i) =
              some ((s1.setInbox (lev j) ((s1.inbox (lev j)).eraseIdx i)).setRun (lev j)
                (some ⟨t.out, runTask (W.body t.fn) vs, []⟩)) := by
            simp [State.step, hi1, hj0, hti, hvals]
          have hs2 := hs1.start hi1 hti (runTask (W.body t.fn) vs)
          generalize hs2e : (s1.setInbox (lev j) ((s1.inbox (lev j)).eraseIdx i)).setRun (lev j)
                (some ⟨t.out, runTask (W.body t.fn) vs, []⟩) = s2 at hst hs2
          have hrun2 : s2.run (lev j) = some ⟨t.out, runTask (W.body t.fn) vs, []⟩ := by
            rw [← hs2e]; simp [State.setRun]
          have hoth2 : ∀ q, q ≠ lev j → s2.run q = s1.run q := by
            intro q hq; rw [← hs2e]; simp [State.setRun, State.setInbox, hq]
          have hnext2 : s2.next = s1.next := by rw [← hs2e]; rfl
          -- the body of the function
          have hbody : ∃ bs s3 th3 env', s2.runAll W bs = some s3 ∧ Sim W s3 th3 ∧ Ext s1.next (From D lev j) s2 th1 s3 th3 ∧
              (∀ q, q ≠ lev j → s3.run q = s2.run q) ∧ s3.run (lev j) = some ⟨t.out, .ret v, env'⟩ := by
            rw [runTask_eq] at hrun2
            split at hf
            · next e he =>
              injection hf with hf
              subst hf
              simp only [he] at hrun2
              exact ⟨[], s2, th1, [], rfl, hs2, Ext.refl _ _ _ _, fun _ _ => rfl, hrun2⟩
            · next he =>
              simp only [he] at hrun2
              refine ihE j s2 th1 t.out (W.body t.fn (numbers vs)) [] [] v s1.next hjD hs2 ?_ ?_ rfl List.nodup_nil (by simp)
                (by rw [hnext2]; exact Nat.le_refl _) hf
              · exact hrun2
              · intro i' hi1' hi2'
                rw [hoth2 _ (fun hc => by have := hL.inj i' j hi2' hjD hc; omega), r1]
                exact hidle i' (by omega) hi2'
          obtain ⟨bs, s3, th3, env', e3, hs3, x3, r3, f3⟩ := hbody
          have hth : th3 p = th p := by
            rw [x3.th p (by have := x1.next; omega), x1.th p hp]
          have hs4 : Sim W ((s3.put (lev j) t.out v).setRun (lev j) none) th3 := by
            have hp3 : p < s3.next := by have := x1.next; have := x3.next; omega
            refine (hs3.put (r := lev j) (p := t.out) (n := n + 1) (v := v) (by rw [h2]; exact hp3) ?_).stop (f := ⟨t.out, .ret v, env'⟩) f3 ?_
            · rw [h2, hth]; exact hforce
            · simp [State.put]
          have hst4 : s3.step W (.exec (lev j) 0) = some ((s3.put (lev j) t.out v).setRun (lev j) none) := by
            simp [State.step, State.exec, f3, hj0]
          have hstored : ((s3.put (lev j) t.out v).setRun (lev j) none).store (lev j) p = some v := by
            simp [State.setRun, State.put, h2]
          refine ⟨_, _, th3, runAll_trans e1 (runAll_trans (runAll_one hst) (runAll_trans e3 (runAll_one hst4))), hs4, ?_, ?_, hstored⟩
          · have hst2 : s2.store = s1.store := by rw [← hs2e]; rfl
            have hho2 : s2.home = s1.home := by rw [← hs2e]; rfl
            refine ⟨?_, ?_, ?_, ?_, ?_, ?_⟩
            · have := x1.next; have := x3.next
              show s.next ≤ s3.next
              omega
            · intro q hq
              have := x1.next
              show s3.home q = s.home q
              rw [x3.home q (by omega), hho2, x1.home q hq]
            · intro q hq
              have := x1.next
              rw [x3.th q (by omega), x1.th q hq]
            · intro q p' hq
              refine put_keeps s3 (lev j) t.out v q p' (x3.mono q p' ?_)
              rw [hst2]
              exact x1.mono q p' hq
            · intro q p' hq hp'
              have hqj : q ≠ lev j := fun hc => hq ⟨j, Nat.le_refl _, hjD, hc⟩
              have := x1.next
              have e : ((s3.put (lev j) t.out v).setRun (lev j) none).store q p' = s3.store q p' := by
                simp [State.setRun, State.put, hqj]
              rw [e, x3.same q p' hq (by omega), hst2, x1.same q p' hq hp']
            · intro q u hu
              rcases x1.inbox q u hu with g1 | g1
              · by_cases hq : q = lev j ∧ u.out = p
                · right
                  rw [hq.1, hq.2, hstored]
                  rfl
                · have g2 : u ∈ s2.inbox q := by
                    rw [← hs2e]
                    simp only [State.setRun, State.setInbox]
                    by_cases hqj : q = lev j
                    · rw [if_pos hqj]
                      rw [hqj] at g1
                      obtain ⟨i', hi'⟩ := List.getElem?_of_mem g1
                      refine List.mem_eraseIdx_iff_getElem?.2 ⟨i', ?_, hi'⟩
                      rintro rfl
                      rw [hti] at hi'
                      injection hi' with hi'
                      exact hq ⟨hqj, by rw [← hi', h2]⟩
                    · rw [if_neg hqj]
                      exact g1
                  rcases x3.inbox q u g2 with g3 | g3
                  · exact Or.inl g3
                  · exact Or.inr (put_keeps s3 (lev j) t.out v q u.out g3)
              · right
                refine put_keeps s3 (lev j) t.out v q u.out (x3.mono q u.out ?_)
                rw [hst2]
                exact g1
          · funext q
            simp only [State.setRun]
            by_cases hq : q = lev j
            · rw [if_pos hq, hq]
              exact (hidle j (Nat.le_refl _) hjD).symm
            · rw [if_neg hq]
              show s3.run q = s.run q
              rw [r3 q hq, hoth2 q hq, r1]
        · obtain ⟨w, hw⟩ := Option.isSome_iff_exists.1 g
          rw [h2] at hw
          have hf1 : force W.body true (n + 1) (th1 p) = some v := by rw [x1.th p hp]; exact hforce
          exact ⟨as, s1, th1, e1, hs1, x1, r1, by rw [hw, hs1.agree hw hf1]⟩
      · rw [hh, hidle j (Nat.le_refl _) hjD] at h1
        cases h1
    · intro j l s th vs hj hjD hs hidle hl hf
      cases l with
      | nil => exact ⟨[], s, th, rfl, hs, Ext.refl _ _ _ _, rfl, by simp⟩
      | cons x l =>
        have hl' : ∀ a, Sent.ref a ∈ l → a < s.next ∧ (s.home a = lev j ∨ (s.store (lev j) a).isSome) :=
          fun a ha => hl a (List.mem_cons_of_mem _ ha)
        cases x with
        | val w =>
          rw [argsF, forceAllWithin] at hf
          split at hf
          · next v' ws h1 h2 =>
            obtain ⟨as, s1, th1, e1, hs1, x1, r1, a1⟩ := ihA j l s th ws hj hjD hs hidle hl' h2
            exact ⟨as, s1, th1, e1, hs1, x1, r1, fun a ha => a1 a (by simpa using ha)⟩
          · cases hf
        | ref p =>
          rw [argsF, forceAllWithin] at hf
          split at hf
          · next v' ws h1 h2 =>
            have first : ∃ as s1 th1, s.runAll W as = some s1 ∧ Sim W s1 th1 ∧ Ext s.next (From D lev j) s th s1 th1 ∧
                s1.run = s.run ∧ (s1.store (lev j) p).isSome := by
              obtain ⟨hp, hh | hh⟩ := hl p (by simp)
              · obtain ⟨as, s1, th1, e1, hs1, x1, r1, a1⟩ := ihF j p s th v' hj hjD hs hidle hp hh h1
                exact ⟨as, s1, th1, e1, hs1, x1, r1, by rw [a1]; rfl⟩
              · exact ⟨[], s, th, rfl, hs, Ext.refl _ _ _ _, rfl, hh⟩
            obtain ⟨as, s1, th1, e1, hs1, x1, r1, a1⟩ := first
            obtain ⟨bs, s2, th2, e2, hs2, x2, r2, a2⟩ := ihA j l s1 th1 ws hj hjD hs1 (by rw [r1]; exact hidle)
              (fun a ha => by
                have hx := hl' a ha
                refine ⟨Nat.lt_of_lt_of_le hx.1 x1.next, ?_⟩
                rw [x1.home a hx.1]
                exact hx.2.imp id (x1.mono _ _))
              (by rw [argsF_congr (th := th) (as := l) fun a ha => x1.th a (hl' a ha).1]; exact h2)
            refine ⟨_, s2, th2, runAll_trans e1 e2, hs2, x1.trans (x2.weaken x1.next fun _ h => h), r2.trans r1, ?_⟩
            intro a ha
            rcases List.mem_cons.1 ha with ha | ha
            · injection ha with ha
              rw [ha]
              exact x2.mono _ _ a1
            · exact a2 a ha
          · cases hf
    · intro k s th out prog env es v N hkD hs hrun hidle henv hnd hat hN hf
      cases prog with
      | ret w =>
        rw [evalWithin] at hf
        injection hf with hf
        subst hf
        exact ⟨[], s, th, env, rfl, hs, Ext.refl _ _ _ _, fun _ _ => rfl, hrun⟩
      | put w next =>
        rw [evalWithin] at hf
        obtain ⟨s1, hst, hs1, x1, hrun1, hoth1, hn1, hsame1, hnew1⟩ := sim_put hs hrun
        have hfresh : s.next ∉ env := fun hc => by have := (hat _ hc).2.1; omega
        have x1' := x1 N (From D lev k) hN
        obtain ⟨as, s2, th2, env', e2, hs2, x2, r2, f2⟩ := ihE k s1 _ out next (env ++ [s.next]) _ v N hkD hs1 hrun1
          (fun i h1 h2 => by
            rw [hoth1 _ (fun hc => by have := hL.inj i k h2 hkD hc; omega)]; exact hidle i h1 h2)
          (by
            rw [Env, List.map_append]
            congr 1
            · exact henv.same (fun p hp => x1'.th p (hat p hp).2.1) (fun p hp => hsame1 _ p (hat p hp).2.1)
            · simp [bind, hnew1])
          (by rw [List.nodup_append]; exact ⟨hnd, by simp, by simp; intro a ha hc; exact hfresh (hc ▸ ha)⟩)
          (by
            intro p hp
            rcases List.mem_append.1 hp with hp | hp
            · obtain ⟨h1, h2, h3⟩ := hat p hp
              rw [x1'.home p h2]
              exact ⟨h1, by omega, h3.imp id (x1'.mono _ _)⟩
            · obtain rfl : p = s.next := by simpa using hp
              exact ⟨hN, by omega, Or.inr hnew1⟩)
          (by omega) hf
        exact ⟨_, s2, th2, env', runAll_trans (runAll_one hst) e2, hs2, x1'.trans x2,
          fun q hq => (r2 q hq).trans (hoth1 q hq), f2⟩
      | call fn args next =>
        rw [evalWithin] at hf
        split at hf
        · cases hf
        next ts hts =>
        obtain ⟨l, hl, rfl⟩ := henv.args hts
        obtain ⟨ht1, ht2⟩ := hL.dst k hkD
        obtain ⟨s1, hst, hs1, x1, hrun1, hoth1, hn1, hsame1, hhome1⟩ := sim_call hs hrun ht1
          (fun hc => hL.none (hc ▸ ht1)) ht2 hl (fun p hp => (hat p hp).2.1) (fun p hp => (hat p hp).2.2)
        have hfresh : s.next ∉ env := fun hc => by have := (hat _ hc).2.1; omega
        have x1' := x1 N (From D lev k) hN fun p hp => (hat p hp).1
        obtain ⟨as, s2, th2, env', e2, hs2, x2, r2, f2⟩ := ihE k s1 _ out next (env ++ [s.next]) _ v N hkD hs1 hrun1
          (fun i h1 h2 => by
            rw [hoth1 _ (fun hc => by have := hL.inj i k h2 hkD hc; omega)]; exact hidle i h1 h2)
          (by
            rw [Env, List.map_append]
            congr 1
            · exact henv.same (fun p hp => x1'.th p (hat p hp).2.1) (fun p hp => hsame1 _ p (Ne.symm ht2))
            · simp [bind, hsame1 _ _ (Ne.symm ht2), hs.fresh])
          (by rw [List.nodup_append]; exact ⟨hnd, by simp, by simp; intro a ha hc; exact hfresh (hc ▸ ha)⟩)
          (by
            intro p hp
            rcases List.mem_append.1 hp with hp | hp
            · obtain ⟨h1, h2, h3⟩ := hat p hp
              rw [x1'.home p h2]
              exact ⟨h1, by omega, h3.imp id (x1'.mono _ _)⟩
            · obtain rfl : p = s.next := by simpa using hp
              exact ⟨hN, by omega, Or.inl hhome1⟩)
          (by omega) hf
        exact ⟨_, s2, th2, env', runAll_trans (runAll_one hst) e2, hs2, x1'.trans x2,
          fun q hq => (r2 q hq).trans (hoth1 q hq), f2⟩
      | get x next =>
        rw [evalWithin] at hf
        split at hf
        · cases hf
        · next t hx =>
          split at hf
          · cases hf
          next w hw =>
          obtain ⟨p, hp, rfl, hst⟩ := henv.get hx
          obtain ⟨w', hw'⟩ := Option.isSome_iff_exists.1 hst
          obtain rfl : w' = w := hs.agree hw' hw
          have hout : outcome true w' = .value w' := by cases w' <;> rfl
          rw [hout] at hf
          have hstep : s.step W (.exec (lev k) 0) = some (s.setRun (lev k) (some ⟨out, next (.value w'), env⟩)) := by
            simp [State.step, State.exec, hrun, hp, hw']
          obtain ⟨as, s2, th2, env', e2, hs2, x2, r2, f2⟩ := ihE k _ th out (next (.value w')) env es v N hkD
            (hs.goOn (g := ⟨out, next (.value w'), env⟩) hrun rfl) (by simp [State.setRun])
            (fun i h1 h2 => by
              simp only [State.setRun]
              rw [if_neg (fun hc => by have := hL.inj i k h2 hkD hc; omega)]
              exact hidle i h1 h2)
            henv hnd hat hN hf
          refine ⟨_, s2, th2, env', runAll_trans (runAll_one hstep) e2, hs2, ?_, ?_, f2⟩
          · exact ⟨x2.next, x2.home, x2.th, x2.mono, x2.same, x2.inbox⟩
          · intro q hq
            rw [r2 q hq]
            simp [State.setRun, hq]
        · next t hx =>
          split at hf
          · cases hf
          next d hd =>
          split at hf
          · cases hf
          next w hw =>
          have hkD' : k < D := by omega
          obtain ⟨p, hp, rfl, hst⟩ := henv.get hx
          have hpe : p ∈ env := List.mem_of_getElem? hp
          obtain ⟨hp1, hp2, hp3⟩ := hat p hpe
          have hst' : s.store (lev k) p = none := by simpa using hst
          have hhome : s.home p = lev (k + 1) := by
            rcases hp3 with h | h
            · rw [h, hL.up k hkD']
            · rw [hst'] at h; cases h
          have hd' : d = D - (k + 1) := by omega
          rw [hd'] at hw
          obtain ⟨as, s1, th1, e1, hs1, x1, r1, a1⟩ := ihF (k + 1) p s th w (by omega) hkD' hs
            (fun i h1 h2 => hidle i (by omega) h2) hp2 hhome hw
          have hnf := hL.not_from hkD'
          have hrun1 : s1.run (lev k) = some ⟨out, .get x next, env⟩ := by rw [r1, hrun]
          have hst1 : s1.store (lev k) p = none := by rw [x1.same _ _ hnf hp2, hst']
          have hh1 : s1.home p = lev (k + 1) := by rw [x1.home p hp2, hhome]
          have h10 : lev (k + 1) ≠ 0 := fun hc => hL.none (hc ▸ hL.mem (k + 1) (by omega) hkD')
          have hidle1 : s1.run (lev (k + 1)) = none := by rw [r1]; exact hidle _ (by omega) hkD'
          have hneed : s1.needs (lev k) p = true := by simp [State.needs, hrun1, hp]
          have hstep : s1.step W (.fetch (lev k) p) =
              some ((s1.put (lev k) p w).setRun (lev k) (some ⟨out, next (requested w), env⟩)) := by
            simp only [State.step]
            rw [if_neg]
            · rw [hh1, a1]
              simp only [State.answer, hrun1, hp, if_true]
            · simp [hh1, hidle1, h10, hneed, hst1]
          have hforce : force W.body true n (th1 p) = some w := by rw [x1.th p hp2]; exact (within_eval n).1 _ _ _ hw
          have hs2 := (hs1.put (r := lev k) (by have := x1.next; omega) hforce).goOn (r := lev k) (g := ⟨out, next (requested w), env⟩)
            hrun1 rfl
          have hout : outcome false w = requested w := by cases w <;> rfl
          rw [hout, show d + 1 = D - k by omega, ← x1.th p hp2] at hf
          have hx2 : Ext N (From D lev k) s1 th1 ((s1.put (lev k) p w).setRun (lev k) (some ⟨out, next (requested w), env⟩)) th1 := by
            refine ⟨Nat.le_refl _, fun _ _ => rfl, fun _ _ => rfl, put_keeps s1 (lev k) p w, ?_, fun _ _ h => Or.inl h⟩
            intro q p' hq _
            have hqk : q ≠ lev k := fun hc => hq ⟨k, Nat.le_refl _, hkD, hc⟩
            simp [State.setRun, State.put, hqk]
          obtain ⟨bs, s3, th3, env', e3, hs3, x3, r3, f3⟩ := ihE k _ th1 out (next (requested w)) env _ v N hkD hs2
            (by simp [State.setRun])
            (fun i h1 h2 => by
              simp only [State.setRun]
              rw [if_neg (fun hc => by have := hL.inj i k h2 hkD hc; omega)]
              show s1.run _ = none
              rw [r1]
              exact hidle i h1 h2)
            ((henv.same (s' := s1) (th' := th1) (fun p hp => x1.th p (hat p hp).2.1)
              (fun p hp => x1.same _ p hnf (hat p hp).2.1)).arrived hnd hp (by simp [State.setRun, State.put])
              (fun q hq => by simp [State.setRun, State.put, hq]))
            hnd
            (fun q hq => by
              obtain ⟨g1, g2, g3⟩ := hat q hq
              refine ⟨g1, by have := x1.next; show q < s1.next; omega, ?_⟩
              show s1.home q = tgt k ∨ _
              rw [x1.home q g2]
              exact g3.imp id fun g => hx2.mono _ _ (x1.mono _ _ g))
            (by have := x1.next; show N ≤ s1.next; omega) hf
          refine ⟨_, s3, th3, env', runAll_trans e1 (runAll_trans (runAll_one hstep) e3), hs3,
            (x1.weaken hN fun q h => h.mono (Nat.le_succ k)).trans (hx2.trans x3), ?_, f3⟩
          intro q hq
          rw [r3 q hq]
          simp only [State.setRun, if_neg hq]
          show s1.run q = s.run q
          rw [r1]

/-- The first workers are used in turn. -/
theorem lv_of {W : World} {D : Nat} (h0 : 0 ∉ W.workers) (hnd : W.workers.Nodup) (h2 : 2 ≤ W.workers.length)
    (hD : D ≤ W.workers.length) : ∃ lev tgt, Lv W D lev tgt := by
  let lev : Nat → Nat := fun k => if k = 0 then 0 else W.workers.getD (k - 1) 0
  have hget : ∀ k, 0 < k → k ≤ W.workers.length → ∃ h : k - 1 < W.workers.length, lev k = W.workers[k - 1] := by
    intro k h1 h3
    refine ⟨by omega, ?_⟩
    simp [lev, show k ≠ 0 by omega, show k - 1 < W.workers.length by omega]
  have hmem : ∀ k, 0 < k → k ≤ W.workers.length → lev k ∈ W.workers := by
    intro k h1 h3
    obtain ⟨h, e⟩ := hget k h1 h3
    rw [e]
    exact List.getElem_mem h
  have hinj : ∀ i j, i ≤ W.workers.length → j ≤ W.workers.length → lev i = lev j → i = j := by
    intro i j hi hj e
    rcases Nat.eq_zero_or_pos i with rfl | hi0 <;> rcases Nat.eq_zero_or_pos j with rfl | hj0
    · rfl
    · exact absurd (hmem j hj0 hj) (by rw [← e]; exact h0)
    · exact absurd (hmem i hi0 hi) (by rw [e]; exact h0)
    · obtain ⟨a, ea⟩ := hget i hi0 hi
      obtain ⟨b, eb⟩ := hget j hj0 hj
      rw [ea, eb] at e
      have := (List.getElem_inj hnd).1 e
      omega
  refine ⟨lev, fun k => if k < D then lev (k + 1) else if D = 1 then lev 2 else lev 1, h0, rfl,
    fun k h1 h3 => hmem k h1 (by omega), fun i j hi hj => hinj i j (by omega) (by omega), ?_, fun k hk => by simp [hk]⟩
  intro k hk
  by_cases hkD : k < D
  · simp only [hkD, if_true]
    exact ⟨hmem _ (by omega) (by omega), fun hc => by have := hinj _ _ (by omega) (by omega) hc; omega⟩
  · simp only [hkD, if_false]
    split
    · exact ⟨hmem _ (by omega) (by omega), fun hc => by have := hinj _ _ (by omega) (by omega) hc; omega⟩
    · exact ⟨hmem _ (by omega) (by omega), fun hc => by have := hinj _ _ (by omega) (by omega) hc; omega⟩

/-- The main program comes to its end. -/
theorem depth_finish {W : World} {D n : Nat} {v : Val} (h0 : 0 ∉ W.workers) (hnd : W.workers.Nodup) (h2 : 2 ≤ W.workers.length)
    (hD : D ≤ W.workers.length) (hv : evalWithin W.body n D W.main [] = some v) :
    ∃ as s, (State.init W).runAll W as = some s ∧ s.done = some v := by
  obtain ⟨lev, tgt, hL⟩ := lv_of h0 hnd h2 hD
  have hs : Sim W (State.init W) (fun _ => .lit v) :=
    ⟨by simp [State.init], by simp [State.init], by simp [State.init], by simp [State.init]⟩
  obtain ⟨as, s, th, env, e, _, _, _, f⟩ := (sim_all hL n).2.2 0 (State.init W) _ 0 W.main [] [] v 0 (Nat.zero_le _) hs
    (by simp [hL.main, State.init])
    (fun i h1 h3 => by
      have : lev i ≠ 0 := fun hc => h0 (hc ▸ hL.mem i h1 h3)
      simp [State.init, this])
    rfl List.nodup_nil (by simp) (Nat.zero_le _) hv
  rw [hL.main] at f
  exact ⟨_, _, runAll_trans e (runAll_one (s1 := { s.setRun 0 none with done := some v }) (a := .exec 0 0)
    (by simp [State.step, State.exec, f])), rfl⟩

end Verif.Nested
