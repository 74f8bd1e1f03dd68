import Verif.Spec.Nested

/-! Every value in a store is the value of the direct call behind its reference. -/
namespace Verif.Nested
open Verif.Spec

variable {body : Nat → List Nat → Prog} {again : Bool}

theorem fuel_succ (body : Nat → List Nat → Prog) (again : Bool) (n : Nat) :
    (∀ t v, force body again n t = some v → force body again (n + 1) t = some v) ∧
    (∀ ts vs, forceAll body again n ts = some vs → forceAll body again (n + 1) ts = some vs) ∧
    (∀ p env v, evalProg body again n p env = some v → evalProg body again (n + 1) p env = some v) := by
  induction n with
  | zero =>
    refine ⟨?_, ?_, ?_⟩
    · intro t v h; rw [force] at h; cases h
    · intro t v h; rw [forceAll] at h; cases h
    · intro p env v h; rw [evalProg] at h; cases h
  | succ n ih =>
    obtain ⟨i1, i2, i3⟩ := ih
    refine ⟨?_, ?_, ?_⟩
    · intro t v h
      cases t with
      | lit k => simpa [force] using h
      | call fn args =>
        rw [force] at h ⊢
        split at h
        · cases h
        · next vs hvs =>
          rw [i2 _ _ hvs]
          simp only
          split at h
          · exact h
          · exact i3 _ _ _ h
    · intro ts vs h
      cases ts with
      | nil => simpa [forceAll] using h
      | cons t ts =>
        rw [forceAll] at h ⊢
        split at h
        · next v vs' h1 h2 => rw [i1 _ _ h1, i2 _ _ h2]; exact h
        · cases h
    · intro p env v h
      cases p with
      | ret k => simpa [evalProg] using h
      | put w next => rw [evalProg] at h ⊢; exact i3 _ _ _ h
      | call fn args next =>
        rw [evalProg] at h ⊢
        split at h
        · cases h
        · next l hl => exact i3 _ _ _ h
      | get x next =>
        rw [evalProg] at h ⊢
        split at h
        · cases h
        · next t kept ht =>
          split at h
          · cases h
          · next w hw => simp only [i1 _ _ hw]; exact i3 _ _ _ h

theorem force_mono {n m : Nat} (h : n ≤ m) {t : Thunk} {v : Val} (hf : force body again n t = some v) :
    force body again m t = some v := by
  induction h with
  | refl => exact hf
  | step _ ih => exact (fuel_succ body again _).1 _ _ ih

theorem forceAll_mono {n m : Nat} (h : n ≤ m) {t : List Thunk} {v : List Val} (hf : forceAll body again n t = some v) :
    forceAll body again m t = some v := by
  induction h with
  | refl => exact hf
  | step _ ih => exact (fuel_succ body again _).2.1 _ _ ih

theorem evalProg_mono {n m : Nat} (h : n ≤ m) {p : Prog} {env : List (Thunk × Bool)} {v : Val}
    (hf : evalProg body again n p env = some v) : evalProg body again m p env = some v := by
  induction h with
  | refl => exact hf
  | step _ ih => exact (fuel_succ body again _).2.2 _ _ _ ih

theorem force_unique {n m : Nat} {t : Thunk} {v w : Val} (h1 : force body again n t = some v)
    (h2 : force body again m t = some w) : v = w := by
  have := force_mono (Nat.le_max_left n m) h1
  have := force_mono (Nat.le_max_right n m) h2
  simp_all

/-- What a task runs is what the direct call does. -/
theorem eval_runTask {n : Nat} {v : Val} (vs : List Val) (b : List Nat → Prog)
    (h : evalProg body again n (runTask b vs) [] = some v) :
    (match failedOne vs with
      | some e => some (.exc e)
      | none => evalProg body again n (b (numbers vs)) []) = some v := by
  induction vs generalizing b with
  | nil => simpa [failedOne, numbers, runTask] using h
  | cons w vs ih =>
    cases w with
    | ok k =>
      rw [runTask] at h
      have := ih _ h
      simpa [failedOne, numbers] using this
    | exc e =>
      rw [runTask] at h
      cases n with
      | zero => rw [evalProg] at h; cases h
      | succ n => rw [evalProg] at h; simpa [failedOne] using h

/-- The suspended calls behind the references of a program, and which of them the process has. -/
def envOf (ths : List Thunk) (has : Nat → Bool) : List Nat → Option (List (Thunk × Bool))
  | [] => some []
  | p :: ps =>
    match ths[p]?, envOf ths has ps with
    | some t, some l => some ((t, has p) :: l)
    | _, _ => none

/-- The suspended calls behind the arguments of a request. -/
def argsOf (ths : List Thunk) : List Sent → Option (List Thunk)
  | [] => some []
  | .val n :: as => (argsOf ths as).map (.lit n :: ·)
  | .ref p :: as =>
    match ths[p]?, argsOf ths as with
    | some t, some l => some (t :: l)
    | _, _ => none

theorem get_append {ths : List Thunk} {x : Thunk} {p : Nat} {t : Thunk} (h : ths[p]? = some t) :
    (ths ++ [x])[p]? = some t := by
  have := (List.getElem?_eq_some_iff.1 h).1
  rw [List.getElem?_append_left this, h]

theorem envOf_append {ths : List Thunk} {has : Nat → Bool} {x : Thunk} : ∀ {ps : List Nat} {l : List (Thunk × Bool)},
    envOf ths has ps = some l → envOf (ths ++ [x]) has ps = some l
  | [], l, h => by simpa [envOf] using h
  | p :: ps, l, h => by
    rw [envOf] at h ⊢
    split at h
    · next t l' h1 h2 => rw [get_append h1, envOf_append h2]; exact h
    · cases h

theorem envOf_congr {ths : List Thunk} {has has' : Nat → Bool} : ∀ {ps : List Nat}, (∀ p ∈ ps, has p = has' p) →
    envOf ths has ps = envOf ths has' ps
  | [], _ => rfl
  | p :: ps, h => by
    simp only [envOf, h p (by simp), envOf_congr fun q hq => h q (List.mem_cons_of_mem _ hq)]

theorem envOf_get {ths : List Thunk} {has : Nat → Bool} : ∀ {ps : List Nat} {l : List (Thunk × Bool)},
    envOf ths has ps = some l → ∀ {i p : Nat}, ps[i]? = some p → ∃ t, l[i]? = some (t, has p) ∧ ths[p]? = some t
  | [], l, h, i, p, hi => by simp at hi
  | q :: ps, l, h, i, p, hi => by
    rw [envOf] at h
    split at h
    · next u l' h1 h2 =>
      injection h with h
      subst h
      cases i with
      | zero => simp at hi; subst hi; exact ⟨u, by simp, h1⟩
      | succ i => simpa using envOf_get h2 (by simpa using hi)
    · cases h

/-- After a `get` the process has the value. -/
theorem envOf_set {ths : List Thunk} {has has' : Nat → Bool} {p : Nat} (hp : has' p = true)
    (ho : ∀ q, q ≠ p → has' q = has q) : ∀ {ps : List Nat} {l : List (Thunk × Bool)}, ps.Nodup →
    envOf ths has ps = some l → ∀ {i : Nat} {t : Thunk}, ps[i]? = some p → ths[p]? = some t →
      envOf ths has' ps = some (l.set i (t, true))
  | [], l, _, h, i, t, hi, _ => by simp at hi
  | q :: ps, l, hn, h, i, t, hi, ht => by
    rw [List.nodup_cons] at hn
    rw [envOf] at h ⊢
    split at h
    · next u l' h1 h2 =>
      injection h with h
      subst h
      cases i with
      | zero =>
        simp at hi
        subst hi
        rw [ht] at h1
        injection h1 with h1
        have : envOf ths has' ps = some l' := by
          rw [← h2]
          exact envOf_congr fun a ha => ho a fun e => hn.1 (e ▸ ha)
        simp [this, ht, hp]
      | succ i =>
        have hi' : ps[i]? = some p := by simpa using hi
        have hq : q ≠ p := fun e => hn.1 (e ▸ List.mem_of_getElem? hi')
        rw [envOf_set hp ho hn.2 h2 hi' ht, h1, ho q hq]
        simp
    · cases h

theorem argsOf_append {ths : List Thunk} {x : Thunk} : ∀ {ps : List Sent} {l : List Thunk}, argsOf ths ps = some l →
    argsOf (ths ++ [x]) ps = some l
  | [], l, h => by simpa [argsOf] using h
  | .val n :: ps, l, h => by
    rw [argsOf] at h ⊢
    simp only [Option.map_eq_some_iff] at h ⊢
    obtain ⟨a, h1, h2⟩ := h
    exact ⟨a, argsOf_append h1, h2⟩
  | .ref p :: ps, l, h => by
    rw [argsOf] at h ⊢
    split at h
    · next t l' h1 h2 => rw [get_append h1, argsOf_append h2]; exact h
    · cases h

theorem envOf_snoc {ths : List Thunk} {has : Nat → Bool} {p : Nat} {t : Thunk} (hp : ths[p]? = some t) :
    ∀ {ps : List Nat} {l : List (Thunk × Bool)}, envOf ths has ps = some l →
      envOf ths has (ps ++ [p]) = some (l ++ [(t, has p)])
  | [], l, h => by
    simp only [envOf, Option.some.injEq] at h
    subst h
    simp [envOf, hp]
  | q :: ps, l, h => by
    rw [envOf] at h
    rw [List.cons_append, envOf]
    split at h
    · next u l' h1 h2 =>
      injection h with h
      subst h
      rw [h1, envOf_snoc hp h2]
      rfl
    · cases h

/-- Sending arguments and suspending them agree. -/
theorem argsOf_send {ths : List Thunk} {has : Nat → Bool} {env : List Nat} {es : List (Thunk × Bool)}
    (he : envOf ths has env = some es) :
    ∀ {as : List Arg} {l : List Sent}, sendArgs env as = some l →
      ∃ ts, argsOf ths l = some ts ∧ thunkArgs es as = some ts
  | [], l, h => by
    simp only [sendArgs, Option.some.injEq] at h
    subst h
    exact ⟨[], rfl, rfl⟩
  | .lit n :: as, l, h => by
    simp only [sendArgs, Option.map_eq_some_iff] at h
    obtain ⟨l', h1, rfl⟩ := h
    obtain ⟨ts, h2, h3⟩ := argsOf_send he h1
    exact ⟨.lit n :: ts, by simp [argsOf, h2], by simp [thunkArgs, h3]⟩
  | .var i :: as, l, h => by
    rw [sendArgs] at h
    split at h
    · next p l' h1 h2 =>
      injection h with h
      subst h
      obtain ⟨ts, h3, h4⟩ := argsOf_send he h2
      obtain ⟨t, h5, h6⟩ := envOf_get he h1
      exact ⟨t :: ts, by simp [argsOf, h6, h3], by simp [thunkArgs, h5, h4]⟩
    · cases h

theorem sendArgs_refs {env : List Nat} : ∀ {as : List Arg} {l : List Sent}, sendArgs env as = some l →
    ∀ p, Sent.ref p ∈ l → p ∈ env
  | [], l, h, p, hp => by simp only [sendArgs, Option.some.injEq] at h; subst h; cases hp
  | .lit n :: as, l, h, p, hp => by
    simp only [sendArgs, Option.map_eq_some_iff] at h
    obtain ⟨l', h1, rfl⟩ := h
    simp at hp
    exact sendArgs_refs h1 p hp
  | .var i :: as, l, h, p, hp => by
    rw [sendArgs] at h
    split at h
    · next q l' h1 h2 =>
      injection h with h
      subst h
      rcases List.mem_cons.1 hp with hp | hp
      · injection hp with hp
        subst hp
        exact List.mem_of_getElem? h1
      · exact sendArgs_refs h2 p hp
    · cases h

/-- Where the value of a program goes: for the main program it is the value of that program, for a task the value of the
direct call behind its output. -/
def Target (W : World) (ths : List Thunk) (r out : Nat) (v : Val) : Prop :=
  (r = 0 → ∃ m, evalProg W.body true m W.main [] = some v) ∧
  (r ≠ 0 → ∃ t m, ths[out]? = some t ∧ force W.body true m t = some v)

theorem Target.append {W : World} {ths : List Thunk} {x : Thunk} {r out : Nat} {v : Val} (h : Target W ths r out v) :
    Target W (ths ++ [x]) r out v :=
  ⟨h.1, fun hr => by
    obtain ⟨t, m, h1, h2⟩ := h.2 hr
    exact ⟨t, m, get_append h1, h2⟩⟩

/-- Whether process `r` has the value of `p`. -/
def State.has (s : State) (r p : Nat) : Bool := (s.store r p).isSome

/-- What has to hold of all processes; `ths` are the direct calls behind the references, `mk` the processes that created
them. -/
structure Inv (W : World) (s : State) (ths : List Thunk) (mk : Nat → Nat) : Prop where
  len : ths.length = s.next
  val : ∀ r p v, s.store r p = some v → ∃ t f, ths[p]? = some t ∧ force W.body true f t = some v
  task : ∀ r t, t ∈ s.inbox r → (∃ l, ths[t.out]? = some (.call t.fn l) ∧ argsOf ths t.args = some l) ∧
    ∀ p, Sent.ref p ∈ t.args → p < s.next ∧ mk p ≠ r
  frame : ∀ r f, s.run r = some f → (∃ es, envOf ths (s.has r) f.env = some es ∧
    ∀ n v, evalProg W.body true n f.prog es = some v → Target W ths r f.out v) ∧ f.env.Nodup ∧
    ∀ p ∈ f.env, p < s.next ∧ mk p = r
  fin : ∀ v, s.done = some v → ∃ m, evalProg W.body true m W.main [] = some v

theorem inv_init (W : World) : Inv W (State.init W) [] (fun _ => 0) where
  len := rfl
  val := by simp [State.init]
  task := by simp [State.init]
  frame := by
    intro r f h
    simp only [State.init] at h
    split at h
    · next hr =>
      injection h with h
      subst h
      exact ⟨⟨[], rfl, fun n v h => ⟨fun _ => ⟨n, h⟩, fun h0 => absurd hr h0⟩⟩, by simp, by simp⟩
    · cases h
  fin := by simp [State.init]

/-- A reference that does not exist yet is in no store. -/
theorem Inv.fresh {W : World} {s : State} {ths : List Thunk} {mk : Nat → Nat} (hi : Inv W s ths mk) (r : Nat) :
    s.store r s.next = none := by
  cases h : s.store r s.next with
  | none => rfl
  | some v =>
    obtain ⟨t, _, h1, _⟩ := hi.val r _ v h
    have := (List.getElem?_eq_some_iff.1 h1).1
    have := hi.len
    omega

theorem push_frame (r dest : Nat) (l : List Sent) (s : State) : (s.push r dest l).inbox = s.inbox ∧
    (s.push r dest l).run = s.run ∧ (s.push r dest l).home = s.home ∧ (s.push r dest l).next = s.next ∧
    (s.push r dest l).done = s.done := by
  induction l generalizing s with
  | nil => simp [State.push]
  | cons a l ih =>
    cases a with
    | val n => simpa [State.push] using ih s
    | ref p =>
      rw [State.push]
      split
      · simpa [State.put] using ih (s.put dest p _)
      · exact ih s

theorem push_store (r dest : Nat) (l : List Sent) (s : State) (r' p : Nat) (v : Val) (h : (s.push r dest l).store r' p = some v) :
    ∃ q, s.store q p = some v := by
  induction l generalizing s with
  | nil => exact ⟨_, h⟩
  | cons a l ih =>
    cases a with
    | val n => exact ih s h
    | ref p' =>
      rw [State.push] at h
      split at h
      · next w hw =>
        obtain ⟨q, hq⟩ := ih _ h
        simp only [State.put] at hq
        split at hq
        · next hc => injection hq with hq; subst hq; exact ⟨r, hc.2 ▸ hw⟩
        · exact ⟨q, hq⟩
      · exact ih s h

/-- Pushing changes only the store of the receiver and only the references sent. -/
theorem push_other (r dest : Nat) (l : List Sent) (s : State) (r' p : Nat) (h : r' ≠ dest ∨ Sent.ref p ∉ l) :
    (s.push r dest l).store r' p = s.store r' p := by
  induction l generalizing s with
  | nil => rfl
  | cons a l ih =>
    have h' : r' ≠ dest ∨ Sent.ref p ∉ l := h.imp id fun h hm => h (List.mem_cons_of_mem _ hm)
    cases a with
    | val n => exact ih s h'
    | ref q =>
      rw [State.push]
      split
      · rw [ih _ h']
        simp only [State.put]
        rw [if_neg]
        rintro ⟨h1, h2⟩
        rcases h with h | h
        · exact h h1
        · exact h (by simp [h2])
      · exact ih s h'

theorem forceAll_values {W : World} {ths : List Thunk} {store : Nat → Option Val}
    (hv : ∀ p v, store p = some v → ∃ t f, ths[p]? = some t ∧ force W.body true f t = some v) :
    ∀ {as : List Sent} {vs : List Val} {l : List Thunk}, values store as = some vs → argsOf ths as = some l →
      ∃ n, forceAll W.body true n l = some vs
  | [], vs, l, h1, h2 => by
    simp only [values, argsOf, Option.some.injEq] at h1 h2
    subst h1 h2
    exact ⟨1, rfl⟩
  | .val k :: as, vs, l, h1, h2 => by
    simp only [values, argsOf, Option.map_eq_some_iff] at h1 h2
    obtain ⟨vs', h1, rfl⟩ := h1
    obtain ⟨l', h2, rfl⟩ := h2
    obtain ⟨n, hn⟩ := forceAll_values hv h1 h2
    refine ⟨n + 2, ?_⟩
    rw [forceAll, force, forceAll_mono (Nat.le_succ n) hn]
  | .ref p :: as, vs, l, h1, h2 => by
    rw [values] at h1
    rw [argsOf] at h2
    split at h1
    · next v vs' h3 h4 =>
      split at h2
      · next t l' h5 h6 =>
        injection h1 with h1
        injection h2 with h2
        subst h1 h2
        obtain ⟨n, hn⟩ := forceAll_values hv h4 h6
        obtain ⟨t', f, h7, h8⟩ := hv p v h3
        rw [h5] at h7
        injection h7 with h7
        subst h7
        refine ⟨max n f + 1, ?_⟩
        rw [forceAll, force_mono (Nat.le_max_right n f) h8, forceAll_mono (Nat.le_max_left n f) hn]
      · cases h2
    · cases h1

theorem inv_step {W : World} {s s' : State} {ths : List Thunk} {mk : Nat → Nat} (a : Act) (hi : Inv W s ths mk)
    (h : s.step W a = some s') : ∃ ths' mk', Inv W s' ths' mk' := by
  cases a with
  | exec r dest =>
    simp only [State.step, State.exec] at h
    split at h
    · cases h
    · next out v env hrun =>
      obtain ⟨⟨es, he, hm⟩, _⟩ := hi.frame r _ hrun
      have hm := hm 1 v rfl
      split at h
      · next h0 =>
        subst h0
        injection h with h
        subst h
        refine ⟨ths, mk, hi.len, hi.val, hi.task, ?_, ?_⟩
        · intro r f hf
          simp only [State.setRun] at hf
          split at hf
          · cases hf
          · exact hi.frame r f hf
        · intro w hw
          simp only [Option.some.injEq] at hw
          subst hw
          exact hm.1 rfl
      · next h0 =>
        injection h with h
        subst h
        obtain ⟨t, m, ht, hm⟩ := hm.2 h0
        refine ⟨ths, mk, hi.len, ?_, hi.task, ?_, hi.fin⟩
        · intro r' p w hw
          simp only [State.put, State.setRun] at hw
          split at hw
          · next hc => injection hw with hw; subst hw; exact ⟨t, m, hc.2 ▸ ht, hm⟩
          · exact hi.val r' p w hw
        · intro r' f hf
          simp only [State.put, State.setRun] at hf
          split at hf
          · cases hf
          · next hr =>
            obtain ⟨⟨es', h1, h2⟩, h3⟩ := hi.frame r' f hf
            refine ⟨⟨es', ?_, h2⟩, h3⟩
            rw [← h1]
            apply envOf_congr
            intro p _
            simp [State.has, State.put, State.setRun, hr]
    · next out v next env hrun =>
      obtain ⟨⟨es, he, hm⟩, hn, henv⟩ := hi.frame r _ hrun
      injection h with h
      subst h
      have hnew : (ths ++ [Thunk.lit v])[s.next]? = some (.lit v) := by
        rw [← hi.len]; simp
      refine ⟨ths ++ [.lit v], fun p => if p = s.next then r else mk p, by simp [hi.len], ?_, ?_, ?_, hi.fin⟩
      · intro r' p w hw
        simp only [State.put, State.setRun] at hw
        split at hw
        · next hc =>
          injection hw with hw
          subst hw
          exact ⟨.lit v, 1, hc.2 ▸ hnew, rfl⟩
        · obtain ⟨t, f, h1, h2⟩ := hi.val r' p w hw
          exact ⟨t, f, get_append h1, h2⟩
      · intro r' u hu
        obtain ⟨⟨l', h1, h2⟩, h3⟩ := hi.task r' u hu
        refine ⟨⟨l', get_append h1, argsOf_append h2⟩, fun p hp => ?_⟩
        obtain ⟨h4, h5⟩ := h3 p hp
        simp only
        rw [if_neg (by omega)]
        exact ⟨by omega, h5⟩
      · intro r' f hf
        simp only [State.put, State.setRun] at hf
        split at hf
        · next hr =>
          injection hf with hf
          subst hf hr
          refine ⟨⟨es ++ [(.lit v, true)], ?_, ?_⟩, ?_, ?_⟩
          · have h1 : envOf (ths ++ [Thunk.lit v]) (fun p => ((s.put r' s.next v).store r' p).isSome) env = some es := by
              rw [← envOf_append (x := .lit v) he]
              apply envOf_congr
              intro p hp
              have := (henv p hp).1
              simp only [State.has, State.put]
              rw [if_neg (by omega)]
            have h2 := envOf_snoc hnew h1
            rw [show ((s.put r' s.next v).store r' s.next).isSome = true by simp [State.put]] at h2
            exact h2
          · intro n w hw
            refine (hm (n + 1) w ?_).append
            rw [evalProg]
            exact hw
          · simp only [List.nodup_append, hn, List.mem_singleton, true_and]
            refine ⟨by simp, ?_⟩
            intro a ha b hb
            have := (henv a ha).1
            omega
          · intro p hp
            simp only [List.mem_append, List.mem_singleton] at hp ⊢
            rcases hp with hp | hp
            · obtain ⟨h1, h2⟩ := henv p hp
              rw [if_neg (by omega)]
              exact ⟨by omega, h2⟩
            · rw [if_pos hp]
              exact ⟨by omega, rfl⟩
        · next hr =>
          obtain ⟨⟨es', h1, h2⟩, h3, h4⟩ := hi.frame r' f hf
          refine ⟨⟨es', ?_, fun n w hw => (h2 n w hw).append⟩, h3, ?_⟩
          · rw [← envOf_append (x := .lit v) h1]
            apply envOf_congr
            intro p _
            simp [State.has, State.put, State.setRun, hr]
          · intro p hp
            obtain ⟨h5, h6⟩ := h4 p hp
            simp only
            rw [if_neg (by omega)]
            exact ⟨by omega, h6⟩
    · next out fn args next env hrun =>
      obtain ⟨⟨es, he, hm⟩, hn, henv⟩ := hi.frame r _ hrun
      split at h
      · next hd =>
        split at h
        · cases h
        · next l hl =>
          injection h with h
          subst h
          obtain ⟨ts, hts, hth⟩ := argsOf_send he hl
          have hrefs := sendArgs_refs hl
          have hpf := push_frame r dest l s
          have hnew : (ths ++ [Thunk.call fn ts])[s.next]? = some (.call fn ts) := by
            rw [← hi.len]; simp
          have hkeep : ∀ r' f, s.run r' = some f → ∀ p ∈ f.env,
              ((s.push r dest l).store r' p).isSome = (s.store r' p).isSome := by
            intro r' f hf p hp
            rw [push_other]
            by_cases hr : r' = dest
            · right
              intro hpl
              have h1 := (henv p (hrefs p hpl)).2
              have h2 := ((hi.frame r' f hf).2.2 p hp).2
              exact hd.2 (by rw [← hr, ← h2, h1])
            · exact Or.inl hr
          refine ⟨ths ++ [.call fn ts], fun p => if p = s.next then r else mk p, by simp [hi.len], ?_, ?_, ?_, ?_⟩
          · intro r' p w hw
            obtain ⟨q, hq⟩ := push_store r dest l s r' p w hw
            obtain ⟨t', f, h1, h2⟩ := hi.val q p w hq
            exact ⟨t', f, get_append h1, h2⟩
          · intro r' u hu
            simp only [State.setRun, State.setInbox] at hu ⊢
            have old : u ∈ s.inbox r' → (∃ l, (ths ++ [Thunk.call fn ts])[u.out]? = some (.call u.fn l) ∧
                argsOf (ths ++ [Thunk.call fn ts]) u.args = some l) ∧
                ∀ p, Sent.ref p ∈ u.args → p < s.next + 1 ∧ (if p = s.next then r else mk p) ≠ r' := by
              intro hu
              obtain ⟨⟨l', h1, h2⟩, h3⟩ := hi.task r' u hu
              refine ⟨⟨l', get_append h1, argsOf_append h2⟩, fun p hp => ?_⟩
              obtain ⟨h4, h5⟩ := h3 p hp
              rw [if_neg (by omega)]
              exact ⟨by omega, h5⟩
            split at hu
            · next hr =>
              simp only [List.mem_append, List.mem_singleton] at hu
              rcases hu with hu | hu
              · exact old (hr ▸ hu)
              · subst hu
                refine ⟨⟨ts, hnew, argsOf_append hts⟩, fun p hp => ?_⟩
                obtain ⟨h4, h5⟩ := henv p (hrefs p hp)
                rw [if_neg (by omega), h5, hr]
                exact ⟨by omega, fun hc => hd.2 hc.symm⟩
            · rw [hpf.1] at hu
              exact old hu
          · intro r' f hf
            simp only [State.setRun, State.setInbox] at hf
            split at hf
            · next hr =>
              injection hf with hf
              subst hf hr
              have hstore : (s.push r' dest l).store r' s.next = none := by
                rw [push_other _ _ _ _ _ _ (Or.inl (Ne.symm hd.2)), hi.fresh]
              refine ⟨⟨es ++ [(.call fn ts, false)], ?_, ?_⟩, ?_, ?_⟩
              · have h1 : envOf (ths ++ [Thunk.call fn ts]) (fun p => ((s.push r' dest l).store r' p).isSome) env =
                    some es := by
                  rw [← envOf_append (x := .call fn ts) he]
                  exact envOf_congr fun p hp => hkeep r' _ hrun p hp
                have h2 := envOf_snoc hnew h1
                rw [hstore] at h2
                exact h2
              · intro n v hv
                refine (hm (n + 1) v ?_).append
                rw [evalProg]
                simp only [hth]
                exact hv
              · simp only [List.nodup_append, hn, List.mem_singleton, true_and]
                refine ⟨by simp, ?_⟩
                intro a ha b hb
                have := (henv a ha).1
                omega
              · intro p hp
                simp only [List.mem_append, List.mem_singleton] at hp ⊢
                rcases hp with hp | hp
                · obtain ⟨h1, h2⟩ := henv p hp
                  rw [if_neg (by omega)]
                  exact ⟨by omega, h2⟩
                · rw [if_pos hp]
                  exact ⟨by omega, rfl⟩
            · rw [hpf.2.1] at hf
              obtain ⟨⟨es', h2, h3⟩, h4, h5⟩ := hi.frame r' f hf
              refine ⟨⟨es', ?_, fun n v hv => (h3 n v hv).append⟩, h4, ?_⟩
              · rw [← envOf_append (x := .call fn ts) h2]
                exact envOf_congr fun p hp => hkeep r' f hf p hp
              · intro p hp
                obtain ⟨h6, h7⟩ := h5 p hp
                simp only
                rw [if_neg (by omega)]
                exact ⟨by omega, h7⟩
          · intro v hv
            simp only [State.setRun, State.setInbox] at hv
            rw [hpf.2.2.2.2] at hv
            exact hi.fin v hv
      · cases h
    · next out x next env hrun =>
      obtain ⟨⟨es, he, hm⟩, hn, henv⟩ := hi.frame r _ hrun
      split at h
      · cases h
      · next p hp =>
        split at h
        · cases h
        · next v hv =>
          injection h with h
          subst h
          refine ⟨ths, mk, hi.len, hi.val, hi.task, ?_, hi.fin⟩
          intro r' f hf
          simp only [State.setRun] at hf
          split at hf
          · next hr =>
            injection hf with hf
            subst hf hr
            refine ⟨⟨es, he, ?_⟩, hn, henv⟩
            intro n w hw
            obtain ⟨u, h1, h2⟩ := envOf_get he hp
            have hh : s.has r' p = true := by simp [State.has, hv]
            rw [hh] at h1
            obtain ⟨u', k, h3, h4⟩ := hi.val r' p v hv
            rw [h2] at h3
            injection h3 with h3
            subst h3
            apply hm (max n k + 1) w
            rw [evalProg]
            have hset : es.set x (u, true) = es := by
              apply List.ext_getElem?
              intro i
              rw [List.getElem?_set]
              split
              · next hix =>
                subst hix
                split
                · exact h1.symm
                · next hlt => rw [List.getElem?_eq_none (by omega)]
              · rfl
            have hout : outcome true v = .value v := by cases v <;> rfl
            simp only [h1, force_mono (Nat.le_max_right n k) h4, Bool.true_or, hset, hout]
            exact evalProg_mono (Nat.le_max_left n k) hw
          · exact hi.frame r' f hf
  | start r i =>
    simp only [State.step] at h
    split at h
    · cases h
    · next hc =>
      split at h
      · cases h
      · next t ht =>
        split at h
        · cases h
        · next vs hvs =>
          injection h with h
          subst h
          obtain ⟨⟨l, h1, h2⟩, _⟩ := hi.task r t (List.mem_of_getElem? ht)
          refine ⟨ths, mk, hi.len, hi.val, ?_, ?_, hi.fin⟩
          · intro r' u hu
            simp only [State.setRun, State.setInbox] at hu
            split at hu
            · next hr => exact hr ▸ hi.task r u (List.mem_of_mem_eraseIdx hu)
            · exact hi.task r' u hu
          · intro r' f hf
            simp only [State.setRun, State.setInbox] at hf
            split at hf
            · next hr =>
              injection hf with hf
              subst hf
              refine ⟨⟨[], rfl, ?_⟩, by simp, by simp⟩
              intro n v hv
              refine ⟨fun h0 => absurd (Or.inr (hr.symm.trans h0)) hc, fun _ => ⟨.call t.fn l, ?_⟩⟩
              obtain ⟨m, hm⟩ := forceAll_values (W := W) (hi.val r) hvs h2
              refine ⟨max n m + 1, h1, ?_⟩
              rw [force]
              simp only [forceAll_mono (Nat.le_max_right n m) hm]
              exact eval_runTask vs _ (evalProg_mono (Nat.le_max_left n m) hv)
            · exact hi.frame r' f hf
  | fetch r p =>
    simp only [State.step] at h
    split at h
    · cases h
    · next hc =>
      simp only [not_or, Bool.not_eq_true, Option.isSome_eq_false_iff, Option.isNone_iff_eq_none, Bool.not_eq_false] at hc
      obtain ⟨_, _, hnone, hneeds⟩ := hc
      split at h
      · cases h
      · next v hv =>
        injection h with h
        obtain ⟨t, k, ht, hk⟩ := hi.val _ p v hv
        have hval : ∀ r' q w, (s.put r p v).store r' q = some w →
            ∃ t f, ths[q]? = some t ∧ force W.body true f t = some w := by
          intro r' q w hw
          simp only [State.put] at hw
          split at hw
          · next hc => injection hw with hw; subst hw; exact hc.2 ▸ ⟨t, k, ht, hk⟩
          · exact hi.val r' q w hw
        have hother : ∀ r' f, r' ≠ r → s.run r' = some f → (∃ es, envOf ths ((s.put r p v).has r') f.env = some es ∧
            ∀ n v, evalProg W.body true n f.prog es = some v → Target W ths r' f.out v) ∧ f.env.Nodup ∧
            ∀ p ∈ f.env, p < s.next ∧ mk p = r' := by
          intro r' f hr hf
          obtain ⟨⟨es', h1, h2⟩, h3⟩ := hi.frame r' f hf
          refine ⟨⟨es', ?_, h2⟩, h3⟩
          rw [← h1]
          apply envOf_congr
          intro p _
          simp [State.has, State.put, hr]
        have hinbox : (∀ f, s.run r = some f → p ∉ f.env) → Inv W (s.put r p v) ths mk := by
          intro hno
          refine ⟨hi.len, hval, hi.task, ?_, hi.fin⟩
          intro r' f hf
          by_cases hr : r' = r
          · subst hr
            obtain ⟨⟨es', h1, h2⟩, h3⟩ := hi.frame r' f hf
            refine ⟨⟨es', ?_, h2⟩, h3⟩
            rw [← h1]
            apply envOf_congr
            intro q hq
            have : q ≠ p := fun e => hno f hf (e ▸ hq)
            simp [State.has, State.put, this]
          · exact hother r' f hr hf
        have hmk : (∃ t ∈ s.inbox r, Sent.ref p ∈ t.args) → ∀ f, s.run r = some f → p ∉ f.env := by
          rintro ⟨t, h1, h2⟩ f hf hp
          exact ((hi.task r t h1).2 p h2).2 ((hi.frame r f hf).2.2 p hp).2
        have hfrom : (s.inbox r).any (fun t => t.args.any fun a => a == .ref p) = true →
            ∃ t ∈ s.inbox r, Sent.ref p ∈ t.args := by
          intro h
          simp only [List.any_eq_true, beq_iff_eq] at h
          obtain ⟨t, h1, a, h2, rfl⟩ := h
          exact ⟨t, h1, h2⟩
        rw [State.answer] at h
        split at h
        · next out x next env hrun =>
          split at h
          · next hx =>
            subst h
            refine ⟨ths, mk, hi.len, hval, hi.task, ?_, hi.fin⟩
            intro r' f hf
            simp only [State.setRun, State.put] at hf
            split at hf
            · next hr =>
              injection hf with hf
              subst hf hr
              obtain ⟨⟨es, he, hm⟩, hn, henv⟩ := hi.frame r' _ hrun
              obtain ⟨u, h1, h2⟩ := envOf_get he hx
              have hh : s.has r' p = false := by simp [State.has, hnone]
              rw [hh] at h1
              rw [ht] at h2
              injection h2 with h2
              subst h2
              refine ⟨⟨es.set x (t, true), ?_, ?_⟩, hn, henv⟩
              · refine envOf_set (has := s.has r') (p := p) ?_ ?_ hn he hx ht
                · simp [State.has, State.setRun, State.put]
                · intro q hq
                  simp [State.has, State.setRun, State.put, hq]
              · intro n w hw
                apply hm (max n k + 1) w
                rw [evalProg]
                have hout : outcome false v = requested v := by cases v <;> rfl
                simp only [h1, force_mono (Nat.le_max_right n k) hk, Bool.false_or, hout]
                exact evalProg_mono (Nat.le_max_left n k) hw
            · next hr => exact hother r' f hr hf
          · next hx =>
            subst h
            refine ⟨ths, mk, hinbox (hmk (hfrom ?_))⟩
            simp only [State.needs, hrun, Bool.or_eq_true, beq_iff_eq] at hneeds
            exact hneeds.resolve_left hx
        · next hno =>
          subst h
          refine ⟨ths, mk, hinbox (hmk (hfrom ?_))⟩
          rw [State.needs, Bool.or_eq_true] at hneeds
          rcases hneeds with h1 | h1
          · split at h1
            · next hrun => exact absurd hrun (hno _ _ _ _)
            · cases h1
          · exact h1

theorem inv_run {W : World} {s s' : State} {ths : List Thunk} {mk : Nat → Nat} (as : List Act) (hi : Inv W s ths mk)
    (h : s.runAll W as = some s') : ∃ ths' mk', Inv W s' ths' mk' := by
  induction as generalizing s ths mk with
  | nil => simp only [State.runAll, Option.some.injEq] at h; exact ⟨ths, mk, h ▸ hi⟩
  | cons a as ih =>
    rw [State.runAll] at h
    split at h
    · next s1 h1 =>
      obtain ⟨ths1, mk1, hi1⟩ := inv_step a hi h1
      exact ih hi1 h
    · cases h

/-- The same suspended calls, with the same flags for those not in `seen`. -/
def Agree (seen : List Nat) (E1 E2 : List (Thunk × Bool)) : Prop :=
  E1.map Prod.fst = E2.map Prod.fst ∧ ∀ i, i ∉ seen → E1[i]? = E2[i]?

theorem thunkArgs_congr {E1 E2 : List (Thunk × Bool)} (h : E1.map Prod.fst = E2.map Prod.fst) :
    ∀ as : List Arg, thunkArgs E1 as = thunkArgs E2 as
  | [] => rfl
  | .lit v :: as => by rw [thunkArgs, thunkArgs, thunkArgs_congr h as]
  | .var i :: as => by
    have hi : (E1[i]?).map Prod.fst = (E2[i]?).map Prod.fst := by
      rw [← List.getElem?_map, ← List.getElem?_map, h]
    rw [thunkArgs, thunkArgs, thunkArgs_congr h as]
    cases h1 : E1[i]? <;> cases h2 : E2[i]? <;> rw [h1, h2] at hi <;> simp at hi
    cases h3 : thunkArgs E2 as <;> simp [hi]

theorem Agree.snoc {seen : List Nat} {E1 E2 : List (Thunk × Bool)} (h : Agree seen E1 E2) (x : Thunk × Bool) :
    Agree seen (E1 ++ [x]) (E2 ++ [x]) := by
  refine ⟨by simp [h.1], fun i hi => ?_⟩
  have hl : E1.length = E2.length := by simpa using congrArg List.length h.1
  rw [List.getElem?_append, List.getElem?_append, h.2 i hi, hl]

theorem Agree.set {seen : List Nat} {E1 E2 : List (Thunk × Bool)} (h : Agree seen E1 E2) (i : Nat) (t : Thunk)
    (k1 k2 : Bool) : Agree (i :: seen) (E1.set i (t, k1)) (E2.set i (t, k2)) := by
  refine ⟨by simp [List.map_set, h.1], fun j hj => ?_⟩
  simp only [List.mem_cons, not_or] at hj
  rw [List.getElem?_set_ne (Ne.symm hj.1), List.getElem?_set_ne (Ne.symm hj.1), h.2 j hj.2]

/-- For careful programs it does not matter whether a second `get` raises. -/
theorem careful_eval (hb : ∀ fn ns, Careful [] (body fn ns)) (n : Nat) :
    (∀ t, force body true n t = force body false n t) ∧
    (∀ ts, forceAll body true n ts = forceAll body false n ts) ∧
    (∀ p seen E1 E2, Careful seen p → Agree seen E1 E2 → evalProg body true n p E1 = evalProg body false n p E2) := by
  induction n with
  | zero =>
    refine ⟨?_, ?_, ?_⟩
    · intro t; rw [force, force]
    · intro t; rw [forceAll, forceAll]
    · intro p seen E1 E2 _ _; rw [evalProg, evalProg]
  | succ n ih =>
    obtain ⟨i1, i2, i3⟩ := ih
    refine ⟨?_, ?_, ?_⟩
    · intro t
      cases t with
      | lit k => rw [force, force]
      | call fn args =>
        rw [force, force, i2]
        cases forceAll body false n args with
        | none => rfl
        | some vs =>
          simp only
          cases failedOne vs with
          | some e => rfl
          | none => exact i3 _ [] _ _ (hb _ _) ⟨rfl, fun _ _ => rfl⟩
    · intro ts
      cases ts with
      | nil => rw [forceAll, forceAll]
      | cons t ts => rw [forceAll, forceAll, i1, i2]
    · intro p seen E1 E2 hp ha
      cases p with
      | ret v => rw [evalProg, evalProg]
      | put v next =>
        rw [evalProg, evalProg]
        exact i3 _ seen _ _ hp (ha.snoc _)
      | call fn args next =>
        rw [evalProg, evalProg, thunkArgs_congr ha.1]
        cases thunkArgs E2 args with
        | none => rfl
        | some l => exact i3 _ seen _ _ hp (ha.snoc _)
      | get x next =>
        rw [evalProg, evalProg]
        have hx : (E1[x]?).map Prod.fst = (E2[x]?).map Prod.fst := by
          rw [← List.getElem?_map, ← List.getElem?_map, ha.1]
        cases h1 : E1[x]? with
        | none =>
          cases h2 : E2[x]? with
          | none => rfl
          | some _ => rw [h1, h2] at hx; cases hx
        | some a =>
          cases h2 : E2[x]? with
          | none => rw [h1, h2] at hx; cases hx
          | some b =>
            obtain ⟨t, k1⟩ := a
            obtain ⟨t', k2⟩ := b
            rw [h1, h2] at hx
            simp only [Option.map_some, Option.some.injEq] at hx
            subst hx
            simp only [i1]
            cases force body false n t with
            | none => rfl
            | some v =>
              simp only
              have hnext : next (outcome k1 v) = next (outcome k2 v) := by
                rcases hp.1 with hs | hs
                · have := ha.2 x hs
                  rw [h1, h2] at this
                  injection this with this
                  injection this with _ this
                  rw [this]
                · cases v with
                  | ok _ => rfl
                  | exc e => cases k1 <;> cases k2 <;> simp [outcome, hs e]
              rw [hnext]
              exact i3 _ (x :: seen) _ _ (hp.2 _) (ha.set x t _ _)

end Verif.Nested
