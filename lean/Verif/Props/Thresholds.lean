import Verif.Model.Thresholds
import Verif.Props.Config

/-! Properties of the threshold of the serializer (C58). -/
namespace Verif.Props
open Verif.Config Verif.Thresholds

/-- The threshold that the configuration asks for: that of the shared store if it is enabled, otherwise the own one. -/
def AskedFor (T : PyText) (m : Mpi) (v : PyVal) : Prop :=
  ((getValue T (paramOf .store) m.store).1 = .ok (.bool true) ∧ (getValue T (paramOf .shared) m.shared).1 = .ok v) ∨
  ((getValue T (paramOf .store) m.store).1 = .ok (.bool false) ∧ (getValue T (paramOf .pickle) m.pickle).1 = .ok v)

/-- **C58**, full statement: after every program the serializer splits objects at the threshold that is configured. -/
def C58_full : Prop :=
  ∀ (T : PyText) (a b c : Option String) (l : List Act) (v : PyVal),
    (acts T (.init a b c) l).serializer = some v → AskedFor T (acts T (.init a b c) l).cfg v

/-- The code violates C58: the program decorates a function, which imports the serializer, and then enables the shared store. -/
theorem C58_late_violated : ¬ C58_full := by
  intro h
  have := h plain none none none [.use, .config .store (.put (.bool true)), .use] (.int 262144) (by decide)
  revert this
  unfold AskedFor
  decide

/-- In that case a buffer is kept out of band although the object is too small for the shared store. -/
theorem C58_unshared_violated :
    ∃ p : Proc, ∃ k : Int, p = acts plain (.init none none none)
        [.config .pickle (.put (.int 1000)), .use, .config .store (.put (.bool true)), .use] ∧
      (getValue plain (paramOf .store) p.cfg.store).1 = .ok (.bool true) ∧
      (getValue plain (paramOf .shared) p.cfg.shared).1 = .ok (.int k) ∧
      p.keepsOut 5000 = true ∧ shouldBeShared k 100 [5000] = false :=
  ⟨_, 100000, rfl, by decide, by decide, by decide, by decide⟩

/-- The parameters that were read when the serializer was imported hold their values. -/
private structure Held (p : Proc) (v : PyVal) : Prop where
  serializer : p.serializer = some v
  held : (p.cfg.store.value = some (.bool true) ∧ p.cfg.shared.value = some v ∧ p.cfg.shared.source.isSome) ∨
    (∃ on, p.cfg.store.value = some on ∧ on ≠ .bool true ∧ p.cfg.pickle.value = some v)

private theorem getValue_held {T : PyText} {w : Which} {s : State} {v : PyVal} (h : s.value = some v) :
    getValue T (paramOf w) s = (.ok v, s) := by
  rw [getValue_of h]
  cases w <;> rfl

private theorem getSource_held {T : PyText} {w : Which} {s : State} {v : PyVal} (h : s.value = some v) :
    (getSource T (paramOf w) s).2 = s := by
  simp only [getSource]
  split
  · rfl
  · rw [getValue_held h]
    dsimp only
    split <;> rfl

private theorem step_held {T : PyText} {w : Which} {s : State} {v : PyVal} (h : s.value = some v) (op : Op)
    (hp : ∀ u, op ≠ .put u) : (Config.step T (paramOf w) s op).value = some v ∧
      (Config.step T (paramOf w) s op).source = s.source := by
  cases op with
  | get => simp [Config.step, getValue_held h, h]
  | source => simp [Config.step, getSource_held h, h]
  | put u => exact absurd rfl (hp u)
  | setEnv e => exact ⟨h, rfl⟩

private theorem pickleGet_held {T : PyText} {p : Proc} {v : PyVal} (h : Held p v) :
    (pickleGet T p.cfg).1 = .ok v ∧ (pickleGet T p.cfg).2.store = p.cfg.store ∧ (pickleGet T p.cfg).2.shared = p.cfg.shared ∧
      (pickleGet T p.cfg).2.pickle.value = p.cfg.pickle.value := by
  rcases h.held with ⟨h1, h2, h3⟩ | ⟨on, h1, h2, h3⟩
  · obtain ⟨x, hx⟩ := Option.isSome_iff_exists.1 h3
    simp only [pickleGet, getValue_held h1, getValue_held h2, if_true, getSource, hx, and_self]
  · simp only [pickleGet, getValue_held h1, if_neg h2, getValue_held h3, and_self]

private theorem act_held {T : PyText} {p : Proc} {v : PyVal} (h : Held p v) (a : Act) (ha : ∀ w u, a ≠ .config w (.put u)) :
    Held (act T p a) v := by
  obtain ⟨hs, hh⟩ := h
  cases a with
  | use => simp only [act, hs]; exact ⟨hs, hh⟩
  | config w op =>
    have hp : ∀ u, op ≠ .put u := fun u e => ha w u (by rw [e])
    refine ⟨hs, ?_⟩
    cases w with
    | store =>
      rcases hh with ⟨h1, h2, h3⟩ | ⟨on, h1, h2, h3⟩
      · exact .inl ⟨(step_held h1 op hp).1, h2, h3⟩
      · exact .inr ⟨on, (step_held h1 op hp).1, h2, h3⟩
    | shared =>
      rcases hh with ⟨h1, h2, h3⟩ | ⟨on, h1, h2, h3⟩
      · exact .inl ⟨h1, (step_held h2 op hp).1, by
          show (Config.step T (paramOf .shared) p.cfg.shared op).source.isSome = true
          rw [(step_held h2 op hp).2]; exact h3⟩
      · exact .inr ⟨on, h1, h2, h3⟩
    | pickle =>
      have hg := pickleGet_held (T := T) ⟨hs, hh⟩
      have key : (mpiStep T p.cfg (.pickle, op)).store = p.cfg.store ∧ (mpiStep T p.cfg (.pickle, op)).shared = p.cfg.shared ∧
          (mpiStep T p.cfg (.pickle, op)).pickle.value = p.cfg.pickle.value := by
        cases op with
        | get => exact hg.2
        | put u => exact absurd rfl (hp u)
        | setEnv e => exact ⟨rfl, rfl, rfl⟩
        | source =>
          simp only [mpiStep, pickleSource]
          split
          · exact ⟨rfl, rfl, rfl⟩
          · split <;> rename_i hq
            · rw [hq] at hg; exact hg.2
            · rw [hq] at hg
              split <;> exact hg.2
      show _ ∨ _
      simp only [act, key]
      exact hh

private theorem acts_held {T : PyText} (l : List Act) {p : Proc} {v : PyVal} (h : Held p v)
    (hl : ∀ w u, Act.config w (.put u) ∉ l) : Held (acts T p l) v := by
  induction l generalizing p with
  | nil => exact h
  | cons a l ih =>
    refine ih (act_held h a fun w u e => hl w u (by simp [e])) fun w u hm => hl w u (List.mem_cons_of_mem _ hm)

private theorem use_held {T : PyText} {p : Proc} {v : PyVal} (h0 : p.serializer = none)
    (h : (act T p .use).serializer = some v) : Held (act T p .use) v := by
  refine ⟨h, ?_⟩
  simp only [act, h0] at h ⊢
  rcases hg : pickleGet T p.cfg with ⟨r, c⟩
  rw [hg] at h
  cases r with
  | error => cases h
  | ok x =>
    cases h
    have held {w : Which} {s s' : State} {x : PyVal} (h : getValue T (paramOf w) s = (.ok x, s')) : s'.value = some x := by
      simp only [getValue] at h
      split at h
      · cases h
      · split at h <;> rename_i hv
        · cases h
        · split at h <;> cases h
          exact hv
    simp only [pickleGet] at hg
    rcases h1 : getValue T (paramOf .store) p.cfg.store with ⟨r1, s1⟩
    rw [h1] at hg
    cases r1 with
    | error => cases hg
    | ok on =>
      dsimp only at hg
      by_cases hon : on = .bool true
      · rw [if_pos hon] at hg
        rcases h2 : getValue T (paramOf .shared) p.cfg.shared with ⟨r2, s2⟩
        rw [h2] at hg
        cases r2 with
        | error => cases hg
        | ok y =>
          dsimp only at hg
          rcases h3 : getSource T (paramOf .shared) s2 with ⟨r3, s3⟩
          rw [h3] at hg
          cases r3 with
          | error => cases hg
          | ok src =>
            cases hg
            have e3 : s3 = s2 := by have := getSource_held (T := T) (w := .shared) (held h2); rw [h3] at this; exact this
            subst e3
            refine .inl ⟨by rw [← hon]; exact held h1, held h2, ?_⟩
            simp only [getSource] at h3
            split at h3 <;> rename_i hx
            · show s3.source.isSome = true
              rw [hx]; rfl
            · rw [getValue_held (held h2)] at h3
              dsimp only at h3
              rw [hx] at h3
              cases h3
      · rw [if_neg hon] at hg
        rcases h2 : getValue T (paramOf .pickle) p.cfg.pickle with ⟨r2, s2⟩
        rw [h2] at hg
        cases r2 with
        | error => cases hg
        | ok y =>
          cases hg
          exact .inr ⟨on, held h1, hon, held h2⟩

/-- **C58**, proved part: whatever was configured before the first call of unidist, and whatever is read, called or changed in the
environment after it, the serializer splits objects at the threshold that is configured, as long as no parameter is set after that
call. Missing: settings after the first call of unidist. -/
theorem C58_serializer_partial (T : PyText) (a b c : Option String) (before after : List Act) (v : PyVal)
    (h0 : (acts T (.init a b c) before).serializer = none)
    (h1 : (acts T (.init a b c) (before ++ [.use])).serializer = some v)
    (hl : ∀ w u, Act.config w (.put u) ∉ after) :
    let p := acts T (.init a b c) (before ++ .use :: after)
    p.serializer = some v ∧ (pickleGet T p.cfg).1 = .ok v ∧
      ((getValue T (paramOf .store) p.cfg.store).1 = .ok (.bool true) → (getValue T (paramOf .shared) p.cfg.shared).1 = .ok v) ∧
      ((getValue T (paramOf .store) p.cfg.store).1 = .ok (.bool false) → (getValue T (paramOf .pickle) p.cfg.pickle).1 = .ok v) := by
  intro p
  have hu : act T (acts T (.init a b c) before) .use = acts T (.init a b c) (before ++ [.use]) := by
    simp [acts, List.foldl_append]
  have hh := use_held (T := T) h0 (by rw [hu]; exact h1)
  have hp : p = acts T (act T (acts T (.init a b c) before) .use) after := by simp [p, acts, List.foldl_append]
  have h := acts_held (T := T) after hh hl
  rw [← hp] at h
  refine ⟨h.serializer, (pickleGet_held h).1, ?_, ?_⟩
  · intro hon
    rcases h.held with ⟨h1, h2, h3⟩ | ⟨on, h1, h2, h3⟩
    · rw [getValue_held h2]
    · rw [getValue_held h1] at hon
      cases hon
      exact absurd rfl h2
  · intro hoff
    rcases h.held with ⟨h1, h2, h3⟩ | ⟨on, h1, h2, h3⟩
    · rw [getValue_held h1] at hoff
      cases hoff
    · rw [getValue_held h3]

/-- Under the same condition a buffer is kept out of band exactly from the configured length on, and with the shared store enabled
every object with such a buffer is large enough to be shared. -/
theorem C58_shared_partial (T : PyText) (a b c : Option String) (before after : List Act) (n : Int) (len sData : Nat)
    (others : List Nat) (hs : 0 < sData)
    (h0 : (acts T (.init a b c) before).serializer = none)
    (h1 : (acts T (.init a b c) (before ++ [.use])).serializer = some (.int n))
    (hl : ∀ w u, Act.config w (.put u) ∉ after) :
    let p := acts T (.init a b c) (before ++ .use :: after)
    (p.keepsOut len = true ↔ n ≤ (len : Int)) ∧
    ((getValue T (paramOf .store) p.cfg.store).1 = .ok (.bool true) → p.keepsOut len = true →
      ∃ k, (getValue T (paramOf .shared) p.cfg.shared).1 = .ok (.int k) ∧ shouldBeShared k sData (len :: others) = true) := by
  intro p
  have h := C58_serializer_partial T a b c before after (.int n) h0 h1 hl
  have hk : p.keepsOut len = true ↔ n ≤ (len : Int) := by
    simp only [Proc.keepsOut, show p.serializer = some (.int n) from h.1, outOfBand, decide_eq_true_eq]
  refine ⟨hk, fun hon ho => ⟨n, h.2.2.1 hon, ?_⟩⟩
  have := hk.1 ho
  simp only [shouldBeShared, List.sum_cons]
  apply decide_eq_true
  omega

/-- What is read when the serializer is imported, for all states of the parameters. -/
private theorem pickleGet_reads {T : PyText} {m : Mpi} {v : PyVal} (h : (pickleGet T m).1 = .ok v) :
    ((getValue T (paramOf .store) m.store).1 = .ok (.bool true) → (getValue T (paramOf .shared) m.shared).1 = .ok v) ∧
    ((getValue T (paramOf .store) m.store).1 = .ok (.bool false) → (getValue T (paramOf .pickle) m.pickle).1 = .ok v) := by
  constructor <;> intro hg <;> rcases h1 : getValue T (paramOf .store) m.store with ⟨r, st⟩ <;> rw [h1] at hg <;> simp only at hg <;>
    subst hg <;> simp only [pickleGet, h1] at h
  · rw [if_pos trivial] at h
    rcases h2 : getValue T (paramOf .shared) m.shared with ⟨r2, st2⟩
    rw [h2] at h
    cases r2 with
    | error => exact absurd h (by simp)
    | ok x =>
      simp only at h
      split at h
      · exact absurd h (by simp)
      · exact h
  · rw [if_neg (by simp)] at h
    exact h

/-- Actions after the import leave the threshold of the serializer. -/
private theorem act_keeps {T : PyText} {p : Proc} {v : PyVal} (h : p.serializer = some v) (x : Act) :
    (act T p x).serializer = some v := by
  cases x with
  | config => exact h
  | use => simp [act, h]

private theorem acts_keeps {T : PyText} : ∀ (l : List Act) {p : Proc} {v : PyVal}, p.serializer = some v →
    (acts T p l).serializer = some v
  | [], _, _, h => h
  | x :: l, _, _, h => acts_keeps (T := T) l (act_keeps h x)

/-- C58 for all programs: the threshold of the serializer is the one that is configured at the first call of unidist that finds a
readable configuration, and whatever is set later does not change it. -/
theorem C58_first_partial (T : PyText) (a b c : Option String) (l : List Act) (v : PyVal) :
    (acts T (.init a b c) l).serializer = some v ↔
      ∃ before after, l = before ++ .use :: after ∧ (acts T (.init a b c) before).serializer = none ∧
        (pickleGet T (acts T (.init a b c) before).cfg).1 = .ok v ∧
        ((getValue T (paramOf .store) (acts T (.init a b c) before).cfg.store).1 = .ok (.bool true) →
          (getValue T (paramOf .shared) (acts T (.init a b c) before).cfg.shared).1 = .ok v) ∧
        ((getValue T (paramOf .store) (acts T (.init a b c) before).cfg.store).1 = .ok (.bool false) →
          (getValue T (paramOf .pickle) (acts T (.init a b c) before).cfg.pickle).1 = .ok v) := by
  have happ : ∀ (p : Proc) (l r : List Act), acts T p (l ++ r) = acts T (acts T p l) r := fun p l r => List.foldl_append
  constructor
  · intro h
    have key : ∀ (r : List Act), (acts T (.init a b c) r.reverse).serializer = some v →
        ∃ before after, r.reverse = before ++ .use :: after ∧ (acts T (.init a b c) before).serializer = none ∧
          (pickleGet T (acts T (.init a b c) before).cfg).1 = .ok v := by
      intro r
      induction r with
      | nil => intro h; exact absurd h (by simp [acts, Proc.init])
      | cons x r ih =>
        intro h
        rw [List.reverse_cons] at h ⊢
        cases hs : (acts T (.init a b c) r.reverse).serializer with
        | some w =>
          rw [happ] at h
          have := act_keeps (T := T) hs x
          rw [show acts T (acts T (.init a b c) r.reverse) [x] = act T (acts T (.init a b c) r.reverse) x from rfl, this] at h
          obtain ⟨before, after, h1, h2⟩ := ih (by rw [hs, Option.some.inj h])
          exact ⟨before, after ++ [x], by rw [h1]; simp, h2⟩
        | none =>
          rw [happ, show acts T (acts T (.init a b c) r.reverse) [x] = act T (acts T (.init a b c) r.reverse) x from rfl] at h
          cases x with
          | config w op => simp [act, hs] at h
          | use =>
            refine ⟨r.reverse, [], rfl, hs, ?_⟩
            simp only [act, hs] at h
            rcases hp : pickleGet T (acts T (.init a b c) r.reverse).cfg with ⟨x, y⟩
            rw [hp] at h
            cases x with
            | ok u => simp only [Option.some.injEq] at h; simp [h]
            | error => simp at h
    obtain ⟨before, after, h1, h2, h3⟩ := key l.reverse (by simpa using h)
    have := pickleGet_reads h3
    exact ⟨before, after, by simpa using h1, h2, h3, this.1, this.2⟩
  · rintro ⟨before, after, rfl, h1, h2, -, -⟩
    rw [happ]
    refine acts_keeps (T := T) after (p := act T (acts T (.init a b c) before) .use) ?_
    simp only [act, h1]
    rcases hp : pickleGet T (acts T (.init a b c) before).cfg with ⟨x, y⟩
    rw [hp] at h2
    simp only at h2
    subst h2
    rfl

/-- Each of the three parameters is read from its own environment variable. -/
theorem C58_own_variables (T : PyText) (a b c : String) (x y : Int) (on : Bool)
    (ha : verify T .bool (.str a) = true) (hd : decode T .bool a = some (.bool on))
    (hb : verify T .int (.str b) = true) (hx : decode T .int b = some (.int x))
    (hc : verify T .int (.str c) = true) (hy : decode T .int c = some (.int y)) :
    (acts T (.init (some a) (some b) (some c)) [.use]).serializer = some (.int (if on then x else y)) ∧
    (acts T (.init none (some b) (some c)) [.use]).serializer = some (.int y) ∧
    (acts T (.init (some a) none (some c)) [.use]).serializer = some (.int (if on then 100000 else y)) ∧
    (acts T (.init (some a) (some b) none) [.use]).serializer = some (.int (if on then x else 262144)) := by
  cases on <;>
  simp [acts, act, Proc.init, Mpi.init, pickleGet, getValue, getSource, fill, State.init, paramOf, allowed, ha, hb, hc, hd, hx, hy]

-- the program enables the store, decorates a function, and starts; the environment changes later
example : (acts plain (.init none (some "50") (some "60"))
    [.config .store (.put (.bool true)), .use, .config .shared (.setEnv (some "70")), .config .pickle .get, .use]).serializer =
      some (.int 50) := by decide
-- the store is enabled and its threshold set after the first call: both come too late
example : (acts plain (.init none (some "50") (some "60"))
    [.config .pickle (.put (.int 7)), .use, .config .store (.put (.bool true)), .config .shared (.put (.int 9)), .use]).serializer =
      some (.int 7) := by decide
-- an unreadable variable: the first call fails, a setting repairs it
example : (acts plain (.init none none (some "many")) [.use]).serializer = none := by decide
example : (acts plain (.init none none (some "many")) [.use, .config .pickle (.put (.int 7)), .use]).serializer = some (.int 7) := by
  decide
example : (acts plain (.init (some "true") (some "50") (some "60")) [.use]).keepsOut 50 = true := by decide

end Verif.Props
