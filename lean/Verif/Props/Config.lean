import Verif.Model.Config
import Mathlib.Tactic.Tauto

/-! Properties of configuration parameters (C55, C56, C57, C58). -/
namespace Verif.Config

theorem fill_value {T : PyText} {p : Param} {s : State} {v : PyVal} (h : s.value = some v) : fill T p s = some s := by
  simp [fill, h]

theorem getValue_of {T : PyText} {p : Param} {s : State} {v : PyVal} (h : s.value = some v) :
    getValue T p s = (if allowed p v then .ok v else .error, s) := by
  simp only [getValue, fill_value h, h]
  split <;> rfl

theorem step_value {T : PyText} {p : Param} {s : State} {op : Op} {v : PyVal} (h : s.value = some v)
    (hp : ∀ w, op = .put w → (put T p w s).1 = .error) : (step T p s op).value = some v := by
  cases op with
  | get => simp [step, getValue_of h, h]
  | source =>
    simp only [step, getSource]
    split
    · exact h
    · rw [getValue_of h]
      split
      · rename_i hh; rw [← (Prod.mk.inj hh).2]; exact h
      · rename_i hh; rw [← (Prod.mk.inj hh).2]
        split <;> exact h
  | put w =>
    have := hp w rfl
    simp only [step, put] at this ⊢
    split
    · rename_i hv
      rw [if_pos hv] at this
      split <;> rename_i hn
      · rw [hn] at this; cases this
      · exact h
    · exact h
  | setEnv e => exact h

/-- No state change at all by reads once value and source are known. -/
theorem step_known {T : PyText} {p : Param} {s : State} {op : Op} {v : PyVal} {x : Source} (h : s.value = some v)
    (hx : s.source = some x) (hp : ∀ w, op = .put w → (put T p w s).1 = .error) :
    (step T p s op).value = some v ∧ (step T p s op).source = some x := by
  refine ⟨step_value h hp, ?_⟩
  cases op with
  | get => simp [step, getValue_of h, hx]
  | source => simp [step, getSource, hx]
  | put w =>
    have := hp w rfl
    simp only [step, put] at this ⊢
    split
    · rename_i hv
      rw [if_pos hv] at this
      split <;> rename_i hn
      · rw [hn] at this; cases this
      · exact hx
    · exact hx
  | setEnv e => exact hx

theorem put_error_indep {T : PyText} {p : Param} {w : PyVal} {s s' : State} (h : (put T p w s).1 = .error) :
    (put T p w s').1 = .error := by
  simp only [put] at h ⊢
  split
  · rename_i hv
    rw [if_pos hv] at h
    split <;> rename_i hn
    · rw [hn] at h; cases h
    · rfl
  · rfl

theorem run_known {T : PyText} {p : Param} (ops : List Op) {s : State} {v : PyVal} {x : Source} (h : s.value = some v)
    (hx : s.source = some x) (hp : ∀ w, Op.put w ∈ ops → (put T p w (.init none)).1 = .error) :
    (run T p s ops).value = some v ∧ (run T p s ops).source = some x := by
  induction ops generalizing s with
  | nil => exact ⟨h, hx⟩
  | cons op ops ih =>
    have h1 := step_known (T := T) (p := p) (op := op) h hx fun w e => put_error_indep (hp w (by simp [e]))
    exact ih h1.1 h1.2 fun w hw => hp w (by simp [hw])

/-- While nothing is set and nothing changes the environment, the state is either untouched or filled. -/
theorem run_fill {T : PyText} {p : Param} (ops : List Op) (s0 : State) (h0 : s0.value = none) (h1 : s0.source = none)
    (hp : ∀ w, Op.put w ∈ ops → (put T p w (.init none)).1 = .error) (he : ∀ e, Op.setEnv e ∉ ops) :
    run T p s0 ops = s0 ∨ fill T p s0 = some (run T p s0 ops) := by
  have key : ∀ (s : State), s = s0 ∨ fill T p s0 = some s → run T p s ops = s0 ∨ fill T p s0 = some (run T p s ops) := by
    intro s hs
    induction ops generalizing s with
    | nil => exact hs
    | cons op ops ih =>
      refine ih (fun w hw => hp w (by simp [hw])) (fun e h => he e (by simp [h])) _ ?_
      have hget : (getValue T p s).2 = s0 ∨ fill T p s0 = some (getValue T p s).2 := by
        rcases hs with rfl | hs
        · simp only [getValue]
          cases hf : fill T p s with
          | none => exact Or.inl rfl
          | some s' =>
            right
            dsimp only
            cases s'.value with
            | none => rfl
            | some v => dsimp only; split <;> rfl
        · have hv : ∃ v, s.value = some v := by
            simp only [fill, h0] at hs
            split at hs
            · simp only [Option.map_eq_some_iff] at hs
              obtain ⟨d, -, rfl⟩ := hs; exact ⟨_, rfl⟩
            · split at hs
              · simp only [Option.map_eq_some_iff] at hs
                obtain ⟨d, -, rfl⟩ := hs; exact ⟨_, rfl⟩
              · cases hs
          obtain ⟨v, hv⟩ := hv
          rw [getValue_of hv]; exact Or.inr hs
      cases op with
      | get => exact hget
      | source =>
        simp only [step, getSource]
        split
        · exact hs
        · split <;> rename_i hh
          · rw [hh] at hget; exact hget
          · rw [hh] at hget
            split <;> exact hget
      | put w =>
        have := put_error_indep (s' := s) (hp w (by simp))
        have hsame : step T p s (.put w) = s := by
          simp only [step, put] at this ⊢
          split
          · rename_i hv
            rw [if_pos hv] at this
            split <;> rename_i hn
            · rw [hn] at this; cases this
            · rfl
          · rfl
        rw [hsame]; exact hs
      | setEnv e => exact absurd (by simp) (he e)
  exact key s0 (Or.inl rfl)

/-- Texts of Python restricted to plain ASCII words, for examples. -/
def plain : PyText where
  strip s := s
  lower s := s
  noDots s := String.ofList (s.toList.filter (· != '.'))
  isDigit s := s != "" && s.toList.all Char.isDigit
  toInt s := some (s.toList.foldl (fun a c => a * 10 + (c.toNat - 48 : Int)) 0)
  toFloat s := some s.length
  int_strip _ := rfl
  float_strip _ := rfl

end Verif.Config

namespace Verif.Props
open Verif.Config

/-! ### C55 -/

/-- **C55**: a value set by the program wins. After a set that succeeded and any further calls and changes of the environment
without another successful set, a read gives the normalized value (or refuses it because of the choices) and the source is the
program. -/
theorem C55_program_first (T : PyText) (p : Param) (env : Option String) (before after : List Op) (v w : PyVal)
    (hv : verify T p.kind v = true) (hw : normalize T p.kind v = some w)
    (ha : ∀ u, Op.put u ∈ after → (put T p u (.init none)).1 = .error) :
    let s := run T p (.init env) (before ++ .put v :: after)
    (getValue T p s).1 = (if allowed p w then .ok w else .error) ∧ (getSource T p s).1 = .ok .user := by
  intro s
  have hs : s = run T p (step T p (run T p (.init env) before) (.put v)) after := by
    simp [s, run, List.foldl_append]
  have h1 : (step T p (run T p (.init env) before) (.put v)).value = some w ∧
      (step T p (run T p (.init env) before) (.put v)).source = some .user := by
    simp [step, put, hv, hw]
  have h2 := run_known (T := T) (p := p) after h1.1 h1.2 ha
  rw [← hs] at h2
  exact ⟨by rw [getValue_of h2.1], by simp [getSource, h2.2]⟩

/-- Without a set that succeeded the environment variable decides: its decoded text is read and the source is the
configuration; a text that is not of the type is an error every time. -/
theorem C55_environment_second (T : PyText) (p : Param) (raw : String) (ops : List Op)
    (hp : ∀ u, Op.put u ∈ ops → (put T p u (.init none)).1 = .error) (he : ∀ e, Op.setEnv e ∉ ops) :
    let s := run T p (.init (some raw)) ops
    (∀ v, verify T p.kind (.str raw) = true → decode T p.kind raw = some v →
      (getValue T p s).1 = (if allowed p v then .ok v else .error) ∧ (getSource T p (getValue T p s).2).1 = .ok .config) ∧
    (verify T p.kind (.str raw) = false → (getValue T p s).1 = .error) := by
  intro s
  have h := run_fill (T := T) (p := p) ops (.init (some raw)) rfl rfl hp he
  change s = _ ∨ _ = some s at h
  constructor
  · intro v hv hd
    have hf : fill T p (.init (some raw)) = some ⟨some v, some .config, some raw⟩ := by
      simp [fill, State.init, hv, hd]
    have hs : getValue T p s = (if allowed p v then .ok v else .error, ⟨some v, some .config, some raw⟩) := by
      rcases h with h | h
      · rw [h]; simp only [getValue, hf]; split <;> rfl
      · rw [hf] at h
        rw [← Option.some.inj h]
        exact getValue_of rfl
    rw [hs]
    exact ⟨rfl, rfl⟩
  · intro hv
    have hf : fill T p (.init (some raw)) = none := by simp [fill, State.init, hv]
    rcases h with h | h
    · rw [h]; simp only [getValue, hf]
    · rw [hf] at h; cases h

/-- Without a set that succeeded and without the environment variable the default is read and the source is the default. -/
theorem C55_default_last (T : PyText) (p : Param) (d : PyVal) (ops : List Op) (hd : p.default = some d)
    (hp : ∀ u, Op.put u ∈ ops → (put T p u (.init none)).1 = .error) (he : ∀ e, Op.setEnv e ∉ ops) :
    let s := run T p (.init none) ops
    (getValue T p s).1 = (if allowed p d then .ok d else .error) ∧ (getSource T p (getValue T p s).2).1 = .ok .default := by
  intro s
  have h := run_fill (T := T) (p := p) ops (.init none) rfl rfl hp he
  change s = _ ∨ _ = some s at h
  have hf : fill T p (.init none) = some ⟨some d, some .default, none⟩ := by simp [fill, State.init, hd]
  have hs : getValue T p s = (if allowed p d then .ok d else .error, ⟨some d, some .default, none⟩) := by
    rcases h with h | h
    · rw [h]; simp only [getValue, hf]; split <;> rfl
    · rw [hf] at h
      rw [← Option.some.inj h]
      exact getValue_of rfl
  rw [hs]
  exact ⟨rfl, rfl⟩

/-- Reads are stable: after a read that succeeded, later reads return the same value until a set succeeds, even if the
environment changes. -/
theorem C55_stable (T : PyText) (p : Param) (env : Option String) (before after : List Op) (v : PyVal)
    (h : (getValue T p (run T p (.init env) before)).1 = .ok v)
    (ha : ∀ u, Op.put u ∈ after → (put T p u (.init none)).1 = .error) :
    (getValue T p (run T p (.init env) (before ++ .get :: after))).1 = .ok v := by
  have hr : run T p (.init env) (before ++ .get :: after) =
      run T p (getValue T p (run T p (.init env) before)).2 after := by simp [run, List.foldl_append, step]
  rw [hr]
  generalize run T p (.init env) before = s at *
  have hs : (getValue T p s).2.value = some v ∧ allowed p v = true := by
    simp only [getValue] at h ⊢
    split <;> rename_i hf
    · rw [hf] at h; cases h
    · rw [hf] at h
      dsimp only at h ⊢
      split <;> rename_i hv
      · rw [hv] at h; cases h
      · rw [hv] at h
        dsimp only at h
        split at h <;> rename_i hal
        · cases h
          simp only [hal, if_true]
          exact ⟨hv, trivial⟩
        · cases h
  have hval : ∀ (ops : List Op) (s : State), s.value = some v →
      (∀ u, Op.put u ∈ ops → (put T p u (.init none)).1 = .error) → (run T p s ops).value = some v := by
    intro ops
    induction ops with
    | nil => intro s h _; exact h
    | cons op ops ih =>
      intro s h hp
      exact ih _ (step_value h fun w e => put_error_indep (hp w (by simp [e]))) fun u hu => hp u (by simp [hu])
  rw [getValue_of (hval after _ hs.1 ha), hs.2]
  rfl

/-- The claim about the reported source, for the parameter `MpiPickleThreshold`: a value set by the program that is what a read
returns is reported as set by the program. -/
def C55_full : Prop :=
  ∀ (T : PyText) (ops after : List (Which × Op)) (n : Int),
    (∀ u, (Which.pickle, Op.put u) ∉ after) →
    let m := mpiRun T (.init none none none) (ops ++ (.pickle, .put (.int n)) :: after)
    (pickleGet T m).1 = .ok (.int n) → (getValue T (paramOf .store) m.store).1 = .ok (.bool false) →
    (pickleSource T (pickleGet T m).2).1 = .ok .user

/-- Violated by the code: a read while the shared object store is enabled overwrites the recorded source of the pickle
threshold, and it stays wrong after the store is disabled. -/
theorem C55_threshold_violated : ¬ C55_full := by
  intro h
  have := h plain [] [(.store, .put (.bool true)), (.pickle, .get), (.store, .put (.bool false))] 5 (by simp)
    (by decide) (by decide)
  revert this; decide

/-- Parameters other than `MpiPickleThreshold`: the source that is reported is the one of the value that is read. -/
theorem C55_source_partial (T : PyText) (p : Param) (env : Option String) (ops : List Op) (v : PyVal) (src : Source)
    (hv : (getValue T p (run T p (.init env) ops)).1 = .ok v)
    (hs : (getSource T p (getValue T p (run T p (.init env) ops)).2).1 = .ok src) :
    (src = .user ∧ ∃ u, Op.put u ∈ ops ∧ normalize T p.kind u = some v) ∨
    (src = .config ∧ ∃ raw, (env = some raw ∨ Op.setEnv (some raw) ∈ ops) ∧ decode T p.kind raw = some v) ∨
    (src = .default ∧ p.default = some v) := by
  -- what is known about a stored value
  let Good (ops : List Op) (s : State) : Prop :=
    (∀ raw, s.env = some raw → env = some raw ∨ Op.setEnv (some raw) ∈ ops) ∧
    ((s.value = none ∧ s.source = none) ∨ ∃ v, s.value = some v ∧
      ((s.source = some .user ∧ ∃ u, Op.put u ∈ ops ∧ normalize T p.kind u = some v) ∨
       (s.source = some .config ∧ ∃ raw, (env = some raw ∨ Op.setEnv (some raw) ∈ ops) ∧ decode T p.kind raw = some v) ∨
       (s.source = some .default ∧ p.default = some v)))
  have good_get : ∀ ops s, Good ops s → Good ops (getValue T p s).2 := by
    intro ops s hg
    simp only [getValue]
    cases hf : fill T p s with
    | none => exact hg
    | some s' =>
      have hg' : Good ops s' := by
        obtain ⟨he, hg⟩ := hg
        rcases hg with ⟨hn, hsn⟩ | ⟨v, hv, hg⟩
        · simp only [fill, hn] at hf
          split at hf
          · simp only [Option.map_eq_some_iff] at hf
            obtain ⟨d, hd, rfl⟩ := hf
            exact ⟨he, Or.inr ⟨d, rfl, Or.inr (Or.inr ⟨rfl, hd⟩)⟩⟩
          · rename_i raw hraw
            split at hf
            · simp only [Option.map_eq_some_iff] at hf
              obtain ⟨d, hd, rfl⟩ := hf
              exact ⟨he, Or.inr ⟨d, rfl, Or.inr (Or.inl ⟨rfl, raw, he raw hraw, hd⟩)⟩⟩
            · cases hf
        · rw [fill_value hv] at hf
          cases hf
          exact ⟨he, Or.inr ⟨v, hv, hg⟩⟩
      dsimp only
      split
      · exact hg'
      · split <;> exact hg'
  have good_mono : ∀ a b s, (∀ x ∈ a, x ∈ b) → Good a s → Good b s := by
    rintro a b s hab ⟨he, hg⟩
    refine ⟨fun raw hr => (he raw hr).imp_right (hab _), ?_⟩
    rcases hg with hg | ⟨v, hv, ⟨h1, u, hu, h2⟩ | ⟨h1, raw, hr, h2⟩ | hg⟩
    · exact Or.inl hg
    · exact Or.inr ⟨v, hv, Or.inl ⟨h1, u, hab _ hu, h2⟩⟩
    · exact Or.inr ⟨v, hv, Or.inr (Or.inl ⟨h1, raw, hr.imp_right (hab _), h2⟩)⟩
    · exact Or.inr ⟨v, hv, Or.inr (Or.inr hg)⟩
  have good_step : ∀ ops s op, Good ops s → Good (ops ++ [op]) (step T p s op) := by
    intro ops s op hg
    have hm := good_mono ops (ops ++ [op]) s (by simp +contextual) hg
    cases op with
    | get => exact good_get _ _ hm
    | source =>
      have := good_get _ _ hm
      simp only [step, getSource]
      split
      · exact hm
      · split <;> rename_i hh
        · rw [hh] at this; exact this
        · rw [hh] at this; split <;> exact this
    | put w =>
      simp only [step, put]
      split
      · split
        · rename_i x hx
          exact ⟨hm.1, Or.inr ⟨x, rfl, Or.inl ⟨rfl, w, by simp, hx⟩⟩⟩
        · exact hm
      · exact hm
    | setEnv e =>
      refine ⟨?_, hm.2⟩
      intro raw hr
      right
      simp only [step] at hr
      simp [hr]
  have good_run : ∀ rest done s, Good done s → Good (done ++ rest) (run T p s rest) := by
    intro rest
    induction rest with
    | nil => intro done s h; simpa [run] using h
    | cons op rest ih =>
      intro done s h
      have := ih (done ++ [op]) _ (good_step _ _ op h)
      simpa [run] using this
  have h0 : Good [] (.init env) := ⟨fun raw hr => Or.inl hr, Or.inl ⟨rfl, rfl⟩⟩
  have hg := good_get _ _ (good_run ops [] _ h0)
  simp only [List.nil_append] at hg
  have hval : (getValue T p (run T p (.init env) ops)).2.value = some v := by
    generalize run T p (.init env) ops = s at *
    simp only [getValue] at hv ⊢
    split <;> rename_i hf
    · rw [hf] at hv; cases hv
    · rw [hf] at hv
      dsimp only at hv ⊢
      split <;> rename_i hx
      · rw [hx] at hv; cases hv
      · rw [hx] at hv
        dsimp only at hv
        split at hv <;> rename_i hal
        · cases hv; simp [hal, hx]
        · cases hv
  generalize (getValue T p (run T p (.init env) ops)).2 = s at *
  rcases hg.2 with ⟨hn, -⟩ | ⟨v', hv', hcase⟩
  · rw [hval] at hn; cases hn
  · rw [hval] at hv'
    cases hv'
    rcases hcase with ⟨h1, h2⟩ | ⟨h1, h2⟩ | ⟨h1, h2⟩ <;> simp only [getSource, h1] at hs <;> cases hs
    · exact Or.inl ⟨rfl, h2⟩
    · exact Or.inr (Or.inl ⟨rfl, h2⟩)
    · exact Or.inr (Or.inr ⟨rfl, h2⟩)

-- set by the program after a read of the environment
example : (getValue plain (paramOf .shared) (run plain (paramOf .shared) (.init (some "7")) [.get, .put (.int 9), .setEnv none])).1 =
    .ok (.int 9) := by decide

/-- What can be set without a text: a value of the type of the parameter is read back as it was set, an integer parameter takes `True` and `False` as 1
and 0, and every other value (in particular `None`) is refused and changes nothing. -/
theorem C55_values (T : PyText) (p : Param) (s : State) (hc : p.choices = none) :
    (∀ b, p.kind = .bool → (getValue T p (put T p (.bool b) s).2).1 = .ok (.bool b)) ∧
    (∀ i, p.kind = .int → (getValue T p (put T p (.int i) s).2).1 = .ok (.int i)) ∧
    (∀ b, p.kind = .int → (getValue T p (put T p (.bool b) s).2).1 = .ok (.int (if b = true then 1 else 0))) ∧
    (∀ c, p.kind = .float → (getValue T p (put T p (.float c) s).2).1 = .ok (.float c)) ∧
    (∀ t, p.kind = .exactStr → (getValue T p (put T p (.str t) s).2).1 = .ok (.str t)) ∧
    (∀ v, (match v, p.kind with
        | .bool _, .bool => false | .int _, .int => false | .bool _, .int => false | .float _, .float => false
        | .str _, _ => false | _, _ => true) = true → put T p v s = (.error, s)) := by
  refine ⟨?_, ?_, ?_, ?_, ?_, ?_⟩
  · intro b h; simp [put, h, verify, normalize, getValue, fill, allowed, hc]
  · intro b h; simp [put, h, verify, normalize, getValue, fill, allowed, hc]
  · intro b h; cases b <;> simp [put, h, verify, normalize, getValue, fill, allowed, hc]
  · intro b h; simp [put, h, verify, normalize, getValue, fill, allowed, hc]
  · intro b h; simp [put, h, verify, normalize, getValue, fill, allowed, hc]
  · intro v h
    cases v <;> cases hk : p.kind <;> simp_all [put, verify]

example : (getValue plain (paramOf .shared) (put plain (paramOf .shared) (.bool true) (.init none)).2).1 = .ok (.int 1) ∧
    put plain (paramOf .store) .none (.init none) = (.error, .init none) := by decide

/-! ### C56 -/

/-- What a fresh process reads after setting the text in the program. -/
def viaProgram (T : PyText) (p : Param) (text : String) : Result PyVal :=
  match put T p (.str text) (.init none) with
  | (.ok _, s) => (getValue T p s).1
  | (.error, _) => .error

/-- What a fresh process reads if the environment variable has the text. -/
def viaEnvironment (T : PyText) (p : Param) (text : String) : Result PyVal := (getValue T p (.init (some text))).1

/-- **C56**, full claim. -/
def C56_full : Prop := ∀ (T : PyText) (p : Param) (text : String), viaProgram T p text = viaEnvironment T p text

/-- Violated by the code: setting a flag to the text "false" (or "no", "0") turns it on. -/
theorem C56_flag_violated (T : PyText) (hT : T.lower (T.strip "false") = "false") :
    viaProgram T (paramOf .store) "false" = .ok (.bool true) ∧ viaEnvironment T (paramOf .store) "false" = .ok (.bool false) := by
  constructor
  · simp [viaProgram, put, paramOf, verify, hT, flagTexts, normalize, getValue, fill, allowed]
  · simp [viaEnvironment, getValue, fill, State.init, paramOf, verify, hT, flagTexts, decode, positive, allowed]

theorem C56_full_violated : ¬ C56_full := by
  intro h
  have h1 := C56_flag_violated plain rfl
  have h2 := h plain (paramOf .store) "false"
  rw [h1.1, h1.2] at h2
  cases h2

/-- The meaning of the text of a flag in the environment. -/
theorem C56_flag_texts (T : PyText) (p : Param) (text : String) (hk : p.kind = .bool) (hc : p.choices = none) :
    viaEnvironment T p text =
      if T.lower (T.strip text) ∈ ["true", "yes", "1"] then .ok (.bool true)
      else if T.lower (T.strip text) ∈ ["false", "no", "0"] then .ok (.bool false) else .error := by
  simp only [viaEnvironment, getValue, fill, State.init, hk, verify, decode, allowed, hc, flagTexts, positive]
  generalize T.lower (T.strip text) = x
  by_cases h1 : x ∈ ["true", "yes", "1"]
  · have : x ∈ ["true", "yes", "1", "false", "no", "0"] := by simp at h1 ⊢; tauto
    simp only [h1, this, decide_true, if_true, Option.map_some]
  · by_cases h2 : x ∈ ["false", "no", "0"]
    · have : x ∈ ["true", "yes", "1", "false", "no", "0"] := by simp at h2 ⊢; tauto
      simp only [h1, h2, this, decide_true, decide_false, if_true, if_false, Option.map_some]
    · have : x ∉ ["true", "yes", "1", "false", "no", "0"] := by simp at h1 h2 ⊢; tauto
      simp only [h1, h2, this, decide_false, if_false, Bool.false_eq_true]

example : viaEnvironment plain (paramOf .store) "0" = .ok (.bool false) ∧ viaEnvironment plain (paramOf .store) "yes" = .ok (.bool true) ∧
    viaEnvironment plain (paramOf .store) "on" = .error := by decide

/-- Both ways agree for texts and numbers, and for flags unless the text means false (the empty text is not a flag). -/
theorem C56_agrees_partial (T : PyText) (p : Param) (text : String)
    (h : p.kind = .bool → (T.lower (T.strip text) ∈ ["false", "no", "0"] → False) ∧ (text = "" → T.lower (T.strip text) ∉ flagTexts)) :
    viaProgram T p text = viaEnvironment T p text := by
  simp only [viaProgram, viaEnvironment, put, getValue, fill, State.init]
  cases hv : verify T p.kind (.str text) with
  | false => simp
  | true =>
    simp only [if_true]
    have hnd : normalize T p.kind (.str text) = decode T p.kind text := by
      cases hk : p.kind with
      | str => simp [normalize, decode]
      | exactStr => simp [normalize, decode]
      | int => simp [normalize, decode, T.int_strip]
      | float => simp [normalize, decode, T.float_strip]
      | bool =>
        rw [hk] at hv
        have h := h hk
        simp only [verify, decide_eq_true_eq] at hv
        have hne : text ≠ "" := fun e => h.2 e hv
        have hpos : T.lower (T.strip text) ∈ positive := by
          have h1 := h.1
          simp only [flagTexts, positive, List.mem_cons, List.not_mem_nil, or_false] at hv h1 ⊢
          grind
        simp [normalize, decode, hpos, hne]
    rw [hnd]
    cases hd : decode T p.kind text with
    | none => simp
    | some v => by_cases ha : allowed p v = true <;> simp [ha]

example : viaProgram plain (paramOf .shared) "1234" = .ok (.int 1234) := by decide
example : viaEnvironment plain (paramOf .shared) "1234" = .ok (.int 1234) := by decide

/-- C56, exactly, for a flag: both ways agree if and only if the text does not mean false. -/
theorem C56_flag_exactly_partial (T : PyText) (p : Param) (text : String) (hk : p.kind = .bool) (hc : p.choices = none)
    (he : T.lower (T.strip "") = "") :
    viaProgram T p text = viaEnvironment T p text ↔ T.lower (T.strip text) ∉ ["false", "no", "0"] := by
  constructor
  · intro h hf
    have hne : text ≠ "" := by
      rintro rfl
      rw [he] at hf
      revert hf; decide
    have hv : T.lower (T.strip text) ∈ flagTexts := by
      simp only [flagTexts, List.mem_cons, List.not_mem_nil, or_false] at hf ⊢
      grind
    have hp : T.lower (T.strip text) ∉ positive := by
      simp only [positive, List.mem_cons, List.not_mem_nil, or_false] at hf ⊢
      rcases hf with e | e | e <;> rw [e] <;> decide
    simp [viaProgram, viaEnvironment, put, getValue, fill, State.init, verify, normalize, decode, hk, hv, hp, hne, allowed, hc] at h
  · intro hf
    refine C56_agrees_partial T p text fun _ => ⟨hf, ?_⟩
    rintro rfl
    rw [he]
    decide

example : viaProgram plain (paramOf .store) "no" ≠ viaEnvironment plain (paramOf .store) "no" := by decide
example : viaProgram plain (paramOf .store) "yes" = viaEnvironment plain (paramOf .store) "yes" := by decide

/-! ### C57 -/

/-- **C57**, full claim: reads give choices only and a set of another value is refused. -/
def C57_full : Prop :=
  ∀ (T : PyText) (p : Param) (cs : List String) (s : State), p.choices = some cs →
    (∀ v, (getValue T p s).1 = .ok v → ∃ t ∈ cs, v = .str t) ∧
    (∀ v w, (put T p v s).1 = .ok w → (getValue T p (put T p v s).2).1 ≠ .error)

/-- Violated by the code: a set does not look at the choices, so the value is accepted and every later read raises. -/
theorem C57_set_violated : ¬ C57_full := by
  intro h
  have := (h plain ⟨.str, some ["mpi", "ray"], some (.str "mpi")⟩ ["mpi", "ray"] (.init none) rfl).2 (.str "spark") () (by decide)
  exact this (by decide)

/-- A read, in any state, returns one of the choices or raises. -/
theorem C57_read_partial (T : PyText) (p : Param) (cs : List String) (s : State) (hc : p.choices = some cs) (v : PyVal)
    (h : (getValue T p s).1 = .ok v) : ∃ t ∈ cs, v = .str t := by
  simp only [getValue] at h
  split at h
  · cases h
  · split at h
    · cases h
    · split at h
      · rename_i hal
        cases h
        simp only [allowed, hc] at hal
        split at hal
        · exact ⟨_, by simpa using hal, rfl⟩
        · cases hal
      · cases h

example : (getValue plain ⟨.str, some ["mpi", "ray"], some (.str "mpi")⟩ (.init (some "ray"))).1 = .ok (.str "ray") := by decide
example : (getValue plain ⟨.str, some ["mpi", "ray"], some (.str "mpi")⟩ (.init (some "spark"))).1 = .error := by decide

/-- C57, exactly, for a text parameter with choices: every text is accepted by a set, and the read after it gives the text in lower case
without blanks around it if that is one of the choices and raises otherwise. -/
theorem C57_set_exactly_partial (T : PyText) (p : Param) (cs : List String) (s : State) (t : String) (hk : p.kind = .str)
    (hc : p.choices = some cs) :
    (put T p (.str t) s).1 = .ok () ∧
    (getValue T p (put T p (.str t) s).2).1 =
      if T.lower (T.strip t) ∈ cs then .ok (.str (T.lower (T.strip t))) else .error := by
  refine ⟨by simp [put, verify, normalize, hk], ?_⟩
  simp only [put, verify, normalize, hk, if_true, getValue, fill, allowed, hc]
  by_cases h : T.lower (T.strip t) ∈ cs <;> simp [h]

example : (getValue plain ⟨.str, some ["mpi", "ray"], some (.str "mpi")⟩
    (put plain ⟨.str, some ["mpi", "ray"], some (.str "mpi")⟩ (.str "ray") (.init (some "mpi"))).2).1 = .ok (.str "ray") := by decide

/-! ### The source of the threshold (C55) -/

theorem getValue_again {T : PyText} {p : Param} {s s' : State} {v : PyVal} (h : getValue T p s = (.ok v, s')) : getValue T p s' = (.ok v, s') := by
  simp only [getValue] at h
  split at h
  · cases h
  · split at h
    · cases h
    · rename_i hv
      split at h
      · rename_i ha
        cases h
        rw [getValue_of hv, if_pos ha]
      · cases h

/-- Right after a read of the pickle threshold, the source that is reported for it is the one of the shared store's threshold if the shared store is
enabled, and otherwise the one recorded for the parameter. Missing: a record that was overwritten while the shared store was enabled. -/
theorem C55_threshold_source_partial (T : PyText) (m : Mpi) (v : PyVal) (hv : (pickleGet T m).1 = .ok v) :
    ((getValue T (paramOf .store) m.store).1 = .ok (.bool true) →
      (pickleSource T (pickleGet T m).2).1 = (getSource T (paramOf .shared) (getValue T (paramOf .shared) m.shared).2).1) ∧
    ((getValue T (paramOf .store) m.store).1 = .ok (.bool false) →
      (pickleSource T (pickleGet T m).2).1 = (getSource T (paramOf .pickle) (getValue T (paramOf .pickle) m.pickle).2).1) := by
  constructor
  · intro hs
    obtain ⟨a, ha⟩ : ∃ a, getValue T (paramOf .store) m.store = (.ok (.bool true), a) := ⟨_, Prod.ext hs rfl⟩
    simp only [pickleGet, ha, if_true] at hv ⊢
    split at hv
    · cases hv
    · rename_i u b hb
      rw [hb]
      simp only
      split at hv
      · cases hv
      · rename_i src b' hb'
        rw [hb']
        simp [pickleSource]
  · intro hs
    obtain ⟨a, ha⟩ : ∃ a, getValue T (paramOf .store) m.store = (.ok (.bool false), a) := ⟨_, Prod.ext hs rfl⟩
    have hoff : pickleGet T m = ((getValue T (paramOf .pickle) m.pickle).1, { m with store := a, pickle := (getValue T (paramOf .pickle) m.pickle).2 }) := by
      simp [pickleGet, ha]
    rw [hoff] at hv ⊢
    obtain ⟨b, hb⟩ : ∃ b, getValue T (paramOf .pickle) m.pickle = (.ok v, b) := ⟨_, Prod.ext hv rfl⟩
    rw [hb]
    have h1 := getValue_again ha
    have h2 := getValue_again hb
    simp only [pickleSource, getSource, h2]
    cases hsrc : b.source with
    | some x => rfl
    | none => simp [pickleGet, h1, h2, hsrc]

example : (pickleSource plain (pickleGet plain (mpiRun plain (.init none (some "7") (some "9")) [(.store, .put (.bool true))])).2).1 = .ok .config ∧
    (pickleSource plain (pickleGet plain (mpiRun plain (.init none none none) [(.pickle, .put (.int 3))])).2).1 = .ok .user := by decide

/-! ### C58 -/

/-- **C58**: whatever was done with the three parameters before, at any moment a read of the threshold gives what a read of the
shared store's threshold gives if the shared store reads as enabled, and the parameter's own value if it reads as disabled. -/
theorem C58_follows (T : PyText) (a b c : Option String) (ops : List (Which × Op)) :
    let m := mpiRun T (.init a b c) ops
    ((getValue T (paramOf .store) m.store).1 = .ok (.bool true) →
      (pickleGet T m).1 = (getValue T (paramOf .shared) m.shared).1) ∧
    ((getValue T (paramOf .store) m.store).1 = .ok (.bool false) →
      (pickleGet T m).1 = (getValue T (paramOf .pickle) m.pickle).1) := by
  intro m
  constructor
  · intro h
    rcases hg : getValue T (paramOf .store) m.store with ⟨r, st⟩
    rw [hg] at h
    simp only at h
    subst h
    simp only [pickleGet, hg, if_true]
    rcases hs : getValue T (paramOf .shared) m.shared with ⟨r2, st2⟩
    cases r2 with
    | error => rfl
    | ok v =>
      simp only
      rcases hx : getSource T (paramOf .shared) st2 with ⟨r3, st3⟩
      cases r3 with
      | ok x => rfl
      | error =>
        exfalso
        -- a value that was read has a source
        have hsrc : ∀ (ops : List (Which × Op)) (m : Mpi), (m.shared.value.isSome → m.shared.source.isSome) →
            ((mpiRun T m ops).shared.value.isSome → (mpiRun T m ops).shared.source.isSome) := by
          have hget : ∀ s : State, (s.value.isSome → s.source.isSome) →
              ((getValue T (paramOf .shared) s).2.value.isSome → (getValue T (paramOf .shared) s).2.source.isSome) := by
            intro s hi
            simp only [getValue]
            cases hf : fill T (paramOf .shared) s with
            | none => exact hi
            | some s' =>
              have : s'.value.isSome → s'.source.isSome := by
                simp only [fill] at hf
                split at hf
                · cases hf; exact hi
                · split at hf
                  · simp only [Option.map_eq_some_iff] at hf
                    obtain ⟨d, -, rfl⟩ := hf; simp
                  · split at hf
                    · simp only [Option.map_eq_some_iff] at hf
                      obtain ⟨d, -, rfl⟩ := hf; simp
                    · cases hf
              dsimp only
              split
              · exact this
              · split <;> exact this
          have hsource : ∀ s : State, (s.value.isSome → s.source.isSome) →
              ((getSource T (paramOf .shared) s).2.value.isSome → (getSource T (paramOf .shared) s).2.source.isSome) := by
            intro s hi
            have := hget s hi
            simp only [getSource]
            split
            · exact hi
            · split <;> rename_i hh
              · rw [hh] at this; exact this
              · rw [hh] at this; split <;> exact this
          have hpg : ∀ m : Mpi, (m.shared.value.isSome → m.shared.source.isSome) →
              ((pickleGet T m).2.shared.value.isSome → (pickleGet T m).2.shared.source.isSome) := by
            intro m hi
            simp only [pickleGet]
            split
            · exact hi
            · split
              · have h1 := hget m.shared hi
                split <;> rename_i hh
                · rw [hh] at h1; exact h1
                · rw [hh] at h1
                  have h2 := hsource _ h1
                  split <;> rename_i hh2
                  · rw [hh2] at h2; exact h2
                  · rw [hh2] at h2; exact h2
              · exact hi
          intro ops
          induction ops with
          | nil => intro m hi; exact hi
          | cons op ops ih =>
            intro m hi
            refine ih (mpiStep T m op) ?_
            obtain ⟨w, op⟩ := op
            cases w with
            | store => exact hi
            | shared =>
              cases op with
              | get => exact hget _ hi
              | source => exact hsource _ hi
              | put v =>
                simp only [mpiStep, step, put]
                split
                · split
                  · simp
                  · exact hi
                · exact hi
              | setEnv e => exact hi
            | pickle =>
              cases op with
              | get => exact hpg _ hi
              | source =>
                have := hpg _ hi
                simp only [mpiStep, pickleSource]
                split
                · exact hi
                · split <;> rename_i hh
                  · rw [hh] at this; exact this
                  · rw [hh] at this; split <;> exact this
              | put v => exact hi
              | setEnv e => exact hi
        have h0 : m.shared.value.isSome → m.shared.source.isSome := hsrc ops (.init a b c) (by simp [Mpi.init, State.init])
        have hst2 : st2.value.isSome ∧ (st2.value.isSome → st2.source.isSome) := by
          simp only [getValue] at hs
          cases hf : fill T (paramOf .shared) m.shared with
          | none => rw [hf] at hs; cases hs
          | some s' =>
            rw [hf] at hs
            have hs' : s'.value.isSome → s'.source.isSome := by
              simp only [fill] at hf
              split at hf
              · cases hf; exact h0
              · split at hf
                · simp only [Option.map_eq_some_iff] at hf
                  obtain ⟨d, -, rfl⟩ := hf; simp
                · split at hf
                  · simp only [Option.map_eq_some_iff] at hf
                    obtain ⟨d, -, rfl⟩ := hf; simp
                  · cases hf
            dsimp only at hs
            split at hs <;> rename_i hv
            · cases hs
            · split at hs
              · cases hs; exact ⟨by simp [hv], hs'⟩
              · cases hs
        have := hst2.2 hst2.1
        obtain ⟨x, hxx⟩ := Option.isSome_iff_exists.1 this
        simp [getSource, hxx] at hx
  · intro h
    rcases hg : getValue T (paramOf .store) m.store with ⟨r, st⟩
    rw [hg] at h
    simp only at h
    subst h
    simp only [pickleGet, hg]
    rfl

/-- With the shared store enabled, every object that has an out-of-band buffer is large enough to be shared, for any sizes of
the rest of it (a serialized object is never empty). -/
theorem C58_out_of_band_shared (T : PyText) (a b c : Option String) (ops : List (Which × Op)) (n : Int) (len sData : Nat)
    (others : List Nat) (hs : 0 < sData) :
    let m := mpiRun T (.init a b c) ops
    (getValue T (paramOf .store) m.store).1 = .ok (.bool true) → (pickleGet T m).1 = .ok (.int n) → outOfBand n len = true →
    ∃ k, (getValue T (paramOf .shared) m.shared).1 = .ok (.int k) ∧ shouldBeShared k sData (len :: others) = true := by
  intro m hon hp ho
  refine ⟨n, by rw [← (C58_follows T a b c ops).1 hon]; exact hp, ?_⟩
  simp only [outOfBand, decide_eq_true_eq] at ho
  simp only [shouldBeShared, List.sum_cons]
  apply decide_eq_true
  omega

-- the environment sets both thresholds, the program enables the store
example : (pickleGet plain (mpiRun plain (.init none (some "50") (some "60")) [(.pickle, .get), (.store, .put (.bool true))])).1 =
    .ok (.int 50) := by decide
example : (pickleGet plain (mpiRun plain (.init none (some "50") (some "60")) [(.pickle, .get)])).1 = .ok (.int 60) := by decide

end Verif.Props
