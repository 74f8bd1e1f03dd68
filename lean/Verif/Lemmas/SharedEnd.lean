import Verif.Model.SharedEnd
import Mathlib.Data.List.Induction

/-! Lemmas about the end of shared memory (C139). -/
namespace Verif.SharedEnd

theorem run_append (as bs : List Act) (s : State) : s.run (as ++ bs) = (s.run as).bind fun t => t.run bs := by
  induction as generalizing s with
  | nil => rfl
  | cons a as ih =>
    simp only [List.cons_append, State.run]
    cases s.step a with
    | none => rfl
    | some t => simp [ih]

theorem run_concat {as : List Act} {a : Act} {s s' : State} (h : s.run (as ++ [a]) = some s') :
    ∃ t, s.run as = some t ∧ t.step a = some s' := by
  rw [run_append, Option.bind_eq_some_iff] at h
  obtain ⟨t, ht, h⟩ := h
  simp only [State.run, Option.bind_eq_some_iff] at h
  obtain ⟨u, hu, h⟩ := h
  cases h
  exact ⟨t, ht, hu⟩

/-- The state after a history without a fault. -/
structure Inv (sh : Bool) (acts : List Act) (s : State) : Prop where
  shared : s.shared = sh
  running : s.stage = .running ↔ .free ∉ acts
  ended : s.stage = .ended ↔ .detach ∈ acts
  bufs : ∀ i n, s.bufs i = some n ↔ .put i n ∈ acts
  known : ∀ i, i ∈ s.known ↔ ∃ v, .get v i ∈ acts
  dropped : ∀ i, i ∈ s.dropped ↔ .drop i ∈ acts
  finalizers : ∀ i, i ∈ s.finalizers ↔ sh = true ∧ .detach ∉ acts ∧ (∃ n, .put i n ∈ acts) ∧ .drop i ∉ acts
  view : ∀ v b, s.view v = some b ↔
    (∃ i n, .get v i ∈ acts ∧ .put i n ∈ acts ∧ b = (sh && decide (0 < n))) ∨ (∃ w, .copy v w ∈ acts ∧ b = false)
  got : ∀ v i, .get v i ∈ acts → ∃ n, .put i n ∈ acts
  had : ∀ i, .drop i ∈ acts → ∃ n, .put i n ∈ acts

theorem inv_init (sh : Bool) : Inv sh [] (.init sh) := by
  constructor <;> simp [State.init, State.bufs, State.view]

theorem find_snoc {β : Type} (l : List (Nat × β)) (k : Nat) (x : β) (j : Nat) (h : ((l.find? (·.1 = k)).map (·.2)).isSome = false) (y : β) :
    (((l ++ [(k, x)]).find? (·.1 = j)).map (·.2)) = some y ↔ (((l.find? (·.1 = j)).map (·.2)) = some y ∨ (j = k ∧ y = x)) := by
  rw [List.find?_append]
  by_cases hj : j = k
  · subst hj
    have : l.find? (·.1 = j) = none := by
      cases hf : l.find? (·.1 = j) with
      | none => rfl
      | some e => simp [hf] at h
    rw [this]
    simp [eq_comm (a := x)]
  · have h2 : ¬ k = j := fun e => hj e.symm
    simp only [List.find?_cons, h2, decide_false, List.find?_nil, Option.or_none, hj, false_and, or_false]

theorem step_fault {s s' : State} {a : Act} (h : s.step a = some s') : s.fault = none := by
  unfold State.step at h
  split at h
  · cases h
  · rename_i hf
    cases hq : s.fault with
    | none => rfl
    | some f => simp [hq] at hf

theorem inv_step {sh : Bool} {acts : List Act} {s s' : State} {a : Act} (h : Inv sh acts s) (hs : s.step a = some s')
    (hf : s'.fault = none) : Inv sh (acts ++ [a]) s' := by
  have h0 := step_fault hs
  have hm : ∀ x, x ∈ acts ++ [a] ↔ x ∈ acts ∨ x = a := by simp
  unfold State.step at hs
  simp only [h0, Option.isSome_none, Bool.false_eq_true, if_false] at hs
  obtain ⟨i1, i2, i3, i4, i5, i6, i7, i8, i9, i10⟩ := h
  cases a with
  | put i n =>
    simp only at hs
    split at hs
    · cases hs
    rename_i hc
    simp only [not_or, Bool.not_eq_true] at hc
    have hb : ∀ j m, ((s.refs ++ [(i, n)]).find? (·.1 = j)).map (·.2) = some m ↔ s.bufs j = some m ∨ (j = i ∧ m = n) :=
      fun j m => find_snoc _ _ _ _ hc.2 _
    have hnew : ∀ m, Act.put i m ∉ acts := fun m hm => by simp [(i4 i m).2 hm] at hc
    split at hs
    · split at hs
      · cases hs; simp [State.fail] at hf
      · cases hs
        constructor <;> (try simp only [hm]) <;> (try simp only [reduceCtorEq, or_false]) <;> (try assumption)
        · intro j m; rw [State.bufs, hb]; grind
        · grind
        · intro v b; have := i8 v b; unfold State.view at this ⊢; grind
        · grind
        · grind
    · cases hs
      constructor <;> (try simp only [hm]) <;> (try simp only [reduceCtorEq, or_false]) <;> (try assumption)
      · intro j m; rw [State.bufs, hb]; grind
      · grind
      · intro v b; have := i8 v b; unfold State.view at this ⊢; grind
      · grind
      · grind
  | get v i =>
    simp only at hs
    split at hs
    · cases hs
    rename_i hc
    simp only [not_or, Bool.not_eq_true] at hc
    split at hs
    · cases hs
    rename_i n hn
    have hv : ∀ w b x, ((s.vals ++ [(v, x)]).find? (·.1 = w)).map (·.2) = some b ↔ s.view w = some b ∨ (w = v ∧ b = x) :=
      fun w b x => find_snoc _ _ _ _ hc.2.1 _
    have hnew : ∀ b, s.view v ≠ some b := fun b hb => by simp [hb] at hc
    split at hs
    · cases hs
      constructor <;> (try simp only [hm]) <;> (try simp only [reduceCtorEq, or_false]) <;> (try assumption)
      · grind
      · intro w b; rw [State.view, hv]; grind
      · grind
    · split at hs
      · cases hs; simp [State.fail] at hf
      · cases hs
        constructor <;> (try simp only [hm]) <;> (try simp only [reduceCtorEq, or_false]) <;> (try assumption)
        · grind
        · intro w b; rw [State.view, hv]; grind
        · grind
  | use v =>
    simp only at hs
    split at hs
    · cases hs
    split at hs
    · cases hs
    split at hs
    · cases hs; simp [State.fail] at hf
    · cases hs
      constructor <;> (try simp only [hm]) <;> (try simp only [reduceCtorEq, or_false]) <;> assumption
  | copy v w =>
    simp only at hs
    split at hs
    · cases hs
    rename_i hc
    simp only [not_or, Bool.not_eq_true] at hc
    have hv : ∀ w b x, ((s.vals ++ [(v, x)]).find? (·.1 = w)).map (·.2) = some b ↔ s.view w = some b ∨ (w = v ∧ b = x) :=
      fun w b x => find_snoc _ _ _ _ hc.2 _
    split at hs
    · cases hs
    split at hs
    · cases hs; simp [State.fail] at hf
    · cases hs
      constructor <;> (try simp only [hm]) <;> (try simp only [reduceCtorEq, or_false]) <;> (try assumption)
      · intro u b; rw [State.view, hv]; grind
  | drop i =>
    simp only at hs
    split at hs
    · cases hs
    rename_i hc
    simp only [not_or] at hc
    have hb : ∃ n, Act.put i n ∈ acts := by
      cases hq : s.bufs i with
      | none => simp [hq] at hc
      | some n => exact ⟨n, (i4 i n).1 hq⟩
    split at hs
    · split at hs
      · cases hs
        constructor <;> (try simp only [hm]) <;> (try simp only [reduceCtorEq, or_false]) <;> (try assumption)
        · grind
        · grind
        · grind
      · cases hs; simp [State.fail] at hf
    · cases hs
      constructor <;> (try simp only [hm]) <;> (try simp only [reduceCtorEq, or_false]) <;> (try assumption)
      · grind
      · grind
      · grind
  | free =>
    simp only at hs
    split at hs
    · cases hs
      constructor <;> (try simp only [hm]) <;> (try simp only [reduceCtorEq, or_false]) <;> (try assumption)
      · grind
      · grind
    · cases hs
  | detach =>
    simp only at hs
    split at hs
    · cases hs
      constructor <;> (try simp only [hm]) <;> (try simp only [reduceCtorEq, or_false]) <;> (try assumption)
      · grind
      · grind
      · grind
    · cases hs

theorem inv_run {sh : Bool} (acts : List Act) {s : State} (h : (State.init sh).run acts = some s) (hf : s.fault = none) : Inv sh acts s := by
  induction acts using List.reverseRecOn generalizing s with
  | nil => cases h; exact inv_init sh
  | append_singleton as a ih =>
    obtain ⟨t, ht, hs⟩ := run_concat h
    exact inv_step (ih ht (step_fault hs)) hs hf

end Verif.SharedEnd
