import Verif.Model.Threads
import Mathlib.Data.List.Induction

/-! Lemmas about calls from several threads (C140). -/
namespace Verif.Threads

theorem run_append (as bs : List Act) (s : State) : s.run (as ++ bs) = (s.run as).bind fun t => t.run bs := by
  induction as generalizing s with
  | nil => rfl
  | cons a as ih =>
    simp only [List.cons_append, State.run]
    cases s.step a with
    | none => rfl
    | some t => simp [ih]

theorem run_concat {as : List Act} {a : Act} {s s' : State} (h : s.run (as ++ [a]) = some s') :
    ∃ t, s.run as = some t ∧ t.step a = some s' := by
  rw [run_append, Option.bind_eq_some_iff] at h
  obtain ⟨t, ht, h⟩ := h
  simp only [State.run, Option.bind_eq_some_iff] at h
  obtain ⟨u, hu, h⟩ := h
  cases h
  exact ⟨t, ht, hu⟩

/-- The operations that were sent, in order. -/
def sentOps (acts : List Act) : List (Nat × Kind) :=
  acts.filterMap fun
    | .op c k => some (c, k)
    | _ => none

/-- The data that were sent, in order. -/
def sentData (acts : List Act) : List (Nat × Kind) :=
  acts.filterMap fun
    | .data c k => some (c, k)
    | _ => none

/-- The calls that received a reply, in order. -/
def received (acts : List Act) : List Nat :=
  acts.filterMap fun
    | .reply c => some c
    | _ => none

/-- The monitor has handled these operations with these data and answered these calls. -/
inductive Handled : List (Nat × Kind) → List (Nat × Kind) → List Nat → Prop
  | nil : Handled [] [] []
  | count {O D A} (c : Nat) : Handled O D A → Handled (O ++ [(c, .count)]) D (A ++ [c])
  | data {O D A} (c d : Nat) (k : Kind) (hk : k.data = true) : Handled O D A → Handled (O ++ [(c, k)]) (D ++ [(d, k)]) (A ++ [d])

theorem handled_data {O D A} (h : Handled O D A) : (O.filter (·.2.data)).map (·.2) = D.map (·.2) := by
  induction h with
  | nil => rfl
  | count c _ ih => simpa [Kind.data] using ih
  | data c d k hk _ ih => simp [hk, ih]

theorem handled_length {O D A} (h : Handled O D A) : A.length = O.length := by
  induction h with
  | nil => rfl
  | count c _ ih => simp [ih]
  | data c d k hk _ ih => simp [ih]

/-- The state after a history. -/
structure Inv (acts : List Act) (s : State) : Prop where
  begun : s.begun = sentOps acts
  sent : s.sent = sentData acts
  log : s.log.map (·.1) = received acts
  reading : ∀ c k, s.reading = some (c, k) → k.data = true
  done : ∃ O D, Handled O D (s.log.map (·.2) ++ s.replies) ∧ sentOps acts = O ++ s.reading.toList ++ s.ops ∧
    (s.ended = false → sentData acts = D ++ s.data) ∧
    (s.ended = true → ∃ c k d k', s.reading = some (c, k) ∧ k ≠ k' ∧ sentData acts = D ++ (d, k') :: s.data)
  nodup : (s.begun.map (·.1)).Nodup
  own : ∀ x ∈ s.sent, x ∈ s.begun

theorem inv_init : Inv [] .init :=
  ⟨rfl, rfl, rfl, by simp [State.init], ⟨[], [], .nil, rfl, fun _ => rfl, by simp [State.init]⟩, by simp [State.init], by simp [State.init]⟩

theorem inv_step {acts : List Act} {s s' : State} {a : Act} (h : Inv acts s) (hs : s.step a = some s') : Inv (acts ++ [a]) s' := by
  obtain ⟨h1, h2, h3, h4, ⟨O, D, hh, hO, hD, hE⟩, h6, h7⟩ := h
  cases a with
  | op c k =>
    simp only [State.step] at hs
    split at hs
    · cases hs
    · rename_i hn
      cases hs
      refine ⟨by simp [sentOps, h1], by simpa [sentData] using h2, by simpa [received] using h3, h4, ⟨O, D, hh, ?_, ?_, ?_⟩, ?_, ?_⟩
      · simp only [sentOps, List.filterMap_append] at hO ⊢
        rw [hO]; simp
      · simpa [sentData] using hD
      · simpa [sentData] using hE
      · simp only [List.map_append, List.map_cons, List.map_nil]
        exact List.nodup_append.2 ⟨h6, by simp, fun x hx y hy e => hn (by simp only [List.mem_singleton] at hy; rw [← hy, ← e]; exact hx)⟩
      · exact fun x hx => List.mem_append_left _ (h7 x hx)
  | data c k =>
    simp only [State.step] at hs
    split at hs
    · rename_i hc
      cases hs
      refine ⟨by simpa [sentOps] using h1, by simp [sentData, h2], by simpa [received] using h3, h4, ⟨O, D, hh, ?_, ?_, ?_⟩, h6, ?_⟩
      · simpa [sentOps] using hO
      · intro he
        simp only [sentData, List.filterMap_append] at hD ⊢
        rw [hD he]; simp
      · intro he
        obtain ⟨c', k', d, k'', e1, e2, e3⟩ := hE he
        refine ⟨c', k', d, k'', e1, e2, ?_⟩
        simp only [sentData, List.filterMap_append] at e3 ⊢
        rw [e3]; simp
      · intro x hx
        rcases List.mem_append.1 hx with hx | hx
        · exact h7 x hx
        · simp only [List.mem_singleton] at hx; subst hx; exact hc.1
    · cases hs
  | readOp =>
    simp only [State.step] at hs
    split at hs
    · rename_i c k rest e1 e2 e3
      have hD' := hD e1
      split at hs
      · rename_i hk
        cases hs
        refine ⟨by simpa [sentOps] using h1, by simpa [sentData] using h2, by simpa [received] using h3, ?_, ⟨O, D, hh, ?_, ?_, ?_⟩, h6, h7⟩
        · intro c' k' e
          simp only [Option.some.injEq, Prod.mk.injEq] at e
          rw [← e.2]; exact hk
        · rw [e2, e3] at hO
          simpa [sentOps] using hO
        · intro _; simpa [sentData] using hD'
        · intro he
          simp only at he
          rw [e1] at he; cases he
      · rename_i hk
        cases hs
        have hkc : k = .count := by cases k <;> simp [Kind.data] at hk ⊢
        subst hkc
        refine ⟨by simpa [sentOps] using h1, by simpa [sentData] using h2, by simpa [received] using h3, h4,
          ⟨O ++ [(c, .count)], D, ?_, ?_, ?_, ?_⟩, h6, h7⟩
        · have := Handled.count c hh
          simpa using this
        · rw [e2, e3] at hO
          simp only [e2]
          simpa [sentOps] using hO
        · intro _; simpa [sentData] using hD'
        · intro he
          simp only at he
          rw [e1] at he; cases he
    · cases hs
  | readData =>
    simp only [State.step] at hs
    split at hs
    · rename_i c k d k' rest e1 e2 e3
      have hD' := hD e1
      rw [e3] at hD'
      split at hs
      · rename_i hk
        cases hs
        subst hk
        refine ⟨by simpa [sentOps] using h1, by simpa [sentData] using h2, by simpa [received] using h3, by simp,
          ⟨O ++ [(c, k)], D ++ [(d, k)], ?_, ?_, ?_, ?_⟩, h6, h7⟩
        · have := Handled.data c d k (h4 c k e2) hh
          simpa using this
        · rw [e2] at hO
          simpa [sentOps] using hO
        · intro _
          simp only [sentData, List.filterMap_append] at hD' ⊢
          rw [hD']; simp
        · intro he
          simp only at he
          rw [e1] at he; cases he
      · rename_i hk
        cases hs
        refine ⟨by simpa [sentOps] using h1, by simpa [sentData] using h2, by simpa [received] using h3, h4, ⟨O, D, hh, ?_, by simp, ?_⟩, h6, h7⟩
        · simpa [sentOps] using hO
        · intro _
          exact ⟨c, k, d, k', e2, hk, by simpa [sentData] using hD'⟩
    · cases hs
  | reply c =>
    simp only [State.step] at hs
    split at hs
    · rename_i r rest e1 e2
      cases hs
      refine ⟨by simpa [sentOps] using h1, by simpa [sentData] using h2, by simp [received, h3] , h4, ⟨O, D, ?_, ?_, ?_, ?_⟩, h6, h7⟩
      · rw [e2] at hh
        simpa using hh
      · simpa [sentOps] using hO
      · simpa [sentData] using hD
      · simpa [sentData] using hE
    · cases hs

theorem inv_run (acts : List Act) {s : State} (h : State.init.run acts = some s) : Inv acts s := by
  induction acts using List.reverseRecOn generalizing s with
  | nil => cases h; exact inv_init
  | append_singleton as a ih =>
    obtain ⟨t, ht, hs⟩ := run_concat h
    exact inv_step (ih ht) hs

end Verif.Threads
