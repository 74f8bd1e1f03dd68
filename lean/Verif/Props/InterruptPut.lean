import Verif.Lemmas.InterruptPut
import Mathlib.Data.List.Induction

/-! Calls of `put` and `get` with shared memory that are interrupted (C138). -/
namespace Verif.Props
open Verif.InterruptPut

/-- At some moment of the history a call with this object was ended by a signal or an error when it had come so far. -/
def CallEnded (acts : List Act) (id : Nat) (P : Phase → Prop) : Prop :=
  ∃ pre post u c, acts = pre ++ Act.signal :: post ∧ State.init.run pre = some u ∧ u.call = some c ∧ c.id = id ∧ P c.phase

/-- A call with this object was ended after memory was reserved and before its metadata were written. -/
def EndedReserved (acts : List Act) (id : Nat) : Prop := CallEnded acts id fun p => p = .reserved

/-- A call with this object was ended after a reference was counted and before the finalizer for it existed. -/
def EndedCounted (acts : List Act) (id : Nat) : Prop := CallEnded acts id fun p => p = .published ∨ p = .counted

/-- The reference was dropped and sent to be cleaned up. -/
def CleanedUp (acts : List Act) (id : Nat) : Prop :=
  ∃ pre post u, acts = pre ++ Act.cleanup :: post ∧ State.init.run pre = some u ∧ id ∈ u.dropped

private theorem snoc_split {acts pre post : List Act} {a b : Act} (h : acts ++ [a] = pre ++ b :: post) :
    (post = [] ∧ acts = pre ∧ a = b) ∨ ∃ post', post = post' ++ [a] ∧ acts = pre ++ b :: post' := by
  rcases List.eq_nil_or_concat post with rfl | ⟨l, x, rfl⟩
  · left
    have := List.append_inj' h rfl
    simp at this
    exact ⟨rfl, this.1, this.2⟩
  · right
    rw [List.concat_eq_append] at h ⊢
    have h' : acts ++ [a] = (pre ++ b :: l) ++ [x] := by simpa using h
    have := List.append_inj' h' rfl
    simp at this
    exact ⟨l, by rw [this.2], this.1⟩

private theorem ended_snoc (acts : List Act) (s : State) (hr : State.init.run acts = some s) (a : Act) (i : Nat) (P : Phase → Prop) :
    CallEnded (acts ++ [a]) i P ↔ CallEnded acts i P ∨ a = .signal ∧ ∃ p, s.phaseOf i = some p ∧ P p := by
  constructor
  · rintro ⟨pre, post, u, c, h1, h2, h3, h4, h5⟩
    rcases snoc_split h1 with ⟨-, rfl, rfl⟩ | ⟨post', -, rfl⟩
    · right
      rw [hr] at h2
      simp only [Option.some.injEq] at h2
      subst h2
      exact ⟨rfl, c.phase, by simp [State.phaseOf, h3, h4], h5⟩
    · exact Or.inl ⟨pre, post', u, c, rfl, h2, h3, h4, h5⟩
  · rintro (⟨pre, post, u, c, rfl, h2, h3, h4, h5⟩ | ⟨rfl, p, h1, h2⟩)
    · exact ⟨pre, post ++ [a], u, c, by simp, h2, h3, h4, h5⟩
    · cases hc : s.call with
      | none => simp [State.phaseOf, hc] at h1
      | some c =>
        simp only [State.phaseOf, hc] at h1
        split at h1
        · rename_i he
          simp only [Option.some.injEq] at h1
          exact ⟨acts, [], s, c, rfl, hr, hc, he, h1 ▸ h2⟩
        · cases h1

private theorem cleaned_snoc (acts : List Act) (s : State) (hr : State.init.run acts = some s) (a : Act) (i : Nat) :
    CleanedUp (acts ++ [a]) i ↔ CleanedUp acts i ∨ a = .cleanup ∧ i ∈ s.dropped := by
  constructor
  · rintro ⟨pre, post, u, h1, h2, h3⟩
    rcases snoc_split h1 with ⟨-, rfl, rfl⟩ | ⟨post', -, rfl⟩
    · right
      rw [hr] at h2
      simp only [Option.some.injEq] at h2
      subst h2
      exact ⟨rfl, h3⟩
    · exact Or.inl ⟨pre, post', u, rfl, h2, h3⟩
  · rintro (⟨pre, post, u, rfl, h2, h3⟩ | ⟨rfl, h⟩)
    · exact ⟨pre, post ++ [a], u, by simp, h2, h3⟩
    · exact ⟨acts, [], s, rfl, hr, h⟩

/-- What is known after a history. -/
theorem interruptPut_inv (acts : List Act) : ∀ s, State.init.run acts = some s → Inv (EndedReserved acts) (EndedCounted acts) (CleanedUp acts) s := by
  induction acts using List.reverseRecOn with
  | nil =>
    intro s hs
    simp only [State.run, Option.some.injEq] at hs
    subst hs
    have e1 : EndedReserved [] = fun _ => False := by
      funext i; apply propext
      refine ⟨?_, False.elim⟩
      rintro ⟨pre, post, u, c, h, -⟩
      simp at h
    have e2 : EndedCounted [] = fun _ => False := by
      funext i; apply propext
      refine ⟨?_, False.elim⟩
      rintro ⟨pre, post, u, c, h, -⟩
      simp at h
    have e3 : CleanedUp [] = fun _ => False := by
      funext i; apply propext
      refine ⟨?_, False.elim⟩
      rintro ⟨pre, post, u, h, -⟩
      simp at h
    rw [e1, e2, e3]
    exact inv_init
  | append_singleton acts a ih =>
    intro s hs
    rw [run_append] at hs
    cases hr : State.init.run acts with
    | none => rw [hr] at hs; cases hs
    | some t =>
      rw [hr] at hs
      simp only [Option.bind_some, State.run] at hs
      cases hst : t.step a with
      | none => rw [hst] at hs; cases hs
      | some t' =>
        rw [hst] at hs
        simp only [Option.bind_some, Option.some.injEq] at hs
        subst hs
        have := inv_step (ih t hr) a hst
        have e1 : EndedReserved (acts ++ [a]) = fun i => EndedReserved acts i ∨ a = .signal ∧ t.phaseOf i = some .reserved := by
          funext i; apply propext
          unfold EndedReserved
          rw [ended_snoc acts t hr]
          simp
        have e2 : EndedCounted (acts ++ [a]) =
            fun i => EndedCounted acts i ∨ a = .signal ∧ (t.phaseOf i = some .published ∨ t.phaseOf i = some .counted) := by
          funext i; apply propext
          unfold EndedCounted
          rw [ended_snoc acts t hr]
          constructor
          · rintro (h | ⟨h, p, h1, rfl | rfl⟩)
            · exact Or.inl h
            · exact Or.inr ⟨h, Or.inl h1⟩
            · exact Or.inr ⟨h, Or.inr h1⟩
          · rintro (h | ⟨h, h1 | h1⟩)
            · exact Or.inl h
            · exact Or.inr ⟨h, _, h1, Or.inl rfl⟩
            · exact Or.inr ⟨h, _, h1, Or.inr rfl⟩
        have e3 : CleanedUp (acts ++ [a]) = fun i => CleanedUp acts i ∨ a = .cleanup ∧ i ∈ t.dropped := by
          funext i; apply propext
          exact cleaned_snoc acts t hr a i
        rw [e1, e2, e3]
        exact this

/-- C138, the full statement: whatever calls of `put` and `get` were ended by signals or errors, the monitor stays in its loop, a call in
progress can go on, and all memory that is reserved belongs to a reference of the program, to the call in progress, or to a reference
that the next clean-up will list. -/
def C138_full : Prop := ∀ (acts : List Act) (s : State), State.init.run acts = some s →
  s.alive = true ∧ (∀ c, s.call = some c → ∃ s', s.step .advance = some s') ∧
  ∀ i, (s.objs i).reserved = true → i ∈ s.held ∨ (∃ c, s.call = some c ∧ c.id = i) ∨ i ∈ s.dropped

/-- C138 is violated: a `put` that is ended while it writes the bytes ends the monitor when its reference is cleaned up. -/
theorem C138_monitor_violated : ¬ C138_full := by
  intro h
  obtain ⟨s, hr, hs⟩ := Option.map_eq_some_iff.1
    (show (State.init.run [.put, .advance, .signal, .cleanup]).map (fun s => s.alive) = some false by decide +kernel)
  have := (h _ s hr).1
  rw [this] at hs
  cases hs

/-- C138 is violated: a `get` that is ended while the bytes are copied from another host makes the next `get` of the same reference wait for
ever: nothing but a signal can follow. -/
theorem C138_waits_violated : ¬ C138_full ∧ ∃ s, State.init.run [.task, .get 0, .advance, .signal, .get 0, .advance] = some s ∧
    s.call = some ⟨0, false, .waiting⟩ ∧ s.alive = true ∧ ∀ a s', s.step a = some s' → a = .signal := by
  obtain ⟨s, hr, hs⟩ := Option.map_eq_some_iff.1
    (show (State.init.run [.task, .get 0, .advance, .signal, .get 0, .advance]).map
      (fun s => (s.call, s.alive, (s.objs 0).published)) = some (some ⟨0, false, .waiting⟩, true, false) by decide +kernel)
  simp only [Prod.mk.injEq] at hs
  obtain ⟨h1, h2, h3⟩ := hs
  have hadv : s.step .advance = none := by simp [State.step, h1, State.advance, h3]
  refine ⟨fun h => ?_, s, hr, h1, h2, ?_⟩
  · obtain ⟨s', hs'⟩ := (h _ s hr).2.1 _ h1
    rw [hadv] at hs'
    cases hs'
  · intro a s' hst
    cases a with
    | signal => rfl
    | advance => rw [hadv] at hst; cases hst
    | _ => simp [State.step, h1] at hst

/-- Memory for which a counted reference has no finalizer stays reserved for ever. -/
theorem ended_counted_reserved (acts : List Act) (s : State) (hr : State.init.run acts = some s) (i : Nat) (h : EndedCounted acts i) :
    (s.objs i).reserved = true := by
  have ho := (interruptPut_inv acts s hr).obj i
  apply ho.pub
  apply Classical.byContradiction
  intro hp
  have h1 := ho.unpub (by simpa using hp)
  have h2 := ho.high.2 h
  omega

/-- C138 is violated: a `put` that is ended after its reference was counted and before the finalizer exists occupies memory until the end of
the program, although the program has no reference to it. -/
theorem C138_kept_violated : ¬ C138_full ∧ ∀ (more : List Act) (s : State),
    State.init.run ([.put, .advance, .advance, .signal, .cleanup] ++ more) = some s → (s.objs 0).reserved = true := by
  constructor
  · intro h
    obtain ⟨s, hr, hs⟩ := Option.map_eq_some_iff.1
      (show (State.init.run [.put, .advance, .advance, .signal, .cleanup]).map
        (fun s => ((s.objs 0).reserved, s.held, s.call, s.dropped)) = some (true, [], none, []) by decide +kernel)
    simp only [Prod.mk.injEq] at hs
    obtain ⟨h1, h2, h3, h4⟩ := hs
    rcases (h _ s hr).2.2 0 h1 with h' | ⟨c, h', -⟩ | h'
    · rw [h2] at h'; simp at h'
    · rw [h3] at h'; cases h'
    · rw [h4] at h'; simp at h'
  · intro more s hr
    refine ended_counted_reserved _ s hr 0 ?_
    obtain ⟨u, hu, hc⟩ := Option.map_eq_some_iff.1
      (show (State.init.run [.put, .advance, .advance]).map (fun s => s.call) = some (some ⟨0, true, .published⟩) by decide +kernel)
    exact ⟨[.put, .advance, .advance], .cleanup :: more, u, _, by simp, hu, hc, rfl, Or.inl rfl⟩

/-- **C138**, the rest: if no call is ended between the reservation and the metadata, nor between the counting of a reference and its
finalizer, then the monitor stays in its loop, calls go on, and all reserved memory belongs to a reference that is held, in use, or about to be
cleaned up. -/
theorem C138_partial (acts : List Act) (s : State) (hr : State.init.run acts = some s) (h1 : ∀ i, ¬ EndedReserved acts i)
    (h2 : ∀ i, ¬ EndedCounted acts i) :
    s.alive = true ∧ (∀ c, s.call = some c → ∃ s', s.step .advance = some s') ∧
    ∀ i, (s.objs i).reserved = true → i ∈ s.held ∨ (∃ c, s.call = some c ∧ c.id = i) ∨ i ∈ s.dropped := by
  have h := interruptPut_inv acts s hr
  have ha : s.alive = true := by
    cases ha : s.alive with
    | true => rfl
    | false =>
      obtain ⟨i, hb, -⟩ := h.dead.1 ha
      exact absurd hb (h1 i)
  refine ⟨ha, ?_, ?_⟩
  · intro c hc
    have ho := h.obj c.id
    rw [phaseOf_self hc] at ho
    simp only [State.step, hc, Option.bind_some, State.advance]
    cases hp : c.phase with
    | waiting => rw [hp] at ho; exact absurd (ho.wait rfl) (h1 _)
    | start =>
      simp only [ha]
      split
      · exact ⟨_, rfl⟩
      · split
        · exact ⟨_, rfl⟩
        · simp only [Bool.true_eq_false, if_false]
          split
          · exact ⟨_, rfl⟩
          · exact ⟨_, rfl⟩
    | final =>
      simp only
      split
      · exact ⟨_, rfl⟩
      · exact ⟨_, rfl⟩
    | _ => exact ⟨_, rfl⟩
  · intro i hi
    rcases h.place ha i hi with h' | h' | h' | h'
    · exact Or.inl h'
    · exact Or.inr (Or.inl h')
    · exact Or.inr (Or.inr h')
    · exact absurd ((h.pend ha i).1 h').1 (h2 i)

example : (State.init.run [.put, .advance, .advance, .advance, .signal, .cleanup, .task, .get 1, .advance, .advance, .advance, .advance, .signal,
    .get 1, .advance, .drop 1, .cleanup]).map (fun s => (s.alive, (s.objs 0).reserved, (s.objs 1).reserved)) = some (true, false, false) := by
  decide +kernel

/-- **C138**, exactly when the monitor is lost: if and only if a reference was cleaned up for which a call was ended between the reservation
and the metadata. -/
theorem C138_monitor_exactly_partial (acts : List Act) (s : State) (hr : State.init.run acts = some s) :
    s.alive = false ↔ ∃ i, EndedReserved acts i ∧ CleanedUp acts i :=
  (interruptPut_inv acts s hr).dead

/-- **C138**, exactly when a call waits: with the monitor in its loop, a call cannot go on if and only if it waits for the metadata; a `get`
that begins comes there if and only if a call with the same object was ended between the reservation and the metadata. -/
theorem C138_waits_exactly_partial (acts : List Act) (s : State) (hr : State.init.run acts = some s) (ha : s.alive = true) (c : Call)
    (hc : s.call = some c) :
    (s.step .advance = none ↔ c.phase = .waiting) ∧ (c.phase = .waiting → EndedReserved acts c.id) ∧
    (c.phase = .start → ((∃ s', s.step .advance = some s' ∧ s'.call = some { c with phase := .waiting }) ↔ EndedReserved acts c.id)) := by
  have h := interruptPut_inv acts s hr
  have ho := h.obj c.id
  rw [phaseOf_self hc] at ho
  refine ⟨?_, fun hp => ho.wait (by rw [hp]), ?_⟩
  · simp only [State.step, hc, Option.bind_some, State.advance]
    cases hp : c.phase with
    | waiting =>
      rw [hp] at ho
      have := (ho.unfinished.2 (Or.inr (ho.wait rfl))).2
      simp [this]
    | start =>
      simp only [ha, Bool.true_eq_false, if_false, reduceCtorEq, iff_false]
      split
      · simp
      · split
        · simp
        · split <;> simp
    | final =>
      simp only [reduceCtorEq, iff_false]
      split <;> simp
    | _ => simp
  · intro hp
    rw [hp] at ho
    simp only [State.step, hc, Option.bind_some, State.advance, hp, ha, Bool.true_eq_false, if_false]
    constructor
    · rintro ⟨s', h1, h2⟩
      split at h1
      · simp only [Option.some.injEq] at h1
        subst h1
        simp at h2
      · split at h1
        · simp only [Option.some.injEq] at h1
          subst h1
          simp at h2
        · split at h1
          · rename_i hk hpub hres
            have := ho.unfinished.1 ⟨hres, by simpa using hpub⟩
            simpa using this
          · simp only [Option.some.injEq] at h1
            subst h1
            simp at h2
    · intro hb
      obtain ⟨h1, h2⟩ := ho.unfinished.2 (Or.inr hb)
      have h3 := (ho.unpub h2).2.2
      simp [h1, h2, h3]

/-- **C138**, exactly what stays: after a clean-up, with no call in progress, memory is reserved for an object that the program does not hold if
and only if a call with it was ended between the counting of a reference and its finalizer. -/
theorem C138_kept_exactly_partial (acts : List Act) (s : State) (hr : State.init.run acts = some s) (ha : s.alive = true) (hc : s.call = none)
    (hd : s.dropped = []) (i : Nat) (hi : i ∉ s.held) : (s.objs i).reserved = true ↔ EndedCounted acts i := by
  have h := interruptPut_inv acts s hr
  constructor
  · intro hres
    rcases h.place ha i hres with h' | ⟨c, h', -⟩ | h' | h'
    · exact absurd h' hi
    · rw [hc] at h'; cases h'
    · rw [hd] at h'; simp at h'
    · exact ((h.pend ha i).1 h').1
  · exact ended_counted_reserved acts s hr i

example : (State.init.run [.task, .get 0, .advance, .advance, .advance, .advance, .advance, .signal, .drop 0, .cleanup]).map
    (fun s => (s.objs 0, s.pending, s.held)) = some (⟨true, true, 1, true, 0⟩, [0], []) := by decide +kernel

end Verif.Props
