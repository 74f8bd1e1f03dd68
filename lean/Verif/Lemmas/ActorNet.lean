import Verif.Model.ActorNet

/-! A handle that leaves its creator only after a method result came back never meets a missing actor. -/
namespace Verif.ActorNet

/-- Before every call of `h` in the list there is its creation. -/
def Ordered (h : Nat) : List Msg → Prop
  | [] => True
  | .create h' :: l => h' = h ∨ Ordered h l
  | .call h' :: l => h' ≠ h ∧ Ordered h l
  | .task _ :: l => Ordered h l
  | .result _ :: l => Ordered h l

theorem ordered_append {h : Nat} {m : Msg} : ∀ {l : List Msg}, Ordered h l → (m = .call h → .create h ∈ l) → Ordered h (l ++ [m])
  | [], _, hm => by
    cases m with
    | call h' =>
      refine ⟨?_, trivial⟩
      intro he
      have := hm (by rw [he])
      cases this
    | _ => simp [Ordered]
  | .create h' :: l, ho, hm => by
    rcases ho with ho | ho
    · exact Or.inl ho
    · by_cases he : h' = h
      · exact Or.inl he
      · refine Or.inr (ordered_append ho fun hc => ?_)
        have := hm hc
        simp only [List.mem_cons, Msg.create.injEq] at this
        rcases this with this | this
        · exact absurd this.symm he
        · exact this
  | .call h' :: l, ho, hm => ⟨ho.1, ordered_append ho.2 fun hc => by simpa using hm hc⟩
  | .task h' :: l, ho, hm => ordered_append (l := l) ho fun hc => by simpa using hm hc
  | .result h' :: l, ho, hm => ordered_append (l := l) ho fun hc => by simpa using hm hc

/-- What holds of a handle whose creation has not been handled. -/
structure Unmade (s : State) (h : Nat) : Prop where
  create : .create h ∈ s.chan (s.creator h) (s.owner h)
  knows : ∀ p, h ∈ s.knows p → p = s.creator h
  task : ∀ p q, Msg.task h ∉ s.chan p q
  call : ∀ p q, Msg.call h ∈ s.chan p q → p = s.creator h
  order : Ordered h (s.chan (s.creator h) (s.owner h))
  result : ∀ p q, Msg.result h ∉ s.chan p q
  confirmed : ∀ p, h ∉ s.confirmed p

/-- What has to hold of all processes. -/
structure Inv (s : State) : Prop where
  calls : ∀ p q h, Msg.call h ∈ s.chan p q → q = s.owner h ∧ h < s.next
  creates : ∀ p q h, Msg.create h ∈ s.chan p q → q = s.owner h ∧ h < s.next
  tasks : ∀ p q h, Msg.task h ∈ s.chan p q → h < s.next
  results : ∀ p q h, Msg.result h ∈ s.chan p q → h < s.next
  knows : ∀ p h, h ∈ s.knows p → h < s.next
  confirmed : ∀ p h, h ∈ s.confirmed p → h < s.next
  unmade : ∀ h, h < s.next → h ∉ s.actors (s.owner h) → Unmade s h
  fresh : ∀ p h, h ∈ s.actors p → h < s.next
  safe : ∀ p, s.crashed p = false

theorem inv_init : Inv State.init := by
  constructor <;> simp [State.init]

theorem mem_send {s : State} {p q a b : Nat} {m x : Msg} (h : x ∈ (s.send p q m).chan a b) :
    x ∈ s.chan a b ∨ (a = p ∧ b = q ∧ x = m) := by
  simp only [State.send] at h
  split at h
  · next hc =>
    rcases List.mem_append.1 h with h | h
    · left; rw [hc.1, hc.2]; exact h
    · right; exact ⟨hc.1, hc.2, by simpa using h⟩
  · exact Or.inl h

theorem send_mem {s : State} {p q a b : Nat} {m x : Msg} (h : x ∈ s.chan a b) : x ∈ (s.send p q m).chan a b := by
  simp only [State.send]
  split
  · next hc => rw [hc.1, hc.2] at h; exact List.mem_append_left _ h
  · exact h

theorem send_ordered {s : State} {p q a b h : Nat} {m : Msg} (ho : Ordered h (s.chan a b))
    (hm : a = p → b = q → m = .call h → .create h ∈ s.chan a b) : Ordered h ((s.send p q m).chan a b) := by
  simp only [State.send]
  split
  · next hc =>
    rw [hc.1, hc.2] at ho
    exact ordered_append ho (fun he => by have := hm hc.1 hc.2 he; rwa [hc.1, hc.2] at this)
  · exact ho

/-- Sending a message that keeps the facts about handles keeps the invariant. -/
theorem inv_send {s : State} (hi : Inv s) (p q : Nat) (m : Msg)
    (h1 : ∀ h, m = .call h → q = s.owner h ∧ h < s.next ∧ (h ∉ s.actors (s.owner h) → p = s.creator h))
    (h2 : ∀ h, m ≠ .create h)
    (h3 : ∀ h, m = .task h → h < s.next ∧ h ∈ s.actors (s.owner h))
    (h4 : ∀ h, m = .result h → h < s.next ∧ h ∈ s.actors (s.owner h)) : Inv (s.send p q m) where
  calls a b h hm := by
    rcases mem_send hm with hm | ⟨_, hb, hx⟩
    · exact hi.calls a b h hm
    · exact ⟨hb ▸ (h1 h hx.symm).1, (h1 h hx.symm).2.1⟩
  creates a b h hm := by
    rcases mem_send hm with hm | ⟨_, _, hx⟩
    · exact hi.creates a b h hm
    · exact absurd hx.symm (h2 h)
  tasks a b h hm := by
    rcases mem_send hm with hm | ⟨_, _, hx⟩
    · exact hi.tasks a b h hm
    · exact (h3 h hx.symm).1
  results a b h hm := by
    rcases mem_send hm with hm | ⟨_, _, hx⟩
    · exact hi.results a b h hm
    · exact (h4 h hx.symm).1
  knows := hi.knows
  confirmed := hi.confirmed
  unmade h hh hn := by
    have hu := hi.unmade h hh hn
    refine ⟨send_mem hu.create, hu.knows, ?_, ?_, ?_, ?_, hu.confirmed⟩
    · intro a b hm
      rcases mem_send hm with hm | ⟨_, _, hx⟩
      · exact hu.task a b hm
      · exact hn (h3 h hx.symm).2
    · intro a b hm
      rcases mem_send hm with hm | ⟨ha, _, hx⟩
      · exact hu.call a b hm
      · exact ha ▸ (h1 h hx.symm).2.2 hn
    · exact send_ordered hu.order (fun _ _ _ => hu.create)
    · intro a b hm
      rcases mem_send hm with hm | ⟨_, _, hx⟩
      · exact hu.result a b hm
      · exact hn (h4 h hx.symm).2
  fresh := hi.fresh
  safe := hi.safe

theorem mem_add {f : Nat → List Nat} {p x q y : Nat} : y ∈ add f p x q ↔ (q = p ∧ y = x) ∨ y ∈ f q := by
  simp only [add]
  split
  · next h => subst h; simp
  · next h => simp [h]

/-- Taking a message away that is not the creation of an unmade actor. -/
theorem unmade_pop {s : State} {p q h : Nat} {m : Msg} {l : List Msg} (hc : s.chan p q = m :: l) (hm : m ≠ .create h)
    (hu : Unmade s h) : Unmade { s with chan := fun a b => if a = p ∧ b = q then l else s.chan a b } h := by
  have sub : ∀ a b x, x ∈ (if a = p ∧ b = q then l else s.chan a b) → x ∈ s.chan a b := by
    intro a b x hx
    split at hx
    · next he => rw [he.1, he.2, hc]; exact List.mem_cons_of_mem _ hx
    · exact hx
  refine ⟨?_, hu.knows, fun a b hx => hu.task a b (sub a b _ hx), fun a b hx => hu.call a b (sub a b _ hx), ?_,
    fun a b hx => hu.result a b (sub a b _ hx), hu.confirmed⟩
  · have := hu.create
    simp only
    split
    · next he =>
      rw [he.1, he.2, hc] at this
      rcases List.mem_cons.1 this with this | this
      · exact absurd this.symm hm
      · exact this
    · exact this
  · have := hu.order
    simp only
    split
    · next he =>
      rw [he.1, he.2, hc] at this
      cases m with
      | create h' =>
        rcases this with this | this
        · exact absurd (by rw [this]) hm
        · exact this
      | call h' => exact this.2
      | task h' => exact this
      | result h' => exact this
    · exact this

/-- The creator may pass a handle on only if a result of one of its methods has come back; everybody else may. -/
def Careful (s : State) : Act → Prop
  | .pass p _ h => p = s.creator h → h ∈ s.confirmed p
  | _ => True

theorem inv_step {s s' : State} (a : Act) (ha : Careful s a) (hi : Inv s) (h : s.step a = some s') : Inv s' := by
  cases a with
  | new p dst =>
    simp only [State.step] at h
    split at h
    · cases h
    · injection h with h
      subst h
      have old : ∀ a b (x : Msg), x ∈ (s.send p dst (.create s.next)).chan a b → x ≠ .create s.next → x ∈ s.chan a b := by
        intro a b x hx hne
        rcases mem_send hx with hx | ⟨_, _, hx⟩
        · exact hx
        · exact absurd hx hne
      refine ⟨?_, ?_, ?_, ?_, ?_, ?_, ?_, ?_, hi.safe⟩
      · intro a b k hm
        have := hi.calls a b k (old a b _ hm (by simp))
        exact ⟨by simp only; rw [if_neg (by omega)]; exact this.1, by simp only; omega⟩
      · intro a b k hm
        rcases mem_send hm with hm | ⟨_, hb, hx⟩
        · have := hi.creates a b k hm
          exact ⟨by simp only; rw [if_neg (by omega)]; exact this.1, by simp only; omega⟩
        · injection hx with hx
          subst hx
          exact ⟨by simp [hb], by simp⟩
      · intro a b k hm
        have := hi.tasks a b k (old a b _ hm (by simp))
        simp only; omega
      · intro a b k hm
        have := hi.results a b k (old a b _ hm (by simp))
        simp only; omega
      · intro a k hm
        rcases mem_add.1 hm with hm | hm
        · simp only; omega
        · have := hi.knows a k hm
          simp only; omega
      · intro a k hm
        have := hi.confirmed a k hm
        simp only; omega
      · intro k hk hn
        simp only at hk hn
        by_cases hkn : k = s.next
        · subst hkn
          refine ⟨?_, ?_, ?_, ?_, ?_, ?_, ?_⟩
          · simp [State.send]
          · intro a hm
            rcases mem_add.1 hm with hm | hm
            · simp [hm.1]
            · have := hi.knows a _ hm; omega
          · intro a b hm
            have := hi.tasks a b _ (old a b _ hm (by simp)); omega
          · intro a b hm
            have := hi.calls a b _ (old a b _ hm (by simp)); omega
          · simp only [if_true]
            apply send_ordered
            · suffices ∀ l : List Msg, (∀ x ∈ l, x ≠ .call s.next) → Ordered s.next l by
                exact this _ (fun x hx he => by have := hi.calls p dst s.next (he ▸ hx); omega)
              intro l
              induction l with
              | nil => intro _; trivial
              | cons m l ih =>
                intro hl
                have h1 := ih (fun x hx => hl x (List.mem_cons_of_mem _ hx))
                cases m with
                | create h' => exact Or.inr h1
                | call h' => exact ⟨fun he => hl (.call h') (by simp) (by rw [he]), h1⟩
                | task h' => exact h1
                | result h' => exact h1
            · intro _ _ he; cases he
          · intro a b hm
            have := hi.results a b _ (old a b _ hm (by simp)); omega
          · intro a hm
            have := hi.confirmed a _ hm; omega
        · rw [if_neg hkn] at hn
          have hu := hi.unmade k (by omega) hn
          refine ⟨?_, ?_, ?_, ?_, ?_, ?_, hu.confirmed⟩
          · simp only [if_neg hkn]
            exact send_mem hu.create
          · intro a hm
            simp only [if_neg hkn]
            rcases mem_add.1 hm with hm | hm
            · exact absurd hm.2 hkn
            · exact hu.knows a hm
          · intro a b hm
            exact hu.task a b (old a b _ hm (by simp))
          · intro a b hm
            simp only [if_neg hkn]
            exact hu.call a b (old a b _ hm (by simp))
          · simp only [if_neg hkn]
            exact send_ordered hu.order (fun _ _ he => by cases he)
          · intro a b hm
            exact hu.result a b (old a b _ hm (by simp))
      · intro a k hm
        have := hi.fresh a k hm
        simp only; omega
  | use p k =>
    simp only [State.step] at h
    split at h
    · cases h
    · next hc =>
      have hk : k ∈ s.knows p := by simp only [not_or, Classical.not_not] at hc; exact hc.2
      injection h with h
      subst h
      refine inv_send hi _ _ _ ?_ (by simp) (by simp) (by simp)
      intro h' he
      injection he with he
      subst he
      exact ⟨rfl, hi.knows p _ hk, fun hn => (hi.unmade _ (hi.knows p _ hk) hn).knows p hk⟩
  | pass p q k =>
    simp only [State.step] at h
    split at h
    · cases h
    · next hc =>
      have hk : k ∈ s.knows p := by simp only [not_or, Classical.not_not] at hc; exact hc.2
      injection h with h
      subst h
      refine inv_send hi _ _ _ (by simp) (by simp) ?_ (by simp)
      intro h' he
      injection he with he
      subst he
      refine ⟨hi.knows p _ hk, ?_⟩
      apply Classical.byContradiction
      intro hn
      have hu := hi.unmade _ (hi.knows p _ hk) hn
      exact hu.confirmed p (ha (hu.knows p hk))
  | deliver p q =>
    simp only [State.step] at h
    split at h
    · cases h
    · next m l hc =>
      split at h
      · cases h
      · injection h with h
        have sub : ∀ a b x, x ∈ (if a = p ∧ b = q then l else s.chan a b) → x ∈ s.chan a b := by
          intro a b x hx
          split at hx
          · next he => rw [he.1, he.2, hc]; exact List.mem_cons_of_mem _ hx
          · exact hx
        have hmem : m ∈ s.chan p q := by rw [hc]; simp
        -- the state without the message, for everything but a creation
        have pop : (∀ k, m ≠ .create k) → Inv { s with chan := fun a b => if a = p ∧ b = q then l else s.chan a b } := by
          intro hm
          exact ⟨fun a b k hx => hi.calls a b k (sub a b _ hx), fun a b k hx => hi.creates a b k (sub a b _ hx),
            fun a b k hx => hi.tasks a b k (sub a b _ hx), fun a b k hx => hi.results a b k (sub a b _ hx), hi.knows,
            hi.confirmed, fun k hk hn => unmade_pop hc (hm k) (hi.unmade k hk hn), hi.fresh, hi.safe⟩
        cases m with
        | create k =>
          simp only [State.handle] at h
          subst h
          have hq := hi.creates p q k hmem
          refine ⟨fun a b k hx => hi.calls a b k (sub a b _ hx), fun a b k hx => hi.creates a b k (sub a b _ hx),
            fun a b k hx => hi.tasks a b k (sub a b _ hx), fun a b k hx => hi.results a b k (sub a b _ hx), hi.knows,
            hi.confirmed, ?_, ?_, hi.safe⟩
          · intro j hj hn
            have hjk : j ≠ k := by
              intro he
              subst he
              exact hn (mem_add.2 (Or.inl ⟨hq.1.symm, rfl⟩))
            have hn' : j ∉ s.actors (s.owner j) := fun hx => hn (mem_add.2 (Or.inr hx))
            have := unmade_pop hc (by simp [Ne.symm hjk]) (hi.unmade j hj hn')
            exact ⟨this.create, this.knows, this.task, this.call, this.order, this.result, this.confirmed⟩
          · intro a j hx
            rcases mem_add.1 hx with hx | hx
            · simp only [hx.2]; exact hq.2
            · exact hi.fresh a j hx
        | call k =>
          have hq := hi.calls p q k hmem
          have hmade : k ∈ s.actors q := by
            apply Classical.byContradiction
            intro hn
            rw [hq.1] at hn
            have hu := hi.unmade k hq.2 hn
            have h1 := hu.call p q hmem
            have h2 := hu.order
            rw [← h1, ← hq.1, hc] at h2
            exact h2.1 rfl
          simp only [State.handle, hmade, if_true] at h
          subst h
          refine inv_send (pop (by simp)) _ _ _ (by simp) (by simp) (by simp) ?_
          intro h' he
          injection he with he
          subst he
          exact ⟨hq.2, hq.1 ▸ hmade⟩
        | task k =>
          simp only [State.handle] at h
          subst h
          have hi' := pop (by simp)
          have hk := hi.tasks p q k hmem
          refine ⟨hi'.calls, hi'.creates, hi'.tasks, hi'.results, ?_, hi'.confirmed, ?_, hi'.fresh, hi'.safe⟩
          · intro a j hx
            rcases mem_add.1 hx with hx | hx
            · rw [hx.2]; exact hk
            · exact hi.knows a j hx
          · intro j hj hn
            have hu := hi'.unmade j hj hn
            refine ⟨hu.create, ?_, hu.task, hu.call, hu.order, hu.result, hu.confirmed⟩
            intro a hx
            rcases mem_add.1 hx with hx | hx
            · exact absurd (hx.2 ▸ hmem) ((hi.unmade j hj hn).task p q)
            · exact hu.knows a hx
        | result k =>
          simp only [State.handle] at h
          subst h
          have hi' := pop (by simp)
          have hk := hi.results p q k hmem
          refine ⟨hi'.calls, hi'.creates, hi'.tasks, hi'.results, hi'.knows, ?_, ?_, hi'.fresh, hi'.safe⟩
          · intro a j hx
            rcases mem_add.1 hx with hx | hx
            · rw [hx.2]; exact hk
            · exact hi.confirmed a j hx
          · intro j hj hn
            have hu := hi'.unmade j hj hn
            refine ⟨hu.create, hu.knows, hu.task, hu.call, hu.order, hu.result, ?_⟩
            intro a hx
            rcases mem_add.1 hx with hx | hx
            · exact absurd (hx.2 ▸ hmem) ((hi.unmade j hj hn).result p q)
            · exact hu.confirmed a hx

end Verif.ActorNet
