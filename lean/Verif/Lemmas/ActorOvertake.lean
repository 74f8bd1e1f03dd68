import Verif.Lemmas.ActorNet

/-! In every history the creation of an actor is under way exactly as long as the actor does not exist, ahead of all calls of
its creator. -/
namespace Verif.ActorNet

/-- What holds in every history. -/
structure Always (s : State) : Prop where
  creates : ∀ p q h, Msg.create h ∈ s.chan p q → p = s.creator h ∧ q = s.owner h ∧ h < s.next
  calls : ∀ p q h, Msg.call h ∈ s.chan p q → q = s.owner h ∧ h < s.next
  tasks : ∀ p q h, Msg.task h ∈ s.chan p q → h < s.next
  knows : ∀ p h, h ∈ s.knows p → h < s.next
  actors : ∀ q h, h ∈ s.actors q → h < s.next
  once : ∀ h, h < s.next → (h ∈ s.actors (s.owner h) ∧ Msg.create h ∉ s.chan (s.creator h) (s.owner h)) ∨
    (h ∉ s.actors (s.owner h) ∧ (s.chan (s.creator h) (s.owner h)).count (.create h) = 1 ∧
      Ordered h (s.chan (s.creator h) (s.owner h)))

theorem always_init : Always State.init := by
  constructor <;> simp [State.init]

theorem always_send {s : State} (hi : Always s) (p q : Nat) (m : Msg) (h1 : ∀ h, m = .call h → q = s.owner h ∧ h < s.next)
    (h2 : ∀ h, m ≠ .create h) (h3 : ∀ h, m = .task h → h < s.next) : Always (s.send p q m) where
  creates a b h hm := by
    rcases mem_send hm with hm | ⟨_, _, hx⟩
    · exact hi.creates a b h hm
    · exact absurd hx.symm (h2 h)
  calls a b h hm := by
    rcases mem_send hm with hm | ⟨_, hb, hx⟩
    · exact hi.calls a b h hm
    · exact ⟨hb ▸ (h1 h hx.symm).1, (h1 h hx.symm).2⟩
  tasks a b h hm := by
    rcases mem_send hm with hm | ⟨_, _, hx⟩
    · exact hi.tasks a b h hm
    · exact h3 h hx.symm
  knows := hi.knows
  actors := hi.actors
  once h hh := by
    rcases hi.once h hh with ⟨ha, hn⟩ | ⟨ha, hc, ho⟩
    · refine Or.inl ⟨ha, fun hm => ?_⟩
      rcases mem_send hm with hm | ⟨_, _, hx⟩
      · exact hn hm
      · exact h2 h hx.symm
    · have hpos : 0 < (s.chan (s.creator h) (s.owner h)).count (.create h) := by omega
      refine Or.inr ⟨ha, ?_, send_ordered ho fun _ _ _ => List.count_pos_iff.1 hpos⟩
      show ((s.send p q m).chan (s.creator h) (s.owner h)).count (.create h) = 1
      simp only [State.send]
      split
      · next he =>
        rw [List.count_append, ← he.1, ← he.2, hc, List.count_singleton, if_neg]
        simpa using h2 h
      · exact hc

theorem ordered_tail {h : Nat} {m : Msg} {l : List Msg} (hm : m ≠ .create h) (ho : Ordered h (m :: l)) : Ordered h l := by
  cases m with
  | create h' => exact ho.resolve_left fun e => hm (e ▸ rfl)
  | call h' => exact ho.2
  | task h' => exact ho
  | result h' => exact ho

/-- A process takes the next message, which is not a creation. -/
theorem always_pop {s : State} {p q : Nat} {m : Msg} {l : List Msg} (hc : s.chan p q = m :: l) (hm : ∀ h, m ≠ .create h)
    (hi : Always s) : Always { s with chan := fun a b => if a = p ∧ b = q then l else s.chan a b } := by
  have sub : ∀ a b x, x ∈ (if a = p ∧ b = q then l else s.chan a b) → x ∈ s.chan a b := by
    intro a b x hx
    split at hx
    · next he => rw [he.1, he.2, hc]; exact List.mem_cons_of_mem _ hx
    · exact hx
  refine ⟨fun a b h hx => hi.creates a b h (sub a b _ hx), fun a b h hx => hi.calls a b h (sub a b _ hx),
    fun a b h hx => hi.tasks a b h (sub a b _ hx), hi.knows, hi.actors, fun h hh => ?_⟩
  rcases hi.once h hh with ⟨ha, hn⟩ | ⟨ha, hc', ho⟩
  · exact Or.inl ⟨ha, fun hx => hn (sub _ _ _ hx)⟩
  · refine Or.inr ⟨ha, ?_⟩
    show (if s.creator h = p ∧ s.owner h = q then l else s.chan (s.creator h) (s.owner h)).count _ = 1 ∧
      Ordered h (if s.creator h = p ∧ s.owner h = q then l else s.chan (s.creator h) (s.owner h))
    split
    · next he =>
      rw [he.1, he.2, hc] at hc' ho
      refine ⟨?_, ordered_tail (hm h) ho⟩
      rw [List.count_cons, if_neg (by simpa using hm h)] at hc'
      exact hc'
    · exact ⟨hc', ho⟩

/-- The owner handles the creation. -/
theorem always_create {s : State} {p q k : Nat} {l : List Msg} (hc : s.chan p q = .create k :: l) (hi : Always s) :
    Always ({ s with chan := fun a b => if a = p ∧ b = q then l else s.chan a b }.handle p q (.create k)) := by
  obtain ⟨rfl, rfl, hk⟩ := hi.creates p q k (by rw [hc]; exact List.mem_cons_self)
  have sub : ∀ a b x, x ∈ (if a = s.creator k ∧ b = s.owner k then l else s.chan a b) → x ∈ s.chan a b := by
    intro a b x hx
    split at hx
    · next he => rw [he.1, he.2, hc]; exact List.mem_cons_of_mem _ hx
    · exact hx
  refine ⟨fun a b h hx => hi.creates a b h (sub a b _ hx), fun a b h hx => hi.calls a b h (sub a b _ hx),
    fun a b h hx => hi.tasks a b h (sub a b _ hx), hi.knows, fun a h hx => ?_, fun h hh => ?_⟩
  · rcases mem_add.1 hx with ⟨_, rfl⟩ | hx
    · exact hk
    · exact hi.actors a h hx
  · show (h ∈ add s.actors (s.owner k) k (s.owner h) ∧ Msg.create h ∉
        (if s.creator h = s.creator k ∧ s.owner h = s.owner k then l else s.chan (s.creator h) (s.owner h))) ∨
      (h ∉ add s.actors (s.owner k) k (s.owner h) ∧
        (if s.creator h = s.creator k ∧ s.owner h = s.owner k then l else s.chan (s.creator h) (s.owner h)).count _ = 1 ∧
        Ordered h (if s.creator h = s.creator k ∧ s.owner h = s.owner k then l else s.chan (s.creator h) (s.owner h)))
    by_cases he : h = k
    · subst he
      refine Or.inl ⟨mem_add.2 (Or.inl ⟨rfl, rfl⟩), ?_⟩
      rcases hi.once h hh with ⟨_, hn⟩ | ⟨_, hc', _⟩
      · exact absurd (by rw [hc]; exact List.mem_cons_self) hn
      · rw [hc, List.count_cons_self] at hc'
        simp only [and_self, if_true]
        exact List.count_eq_zero.1 (by omega)
    · have hm : h ∈ add s.actors (s.owner k) k (s.owner h) ↔ h ∈ s.actors (s.owner h) := by
        rw [mem_add]; simp [he]
      rcases hi.once h hh with ⟨ha, hn⟩ | ⟨ha, hc', ho⟩
      · exact Or.inl ⟨hm.2 ha, fun hx => hn (sub _ _ _ hx)⟩
      · refine Or.inr ⟨fun hx => ha (hm.1 hx), ?_⟩
        split
        · next hq =>
          rw [hq.1, hq.2, hc] at hc' ho
          have hne : Msg.create k ≠ .create h := fun e => he (by cases e; rfl)
          refine ⟨?_, ordered_tail hne ho⟩
          rw [List.count_cons, if_neg (by simpa using hne)] at hc'
          exact hc'
        · exact ⟨hc', ho⟩

theorem always_congr {s t : State} (hi : Always s) (h1 : t.chan = s.chan) (h2 : t.actors = s.actors)
    (h3 : ∀ p h, h ∈ t.knows p → h < s.next) (h4 : t.owner = s.owner) (h5 : t.creator = s.creator) (h6 : t.next = s.next) :
    Always t := by
  obtain ⟨a, b, c, d, e, f⟩ := hi
  refine ⟨?_, ?_, ?_, ?_, ?_, ?_⟩
  · rw [h1, h4, h5, h6]; exact a
  · rw [h1, h4, h6]; exact b
  · rw [h1, h6]; exact c
  · rw [h6]; exact h3
  · rw [h2, h6]; exact e
  · rw [h1, h2, h4, h5, h6]; exact f

theorem always_new {s : State} (hi : Always s) (p dst : Nat) :
    Always { s.send p dst (.create s.next) with
      owner := fun h => if h = s.next then dst else s.owner h
      creator := fun h => if h = s.next then p else s.creator h
      knows := add s.knows p s.next
      next := s.next + 1 } := by
  refine ⟨fun a b h hx => ?_, fun a b h hx => ?_, fun a b h hx => ?_, fun a h hx => ?_, fun a h hx => ?_, fun h hh => ?_⟩
  · rcases mem_send hx with hx | ⟨e1, e2, e3⟩
    · obtain ⟨e1, e2, e3⟩ := hi.creates a b h hx
      have : h ≠ s.next := by omega
      simp only [this, if_false]
      exact ⟨e1, e2, by omega⟩
    · simp only [Msg.create.injEq] at e3
      simp [e1, e2, e3]
  · rcases mem_send hx with hx | ⟨_, _, hx⟩
    · obtain ⟨e2, e3⟩ := hi.calls a b h hx
      have : h ≠ s.next := by omega
      simp only [this, if_false]
      exact ⟨e2, by omega⟩
    · cases hx
  · rcases mem_send hx with hx | ⟨_, _, hx⟩
    · have := hi.tasks a b h hx
      show h < s.next + 1
      omega
    · cases hx
  · show h < s.next + 1
    rcases mem_add.1 hx with ⟨_, rfl⟩ | hx
    · omega
    · have := hi.knows a h hx; omega
  · show h < s.next + 1
    have := hi.actors a h hx; omega
  · have hh' : h < s.next + 1 := hh
    by_cases he : h = s.next
    · subst he
      refine Or.inr ?_
      simp only [if_true]
      refine ⟨fun hx => absurd (hi.actors _ _ hx) (by omega), ?_⟩
      have hno : Msg.create s.next ∉ s.chan p dst := fun hx => absurd (hi.creates _ _ _ hx).2.2 (by omega)
      have hno2 : Msg.call s.next ∉ s.chan p dst := fun hx => absurd (hi.calls _ _ _ hx).2 (by omega)
      have : (s.send p dst (.create s.next)).chan p dst = s.chan p dst ++ [.create s.next] := by simp [State.send]
      rw [this]
      refine ⟨by rw [List.count_append, List.count_eq_zero.2 hno]; simp, ?_⟩
      have ord : ∀ l : List Msg, Msg.call s.next ∉ l → Ordered s.next (l ++ [.create s.next]) := by
        intro l
        induction l with
        | nil => intro _; exact Or.inl rfl
        | cons m l ih =>
          intro hl
          have ih := ih fun hx => hl (List.mem_cons_of_mem _ hx)
          cases m with
          | create k => exact Or.inr ih
          | call k => exact ⟨fun e => hl (by rw [e]; exact List.mem_cons_self), ih⟩
          | task k => exact ih
          | result k => exact ih
      exact ord _ hno2
    · have hlt : h < s.next := by omega
      have hne : Msg.create s.next ≠ Msg.create h := fun e => he (by cases e; rfl)
      simp only [he, if_false]
      rcases hi.once h hlt with ⟨ha, hn⟩ | ⟨ha, hc, ho⟩
      · refine Or.inl ⟨ha, fun hx => ?_⟩
        rcases mem_send hx with hx | ⟨_, _, hx⟩
        · exact hn hx
        · exact hne hx.symm
      · refine Or.inr ⟨ha, ?_, send_ordered ho fun _ _ e => by cases e⟩
        show ((s.send p dst (.create s.next)).chan (s.creator h) (s.owner h)).count (.create h) = 1
        simp only [State.send]
        split
        · next hq =>
          rw [List.count_append, ← hq.1, ← hq.2, hc, List.count_singleton, if_neg]
          simpa using hne
        · exact hc

theorem always_step {s s' : State} (a : Act) (hi : Always s) (h : s.step a = some s') : Always s' := by
  cases a with
  | new p dst =>
    simp only [State.step] at h
    split at h
    · cases h
    · cases h
      exact always_new hi p dst
  | use p k =>
    simp only [State.step] at h
    split at h
    · cases h
    · next hk =>
      cases h
      have hk : k ∈ s.knows p := Classical.byContradiction fun e => hk (Or.inr e)
      exact always_send hi _ _ _ (fun h e => by cases e; exact ⟨rfl, hi.knows p k hk⟩) (fun h e => by cases e)
        (fun h e => by cases e)
  | pass p q k =>
    simp only [State.step] at h
    split at h
    · cases h
    · next hk =>
      cases h
      have hk : k ∈ s.knows p := Classical.byContradiction fun e => hk (Or.inr e)
      exact always_send hi _ _ _ (fun h e => by cases e) (fun h e => by cases e)
        (fun h e => by cases e; exact hi.knows p k hk)
  | deliver p q =>
    simp only [State.step] at h
    split at h
    · cases h
    · next m l hc =>
      split at h
      · cases h
      · cases h
        cases m with
        | create k => exact always_create hc hi
        | call k =>
          have hp := always_pop hc (fun h e => by cases e) hi
          simp only [State.handle]
          split
          · exact always_send hp _ _ _ (fun h e => by cases e) (fun h e => by cases e) (fun h e => by cases e)
          · exact always_congr hp rfl rfl hp.knows rfl rfl rfl
        | task k =>
          have hp := always_pop hc (fun h e => by cases e) hi
          have hk : k < s.next := hi.tasks p q k (by rw [hc]; exact List.mem_cons_self)
          refine always_congr hp rfl rfl (fun a x hx => ?_) rfl rfl rfl
          rcases mem_add.1 hx with ⟨_, rfl⟩ | hx
          · exact hk
          · exact hp.knows a x hx
        | result k =>
          have hp := always_pop hc (fun h e => by cases e) hi
          exact always_congr hp rfl rfl hp.knows rfl rfl rfl

theorem always_run {s s' : State} (acts : List Act) (hi : Always s) (h : s.run acts = some s') : Always s' := by
  induction acts generalizing s with
  | nil => simp only [State.run, Option.some.injEq] at h; exact h ▸ hi
  | cons a as ih =>
    rw [State.run] at h
    split at h
    · next s1 h1 => exact ih (always_step a hi h1) h
    · cases h

end Verif.ActorNet
