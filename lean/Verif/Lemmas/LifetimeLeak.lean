import Verif.Lemmas.LifetimeTraffic

/-! What is left of an object after a cleanup in `Verif.Model.Lifetime`. -/
namespace Verif.Lifetime

/-- Messages that make a worker know a reference. -/
def IsPush (m : Msg) : Prop := (∃ i, m = .data i) ∨ ∃ i o, m = .owner i o

/-- Every such message in a channel is followed by a task. -/
def Followed : List Msg → Prop
  | [] => True
  | m :: r => (IsPush m → ∃ t, Msg.task t ∈ r) ∧ Followed r

theorem followed_quiet {a b : List Msg} (ha : Followed a) (hb : ∀ m ∈ b, ¬ IsPush m) : Followed (a ++ b) := by
  induction a with
  | nil =>
    induction b with
    | nil => trivial
    | cons m b ih => exact ⟨fun h => absurd h (hb m List.mem_cons_self), ih fun x hx => hb x (List.mem_cons_of_mem _ hx)⟩
  | cons m a ih =>
    refine ⟨fun h => ?_, ih ha.2⟩
    obtain ⟨t, ht⟩ := ha.1 h
    exact ⟨t, List.mem_append_left _ ht⟩

theorem followed_task (a : List Msg) (t : Task) : Followed (a ++ [.task t]) := by
  induction a with
  | nil =>
    refine ⟨fun h => ?_, trivial⟩
    rcases h with ⟨i, e⟩ | ⟨i, o, e⟩ <;> cases e
  | cons m a ih => exact ⟨fun _ => ⟨t, by simp⟩, ih⟩

theorem followed_none {c : List Msg} (h : Followed c) (hn : ∀ t, Msg.task t ∉ c) : ∀ m ∈ c, ¬ IsPush m := by
  induction c with
  | nil => intro m hm; cases hm
  | cons x c ih =>
    intro m hm hp
    rcases List.mem_cons.1 hm with e | e
    · subst e
      obtain ⟨t, ht⟩ := h.1 hp
      exact hn t (List.mem_cons_of_mem _ ht)
    · exact ih h.2 (fun t ht => hn t (List.mem_cons_of_mem _ ht)) m e hp

/-- How many replies for a reference a process waits for. -/
def need (s : Sys) (W i : Nat) : Nat := if W = 0 then s.waiting.count i else bit (s.worker W).asked i

structure Leak (s : Sys) : Prop where
  wsNet : ∀ x y m, (x, y, m) ∈ s.net → y = 0 ∨ y ∈ s.ws
  askMsg : ∀ x y i z, (x, y, Msg.ask i z) ∈ s.net → z = x ∧ x ≠ y ∧ s.owner i = some y ∧ (x = 0 ∨ x ∈ s.ws)
  asksOk : ∀ w, ∀ a ∈ (s.worker w).asks, a.2 ≠ w ∧ s.owner a.1 = some w ∧ (a.2 = 0 ∨ a.2 ∈ s.ws) ∧ a.1 ∉ (s.worker w).data
  dataMsg : ∀ x y i, (x, y, Msg.data i) ∈ s.net → (x = 0 ∧ s.owner i = none ∧ i < s.next) ∨ (s.owner i = some x ∧ x ≠ y)
  tok : ∀ i W o, s.owner i = some o →
    s.net.count (W, o, Msg.ask i W) + (s.worker o).asks.count (i, W) + s.net.count (o, W, Msg.data i) ≤ need s W i
  asked : ∀ w, ∀ j ∈ (s.worker w).asked, j ∉ (s.worker w).data ∧ (∃ t ∈ (s.worker w).tasks, j ∈ t.args) ∧ s.owner j ≠ some w
  waitHeld : ∀ i ∈ s.waiting, i ∈ s.held
  empty : ∀ w, w ∉ s.ws → (s.worker w).strong = []
  swept : ∀ w, (∀ i ∈ (s.worker w).data, (s.worker w).alive i = true) ∧ (∀ e ∈ (s.worker w).owners, (s.worker w).alive e.1 = true) ∧
    ∀ e ∈ (s.worker w).sent, (s.worker w).alive e.1 = true
  follow : ∀ w, Followed (chan 0 w s.net)
  noPush : ∀ i ∈ s.cleaned, ∀ w, (0, w, Msg.data i) ∉ s.net ∧ ∀ o, (0, w, Msg.owner i o) ∉ s.net
  strongClean : ∀ i ∈ s.cleaned, ∀ w, i ∈ (s.worker w).strong → ∃ ids, i ∈ ids ∧ (0, w, Msg.clean ids) ∈ s.net

theorem leak_init (ws : List Nat) : Leak (Sys.init ws) where
  wsNet := by simp [Sys.init]
  askMsg := by simp [Sys.init]
  asksOk := by simp [Sys.init, Proc.init]
  dataMsg := by simp [Sys.init]
  tok := by simp [Sys.init]
  asked := by simp [Sys.init, Proc.init]
  waitHeld := by simp [Sys.init]
  empty := by simp [Sys.init, Proc.init]
  swept := by simp [Sys.init, Proc.init]
  follow := by simp [Sys.init, chan, Followed]
  noPush := by simp [Sys.init]
  strongClean := by simp [Sys.init]

theorem leak_put {s s' : Sys} (hl : Leak s) (h : s.step .put = some s') : Leak s' := by
  simp only [Sys.step] at h
  split at h
  · cases h
  · cases h
    refine { hl with dataMsg := ?_, waitHeld := fun i hx => List.mem_cons_of_mem _ (hl.waitHeld i hx) }
    intro x y i hx
    rcases hl.dataMsg x y i hx with ⟨a, b, c⟩ | h
    · exact Or.inl ⟨a, b, Nat.lt_succ_of_lt c⟩
    · exact Or.inr h

theorem leak_drop {s s' : Sys} {i : Nat} (hl : Leak s) (h : s.step (.drop i) = some s') : Leak s' := by
  simp only [Sys.step] at h
  split at h
  · cases h
  · rename_i hc
    have hw : s.waiting = [] := by
      apply Classical.byContradiction
      intro hn
      exact hc (Or.inl hn)
    cases h
    refine { hl with waitHeld := ?_ }
    intro j hj
    have hj : j ∈ s.waiting := hj
    rw [hw] at hj; cases hj

theorem leak_report {s s' : Sys} (hl : Leak s) (h : s.step .report = some s') : Leak s' := by
  simp only [Sys.step] at h
  split at h
  · cases h
  · cases h
    exact { hl with }

theorem map_count_le (own : Nat → Option Nat) (l : List Nat) (i o : Nat) :
    (l.map (fun i => ((0, (own i).getD 0, Msg.ask i 0) : Nat × Nat × Msg))).count (0, o, Msg.ask i 0) ≤ l.count i := by
  induction l with
  | nil => simp
  | cons a l ih =>
    simp only [List.map_cons, List.count_cons]
    by_cases h : a = i
    · subst h
      simp only [BEq.rfl, if_true]
      split <;> omega
    · have : ((0, (own a).getD 0, Msg.ask a 0) == ((0, o, Msg.ask i 0) : Nat × Nat × Msg)) = false := by
        simp only [beq_eq_false_iff_ne, ne_eq, Prod.mk.injEq, Msg.ask.injEq]
        rintro ⟨-, -, e, -⟩
        exact h e
      rw [this]
      simp
      omega

theorem count_append_zero {α : Type} [BEq α] [LawfulBEq α] (a b : List α) (x : α) (h : x ∉ b) : (a ++ b).count x = a.count x := by
  rw [List.count_append, List.count_eq_zero.2 h, Nat.add_zero]

theorem leak_get {s s' : Sys} {ids : List Nat} (hi : Inv s) (hl : Leak s) (h : s.step (.get ids) = some s') : Leak s' := by
  simp only [Sys.step] at h
  split at h
  · cases h
  · rename_i hc
    simp only [ne_eq, not_or, Classical.not_not, List.any_eq_true, decide_eq_true_eq, not_exists, not_and] at hc
    obtain ⟨hw, hids⟩ := hc
    cases h
    generalize hf : ids.filter (fun i => i ∉ s.stored) = far
    have hfar : ∀ i ∈ far, i ∈ s.held ∧ i ∉ s.stored := by
      intro i hx
      rw [← hf] at hx
      obtain ⟨h1, h2⟩ := List.mem_filter.1 hx
      exact ⟨hids i h1, by simpa using h2⟩
    have hmem : ∀ x y m, (x, y, m) ∈ far.map (fun i => ((0, (s.owner i).getD 0, Msg.ask i 0) : Nat × Nat × Msg)) →
        ∃ i ∈ far, x = 0 ∧ s.owner i = some y ∧ y ∈ s.ws ∧ m = .ask i 0 := by
      intro x y m hx
      obtain ⟨i, h1, e⟩ := List.mem_map.1 hx
      cases e
      obtain ⟨g1, g2⟩ := hfar i h1
      cases ho : s.owner i with
      | none =>
        rcases hi.heldKnown i g1 with k | k
        · exact absurd k g2
        · exact absurd ho k
      | some o => exact ⟨i, h1, rfl, by rw [ho]; rfl, (hi.ownerFresh i o ho).2, rfl⟩
    refine { wsNet := ?_, askMsg := ?_, asksOk := hl.asksOk, dataMsg := ?_, tok := ?_, asked := hl.asked, waitHeld := fun i hx => (hfar i hx).1, empty := hl.empty, swept := hl.swept, follow := ?_, noPush := ?_, strongClean := ?_ }
    · intro x y m hx
      rcases List.mem_append.1 hx with h | h
      · exact hl.wsNet x y m h
      · obtain ⟨i, -, -, -, k, -⟩ := hmem x y m h
        exact Or.inr k
    · intro x y i z hx
      rcases List.mem_append.1 hx with h | h
      · exact hl.askMsg x y i z h
      · obtain ⟨j, -, k1, k2, k3, k4⟩ := hmem _ _ _ h
        cases k4
        subst k1
        exact ⟨rfl, fun e => hi.zero (e ▸ k3), k2, Or.inl rfl⟩
    · intro x y i hx
      rcases List.mem_append.1 hx with h | h
      · exact hl.dataMsg x y i h
      · obtain ⟨j, -, -, -, -, k4⟩ := hmem _ _ _ h
        cases k4
    · intro i W o ho
      have := hl.tok i W o ho
      have hd : (o, W, Msg.data i) ∉ far.map (fun i => ((0, (s.owner i).getD 0, Msg.ask i 0) : Nat × Nat × Msg)) := by
        intro hx
        obtain ⟨j, -, -, -, -, k4⟩ := hmem _ _ _ hx
        cases k4
      show (s.net ++ far.map (fun i => ((0, (s.owner i).getD 0, Msg.ask i 0) : Nat × Nat × Msg))).count (W, o, Msg.ask i W) + (s.worker o).asks.count (i, W) +
        (s.net ++ far.map (fun i => ((0, (s.owner i).getD 0, Msg.ask i 0) : Nat × Nat × Msg))).count (o, W, Msg.data i) ≤
        (if W = 0 then far.count i else bit (s.worker W).asked i)
      rw [count_append_zero _ _ _ hd]
      unfold need at this
      by_cases hW : W = 0
      · subst hW
        rw [if_pos rfl] at this ⊢
        rw [hw] at this
        rw [List.count_append]
        have := map_count_le s.owner far i o
        simp only [List.count_nil] at *
        omega
      · rw [if_neg hW] at this ⊢
        rw [count_append_zero]
        · exact this
        · intro hx
          obtain ⟨j, -, k1, -, -, -⟩ := hmem _ _ _ hx
          exact hW k1
    · intro w
      rw [chan_append]
      refine followed_quiet (hl.follow w) ?_
      intro m hm hp
      obtain ⟨j, -, -, -, -, k4⟩ := hmem _ _ _ (mem_chan.1 hm)
      subst k4
      rcases hp with ⟨i, e⟩ | ⟨i, o, e⟩ <;> cases e
    · intro i hx w
      have := hl.noPush i hx w
      refine ⟨fun hin => ?_, fun o hin => ?_⟩
      · rcases List.mem_append.1 hin with h | h
        · exact this.1 h
        · obtain ⟨j, -, -, -, -, k4⟩ := hmem _ _ _ h
          cases k4
      · rcases List.mem_append.1 hin with h | h
        · exact this.2 o h
        · obtain ⟨j, -, -, -, -, k4⟩ := hmem _ _ _ h
          cases k4
    · intro i hx w hs
      obtain ⟨ids, h1, h2⟩ := hl.strongClean i hx w hs
      exact ⟨ids, h1, List.mem_append_left _ h2⟩

theorem leak_cleanup {s s' : Sys} (hi : Inv s) (hl : Leak s) (h : s.step .cleanup = some s') : Leak s' := by
  simp only [Sys.step] at h
  split at h
  · cases h
  · rename_i hc
    simp only [ne_eq, not_or, Classical.not_not] at hc
    cases h
    have hno := no_unfinished hi hc.2
    have hmem : ∀ x y m, (x, y, m) ∈ s.ws.map (fun w => ((0, w, Msg.clean s.queue) : Nat × Nat × Msg)) → x = 0 ∧ y ∈ s.ws ∧ m = .clean s.queue := by
      intro x y m hx
      obtain ⟨w, h1, e⟩ := List.mem_map.1 hx
      cases e
      exact ⟨rfl, h1, rfl⟩
    have hpush : ∀ w, ∀ m, (0, w, m) ∈ s.net ++ s.ws.map (fun w => ((0, w, Msg.clean s.queue) : Nat × Nat × Msg)) → ¬ IsPush m := by
      intro w m hx hp
      rcases List.mem_append.1 hx with h | h
      · exact followed_none (hl.follow w) (fun t ht => hno w t (Or.inl (mem_chan.1 ht))) m (mem_chan.2 h) hp
      · obtain ⟨-, -, e⟩ := hmem _ _ _ h
        subst e
        rcases hp with ⟨i, e⟩ | ⟨i, o, e⟩ <;> cases e
    refine { wsNet := ?_, askMsg := ?_, asksOk := hl.asksOk, dataMsg := ?_, tok := ?_, asked := hl.asked, waitHeld := hl.waitHeld, empty := hl.empty, swept := hl.swept, follow := ?_, noPush := ?_, strongClean := ?_ }
    · intro x y m hx
      rcases List.mem_append.1 hx with h | h
      · exact hl.wsNet x y m h
      · exact Or.inr (hmem _ _ _ h).2.1
    · intro x y i z hx
      rcases List.mem_append.1 hx with h | h
      · exact hl.askMsg x y i z h
      · have := (hmem _ _ _ h).2.2; cases this
    · intro x y i hx
      rcases List.mem_append.1 hx with h | h
      · exact hl.dataMsg x y i h
      · have := (hmem _ _ _ h).2.2; cases this
    · intro i W o ho
      have := hl.tok i W o ho
      show (s.net ++ s.ws.map (fun w => ((0, w, Msg.clean s.queue) : Nat × Nat × Msg))).count (W, o, Msg.ask i W) + (s.worker o).asks.count (i, W) +
        (s.net ++ s.ws.map (fun w => ((0, w, Msg.clean s.queue) : Nat × Nat × Msg))).count (o, W, Msg.data i) ≤ need s W i
      rw [count_append_zero, count_append_zero]
      · exact this
      · intro h; have := (hmem _ _ _ h).2.2; cases this
      · intro h; have := (hmem _ _ _ h).2.2; cases this
    · intro w
      rw [chan_append]
      refine followed_quiet (hl.follow w) ?_
      intro m hm hp
      have := (hmem _ _ _ (mem_chan.1 hm)).2.2
      subst this
      rcases hp with ⟨i, e⟩ | ⟨i, o, e⟩ <;> cases e
    · intro i _ w
      exact ⟨fun h => hpush w _ h (Or.inl ⟨i, rfl⟩), fun o h => hpush w _ h (Or.inr ⟨i, o, rfl⟩)⟩
    · intro i hx w hs
      rcases List.mem_append.1 hx with h | h
      · obtain ⟨ids, h1, h2⟩ := hl.strongClean i h w hs
        exact ⟨ids, h1, List.mem_append_left _ h2⟩
      · refine ⟨s.queue, h, List.mem_append_right _ (List.mem_map.2 ⟨w, ?_, rfl⟩)⟩
        apply Classical.byContradiction
        intro hw
        have hs : i ∈ (s.worker w).strong := hs
        rw [hl.empty w hw] at hs; cases hs

theorem leak_submit {s s' : Sys} {args : List Nat} {n d : Nat} (hi : Inv s) (hl : Leak s)
    (hf : ∀ a ∈ args, a ∈ s.stored → s.owner a = none) (h : s.step (.submit args n d false) = some s') : Leak s' := by
  simp only [Sys.step] at h
  split at h
  · cases h
  · rename_i hc
    simp only [ne_eq, not_or, Classical.not_not, List.any_eq_true, decide_eq_true_eq, not_exists, not_and] at hc
    obtain ⟨hw, hd, hargs⟩ := hc
    simp only [Bool.false_eq_true, if_false, Option.some.injEq] at h
    generalize houts : List.range' s.next n = outs at h
    have ho : ∀ i, i ∈ outs ↔ s.next ≤ i ∧ i < s.next + n := by intro i; rw [← houts, List.mem_range'_1]
    obtain ⟨L, sn, e, p1, p2, p3, p4⟩ := pushes_spec d args { s with next := s.next + n, held := outs ++ s.held, owner := fun i => if i ∈ outs then some d else s.owner i }
    rw [e] at h
    simp only at h p1 p2 p3 p4
    have hold : ∀ i, i < s.next → i ∉ outs := fun i hi h => by have := (ho i).1 h; omega
    have hargsN : ∀ i ∈ args, i < s.next := fun i h => hi.fresh i (Or.inl (hargs i h))
    have hown : ∀ i o, s.owner i = some o → (if i ∈ outs then some d else s.owner i) = some o := by
      intro i o h
      rw [if_neg (hold i (hi.ownerFresh i o h).1)]; exact h
    subst h
    have hnew : ∀ x y m, (x, y, m) ∈ L ++ [(0, d, Msg.task ⟨args, outs, false⟩)] → x = 0 ∧ y = d ∧
        ((∃ i ∈ args, i ∈ s.stored ∧ m = .data i) ∨ (∃ i ∈ args, ∃ o, m = .owner i o) ∨ m = .task ⟨args, outs, false⟩) := by
      intro x y m hx
      rcases List.mem_append.1 hx with h | h
      · obtain ⟨a, b, c⟩ := p1 _ h
        refine ⟨a, b, ?_⟩
        rcases c with ⟨i, h1, h2, h3, -⟩ | ⟨i, h1, o, -, -, h2⟩
        · exact Or.inl ⟨i, h1, h2, h3⟩
        · exact Or.inr (Or.inl ⟨i, h1, o, h2⟩)
      · have := List.mem_singleton.1 h
        cases this
        exact ⟨rfl, rfl, Or.inr (Or.inr rfl)⟩
    have hcases : ∀ x y m, (x, y, m) ∈ s.net ++ L ++ [(0, d, Msg.task ⟨args, outs, false⟩)] → (x, y, m) ∈ s.net ∨ (x = 0 ∧ y = d ∧
        ((∃ i ∈ args, i ∈ s.stored ∧ m = .data i) ∨ (∃ i ∈ args, ∃ o, m = .owner i o) ∨ m = .task ⟨args, outs, false⟩)) := by
      intro x y m hx
      rw [List.append_assoc] at hx
      rcases List.mem_append.1 hx with h | h
      · exact Or.inl h
      · exact Or.inr (hnew x y m h)
    refine { wsNet := ?_, askMsg := ?_, asksOk := ?_, dataMsg := ?_, tok := ?_, asked := ?_, waitHeld := ?_, empty := hl.empty, swept := hl.swept, follow := ?_, noPush := ?_, strongClean := ?_ }
    · intro x y m hx
      rcases hcases x y m hx with h | ⟨-, e, -⟩
      · exact hl.wsNet x y m h
      · exact Or.inr (e ▸ hd)
    · intro x y i z hx
      rcases hcases _ _ _ hx with h | ⟨-, -, ⟨j, -, -, k⟩ | ⟨j, -, o, k⟩ | k⟩
      · obtain ⟨g1, g2, g3, g4⟩ := hl.askMsg x y i z h
        exact ⟨g1, g2, hown i y g3, g4⟩
      · cases k
      · cases k
      · cases k
    · intro w a ha
      obtain ⟨g1, g2, g3, g4⟩ := hl.asksOk w a ha
      exact ⟨g1, hown _ _ g2, g3, g4⟩
    · intro x y i hx
      rcases hcases _ _ _ hx with h | ⟨k0, -, ⟨j, h1, h2, k⟩ | ⟨j, -, o, k⟩ | k⟩
      · rcases hl.dataMsg x y i h with ⟨a, b, c⟩ | ⟨a, b⟩
        · left
          refine ⟨a, ?_, Nat.lt_add_right _ c⟩
          show (if i ∈ outs then some d else s.owner i) = none
          rw [if_neg (hold i c)]; exact b
        · exact Or.inr ⟨hown i x a, b⟩
      · cases k
        left
        refine ⟨k0, ?_, Nat.lt_add_right _ (hargsN i h1)⟩
        show (if i ∈ outs then some d else s.owner i) = none
        rw [if_neg (hold i (hargsN i h1))]; exact hf i h1 h2
      · cases k
      · cases k
    · intro i W o hio
      have hio : (if i ∈ outs then some d else s.owner i) = some o := hio
      have how : o ∈ s.ws := by
        split at hio
        · cases hio; exact hd
        · exact (hi.ownerFresh i o hio).2
      have ho0 : o ≠ 0 := fun e => hi.zero (e ▸ how)
      show (s.net ++ L ++ [(0, d, Msg.task ⟨args, outs, false⟩)]).count (W, o, Msg.ask i W) + (s.worker o).asks.count (i, W) +
        (s.net ++ L ++ [(0, d, Msg.task ⟨args, outs, false⟩)]).count (o, W, Msg.data i) ≤ need s W i
      rw [List.append_assoc, count_append_zero, count_append_zero]
      · split at hio
        · rename_i hx
          have hnone : s.owner i = none := by
            cases hy : s.owner i with
            | none => rfl
            | some y => exact absurd hx (hold i (hi.ownerFresh i y hy).1)
          have c1 : s.net.count (W, o, Msg.ask i W) = 0 := by
            rw [List.count_eq_zero]
            intro h
            have := (hl.askMsg _ _ _ _ h).2.2.1
            rw [hnone] at this; cases this
          have c2 : (s.worker o).asks.count (i, W) = 0 := by
            rw [List.count_eq_zero]
            intro h
            have := (hl.asksOk _ _ h).2.1
            rw [hnone] at this; cases this
          have c3 : s.net.count (o, W, Msg.data i) = 0 := by
            rw [List.count_eq_zero]
            intro h
            rcases hl.dataMsg _ _ _ h with ⟨a, -, -⟩ | ⟨a, -⟩
            · exact ho0 a
            · rw [hnone] at a; cases a
          omega
        · exact hl.tok i W o hio
      · intro h
        exact ho0 (hnew _ _ _ h).1
      · intro h
        rcases (hnew _ _ _ h).2.2 with ⟨j, -, -, k⟩ | ⟨j, -, o, k⟩ | k <;> cases k
    · intro w j hj
      obtain ⟨g1, ⟨t, ht, hx⟩, g3⟩ := hl.asked w j hj
      refine ⟨g1, ⟨t, ht, hx⟩, ?_⟩
      show (if j ∈ outs then some d else s.owner j) ≠ some w
      rw [if_neg]
      · exact g3
      · -- an argument of a held back task is not new
        intro hjo
        have hk := hi.known w t ht j hx
        rcases hk.2 with k | k
        · exact g1 k
        · cases hlk : (s.worker w).owners.lookup j with
          | none => exact k hlk
          | some o => exact hold j (hi.ownerFresh j o (hi.ownersTrue w _ (lookup_mem hlk))).1 hjo
    · intro i hx
      have hx : i ∈ s.waiting := hx
      rw [hw] at hx; cases hx
    · intro w
      rw [chan_append]
      by_cases hwd : w = d
      · subst hwd
        have : chan 0 w [(0, w, Msg.task ⟨args, outs, false⟩)] = [.task ⟨args, outs, false⟩] := by simp [chan]
        rw [this]
        exact followed_task _ _
      · rw [chan_append, chan_none (l := L), List.append_nil, chan_none (l := [_]), List.append_nil]
        · exact hl.follow w
        · intro x hx
          rw [List.mem_singleton.1 hx]
          rintro ⟨-, e⟩
          exact hwd e.symm
        · intro x hx
          rintro ⟨-, e⟩
          exact hwd (e.symm.trans (p1 x hx).2.1)
    · intro i hx w
      have hni : i ∉ args := fun h => (hi.gone i (hargs i h)).2 hx
      refine ⟨fun h => ?_, fun o h => ?_⟩
      · rcases hcases _ _ _ h with h | ⟨-, -, ⟨j, h1, -, k⟩ | ⟨j, -, o, k⟩ | k⟩
        · exact (hl.noPush i hx w).1 h
        · cases k; exact hni h1
        · cases k
        · cases k
      · rcases hcases _ _ _ h with h | ⟨-, -, ⟨j, h1, -, k⟩ | ⟨j, h1, o, k⟩ | k⟩
        · exact (hl.noPush i hx w).2 o h
        · cases k
        · cases k; exact hni h1
        · cases k
    · intro i hx w hs
      obtain ⟨ids, h1, h2⟩ := hl.strongClean i hx w hs
      exact ⟨ids, h1, List.mem_append_left _ (List.mem_append_left _ h2)⟩

theorem takeMsg_count {s d : Nat} {net rest : List (Nat × Nat × Msg)} {m : Msg} (h : takeMsg s d net = some (m, rest)) (x : Nat × Nat × Msg) :
    net.count x = rest.count x + (if x = (s, d, m) then 1 else 0) := by
  obtain ⟨pre, post, rfl, rfl, -⟩ := takeMsg_spec h
  simp only [List.count_append, List.count_cons]
  by_cases hx : x = (s, d, m)
  · subst hx; simp; omega
  · have : ((s, d, m) == x) = false := by
      simp only [beq_eq_false_iff_ne, ne_eq]
      exact fun e => hx e.symm
    rw [this, if_neg hx]; simp

theorem followed_tail {src d w : Nat} {net rest : List (Nat × Nat × Msg)} {m : Msg} (h : takeMsg src d net = some (m, rest))
    (hf : Followed (chan 0 w net)) : Followed (chan 0 w rest) := by
  by_cases hw : src = 0 ∧ d = w
  · obtain ⟨rfl, rfl⟩ := hw
    rw [takeMsg_chan h] at hf
    exact hf.2
  · rw [takeMsg_other h hw]; exact hf

theorem leak_deliver_root {s s' : Sys} {src : Nat} (hl : Leak s) (h : s.step (.deliver src 0) = some s') : Leak s' := by
  simp only [Sys.step] at h
  split at h
  · cases h
  · rename_i m rest hm
    simp only [if_true] at h
    split at h
    · rename_i i
      cases h
      obtain ⟨hmem, hsub, hcase⟩ := takeMsg_mem hm
      refine { wsNet := fun x y m h => hl.wsNet x y m (hsub _ h), askMsg := fun x y i z h => hl.askMsg x y i z (hsub _ h), asksOk := hl.asksOk, dataMsg := fun x y i h => hl.dataMsg x y i (hsub _ h), tok := ?_, asked := hl.asked, waitHeld := fun j hj => hl.waitHeld j (List.mem_of_mem_erase hj), empty := hl.empty, swept := hl.swept, follow := fun w => followed_tail hm (hl.follow w), noPush := ?_, strongClean := ?_ }
      · intro j W o ho
        have ht := hl.tok j W o ho
        have c1 := takeMsg_count hm (W, o, Msg.ask j W)
        have c2 := takeMsg_count hm (o, W, Msg.data j)
        show rest.count (W, o, Msg.ask j W) + (s.worker o).asks.count (j, W) + rest.count (o, W, Msg.data j) ≤
          (if W = 0 then (s.waiting.erase i).count j else bit (s.worker W).asked j)
        unfold need at ht
        by_cases hW : W = 0
        · subst hW
          rw [if_pos rfl] at ht ⊢
          by_cases hj : j = i
          · subst hj
            have hs : src = o := by
              rcases hl.dataMsg _ _ _ hmem with ⟨-, k, -⟩ | ⟨k, -⟩
              · rw [ho] at k; cases k
              · rw [ho] at k; cases k; rfl
            subst hs
            simp only [if_true] at c2
            rw [List.count_erase_self]
            omega
          · rw [List.count_erase_of_ne (fun e => hj e)]
            omega
        · rw [if_neg hW] at ht ⊢
          omega
      · intro j hj w
        have := hl.noPush j hj w
        exact ⟨fun h => this.1 (hsub _ h), fun o h => this.2 o (hsub _ h)⟩
      · intro j hj w hs
        obtain ⟨ids, h1, h2⟩ := hl.strongClean j hj w hs
        refine ⟨ids, h1, ?_⟩
        rcases hcase _ h2 with e | e
        · cases e
        · exact e
    · cases h

theorem todo_unf {s : Sys} {src d : Nat} {m : Msg} {rest : List (Nat × Nat × Msg)} (hi : Inv s)
    (hm : takeMsg src d s.net = some (m, rest)) : ∀ t ∈ todo (s.worker d) m, Unf s d t := by
  obtain ⟨hmem, -, -⟩ := takeMsg_mem hm
  intro t ht
  cases m with
  | task u =>
    rcases List.mem_cons.1 ht with h | h
    · subst h
      have h0 := (hi.taskMsg _ _ _ hmem).1
      subst h0
      exact Or.inl hmem
    · exact Or.inr h
  | data _ => exact Or.inr ht
  | owner _ _ => exact Or.inr ht
  | ask _ _ => exact Or.inr ht
  | clean _ => exact Or.inr ht

theorem todo_ready {s : Sys} {src d : Nat} {m : Msg} {rest : List (Nat × Nat × Msg)} (hi : Inv s)
    (hm : takeMsg src d s.net = some (m, rest)) : ∀ t ∈ todo (s.worker d) m, Ready (s.worker d) t.args := by
  obtain ⟨hmem, -, -⟩ := takeMsg_mem hm
  intro t ht i hx
  have hp : t ∈ (s.worker d).tasks → i ∈ (s.worker d).data ∨ (s.worker d).owners.lookup i ≠ none :=
    fun h => (hi.known d t h i hx).2
  cases m with
  | task u =>
    rcases List.mem_cons.1 ht with h | h
    · subst h
      have h0 := (hi.taskMsg _ _ _ hmem).1
      subst h0
      have := hi.served d
      rw [takeMsg_chan hm] at this
      exact (this.1 i hx).2
    · exact hp h
  | data _ => exact hp ht
  | owner _ _ => exact hp ht
  | ask _ _ => exact hp ht
  | clean _ => exact hp ht

theorem map_count_eq (d : Nat) (l : List (Nat × Msg)) (y : Nat) (m : Msg) :
    (l.map (fun x => ((d, x.1, x.2) : Nat × Nat × Msg))).count (d, y, m) = l.count (y, m) := by
  induction l with
  | nil => rfl
  | cons a l ih =>
    obtain ⟨a, b⟩ := a
    simp only [List.map_cons, List.count_cons, ih]
    congr 1
    by_cases h : a = y ∧ b = m
    · obtain ⟨rfl, rfl⟩ := h; simp
    · have h1 : ((d, a, b) == ((d, y, m) : Nat × Nat × Msg)) = false := by
        simp only [beq_eq_false_iff_ne, ne_eq, Prod.mk.injEq]; tauto
      have h2 : ((a, b) == ((y, m) : Nat × Msg)) = false := by
        simp only [beq_eq_false_iff_ne, ne_eq, Prod.mk.injEq]; exact h
      rw [h1, h2]

/-- No result of an unfinished task is cleaned up. -/
def Outs (s : Sys) : Prop := ∀ w t, Unf s w t → ∀ i ∈ t.outs, i ∉ s.cleaned

theorem outs_init (ws : List Nat) : Outs (Sys.init ws) := by simp [Outs, Sys.init, Proc.init, Unf]

theorem outs_step {s s' : Sys} {op : Op} (hi : Inv s) (hu : Outs s) (ho : ∀ args n d, op ≠ .submit args n d true) (h : s.step op = some s') : Outs s' := by
  cases op with
  | put =>
    simp only [Sys.step] at h
    split at h
    · cases h
    · cases h; exact hu
  | drop i =>
    simp only [Sys.step] at h
    split at h
    · cases h
    · cases h; exact hu
  | report =>
    simp only [Sys.step] at h
    split at h
    · cases h
    · cases h; exact hu
  | cleanup =>
    obtain ⟨rfl, hc⟩ := cleanup_cleanAll h
    intro w t ht
    refine absurd ?_ (no_unfinished hi hc w t)
    rcases ht with g | g
    · rcases List.mem_append.1 g with g | g
      · exact Or.inl g
      · obtain ⟨v, -, e⟩ := List.mem_map.1 g
        cases e
    · exact Or.inr g
  | get ids =>
    simp only [Sys.step] at h
    split at h
    · cases h
    · cases h
      intro w t ht
      refine hu w t ?_
      rcases ht with g | g
      · rcases List.mem_append.1 g with g | g
        · exact Or.inl g
        · obtain ⟨v, -, e⟩ := List.mem_map.1 g
          cases e
      · exact Or.inr g
  | submit args n d m =>
    cases m with
    | true => exact absurd rfl (ho args n d)
    | false =>
      simp only [Sys.step] at h
      split at h
      · cases h
      · cases h
        obtain ⟨L, sn, e, p1, -⟩ := pushes_spec d args { s with next := s.next + n, held := List.range' s.next n ++ s.held, owner := fun i => if i ∈ List.range' s.next n then some d else s.owner i }
        rw [e]
        intro w t ht i hx hc
        have hc : i ∈ s.cleaned := hc
        rcases ht with g | g
        · rcases List.mem_append.1 g with g | g
          · rcases List.mem_append.1 g with g | g
            · exact hu w t (Or.inl g) i hx hc
            · obtain ⟨-, -, k | k⟩ := p1 _ g
              · obtain ⟨j, -, -, k, -⟩ := k; cases k
              · obtain ⟨j, -, o, -, -, k⟩ := k; cases k
          · have := List.mem_singleton.1 g
            cases this
            have := hi.fresh i (Or.inr (Or.inr hc))
            have := List.mem_range'_1.1 hx
            omega
        · exact hu w t (Or.inr g) i hx hc
  | deliver src d =>
    by_cases hd : d = 0
    · subst hd
      simp only [Sys.step] at h
      split at h
      · cases h
      · rename_i m rest hm
        obtain ⟨-, hsub, -⟩ := takeMsg_mem hm
        simp only [if_true] at h
        split at h
        · cases h
          intro w t ht
          refine hu w t ?_
          rcases ht with g | g
          · exact Or.inl (hsub _ g)
          · exact Or.inr g
        · cases h
    · obtain ⟨m, rest, hm, rfl⟩ := deliver_cases hd h
      have r := inv_recv hi hm
      have q := receive_quiet d (s.worker d) m
      have htodo := todo_unf hi hm
      obtain ⟨hmem, hsub, -⟩ := takeMsg_mem hm
      generalize hp : (s.worker d).receive d m = p at r q
      intro w t ht
      have hcase : ∃ u, Unf s w u ∧ t.outs = u.outs := by
        rcases ht with g | g
        · rcases List.mem_append.1 (show (0, w, Msg.task t) ∈ rest ++ p.outbox.map (fun y => ((d, y.1, y.2) : Nat × Nat × Msg)) from g) with g | g
          · exact ⟨t, Or.inl (hsub _ g), rfl⟩
          · obtain ⟨y, hy, e⟩ := List.mem_map.1 g
            rcases q y hy with k | k
            · rw [(hi.idle d).2.2.1] at k; cases k
            · simp only [Prod.mk.injEq] at e
              rcases k with ⟨j, k⟩ | ⟨j, z, k⟩ <;> rw [k] at e <;> cases e.2.2
        · by_cases hw : w = d
          · subst hw
            have g : t ∈ (if w = w then { p.sweep with outbox := [], done := 0 } else s.worker w).tasks := g
            rw [if_pos rfl] at g
            obtain ⟨u, hu', e1, -⟩ := r.left t g
            exact ⟨u, htodo u hu', e1⟩
          · have g : t ∈ (if w = d then { p.sweep with outbox := [], done := 0 } else s.worker w).tasks := g
            rw [if_neg hw] at g
            exact ⟨t, Or.inr g, rfl⟩
      obtain ⟨u, h1, h2⟩ := hcase
      rw [h2]
      exact hu w u h1

set_option maxHeartbeats 1600000 in
theorem leak_deliver {s s' : Sys} {src d : Nat} (hd : d ≠ 0) (hi : Inv s) (houts : Outs s) (hl : Leak s) (h : s.step (.deliver src d) = some s') : Leak s' := by
  obtain ⟨m, rest, hm, rfl⟩ := deliver_cases hd h
  clear h
  obtain ⟨hmem, hsub, hcase⟩ := takeMsg_mem hm
  have hdw : d ∈ s.ws := (hl.wsNet _ _ _ hmem).resolve_left hd
  have r := inv_recv hi hm
  have q := receive_quiet d (s.worker d) m
  have hunf := todo_unf hi hm
  have r2 := receive_recv2 s.owner d (s.worker d) m (hi.idle d).1 (by
    intro t ht
    subst ht
    exact (hi.taskMsg _ _ _ hmem).2.2) (todo_ready hi hm) (fun t ht j hj => (hi.taskOk d t (hunf t ht)).2 j hj) (hi.ownersTrue d)
  have hob := (hi.idle d).2.2.1
  generalize hp : (s.worker d).receive d m = p at r q r2
  have hout : ∀ y m', (y, m') ∈ p.outbox → (∃ i, m' = .data i ∧ s.owner i = some d ∧ y ≠ d ∧ (y = 0 ∨ y ∈ s.ws)) ∨
      (∃ j, m' = .ask j d ∧ y ≠ d ∧ s.owner j = some y ∧ y ∈ s.ws) := by
    intro y m' hx
    rcases q _ hx with h | ⟨i, h⟩ | ⟨i, j, h⟩
    · rw [hob] at h; cases h
    · have h : m' = .data i := h
      subst h
      left
      refine ⟨i, rfl, ?_⟩
      have hc := r2.count i y
      have hpos := List.count_pos_iff.2 hx
      rw [hob] at hc
      by_cases hq : m = .ask i y
      · subst hq
        obtain ⟨k1, k2, k3, k4⟩ := hl.askMsg _ _ _ _ hmem
        subst k1
        exact ⟨k3, k2, k4⟩
      · rw [if_neg hq] at hc
        simp only [List.count_nil] at hc
        have : 0 < (s.worker d).asks.count (i, y) := by omega
        obtain ⟨k1, k2, k3, k4⟩ := hl.asksOk d _ (List.count_pos_iff.1 this)
        exact ⟨k2, k1, k3⟩
    · have h : m' = .ask i j := h
      subst h
      right
      rcases r2.reqOwn _ _ _ hx with h | ⟨rfl, k2, k3⟩
      · rw [hob] at h; cases h
      · have := hi.ownersTrue _ _ k3
        exact ⟨i, rfl, k2, this, (hi.ownerFresh _ _ this).2⟩
  have hmap : ∀ x y m', (x, y, m') ∈ p.outbox.map (fun y => ((d, y.1, y.2) : Nat × Nat × Msg)) → x = d ∧ (y, m') ∈ p.outbox := by
    intro x y m' hx
    obtain ⟨⟨a, b⟩, h1, e⟩ := List.mem_map.1 hx
    cases e
    exact ⟨rfl, h1⟩
  have hnet : ∀ x y m', (x, y, m') ∈ rest ++ p.outbox.map (fun y => ((d, y.1, y.2) : Nat × Nat × Msg)) → (x, y, m') ∈ s.net ∨ (x = d ∧ (y, m') ∈ p.outbox) := by
    intro x y m' hx
    rcases List.mem_append.1 hx with h | h
    · exact Or.inl (hsub _ h)
    · exact Or.inr (hmap _ _ _ h)
  have hW : ∀ w, (({ s with net := rest }.setWorker d p).worker w) = if w = d then { p.sweep with outbox := [], done := 0 } else s.worker w := fun w => rfl
  have hWd : ({ s with net := rest }.setWorker d p).worker d = { p.sweep with outbox := [], done := 0 } := by rw [hW, if_pos rfl]
  have hWn : ∀ w, w ≠ d → ({ s with net := rest }.setWorker d p).worker w = s.worker w := fun w hw => by rw [hW, if_neg hw]
  have askMsg' : ∀ x y i z, (x, y, Msg.ask i z) ∈ rest ++ p.outbox.map (fun y => ((d, y.1, y.2) : Nat × Nat × Msg)) → z = x ∧ x ≠ y ∧ s.owner i = some y ∧ (x = 0 ∨ x ∈ s.ws) := by
    intro x y i z hx
    rcases hnet _ _ _ hx with h | ⟨e, h⟩
    · exact hl.askMsg x y i z h
    · rcases hout _ _ h with ⟨j, k, -⟩ | ⟨j, k, k1, k2, k3⟩
      · cases k
      · cases k
        subst e
        exact ⟨rfl, fun e => k1 e.symm, k2, Or.inr hdw⟩
  have dataMsg' : ∀ x y i, (x, y, Msg.data i) ∈ rest ++ p.outbox.map (fun y => ((d, y.1, y.2) : Nat × Nat × Msg)) → (x = 0 ∧ s.owner i = none ∧ i < s.next) ∨ (s.owner i = some x ∧ x ≠ y) := by
    intro x y i hx
    rcases hnet _ _ _ hx with h | ⟨e, h⟩
    · exact hl.dataMsg x y i h
    · rcases hout _ _ h with ⟨j, k, k1, k2, k3⟩ | ⟨j, k, -⟩
      · cases k
        subst e
        exact Or.inr ⟨k1, fun e => k2 e.symm⟩
      · cases k
  have asksOk' : ∀ a ∈ p.asks, a.2 ≠ d ∧ s.owner a.1 = some d ∧ (a.2 = 0 ∨ a.2 ∈ s.ws) ∧ a.1 ∉ p.data := by
    intro a ha
    have h4 : a.1 ∉ p.data := by
      refine r2.fresh (fun a ha => (hl.asksOk d a ha).2.2.2) ?_ a ha
      rintro i rfl b hb e
      have := (hl.asksOk d b hb).2.1
      rw [e] at this
      rcases hl.dataMsg _ _ _ hmem with ⟨-, k, -⟩ | ⟨k, k2⟩
      · rw [this] at k; cases k
      · rw [this] at k; cases k; exact k2 rfl
    rcases r2.asks a ha with h | h
    · obtain ⟨k1, k2, k3, -⟩ := hl.asksOk d a h
      exact ⟨k1, k2, k3, h4⟩
    · subst h
      obtain ⟨k1, k2, k3, k4⟩ := hl.askMsg _ _ _ _ hmem
      rw [k1]
      exact ⟨k2, k3, k4, h4⟩
  refine { wsNet := ?_, askMsg := askMsg', asksOk := ?_, dataMsg := dataMsg', tok := ?_, asked := ?_, waitHeld := hl.waitHeld, empty := ?_, swept := ?_, follow := ?_, noPush := ?_, strongClean := ?_ }
  · intro x y m' hx
    rcases hnet x y m' hx with h | ⟨-, h⟩
    · exact hl.wsNet x y m' h
    · rcases hout _ _ h with ⟨j, -, -, -, k⟩ | ⟨j, -, -, -, k⟩
      · exact k
      · exact Or.inr k
  · intro w a ha
    by_cases hw : w = d
    · subst hw
      rw [hWd] at ha ⊢
      obtain ⟨k1, k2, k3, k4⟩ := asksOk' a ha
      exact ⟨k1, k2, k3, fun h => k4 (List.mem_filter.1 h).1⟩
    · rw [hWn w hw] at ha ⊢
      exact hl.asksOk w a ha
  · intro i W o ho0
    have ho : s.owner i = some o := ho0
    clear ho0
    have ht := hl.tok i W o ho
    have c1 := takeMsg_count hm (W, o, Msg.ask i W)
    have c2 := takeMsg_count hm (o, W, Msg.data i)
    show (rest ++ p.outbox.map (fun y => ((d, y.1, y.2) : Nat × Nat × Msg))).count (W, o, Msg.ask i W) + (({ s with net := rest }.setWorker d p).worker o).asks.count (i, W) +
      (rest ++ p.outbox.map (fun y => ((d, y.1, y.2) : Nat × Nat × Msg))).count (o, W, Msg.data i) ≤
      (if W = 0 then s.waiting.count i else bit (({ s with net := rest }.setWorker d p).worker W).asked i)
    unfold need at ht
    by_cases hod : o = d
    · subst hod
      by_cases hWd' : W = o
      · subst hWd'
        have z1 : (rest ++ p.outbox.map (fun y => ((W, y.1, y.2) : Nat × Nat × Msg))).count (W, W, Msg.ask i W) = 0 := by
          rw [List.count_eq_zero]
          intro h
          exact (askMsg' _ _ _ _ h).2.1 rfl
        have z2 : (({ s with net := rest }.setWorker W p).worker W).asks.count (i, W) = 0 := by
          rw [List.count_eq_zero, hWd]
          intro h
          exact (asksOk' _ h).1 rfl
        have z3 : (rest ++ p.outbox.map (fun y => ((W, y.1, y.2) : Nat × Nat × Msg))).count (W, W, Msg.data i) = 0 := by
          rw [List.count_eq_zero]
          intro h
          rcases dataMsg' _ _ _ h with ⟨k, -, -⟩ | ⟨-, k⟩
          · exact hd k
          · exact k rfl
        omega
      · rw [hWn W hWd', hWd, count_append_zero _ _ (W, o, Msg.ask i W) (fun h => hWd' (hmap _ _ _ h).1), List.count_append, map_count_eq]
        have hc := r2.count i W
        rw [hob] at hc
        simp only [List.count_nil, Nat.add_zero] at hc
        have hc1 : (if m = .ask i W then 1 else 0) ≤ (if (W, o, Msg.ask i W) = (src, o, m) then 1 else 0) := by
          by_cases hq : m = .ask i W
          · subst hq
            have := (hl.askMsg _ _ _ _ hmem).1
            subst this
            simp
          · rw [if_neg hq]; exact Nat.zero_le _
        have e1 : ({ p.sweep with outbox := [], done := 0 } : Proc).asks = p.asks := rfl
        rw [e1]
        omega
    · rw [hWn o hod, count_append_zero _ _ (o, W, Msg.data i) (fun h => hod (hmap _ _ _ h).1)]
      by_cases hWd' : W = d
      · subst hWd'
        rw [hWd, List.count_append, map_count_eq, if_neg hd]
        rw [if_neg hd] at ht
        have hq := r2.req i o W
        rw [hob] at hq
        simp only [List.count_nil, Nat.zero_add] at hq
        have e1 : ({ p.sweep with outbox := [], done := 0 } : Proc).asked = p.asked := rfl
        rw [e1]
        by_cases hmd : m = .data i
        · subst hmd
          have hs : src = o := by
            rcases hl.dataMsg _ _ _ hmem with ⟨-, k, -⟩ | ⟨k, -⟩
            · rw [ho] at k; cases k
            · rw [ho] at k; cases k; rfl
          subst hs
          simp only [if_true, Nat.add_zero] at c2 hq
          have : bit (s.worker W).asked i ≤ 1 := by unfold bit; split <;> omega
          omega
        · rw [if_neg hmd] at hq
          omega
      · rw [hWn W hWd', count_append_zero _ _ (W, o, Msg.ask i W) (fun h => hWd' (hmap _ _ _ h).1)]
        omega
  · intro w j hj
    by_cases hw : w = d
    · subst hw
      rw [hWd] at hj ⊢
      obtain ⟨k1, k2, k3⟩ := r2.pend (hl.asked w) j hj
      exact ⟨fun h => k1 (List.mem_filter.1 h).1, k2, k3⟩
    · rw [hWn w hw] at hj ⊢
      exact hl.asked w j hj
  · intro w hw
    have hw : w ∉ s.ws := hw
    rw [hWn w (fun e => hw (e ▸ hdw))]
    exact hl.empty w hw
  · intro w
    by_cases hw : w = d
    · subst hw
      rw [hWd]
      exact ⟨fun i h => (List.mem_filter.1 h).2, fun e h => (List.mem_filter.1 h).2, fun e h => (List.mem_filter.1 h).2⟩
    · rw [hWn w hw]
      exact hl.swept w
  · intro w
    show Followed (chan 0 w (rest ++ p.outbox.map (fun y => ((d, y.1, y.2) : Nat × Nat × Msg))))
    rw [chan_append, chan_none (l := p.outbox.map _), List.append_nil]
    · exact followed_tail hm (hl.follow w)
    · intro x hx g
      exact hd ((hmap x.1 x.2.1 x.2.2 hx).1.symm.trans g.1)
  · intro i hx w
    have := hl.noPush i hx w
    refine ⟨fun h => ?_, fun o h => ?_⟩
    · rcases hnet _ _ _ h with h | ⟨e, -⟩
      · exact this.1 h
      · exact hd e.symm
    · rcases hnet _ _ _ h with h | ⟨e, -⟩
      · exact this.2 o h
      · exact hd e.symm
  · intro i hx w hs
    have hx : i ∈ s.cleaned := hx
    show ∃ ids, i ∈ ids ∧ (0, w, Msg.clean ids) ∈ rest ++ p.outbox.map (fun y => ((d, y.1, y.2) : Nat × Nat × Msg))
    by_cases hw : w = d
    · subst hw
      rw [hWd] at hs
      have hs : i ∈ p.strong := hs
      rcases r.newStrong i hs with h | h | ⟨o, h⟩ | ⟨t, ht, ho⟩
      · obtain ⟨ids, h1, h2⟩ := hl.strongClean i hx w h
        refine ⟨ids, h1, List.mem_append_left _ ?_⟩
        rcases hcase _ h2 with e | e
        · cases e
          exact absurd h1 (r.cleaned ids rfl i hs)
        · exact e
      · exfalso
        subst h
        rcases hl.dataMsg _ _ _ hmem with ⟨k, -, -⟩ | ⟨k, -⟩
        · subst k
          exact (hl.noPush i hx w).1 hmem
        · have ht := hl.tok i w src k
          have := List.count_pos_iff.2 hmem
          unfold need bit at ht
          rw [if_neg hd] at ht
          split at ht
          · rename_i ha
            obtain ⟨-, ⟨t, ht, hxt⟩, -⟩ := hl.asked w i ha
            exact (hi.taskOk w t (Or.inr ht)).1 i hxt hx
          · omega
      · exfalso
        subst h
        have := (hi.ownerMsg _ _ _ _ hmem).1
        subst this
        exact (hl.noPush i hx w).2 o hmem
      · exact absurd hx (houts w t (hunf t ht) i ho)
    · rw [hWn w hw] at hs
      obtain ⟨ids, h1, h2⟩ := hl.strongClean i hx w hs
      refine ⟨ids, h1, List.mem_append_left _ ?_⟩
      rcases hcase _ h2 with e | e
      · cases e; exact absurd rfl hw
      · exact e

theorem leak_run (ops : List Op) {s s' : Sys} (hi : Inv s) (hu : Outs s) (hl : Leak s) (ho : NoMethods ops) (hf : Unfetched s ops) (h : s.run ops = some s') :
    Inv s' ∧ Outs s' ∧ Leak s' := by
  induction ops generalizing s with
  | nil => cases h; exact ⟨hi, hu, hl⟩
  | cons op ops ih =>
    simp only [Sys.run, Option.bind_eq_some_iff] at h
    obtain ⟨s1, h1, h2⟩ := h
    have hne : ∀ a n d, op ≠ .submit a n d true := by
      rintro a n d rfl
      exact ho a n d List.mem_cons_self
    refine ih (inv_step hi hne h1) (outs_step hi hu hne h1) ?_ (fun a n d hx => ho a n d (List.mem_cons_of_mem _ hx)) (hf.2 s1 h1) h2
    cases op with
    | put => exact leak_put hl h1
    | drop i => exact leak_drop hl h1
    | submit args n d m =>
      cases m with
      | false => exact leak_submit hi hl hf.1 h1
      | true => exact absurd rfl (hne args n d)
    | get ids => exact leak_get hi hl h1
    | deliver src d =>
      by_cases hd : d = 0
      · subst hd; exact leak_deliver_root hl h1
      · exact leak_deliver hd hi hu hl h1
    | report => exact leak_report hl h1
    | cleanup => exact leak_cleanup hi hl h1

/-- A cleaned up object is alive only where the cleanup has not arrived. -/
theorem leak_alive {s : Sys} (hi : Inv s) (hu : Outs s) (hl : Leak s) {i w : Nat} (hx : i ∈ s.cleaned) (hn : ∀ ids, (0, w, Msg.clean ids) ∈ s.net → i ∉ ids) :
    (s.worker w).alive i = false := by
  have hstrong : i ∉ (s.worker w).strong := by
    intro h
    obtain ⟨ids, h1, h2⟩ := hl.strongClean i hx w h
    exact hn ids h2 h1
  have htasks : ∀ t ∈ (s.worker w).tasks, i ∉ t.args ∧ i ∉ t.outs := by
    intro t ht
    have := hi.taskOk w t (Or.inr ht)
    exact ⟨fun h => this.1 i h hx, fun h => hu w t (Or.inr ht) i h hx⟩
  have hasked : i ∉ (s.worker w).asked := by
    intro h
    obtain ⟨-, ⟨t, ht, hxt⟩, -⟩ := hl.asked w i h
    exact (htasks t ht).1 hxt
  have hasks : ∀ a ∈ (s.worker w).asks, a.1 ≠ i := by
    rintro ⟨j, W⟩ ha rfl
    have hx : j ∈ s.cleaned := hx
    have ho := (hl.asksOk w _ ha).2.1
    have ht := hl.tok j W w ho
    have := List.count_pos_iff.2 ha
    unfold need at ht
    by_cases hW : W = 0
    · subst hW
      rw [if_pos rfl] at ht
      have hpos : 0 < s.waiting.count j := by omega
      exact (hi.gone j (hl.waitHeld j (List.count_pos_iff.1 hpos))).2 hx
    · rw [if_neg hW] at ht
      unfold bit at ht
      split at ht
      · rename_i ha
        obtain ⟨-, ⟨t, ht, hxt⟩, -⟩ := hl.asked W j ha
        exact (hi.taskOk W t (Or.inr ht)).1 j hxt hx
      · omega
  unfold Proc.alive
  rw [(hi.idle w).1]
  simp only [Bool.or_eq_false_iff, decide_eq_false_iff_not, List.any_eq_false, List.any_nil, Bool.or_eq_true, decide_eq_true_eq, not_or, and_true]
  exact ⟨⟨⟨hstrong, htasks⟩, hasked⟩, hasks⟩

end Verif.Lifetime

namespace Verif.Lifetime

/-! ### Strong references go away by cleanups only -/

theorem attempt_strong (me : Nat) (p : Proc) (t : Task) : (∀ i ∈ p.strong, i ∈ (p.attempt me t).1.strong) ∧ ∀ i ∈ p.data, i ∈ (p.attempt me t).1.data := by
  unfold Proc.attempt
  simp only
  split
  · obtain ⟨a, b, c, d, e, e1, h1, h2, -⟩ := execute_rest p t
    rw [e1]
    exact ⟨h2, h1⟩
  · split
    · exact ⟨fun _ h => h, fun _ h => h⟩
    · obtain ⟨a, b, e⟩ := requests_rest me (t.args.filter (fun i => i ∉ p.data)) p
      rw [e]
      exact ⟨fun _ h => h, fun _ h => h⟩

theorem pass_strong (me : Nat) (L : List Task) (p : Proc) : (∀ i ∈ p.strong, i ∈ (Proc.pass me L p).1.strong) ∧ ∀ i ∈ p.data, i ∈ (Proc.pass me L p).1.data := by
  induction L generalizing p with
  | nil => exact ⟨fun _ h => h, fun _ h => h⟩
  | cons t L ih =>
    have a := attempt_strong me p t
    have b := ih (p.attempt me t).1
    exact ⟨fun i h => b.1 i (a.1 i h), fun i h => b.2 i (a.2 i h)⟩

theorem receive_strong (me : Nat) (p : Proc) (m : Msg) (i : Nat) (hs : i ∈ p.strong) (hd : i ∈ p.data) (hc : ∀ ids, m = .clean ids → i ∉ ids) :
    i ∈ (p.receive me m).strong ∧ i ∈ (p.receive me m).data := by
  cases m with
  | data j =>
    obtain ⟨l, e, h1, h2⟩ := store_rest p j
    have a := pass_strong me p.tasks { p with data := j :: p.data, strong := l, asked := p.asked.filter (fun k => k ≠ j) }
    have b := pass_strong me (Proc.checkTasks me { p with data := j :: p.data, strong := l, asked := p.asked.filter (fun k => k ≠ j) }).methods
      (Proc.checkTasks me { p with data := j :: p.data, strong := l, asked := p.asked.filter (fun k => k ≠ j) })
    simp only [Proc.receive, e]
    exact ⟨b.1 i (a.1 i (h2 i hs)), b.2 i (a.2 i (List.mem_cons_of_mem _ hd))⟩
  | owner j r =>
    obtain ⟨l, e⟩ := keep_rest { p with owners := (j, r) :: p.owners.filter (fun e => e.1 ≠ j) } j
    have h2 := keep_sub { p with owners := (j, r) :: p.owners.filter (fun e => e.1 ≠ j) } j i hs
    simp only [Proc.receive]
    refine ⟨h2, ?_⟩
    rw [e]; exact hd
  | task t =>
    have a := attempt_strong me p t
    simp only [Proc.receive]
    split
    · exact ⟨a.1 i hs, a.2 i hd⟩
    · exact ⟨a.1 i hs, a.2 i hd⟩
    · have b := pass_strong me (p.attempt me t).1.tasks (p.attempt me t).1
      exact ⟨b.1 i (a.1 i hs), b.2 i (a.2 i hd)⟩
    · have b := pass_strong me (p.attempt me t).1.methods (p.attempt me t).1
      exact ⟨b.1 i (a.1 i hs), b.2 i (a.2 i hd)⟩
  | ask j src =>
    simp only [Proc.receive]
    split
    · obtain ⟨a, b, e⟩ := push_rest p j src
      rw [e]; exact ⟨hs, hd⟩
    · split
      · exact ⟨hs, hd⟩
      · exact ⟨hs, hd⟩
  | clean ids =>
    refine ⟨?_, hd⟩
    simp only [Proc.receive, List.mem_filter]
    exact ⟨hs, by simpa using hc ids rfl⟩

/-- The object is kept by worker `w` and will not be cleaned up any more. -/
structure Stuck (s : Sys) (w i : Nat) : Prop where
  notHeld : i ∉ s.held
  notQueued : i ∉ s.queue
  old : i < s.next
  noClean : ∀ x y ids, (x, y, Msg.clean ids) ∈ s.net → i ∉ ids
  strong : i ∈ (s.worker w).strong
  data : i ∈ (s.worker w).data

theorem pushes_noClean (d : Nat) (args : List Nat) (s : Sys) : ∃ L sn, args.foldl (Sys.push d) s = { s with net := s.net ++ L, sent := sn } ∧
    ∀ x ∈ L, ∀ ids, x.2.2 ≠ .clean ids := by
  obtain ⟨L, sn, e, p1, -⟩ := pushes_spec d args s
  refine ⟨L, sn, e, ?_⟩
  intro x hx ids h
  rcases (p1 x hx).2.2 with ⟨i, -, -, k, -⟩ | ⟨i, -, o, -, -, k⟩ <;> rw [k] at h <;> cases h

theorem stuck_step {s s' : Sys} {op : Op} {w i : Nat} (k : Stuck s w i) (ho : ∀ w, (s.worker w).outbox = []) (h : s.step op = some s') :
    Stuck s' w i ∧ ∀ w, (s'.worker w).outbox = [] := by
  cases op with
  | put =>
    simp only [Sys.step] at h
    split at h
    · cases h
    · cases h
      refine ⟨{ k with notHeld := ?_, old := Nat.lt_succ_of_lt k.old }, ho⟩
      intro hx
      rcases List.mem_cons.1 hx with e | e
      · have := k.old; omega
      · exact k.notHeld e
  | drop j =>
    simp only [Sys.step] at h
    split at h
    · cases h
    · rename_i hc
      simp only [not_or, Classical.not_not] at hc
      cases h
      refine ⟨{ k with notHeld := fun hx => k.notHeld (List.mem_of_mem_erase hx), notQueued := ?_ }, ho⟩
      intro hx
      rcases List.mem_append.1 hx with e | e
      · exact k.notQueued e
      · rw [List.mem_singleton.1 e] at k
        exact k.notHeld hc.2
  | submit args n d m =>
    simp only [Sys.step] at h
    split at h
    · cases h
    · obtain ⟨L, sn, e, hL⟩ := pushes_noClean d args { s with next := s.next + n, held := List.range' s.next n ++ s.held, owner := fun i => if i ∈ List.range' s.next n then some d else s.owner i }
      rw [e] at h
      cases h
      refine ⟨{ k with notHeld := ?_, old := Nat.lt_add_right _ k.old, noClean := ?_ }, ho⟩
      · intro hx
        rcases List.mem_append.1 hx with e | e
        · have := (List.mem_range'_1.1 e).1
          have := k.old; omega
        · exact k.notHeld e
      · intro x y ids hx
        rcases List.mem_append.1 hx with h | h
        · rcases List.mem_append.1 h with h | h
          · exact k.noClean x y ids h
          · exact absurd rfl (hL _ h ids)
        · have := List.mem_singleton.1 h
          cases this
  | get ids =>
    simp only [Sys.step] at h
    split at h
    · cases h
    · cases h
      refine ⟨{ k with noClean := ?_ }, ho⟩
      intro x y l hx
      rcases List.mem_append.1 hx with h | h
      · exact k.noClean x y l h
      · obtain ⟨j, -, e⟩ := List.mem_map.1 h
        cases e
  | report =>
    simp only [Sys.step] at h
    split at h
    · cases h
    · cases h
      exact ⟨{ k with }, ho⟩
  | cleanup =>
    simp only [Sys.step] at h
    split at h
    · cases h
    · cases h
      refine ⟨{ k with notQueued := by simp, noClean := ?_ }, ho⟩
      intro x y l hx
      rcases List.mem_append.1 hx with h | h
      · exact k.noClean x y l h
      · obtain ⟨j, -, e⟩ := List.mem_map.1 h
        cases e
        exact k.notQueued
  | deliver src d =>
    by_cases hd : d = 0
    · subst hd
      simp only [Sys.step] at h
      split at h
      · cases h
      · rename_i m rest hm
        obtain ⟨-, hsub, -⟩ := takeMsg_mem hm
        simp only [if_true] at h
        split at h
        · cases h
          exact ⟨{ k with noClean := fun x y ids h => k.noClean x y ids (hsub _ h) }, ho⟩
        · cases h
    · obtain ⟨m, rest, hm, rfl⟩ := deliver_cases hd h
      obtain ⟨hmem, hsub, -⟩ := takeMsg_mem hm
      have q := receive_quiet d (s.worker d) m
      have hst := fun hs hx => receive_strong d (s.worker d) m i hs hx (by
        rintro ids rfl
        exact k.noClean _ _ _ hmem)
      generalize (s.worker d).receive d m = p at q hst
      have hW : ∀ w, (({ s with net := rest }.setWorker d p).worker w) = if w = d then { p.sweep with outbox := [], done := 0 } else s.worker w := fun w => rfl
      refine ⟨{ notHeld := k.notHeld, notQueued := k.notQueued, old := k.old, noClean := ?_, strong := ?_, data := ?_ }, ?_⟩
      · intro x y ids hx
        rcases List.mem_append.1 hx with h | h
        · exact k.noClean x y ids (hsub _ h)
        · obtain ⟨y, hy, e⟩ := List.mem_map.1 h
          have e2 : y.2 = Msg.clean ids := congrArg (fun t => t.2.2) e
          rcases q y hy with h | ⟨j, h⟩ | ⟨j, l, h⟩
          · rw [ho d] at h; cases h
          · rw [h] at e2; cases e2
          · rw [h] at e2; cases e2
      · rw [hW]
        split
        · rename_i hw
          subst hw
          exact (hst k.strong k.data).1
        · exact k.strong
      · rw [hW]
        split
        · rename_i hw
          subst hw
          exact sweep_data p i (hst k.strong k.data).1 (hst k.strong k.data).2
        · exact k.data
      · intro w
        rw [hW]
        split
        · rfl
        · exact ho w

theorem stuck_run (ops : List Op) {s s' : Sys} {w i : Nat} (k : Stuck s w i) (ho : ∀ w, (s.worker w).outbox = []) (h : s.run ops = some s') : Stuck s' w i := by
  induction ops generalizing s with
  | nil => cases h; exact k
  | cons op ops ih =>
    simp only [Sys.run, Option.bind_eq_some_iff] at h
    obtain ⟨s1, h1, h2⟩ := h
    obtain ⟨k1, ho1⟩ := stuck_step k ho h1
    exact ih k1 ho1 h2

end Verif.Lifetime
