import Verif.Lemmas.LifetimeRun

/-! Requests and replies of one worker of `Verif.Model.Lifetime`. -/
namespace Verif.Lifetime

/-- One if the reference has been asked for. -/
def bit (l : List Nat) (j : Nat) : Nat := if j ∈ l then 1 else 0

theorem bit_le {l l' : List Nat} {j : Nat} (h : j ∈ l → j ∈ l') : bit l j ≤ bit l' j := by
  unfold bit; split
  · rw [if_pos (h ‹_›)]; omega
  · omega

theorem push_data_count (p : Proc) (i d j W : Nat) :
    (p.push i d).outbox.count (W, Msg.data j) ≤ p.outbox.count (W, Msg.data j) + [(i, d)].count (j, W) := by
  unfold Proc.push
  split
  · omega
  · simp only [List.count_append, List.count_cons, List.count_nil]
    by_cases h : i = j ∧ d = W
    · obtain ⟨rfl, rfl⟩ := h; simp
    · have : ((d, Msg.data i) == (W, Msg.data j)) = false := by
        simp only [beq_eq_false_iff_ne, ne_eq, Prod.mk.injEq, Msg.data.injEq]; tauto
      rw [this]; simp

theorem push_asks (p : Proc) (i d : Nat) (x : Nat × Msg) (h : ∀ j, x.2 ≠ .data j) : (p.push i d).outbox.count x = p.outbox.count x := by
  unfold Proc.push
  split
  · rfl
  · have : ((d, Msg.data i) == x) = false := by
      simp only [beq_eq_false_iff_ne, ne_eq]
      rintro rfl
      exact h i rfl
    simp [List.count_append, List.count_cons, this]

theorem pushes_count (l : List (Nat × Nat)) (p : Proc) (j W : Nat) :
    (l.foldl (fun p a => p.push a.1 a.2) p).outbox.count (W, Msg.data j) ≤ p.outbox.count (W, Msg.data j) + l.count (j, W) := by
  induction l generalizing p with
  | nil => simp
  | cons x l ih =>
    rw [List.foldl_cons]
    have h1 := ih (p.push x.1 x.2)
    have h2 := push_data_count p x.1 x.2 j W
    have : (x :: l).count (j, W) = l.count (j, W) + [(x.1, x.2)].count (j, W) := by
      obtain ⟨a, b⟩ := x
      rw [List.count_cons, List.count_cons, List.count_nil]; simp
    omega

theorem pushes_asks (l : List (Nat × Nat)) (p : Proc) (x : Nat × Msg) (h : ∀ j, x.2 ≠ .data j) :
    (l.foldl (fun p a => p.push a.1 a.2) p).outbox.count x = p.outbox.count x := by
  induction l generalizing p with
  | nil => rfl
  | cons y l ih => rw [List.foldl_cons, ih, push_asks _ _ _ _ h]

theorem answer_asks (p : Proc) (i : Nat) : (p.answer i).asks = p.asks.filter (fun a => a.1 ≠ i) := by
  obtain ⟨a, b, e⟩ := pushes_rest (p.asks.filter (fun a => a.1 = i)) { p with asks := p.asks.filter (fun a => a.1 ≠ i) }
  unfold Proc.answer
  rw [e]

theorem filter_count (l : List (Nat × Nat)) (i : Nat) (x : Nat × Nat) :
    (l.filter (fun a => a.1 = i)).count x + (l.filter (fun a => a.1 ≠ i)).count x = l.count x := by
  induction l with
  | nil => rfl
  | cons y l ih =>
    by_cases h : y.1 = i
    · simp only [List.filter_cons, h, decide_true, if_true, ne_eq, not_true_eq_false, decide_false, Bool.false_eq_true, if_false, List.count_cons]
      simp only [ne_eq] at ih
      omega
    · simp only [List.filter_cons, h, decide_true, if_true, ne_eq, not_false_eq_true, decide_false, Bool.false_eq_true, if_false, List.count_cons]
      simp only [ne_eq] at ih
      omega

theorem answer_count (p : Proc) (i j W : Nat) :
    (p.answer i).asks.count (j, W) + (p.answer i).outbox.count (W, Msg.data j) ≤ p.asks.count (j, W) + p.outbox.count (W, Msg.data j) := by
  rw [answer_asks]
  have h := pushes_count (p.asks.filter (fun a => a.1 = i)) { p with asks := p.asks.filter (fun a => a.1 ≠ i) } j W
  have h2 := filter_count p.asks i (j, W)
  unfold Proc.answer
  simp only at h
  omega

theorem answers_count (l : List Nat) (p : Proc) (j W : Nat) :
    (l.foldl Proc.answer p).asks.count (j, W) + (l.foldl Proc.answer p).outbox.count (W, Msg.data j) ≤ p.asks.count (j, W) + p.outbox.count (W, Msg.data j) := by
  induction l generalizing p with
  | nil => exact Nat.le_refl _
  | cons i l ih =>
    rw [List.foldl_cons]
    exact Nat.le_trans (ih _) (answer_count p i j W)

theorem answers_other (l : List Nat) (p : Proc) (x : Nat × Msg) (h : ∀ j, x.2 ≠ .data j) :
    (l.foldl Proc.answer p).outbox.count x = p.outbox.count x := by
  induction l generalizing p with
  | nil => rfl
  | cons i l ih =>
    rw [List.foldl_cons, ih]
    exact pushes_asks _ _ x h

theorem answers_asks (l : List Nat) (p : Proc) (a : Nat × Nat) : a ∈ (l.foldl Proc.answer p).asks ↔ a ∈ p.asks ∧ a.1 ∉ l := by
  induction l generalizing p with
  | nil => simp
  | cons i l ih =>
    rw [List.foldl_cons, ih, answer_asks, List.mem_filter]
    simp only [ne_eq, decide_eq_true_eq, List.mem_cons]
    tauto

/-- What trying a list of tasks does to the requests of a worker. `own` is the true owner of references, `R` are
arguments of other held back tasks. -/
structure Traffic (own : Nat → Option Nat) (me : Nat) (p p' : Proc) (L L' : List Task) : Prop where
  count : ∀ j W, p'.asks.count (j, W) + p'.outbox.count (W, Msg.data j) ≤ p.asks.count (j, W) + p.outbox.count (W, Msg.data j)
  asks : ∀ a ∈ p'.asks, a ∈ p.asks
  fresh : (∀ a ∈ p.asks, a.1 ∉ p.data) → ∀ a ∈ p'.asks, a.1 ∉ p'.data
  req : ∀ j d z, p'.outbox.count (d, Msg.ask j z) + bit p.asked j ≤ p.outbox.count (d, Msg.ask j z) + bit p'.asked j
  reqOwn : ∀ d j z, (d, Msg.ask j z) ∈ p'.outbox → (d, Msg.ask j z) ∈ p.outbox ∨ (z = me ∧ d ≠ me ∧ (j, d) ∈ p.owners)
  asked : ∀ j ∈ p'.asked, j ∈ p.asked ∨ ∃ o, o ≠ me ∧ (j, o) ∈ p.owners
  pend : ∀ R : Nat → Prop, (∀ j ∈ p.asked, j ∉ p.data ∧ ((∃ t ∈ L, j ∈ t.args) ∨ R j) ∧ own j ≠ some me) →
    ∀ j ∈ p'.asked, j ∉ p'.data ∧ ((∃ t ∈ L', j ∈ t.args) ∨ R j) ∧ own j ≠ some me
  owners : p'.owners = p.owners

theorem Traffic.refl (own : Nat → Option Nat) (me : Nat) (p : Proc) : Traffic own me p p [] [] :=
  ⟨fun _ _ => Nat.le_refl _, fun _ h => h, fun h => h, fun _ _ _ => Nat.le_refl _, fun _ _ _ h => Or.inl h, fun _ h => Or.inl h, fun _ h => h, rfl⟩

theorem Traffic.trans {own : Nat → Option Nat} {me : Nat} {p p1 p2 : Proc} {L1 L2 M1 M2 : List Task} (a : Traffic own me p p1 L1 M1)
    (b : Traffic own me p1 p2 L2 M2) : Traffic own me p p2 (L1 ++ L2) (M1 ++ M2) where
  count j W := Nat.le_trans (b.count j W) (a.count j W)
  asks x h := a.asks x (b.asks x h)
  fresh h := b.fresh (a.fresh h)
  req j d z := by have := a.req j d z; have := b.req j d z; omega
  reqOwn d j z h := by
    rcases b.reqOwn d j z h with h | h
    · exact a.reqOwn d j z h
    · exact Or.inr (by rw [← a.owners]; exact h)
  asked j h := by
    rcases b.asked j h with h | h
    · exact a.asked j h
    · exact Or.inr (by rw [← a.owners]; exact h)
  pend R h := by
    have h1 := a.pend (fun j => (∃ t ∈ L2, j ∈ t.args) ∨ R j) (by
      intro j hj
      obtain ⟨g1, g2, g3⟩ := h j hj
      refine ⟨g1, ?_, g3⟩
      rcases g2 with ⟨t, ht, hx⟩ | hR
      · rcases List.mem_append.1 ht with ht | ht
        · exact Or.inl ⟨t, ht, hx⟩
        · exact Or.inr (Or.inl ⟨t, ht, hx⟩)
      · exact Or.inr (Or.inr hR))
    have h2 := b.pend (fun j => (∃ t ∈ M1, j ∈ t.args) ∨ R j) (by
      intro j hj
      obtain ⟨g1, g2, g3⟩ := h1 j hj
      refine ⟨g1, ?_, g3⟩
      rcases g2 with g | g | g
      · exact Or.inr (Or.inl g)
      · exact Or.inl g
      · exact Or.inr (Or.inr g))
    intro j hj
    obtain ⟨g1, g2, g3⟩ := h2 j hj
    refine ⟨g1, ?_, g3⟩
    rcases g2 with ⟨t, ht, hx⟩ | ⟨t, ht, hx⟩ | hR
    · exact Or.inl ⟨t, List.mem_append_right _ ht, hx⟩
    · exact Or.inl ⟨t, List.mem_append_left _ ht, hx⟩
    · exact Or.inr hR
  owners := b.owners.trans a.owners

theorem lookup_mem {l : List (Nat × Nat)} {i o : Nat} (h : l.lookup i = some o) : (i, o) ∈ l := by
  obtain ⟨l1, l2, e, -⟩ := List.lookup_eq_some_iff.1 h
  rw [e]; simp

/-- What a request changes. -/
theorem request_traffic (me : Nat) (p : Proc) (i : Nat) :
    (∀ j W, (p.request me i).outbox.count (W, Msg.data j) = p.outbox.count (W, Msg.data j)) ∧
    (∀ j d z, (p.request me i).outbox.count (d, Msg.ask j z) + bit p.asked j ≤ p.outbox.count (d, Msg.ask j z) + bit (p.request me i).asked j) ∧
    (∀ d j z, (d, Msg.ask j z) ∈ (p.request me i).outbox → (d, Msg.ask j z) ∈ p.outbox ∨ (z = me ∧ d ≠ me ∧ (j, d) ∈ p.owners)) ∧
    (∀ j ∈ (p.request me i).asked, j ∈ p.asked ∨ (j = i ∧ ∃ o, o ≠ me ∧ (j, o) ∈ p.owners)) := by
  unfold Proc.request
  split
  · exact ⟨fun _ _ => rfl, fun _ _ _ => Nat.le_refl _, fun _ _ _ h => Or.inl h, fun _ h => Or.inl h⟩
  · rename_i o ho
    have hmem := lookup_mem ho
    split
    · exact ⟨fun _ _ => rfl, fun _ _ _ => Nat.le_refl _, fun _ _ _ h => Or.inl h, fun _ h => Or.inl h⟩
    · rename_i hc
      have hc1 : i ∉ p.asked := fun h => hc (Or.inl h)
      have hc2 : o ≠ me := fun h => hc (Or.inr h)
      refine ⟨?_, ?_, ?_, ?_⟩
      · intro j W
        have : ((o, Msg.ask i me) == (W, Msg.data j)) = false := by simp
        simp [List.count_append, List.count_cons, this]
      · intro j d z
        simp only [List.count_append, List.count_cons, List.count_nil]
        by_cases hj : j = i
        · subst hj
          have h1 : bit p.asked j = 0 := by simp [bit, hc1]
          have h2 : bit (j :: p.asked) j = 1 := by simp [bit]
          rw [h1, h2]
          split <;> omega
        · have : ((o, Msg.ask i me) == (d, Msg.ask j z)) = false := by
            simp only [beq_eq_false_iff_ne, ne_eq, Prod.mk.injEq, Msg.ask.injEq]
            rintro ⟨-, rfl, -⟩
            exact hj rfl
          rw [this]
          have := bit_le (l := p.asked) (l' := i :: p.asked) (j := j) (fun h => List.mem_cons_of_mem _ h)
          simp
          omega
      · intro d j z h
        rcases List.mem_append.1 h with h | h
        · exact Or.inl h
        · simp only [List.mem_singleton, Prod.mk.injEq, Msg.ask.injEq] at h
          obtain ⟨rfl, rfl, rfl⟩ := h
          exact Or.inr ⟨rfl, hc2, hmem⟩
      · intro j h
        rcases List.mem_cons.1 h with h | h
        · subst h; exact Or.inr ⟨rfl, o, hc2, hmem⟩
        · exact Or.inl h

theorem requests_traffic (me : Nat) (l : List Nat) (p : Proc) :
    (∀ j W, (l.foldl (Proc.request me) p).outbox.count (W, Msg.data j) = p.outbox.count (W, Msg.data j)) ∧
    (∀ j d z, (l.foldl (Proc.request me) p).outbox.count (d, Msg.ask j z) + bit p.asked j ≤ p.outbox.count (d, Msg.ask j z) + bit (l.foldl (Proc.request me) p).asked j) ∧
    (∀ d j z, (d, Msg.ask j z) ∈ (l.foldl (Proc.request me) p).outbox → (d, Msg.ask j z) ∈ p.outbox ∨ (z = me ∧ d ≠ me ∧ (j, d) ∈ p.owners)) ∧
    (∀ j ∈ (l.foldl (Proc.request me) p).asked, j ∈ p.asked ∨ (j ∈ l ∧ ∃ o, o ≠ me ∧ (j, o) ∈ p.owners)) := by
  induction l generalizing p with
  | nil => exact ⟨fun _ _ => rfl, fun _ _ _ => Nat.le_refl _, fun _ _ _ h => Or.inl h, fun _ h => Or.inl h⟩
  | cons i l ih =>
    rw [List.foldl_cons]
    obtain ⟨h1, h2, h3, h4⟩ := request_traffic me p i
    obtain ⟨g1, g2, g3, g4⟩ := ih (p.request me i)
    obtain ⟨a, b, e⟩ := request_rest me p i
    have ho : (p.request me i).owners = p.owners := by rw [e]
    refine ⟨fun j W => (g1 j W).trans (h1 j W), ?_, ?_, ?_⟩
    · intro j d z
      have := h2 j d z; have := g2 j d z; omega
    · intro d j z h
      rcases g3 d j z h with h | h
      · exact h3 d j z h
      · exact Or.inr (by rw [← ho]; exact h)
    · intro j h
      rcases g4 j h with h | ⟨h, o, k⟩
      · rcases h4 j h with h | ⟨h, k⟩
        · exact Or.inl h
        · exact Or.inr ⟨h ▸ List.mem_cons_self, k⟩
      · exact Or.inr ⟨List.mem_cons_of_mem _ h, o, by rw [← ho]; exact k⟩

theorem attempt_traffic (own : Nat → Option Nat) (me : Nat) (p : Proc) (t : Task) (h : Ready p t.args)
    (ho : ∀ j ∈ t.outs, own j = some me) (hw : ∀ e ∈ p.owners, own e.1 = some e.2) :
    Traffic own me p (p.attempt me t).1 [t] (p.attempt me t).2.toList := by
  unfold Proc.attempt
  simp only
  split
  · rename_i hm
    have hall : ∀ i ∈ t.args, i ∈ p.data := by
      intro i hi
      by_cases hx : i ∈ p.data
      · exact hx
      · have : i ∈ t.args.filter (fun i => i ∉ p.data) := by simp [hi, hx]
        rw [hm] at this; cases this
    obtain ⟨a, b, e1, h1, h2, h3, h4, h5⟩ := stores_rest t.outs p
    obtain ⟨c, d, e, e2⟩ := answers_rest t.outs { p with data := a, strong := b }
    have hx : p.execute t = { t.outs.foldl Proc.answer { p with data := a, strong := b } with done := (t.outs.foldl Proc.answer { p with data := a, strong := b }).done + 1 } := by
      unfold Proc.execute
      simp only [e1]
    have hd : (p.execute t).data = a := by rw [hx, e2]
    have hk : (p.execute t).asked = p.asked := by rw [hx, e2]
    refine ⟨?_, ?_, ?_, ?_, ?_, ?_, ?_, by rw [hx, e2]⟩
    · intro j W
      rw [hx]
      exact answers_count t.outs { p with data := a, strong := b } j W
    · intro x hx'
      rw [hx] at hx'
      exact ((answers_asks t.outs _ x).1 hx').1
    · intro hf x hx'
      rw [hx] at hx'
      obtain ⟨k1, k2⟩ := (answers_asks t.outs { p with data := a, strong := b } x).1 hx'
      show x.1 ∉ (p.execute t).data
      rw [hd]
      intro hin
      rcases h4 x.1 hin with g | g
      · exact hf x k1 g
      · exact k2 g
    · intro j d' z
      show (p.execute t).outbox.count (d', Msg.ask j z) + _ ≤ _ + bit (p.execute t).asked j
      have := answers_other t.outs { p with data := a, strong := b } (d', Msg.ask j z) (by simp)
      rw [hk, hx]
      simp only at this ⊢
      omega
    · intro d' j z hin
      left
      have := answers_other t.outs { p with data := a, strong := b } (d', Msg.ask j z) (by simp)
      rw [hx] at hin
      have hin : 0 < (t.outs.foldl Proc.answer { p with data := a, strong := b }).outbox.count (d', Msg.ask j z) := List.count_pos_iff.2 hin
      rw [this] at hin
      exact List.count_pos_iff.1 hin
    · intro j hj
      exact Or.inl (by rw [← hk]; exact hj)
    · intro R hp j hj
      have hj : j ∈ p.asked := by rw [← hk]; exact hj
      obtain ⟨g1, g2, g3⟩ := hp j hj
      refine ⟨?_, ?_, g3⟩
      · show j ∉ (p.execute t).data
        rw [hd]
        intro hin
        rcases h4 j hin with g | g
        · exact g1 g
        · exact g3 (ho j g)
      · rcases g2 with ⟨u, hu, hx⟩ | g
        · rw [List.mem_singleton.1 hu] at hx
          exact absurd (hall j hx) g1
        · exact Or.inr g
  · split
    · rename_i _ hx
      exfalso
      simp only [List.any_eq_true, List.mem_filter, decide_eq_true_eq, Option.isNone_iff_eq_none] at hx
      obtain ⟨i, ⟨hi, hd⟩, ho⟩ := hx
      rcases h i hi with g | g
      · exact hd g
      · exact g ho
    · obtain ⟨g1, g2, g3, g4⟩ := requests_traffic me (t.args.filter (fun i => i ∉ p.data)) p
      obtain ⟨a, b, e⟩ := requests_rest me (t.args.filter (fun i => i ∉ p.data)) p
      rw [e] at g1 g2 g3 g4 ⊢
      refine ⟨fun j W => by rw [g1 j W]; exact Nat.le_refl _, fun _ h => h, fun h => h, g2, g3, ?_, ?_, rfl⟩
      · intro j hj
        rcases g4 j hj with h | h
        · exact Or.inl h
        · exact Or.inr h.2
      · intro R hp j hj
        simp only [Option.toList, List.mem_singleton, exists_eq_left]
        rcases g4 j hj with h | ⟨h, o, k1, k2⟩
        · obtain ⟨f1, f2, f3⟩ := hp j h
          refine ⟨f1, ?_, f3⟩
          rcases f2 with ⟨u, hu, hx⟩ | hx
          · rw [List.mem_singleton.1 hu] at hx
            exact Or.inl (by simp [hx, f1])
          · exact Or.inr hx
        · refine ⟨by simpa using (List.mem_filter.1 h).2, Or.inl h, ?_⟩
          rw [hw _ k2]
          intro hc
          exact k1 (by simpa using hc)

theorem pass_traffic (own : Nat → Option Nat) (me : Nat) (L : List Task) (p : Proc) (h : ∀ t ∈ L, Ready p t.args)
    (ho : ∀ t ∈ L, ∀ j ∈ t.outs, own j = some me) (hw : ∀ e ∈ p.owners, own e.1 = some e.2) :
    Traffic own me p (Proc.pass me L p).1 L (Proc.pass me L p).2 := by
  induction L generalizing p with
  | nil => exact Traffic.refl own me p
  | cons t L ih =>
    have a := attempt_work me p t (h t List.mem_cons_self)
    have a' := attempt_traffic own me p t (h t List.mem_cons_self) (ho t List.mem_cons_self) hw
    have b := ih (p.attempt me t).1 (by
      intro t' ht' i hi
      rcases h t' (List.mem_cons_of_mem _ ht') i hi with g | g
      · exact Or.inl (a.data i g)
      · exact Or.inr (by rw [a.owners]; exact g)) (fun t ht => ho t (List.mem_cons_of_mem _ ht)) (by rw [a.owners]; exact hw)
    exact a'.trans b

/-- What receiving a message does to the requests of a worker without actors. -/
structure Recv2 (own : Nat → Option Nat) (me : Nat) (p p' : Proc) (m : Msg) : Prop where
  count : ∀ j W, p'.asks.count (j, W) + p'.outbox.count (W, Msg.data j) ≤
    p.asks.count (j, W) + p.outbox.count (W, Msg.data j) + (if m = .ask j W then 1 else 0)
  asks : ∀ a ∈ p'.asks, a ∈ p.asks ∨ m = .ask a.1 a.2
  fresh : (∀ a ∈ p.asks, a.1 ∉ p.data) → (∀ i, m = .data i → ∀ a ∈ p.asks, a.1 ≠ i) → ∀ a ∈ p'.asks, a.1 ∉ p'.data
  req : ∀ j d z, p'.outbox.count (d, Msg.ask j z) + (if m = .data j then 0 else bit p.asked j) ≤ p.outbox.count (d, Msg.ask j z) + bit p'.asked j
  reqOwn : ∀ d j z, (d, Msg.ask j z) ∈ p'.outbox → (d, Msg.ask j z) ∈ p.outbox ∨ (z = me ∧ d ≠ me ∧ (j, d) ∈ p.owners)
  asked : ∀ j ∈ p'.asked, j ∈ p.asked ∨ ∃ o, o ≠ me ∧ (j, o) ∈ p.owners
  pend : (∀ j ∈ p.asked, j ∉ p.data ∧ (∃ t ∈ p.tasks, j ∈ t.args) ∧ own j ≠ some me) →
    ∀ j ∈ p'.asked, j ∉ p'.data ∧ (∃ t ∈ p'.tasks, j ∈ t.args) ∧ own j ≠ some me

theorem receive_recv2 (own : Nat → Option Nat) (me : Nat) (p : Proc) (m : Msg) (hm : p.methods = []) (ht : ∀ t, m = .task t → t.method = false)
    (hr : ∀ t ∈ todo p m, Ready p t.args) (ho : ∀ t ∈ todo p m, ∀ j ∈ t.outs, own j = some me)
    (hw : ∀ e ∈ p.owners, own e.1 = some e.2) : Recv2 own me p (p.receive me m) m := by
  cases m with
  | data i =>
    obtain ⟨l, e, -, -⟩ := store_rest p i
    have w := pass_work me p.tasks { p with data := i :: p.data, strong := l, asked := p.asked.filter (fun j => j ≠ i) } (by
      intro t ht j hj
      rcases hr t ht j hj with g | g
      · exact Or.inl (List.mem_cons_of_mem _ g)
      · exact Or.inr g)
    have w2 := pass_traffic own me p.tasks { p with data := i :: p.data, strong := l, asked := p.asked.filter (fun j => j ≠ i) } (by
      intro t ht j hj
      rcases hr t ht j hj with g | g
      · exact Or.inl (List.mem_cons_of_mem _ g)
      · exact Or.inr g) ho hw
    have hrec : p.receive me (.data i) =
        { (Proc.pass me p.tasks { p with data := i :: p.data, strong := l, asked := p.asked.filter (fun j => j ≠ i) }).1 with
          tasks := (Proc.pass me p.tasks { p with data := i :: p.data, strong := l, asked := p.asked.filter (fun j => j ≠ i) }).2 } := by
      simp only [Proc.receive, e]
      rw [checkMethods_none]
      · rfl
      · exact w.methods.trans hm
    rw [hrec]
    refine ⟨?_, fun a h => Or.inl (w2.asks a h), ?_, ?_, w2.reqOwn, ?_, ?_⟩
    · intro j W
      exact Nat.le_trans (w2.count j W) (Nat.le_add_right _ _)
    · intro h1 h2
      refine w2.fresh ?_
      intro a ha hin
      rcases List.mem_cons.1 hin with g | g
      · exact h2 i rfl a ha g
      · exact h1 a ha g
    · intro j d z
      have := w2.req j d z
      simp only at this ⊢
      split
      · omega
      · rename_i hne
        have hne : j ≠ i := fun e => hne (by rw [e])
        have : bit p.asked j = bit (p.asked.filter (fun j => j ≠ i)) j := by simp [bit, hne]
        omega
    · intro j hj
      rcases w2.asked j hj with h | h
      · exact Or.inl (List.mem_filter.1 h).1
      · exact Or.inr h
    · intro hp j hj
      obtain ⟨g1, g2, g3⟩ := w2.pend (fun _ => False) (by
        intro k hk
        obtain ⟨hk1, hk2⟩ := List.mem_filter.1 hk
        obtain ⟨f1, f2, f3⟩ := hp k hk1
        refine ⟨?_, Or.inl f2, f3⟩
        intro hin
        rcases List.mem_cons.1 hin with g | g
        · simp at hk2; exact hk2 g
        · exact f1 g) j hj
      exact ⟨g1, g2.resolve_right id, g3⟩
  | owner i r =>
    obtain ⟨l, e⟩ := keep_rest { p with owners := (i, r) :: p.owners.filter (fun e => e.1 ≠ i) } i
    have hrec : p.receive me (.owner i r) = { p with owners := (i, r) :: p.owners.filter (fun e => e.1 ≠ i), strong := l } := e
    rw [hrec]
    exact ⟨fun _ _ => Nat.le_add_right _ _, fun _ h => Or.inl h, fun h _ => h, fun _ _ _ => by simp, fun _ _ _ h => Or.inl h, fun _ h => Or.inl h, fun h => h⟩
  | task t =>
    have hf := ht t rfl
    have a := attempt_work me p t (hr t List.mem_cons_self)
    have a2 := attempt_traffic own me p t (hr t List.mem_cons_self) (ho t List.mem_cons_self) hw
    simp only [Proc.receive, hf]
    cases hres : (p.attempt me t).2 with
    | some t' =>
      rw [hres] at a a2
      simp only
      refine ⟨fun j W => Nat.le_trans (a2.count j W) (Nat.le_add_right _ _), fun x h => Or.inl (a2.asks x h), fun h _ => a2.fresh h, fun j d z => by simpa using a2.req j d z, a2.reqOwn, a2.asked, ?_⟩
      intro hp j hj
      obtain ⟨g1, g2, g3⟩ := a2.pend (fun j => ∃ t ∈ p.tasks, j ∈ t.args) (by
        intro k hk
        obtain ⟨f1, f2, f3⟩ := hp k hk
        exact ⟨f1, Or.inr f2, f3⟩) j hj
      refine ⟨g1, ?_, g3⟩
      rcases g2 with ⟨u, hu, hx⟩ | ⟨u, hu, hx⟩
      · exact ⟨u, List.mem_append_right _ (by simpa using hu), hx⟩
      · exact ⟨u, List.mem_append_left _ (by rw [a.tasks]; exact hu), hx⟩
    | none =>
      rw [hres] at a a2
      simp only
      have htk : (p.attempt me t).1.tasks = p.tasks := a.tasks
      have w2 := pass_traffic own me (p.attempt me t).1.tasks (p.attempt me t).1 (by
        rw [htk]
        intro t' ht' i hi
        rcases hr t' (List.mem_cons_of_mem _ ht') i hi with g | g
        · exact Or.inl (a.data i g)
        · exact Or.inr (by rw [a.owners]; exact g)) (by
        rw [htk]
        intro u hu
        exact ho u (List.mem_cons_of_mem _ hu)) (by rw [a.owners]; exact hw)
      have b := a2.trans w2
      unfold Proc.checkTasks
      simp only
      rw [htk] at b ⊢
      refine ⟨fun j W => Nat.le_trans (b.count j W) (Nat.le_add_right _ _), fun x h => Or.inl (b.asks x h), fun h _ => b.fresh h, fun j d z => by simpa using b.req j d z, b.reqOwn, b.asked, ?_⟩
      intro hp j hj
      obtain ⟨g1, g2, g3⟩ := b.pend (fun _ => False) (by
        intro k hk
        obtain ⟨f1, ⟨u, hu, hx⟩, f3⟩ := hp k hk
        exact ⟨f1, Or.inl ⟨u, List.mem_append_right _ hu, hx⟩, f3⟩) j hj
      exact ⟨g1, g2.resolve_right id, g3⟩
  | ask i src =>
    simp only [Proc.receive]
    split
    · rename_i hin
      obtain ⟨a, b, e⟩ := push_rest p i src
      have h1 := fun j W => push_data_count p i src j W
      have h2 := fun (j d z : Nat) => push_asks p i src (d, Msg.ask j z) (by simp)
      rw [e] at h1 h2 ⊢
      refine ⟨?_, fun _ h => Or.inl h, fun h _ => h, ?_, ?_, fun _ h => Or.inl h, fun h => h⟩
      · intro j W
        have := h1 j W
        simp only [Msg.ask.injEq] at this ⊢
        by_cases hc : i = j ∧ src = W
        · rw [if_pos hc]
          obtain ⟨rfl, rfl⟩ := hc
          simp at this
          omega
        · rw [if_neg hc]
          have h0 : [(i, src)].count (j, W) = 0 := by
            rw [List.count_eq_zero]
            simp only [List.mem_singleton, Prod.mk.injEq]
            rintro ⟨rfl, rfl⟩
            exact hc ⟨rfl, rfl⟩
          omega
      · intro j d z
        have := h2 j d z
        simp only at this
        simp [this]
      · intro d j z hin
        left
        have := h2 j d z
        exact List.count_pos_iff.1 (this ▸ List.count_pos_iff.2 hin)
    · rename_i hnd
      split
      · exact ⟨fun _ _ => Nat.le_add_right _ _, fun _ h => Or.inl h, fun h _ => h, fun _ _ _ => by simp, fun _ _ _ h => Or.inl h, fun _ h => Or.inl h, fun h => h⟩
      · refine ⟨?_, ?_, ?_, fun _ _ _ => by simp, fun _ _ _ h => Or.inl h, fun _ h => Or.inl h, fun h => h⟩
        · intro j W
          simp only [List.count_cons, Msg.ask.injEq]
          by_cases hc : i = j ∧ src = W
          · rw [if_pos hc]
            split <;> omega
          · rw [if_neg hc]
            have h0 : ((i, src) == (j, W)) = false := by
              simp only [beq_eq_false_iff_ne, ne_eq, Prod.mk.injEq]
              exact hc
            rw [h0]; simp
        · intro x hx
          rcases List.mem_cons.1 hx with h | h
          · subst h; exact Or.inr rfl
          · exact Or.inl h
        · intro h _ x hx
          rcases List.mem_cons.1 hx with g | g
          · subst g; exact hnd
          · exact h x g
  | clean ids =>
    exact ⟨fun _ _ => Nat.le_add_right _ _, fun _ h => Or.inl h, fun h _ => h, fun _ _ _ => by simp [Proc.receive], fun _ _ _ h => Or.inl h, fun _ h => Or.inl h, fun h => h⟩

end Verif.Lifetime
