import Verif.Lemmas.LifetimeTraffic

/-! Nothing that a worker has to answer or to run gets lost when it receives a message. -/
namespace Verif.Lifetime

/-- The tasks that are left of a list, in the same order, with fewer arguments. -/
inductive Shrunk : List Task → List Task → Prop
  | nil : Shrunk [] []
  | drop {L' L : List Task} (t : Task) (h : Shrunk L' L) : Shrunk L' (t :: L)
  | keep {L' L : List Task} (t' t : Task) (ho : t'.outs = t.outs) (ha : ∀ i ∈ t'.args, i ∈ t.args) (h : Shrunk L' L) :
      Shrunk (t' :: L') (t :: L)

theorem Shrunk.refl (L : List Task) : Shrunk L L := by
  induction L with
  | nil => exact .nil
  | cons t L ih => exact .keep t t rfl (fun _ h => h) ih

theorem Shrunk.append {L1 L2 M1 M2 : List Task} (a : Shrunk L1 M1) (b : Shrunk L2 M2) : Shrunk (L1 ++ L2) (M1 ++ M2) := by
  induction a with
  | nil => exact b
  | drop t _ ih => exact .drop t ih
  | keep t' t ho ha _ ih => exact .keep t' t ho ha ih

theorem Shrunk.mem {L' L : List Task} (a : Shrunk L' L) : ∀ t' ∈ L', ∃ t ∈ L, t'.outs = t.outs ∧ ∀ i ∈ t'.args, i ∈ t.args := by
  induction a with
  | nil => simp
  | drop t _ ih =>
    intro t' h
    obtain ⟨u, h1, h2⟩ := ih t' h
    exact ⟨u, List.mem_cons_of_mem _ h1, h2⟩
  | keep t' t ho ha _ ih =>
    intro u h
    rcases List.mem_cons.1 h with h | h
    · subst h; exact ⟨t, List.mem_cons_self, ho, ha⟩
    · obtain ⟨v, h1, h2⟩ := ih u h
      exact ⟨v, List.mem_cons_of_mem _ h1, h2⟩

/-- A task precedes another: its arguments and results are not results of the other. -/
def Before (t u : Task) : Prop := (∀ i ∈ t.args, i ∉ u.outs) ∧ ∀ i ∈ t.outs, i ∉ u.outs

theorem Shrunk.pairwise {L' L : List Task} (a : Shrunk L' L) (h : L.Pairwise Before) : L'.Pairwise Before := by
  induction a with
  | nil => exact List.Pairwise.nil
  | drop t _ ih => exact ih (List.pairwise_cons.1 h).2
  | keep t' t ho ha hs ih =>
    obtain ⟨h1, h2⟩ := List.pairwise_cons.1 h
    refine List.pairwise_cons.2 ⟨?_, ih h2⟩
    intro u hu
    obtain ⟨v, hv, e, -⟩ := hs.mem u hu
    obtain ⟨k1, k2⟩ := h1 v hv
    refine ⟨fun i hi => ?_, fun i hi => ?_⟩
    · rw [e]; exact k1 i (ha i hi)
    · rw [e]; exact k2 i (ho ▸ hi)

/-- What trying a list of tasks does to the requests of a worker: none is lost. -/
structure Flow (me : Nat) (p p' : Proc) (L L' : List Task) : Prop where
  data : ∀ i ∈ p.data, i ∈ p'.data
  outbox : ∀ x ∈ p.outbox, x ∈ p'.outbox
  asks : ∀ a ∈ p.asks, a ∈ p'.asks ∨ (a.2, Msg.data a.1) ∈ p'.outbox ∨ a ∈ p.sent
  fresh : ∀ a ∈ p'.asks, a ∈ p.asks ∧ (a.1 ∈ p'.data → a.1 ∈ p.data)
  sent : ∀ e ∈ p'.sent, e ∈ p.sent ∨ (e.2, Msg.data e.1) ∈ p'.outbox
  outData : ∀ y i, (y, Msg.data i) ∈ p'.outbox → (y, Msg.data i) ∈ p.outbox ∨ i ∈ p'.data
  askedMono : ∀ j ∈ p.asked, j ∈ p'.asked
  req : ∀ j ∈ p'.asked, j ∈ p.asked ∨ ∃ o, (j, o) ∈ p.owners ∧ (o, Msg.ask j me) ∈ p'.outbox
  left : ∀ t' ∈ L', t'.args ≠ [] ∧ ∀ i ∈ t'.args, i ∈ p'.asked ∨ (i, me) ∈ p.owners
  owners : p'.owners = p.owners
  shrunk : Shrunk L' L

theorem Flow.refl (me : Nat) (p : Proc) : Flow me p p [] [] :=
  ⟨fun _ h => h, fun _ h => h, fun _ h => Or.inl h, fun _ h => ⟨h, id⟩, fun _ h => Or.inl h, fun _ _ h => Or.inl h, fun _ h => h, fun _ h => Or.inl h,
    by simp, rfl, .nil⟩

theorem Flow.trans {me : Nat} {p p1 p2 : Proc} {L1 L2 M1 M2 : List Task} (a : Flow me p p1 L1 M1) (b : Flow me p1 p2 L2 M2) :
    Flow me p p2 (L1 ++ L2) (M1 ++ M2) where
  data i h := b.data i (a.data i h)
  outbox x h := b.outbox x (a.outbox x h)
  asks x h := by
    rcases a.asks x h with h | h | h
    · rcases b.asks x h with h | h | h
      · exact Or.inl h
      · exact Or.inr (Or.inl h)
      · rcases a.sent x h with h | h
        · exact Or.inr (Or.inr h)
        · exact Or.inr (Or.inl (b.outbox _ h))
    · exact Or.inr (Or.inl (b.outbox _ h))
    · exact Or.inr (Or.inr h)
  fresh x h := by
    obtain ⟨h1, h2⟩ := b.fresh x h
    obtain ⟨g1, g2⟩ := a.fresh x h1
    exact ⟨g1, fun k => g2 (h2 k)⟩
  sent x h := by
    rcases b.sent x h with h | h
    · rcases a.sent x h with h | h
      · exact Or.inl h
      · exact Or.inr (b.outbox _ h)
    · exact Or.inr h
  outData y i h := by
    rcases b.outData y i h with h | h
    · rcases a.outData y i h with h | h
      · exact Or.inl h
      · exact Or.inr (b.data i h)
    · exact Or.inr h
  askedMono j h := b.askedMono j (a.askedMono j h)
  req j h := by
    rcases b.req j h with h | ⟨o, h1, h2⟩
    · rcases a.req j h with h | ⟨o, h1, h2⟩
      · exact Or.inl h
      · exact Or.inr ⟨o, h1, b.outbox _ h2⟩
    · exact Or.inr ⟨o, a.owners ▸ h1, h2⟩
  left t h := by
    rcases List.mem_append.1 h with h | h
    · obtain ⟨h1, h2⟩ := a.left t h
      refine ⟨h1, fun i hi => ?_⟩
      rcases h2 i hi with g | g
      · exact Or.inl (b.askedMono i g)
      · exact Or.inr g
    · obtain ⟨h1, h2⟩ := b.left t h
      refine ⟨h1, fun i hi => ?_⟩
      rcases h2 i hi with g | g
      · exact Or.inl g
      · exact Or.inr (a.owners ▸ g)
  owners := b.owners.trans a.owners
  shrunk := a.shrunk.append b.shrunk

theorem push_flow (p : Proc) (i d : Nat) :
    (∀ x ∈ p.outbox, x ∈ (p.push i d).outbox) ∧ ((d, Msg.data i) ∈ (p.push i d).outbox ∨ (i, d) ∈ p.sent) ∧
    (∀ e ∈ (p.push i d).sent, e ∈ p.sent ∨ (e.2, Msg.data e.1) ∈ (p.push i d).outbox) ∧
    (∀ x ∈ (p.push i d).outbox, x ∈ p.outbox ∨ x = (d, Msg.data i)) := by
  unfold Proc.push
  split
  · rename_i h
    exact ⟨fun _ h => h, Or.inr h, fun _ h => Or.inl h, fun _ h => Or.inl h⟩
  · refine ⟨fun _ h => List.mem_append_left _ h, Or.inl (by simp), ?_, ?_⟩
    · intro e he
      rcases List.mem_cons.1 he with h | h
      · subst h; exact Or.inr (by simp)
      · exact Or.inl h
    · intro x hx
      rcases List.mem_append.1 hx with h | h
      · exact Or.inl h
      · exact Or.inr (List.mem_singleton.1 h)

theorem pushes_flow (l : List (Nat × Nat)) (p : Proc) :
    (∀ x ∈ p.outbox, x ∈ (l.foldl (fun p a => p.push a.1 a.2) p).outbox) ∧
    (∀ a ∈ l, (a.2, Msg.data a.1) ∈ (l.foldl (fun p a => p.push a.1 a.2) p).outbox ∨ a ∈ p.sent) ∧
    (∀ e ∈ (l.foldl (fun p a => p.push a.1 a.2) p).sent, e ∈ p.sent ∨ (e.2, Msg.data e.1) ∈ (l.foldl (fun p a => p.push a.1 a.2) p).outbox) ∧
    (∀ x ∈ (l.foldl (fun p a => p.push a.1 a.2) p).outbox, x ∈ p.outbox ∨ ∃ a ∈ l, x = (a.2, Msg.data a.1)) := by
  induction l generalizing p with
  | nil => exact ⟨fun _ h => h, by simp, fun _ h => Or.inl h, fun _ h => Or.inl h⟩
  | cons a l ih =>
    rw [List.foldl_cons]
    obtain ⟨h1, h2, h3, h4⟩ := push_flow p a.1 a.2
    obtain ⟨g1, g2, g3, g4⟩ := ih (p.push a.1 a.2)
    refine ⟨fun x h => g1 x (h1 x h), ?_, ?_, ?_⟩
    · intro x hx
      rcases List.mem_cons.1 hx with h | h
      · subst h
        rcases h2 with h | h
        · exact Or.inl (g1 _ h)
        · exact Or.inr h
      · rcases g2 x h with h | h
        · exact Or.inl h
        · rcases h3 x h with h | h
          · exact Or.inr h
          · exact Or.inl (g1 _ h)
    · intro e he
      rcases g3 e he with h | h
      · rcases h3 e h with h | h
        · exact Or.inl h
        · exact Or.inr (g1 _ h)
      · exact Or.inr h
    · intro x hx
      rcases g4 x hx with h | ⟨b, hb, h⟩
      · rcases h4 x h with h | h
        · exact Or.inl h
        · exact Or.inr ⟨a, List.mem_cons_self, h⟩
      · exact Or.inr ⟨b, List.mem_cons_of_mem _ hb, h⟩

theorem answers_flow (l : List Nat) (p : Proc) :
    (∀ x ∈ p.outbox, x ∈ (l.foldl Proc.answer p).outbox) ∧
    (∀ a ∈ p.asks, a ∈ (l.foldl Proc.answer p).asks ∨ (a.2, Msg.data a.1) ∈ (l.foldl Proc.answer p).outbox ∨ a ∈ p.sent) ∧
    (∀ e ∈ (l.foldl Proc.answer p).sent, e ∈ p.sent ∨ (e.2, Msg.data e.1) ∈ (l.foldl Proc.answer p).outbox) ∧
    (∀ x ∈ (l.foldl Proc.answer p).outbox, x ∈ p.outbox ∨ ∃ y i, x = (y, Msg.data i) ∧ i ∈ l) := by
  induction l generalizing p with
  | nil => exact ⟨fun _ h => h, fun _ h => Or.inl h, fun _ h => Or.inl h, fun _ h => Or.inl h⟩
  | cons i l ih =>
    rw [List.foldl_cons]
    obtain ⟨h1, h2, h3, h4⟩ := pushes_flow (p.asks.filter (fun a => a.1 = i)) { p with asks := p.asks.filter (fun a => a.1 ≠ i) }
    obtain ⟨g1, g2, g3, g4⟩ := ih (p.answer i)
    have hk : (p.answer i).asks = p.asks.filter (fun a => a.1 ≠ i) := answer_asks p i
    refine ⟨fun x h => g1 x (h1 x h), ?_, ?_, ?_⟩
    · intro a ha
      by_cases hx : a.1 = i
      · rcases h2 a (by simp [ha, hx]) with h | h
        · exact Or.inr (Or.inl (g1 _ h))
        · exact Or.inr (Or.inr h)
      · rcases g2 a (by rw [hk]; simp [ha, hx]) with h | h | h
        · exact Or.inl h
        · exact Or.inr (Or.inl h)
        · rcases h3 a h with h | h
          · exact Or.inr (Or.inr h)
          · exact Or.inr (Or.inl (g1 _ h))
    · intro e he
      rcases g3 e he with h | h
      · rcases h3 e h with h | h
        · exact Or.inl h
        · exact Or.inr (g1 _ h)
      · exact Or.inr h
    · intro x hx
      rcases g4 x hx with h | ⟨y, j, h, hj⟩
      · rcases h4 x h with h | ⟨b, hb, h⟩
        · exact Or.inl h
        · exact Or.inr ⟨b.2, b.1, h, by have := (List.mem_filter.1 hb).2; simp at this; simp [this]⟩
      · exact Or.inr ⟨y, j, h, List.mem_cons_of_mem _ hj⟩

theorem request_flow (me : Nat) (p : Proc) (i : Nat) :
    (∀ x ∈ p.outbox, x ∈ (p.request me i).outbox) ∧
    (∀ x ∈ (p.request me i).outbox, x ∈ p.outbox ∨ ∃ y j, x = (y, Msg.ask j me)) ∧
    (∀ j ∈ p.asked, j ∈ (p.request me i).asked) ∧
    (∀ j ∈ (p.request me i).asked, j ∈ p.asked ∨ ∃ o, (j, o) ∈ p.owners ∧ (o, Msg.ask j me) ∈ (p.request me i).outbox) ∧
    (p.owners.lookup i ≠ none → i ∈ (p.request me i).asked ∨ (i, me) ∈ p.owners) := by
  unfold Proc.request
  split
  · rename_i h
    exact ⟨fun _ h => h, fun _ h => Or.inl h, fun _ h => h, fun _ h => Or.inl h, fun h' => absurd h h'⟩
  · rename_i o ho
    have hmem := lookup_mem ho
    split
    · rename_i hc
      refine ⟨fun _ h => h, fun _ h => Or.inl h, fun _ h => h, fun _ h => Or.inl h, fun _ => ?_⟩
      rcases hc with h | h
      · exact Or.inl h
      · exact Or.inr (h ▸ hmem)
    · refine ⟨fun _ h => List.mem_append_left _ h, ?_, fun _ h => List.mem_cons_of_mem _ h, ?_, fun _ => Or.inl List.mem_cons_self⟩
      · intro x hx
        rcases List.mem_append.1 hx with h | h
        · exact Or.inl h
        · exact Or.inr ⟨o, i, List.mem_singleton.1 h⟩
      · intro j hj
        rcases List.mem_cons.1 hj with h | h
        · subst h
          exact Or.inr ⟨o, hmem, by simp⟩
        · exact Or.inl h

theorem requests_flow (me : Nat) (l : List Nat) (p : Proc) :
    (∀ x ∈ p.outbox, x ∈ (l.foldl (Proc.request me) p).outbox) ∧
    (∀ x ∈ (l.foldl (Proc.request me) p).outbox, x ∈ p.outbox ∨ ∃ y j, x = (y, Msg.ask j me)) ∧
    (∀ j ∈ p.asked, j ∈ (l.foldl (Proc.request me) p).asked) ∧
    (∀ j ∈ (l.foldl (Proc.request me) p).asked, j ∈ p.asked ∨ ∃ o, (j, o) ∈ p.owners ∧ (o, Msg.ask j me) ∈ (l.foldl (Proc.request me) p).outbox) ∧
    (∀ i ∈ l, p.owners.lookup i ≠ none → i ∈ (l.foldl (Proc.request me) p).asked ∨ (i, me) ∈ p.owners) := by
  induction l generalizing p with
  | nil => exact ⟨fun _ h => h, fun _ h => Or.inl h, fun _ h => h, fun _ h => Or.inl h, by simp⟩
  | cons i l ih =>
    rw [List.foldl_cons]
    obtain ⟨h1, h2, h3, h4, h5⟩ := request_flow me p i
    obtain ⟨g1, g2, g3, g4, g5⟩ := ih (p.request me i)
    obtain ⟨a, b, e⟩ := request_rest me p i
    have ho : (p.request me i).owners = p.owners := by rw [e]
    rw [ho] at g4 g5
    refine ⟨fun x h => g1 x (h1 x h), ?_, fun j h => g3 j (h3 j h), ?_, ?_⟩
    · intro x hx
      rcases g2 x hx with h | h
      · exact h2 x h
      · exact Or.inr h
    · intro j hj
      rcases g4 j hj with h | h
      · rcases h4 j h with h | ⟨o, k1, k2⟩
        · exact Or.inl h
        · exact Or.inr ⟨o, k1, g1 _ k2⟩
      · exact Or.inr h
    · intro j hj hl
      rcases List.mem_cons.1 hj with h | h
      · subst h
        rcases h5 hl with h | h
        · exact Or.inl (g3 _ h)
        · exact Or.inr h
      · exact g5 j h hl

theorem attempt_flow (me : Nat) (p : Proc) (t : Task) (h : Ready p t.args) :
    Flow me p (p.attempt me t).1 [t] (p.attempt me t).2.toList := by
  unfold Proc.attempt
  simp only
  split
  · obtain ⟨a, b, e1, h1, h2, h3, h4, h5⟩ := stores_rest t.outs p
    obtain ⟨c, d, e, e2⟩ := answers_rest t.outs { p with data := a, strong := b }
    obtain ⟨g1, g2, g3, g4⟩ := answers_flow t.outs { p with data := a, strong := b }
    have hx : p.execute t = { t.outs.foldl Proc.answer { p with data := a, strong := b } with done := (t.outs.foldl Proc.answer { p with data := a, strong := b }).done + 1 } := by
      unfold Proc.execute
      simp only [e1]
    have hd : (p.execute t).data = a := by rw [hx, e2]
    have hk : (p.execute t).asked = p.asked := by rw [hx, e2]
    refine ⟨?_, ?_, ?_, ?_, ?_, ?_, ?_, ?_, by simp, by rw [hx, e2], .drop t .nil⟩
    · intro i hi
      show i ∈ (p.execute t).data
      rw [hd]; exact h1 i hi
    · intro x h
      show x ∈ (p.execute t).outbox
      rw [hx]; exact g1 x h
    · intro x h
      show x ∈ (p.execute t).asks ∨ (x.2, Msg.data x.1) ∈ (p.execute t).outbox ∨ _
      rw [hx]; exact g2 x h
    · intro x h
      have h : x ∈ (p.execute t).asks := h
      rw [hx] at h
      obtain ⟨k1, k2⟩ := (answers_asks t.outs { p with data := a, strong := b } x).1 h
      refine ⟨k1, ?_⟩
      show x.1 ∈ (p.execute t).data → _
      rw [hd]
      intro hin
      exact (h4 x.1 hin).resolve_right k2
    · intro x h
      have h : x ∈ (p.execute t).sent := h
      show _ ∨ (x.2, Msg.data x.1) ∈ (p.execute t).outbox
      rw [hx] at h ⊢; exact g3 x h
    · intro y i h
      have h : (y, Msg.data i) ∈ (p.execute t).outbox := h
      show _ ∨ i ∈ (p.execute t).data
      rw [hx] at h
      rcases g4 _ h with h | ⟨y', i', e', hi'⟩
      · exact Or.inl h
      · cases e'
        rw [hd]
        exact Or.inr (h3 i hi').1
    · intro j hj
      show j ∈ (p.execute t).asked
      rw [hk]; exact hj
    · intro j hj
      exact Or.inl (by rw [← hk]; exact hj)
  · rename_i hne
    split
    · rename_i hx
      exfalso
      simp only [List.any_eq_true, List.mem_filter, decide_eq_true_eq, Option.isNone_iff_eq_none] at hx
      obtain ⟨i, ⟨hi, hd⟩, ho⟩ := hx
      rcases h i hi with g | g
      · exact hd g
      · exact g ho
    · rename_i hx
      obtain ⟨g1, g2, g3, g4, g5⟩ := requests_flow me (t.args.filter (fun i => i ∉ p.data)) p
      obtain ⟨a, b, e⟩ := requests_rest me (t.args.filter (fun i => i ∉ p.data)) p
      rw [e] at g1 g2 g3 g4 g5 ⊢
      refine ⟨fun _ h => h, g1, fun _ h => Or.inl h, fun _ h => ⟨h, id⟩, fun _ h => Or.inl h, ?_, g3, g4, ?_, rfl, .keep _ t rfl (fun i hi => (List.mem_filter.1 hi).1) .nil⟩
      · intro y i h
        rcases g2 _ h with h | ⟨y', j, k⟩
        · exact Or.inl h
        · cases k
      · intro t' ht'
        simp only [Option.toList, List.mem_singleton] at ht'
        subst ht'
        refine ⟨hne, fun i hi => g5 i hi ?_⟩
        obtain ⟨k1, k2⟩ := List.mem_filter.1 hi
        rcases h i k1 with g | g
        · simp [g] at k2
        · exact g

theorem pass_flow (me : Nat) (L : List Task) (p : Proc) (h : ∀ t ∈ L, Ready p t.args) :
    Flow me p (Proc.pass me L p).1 L (Proc.pass me L p).2 := by
  induction L generalizing p with
  | nil => exact Flow.refl me p
  | cons t L ih =>
    have a := attempt_flow me p t (h t List.mem_cons_self)
    have b := ih (p.attempt me t).1 (by
      intro t' ht' i hi
      rcases h t' (List.mem_cons_of_mem _ ht') i hi with g | g
      · exact Or.inl (a.data i g)
      · exact Or.inr (by rw [a.owners]; exact g))
    exact a.trans b

/-- A task that is left has arguments that are missing, and its results are not there. -/
theorem attempt_sep (me : Nat) (p : Proc) (t : Task) (h : Ready p t.args) (hs : ∀ i ∈ t.outs, i ∉ p.data) :
    (∀ t' ∈ (p.attempt me t).2.toList, (∀ i ∈ t'.outs, i ∉ (p.attempt me t).1.data) ∧ ∀ i ∈ t'.args, i ∉ (p.attempt me t).1.data) := by
  unfold Proc.attempt
  simp only
  split
  · simp
  · split
    · simp
    · obtain ⟨a, b, e⟩ := requests_rest me (t.args.filter (fun i => i ∉ p.data)) p
      rw [e]
      intro t' ht'
      simp only [Option.toList, List.mem_singleton] at ht'
      subst ht'
      exact ⟨hs, fun i hi => by simpa using (List.mem_filter.1 hi).2⟩

theorem pass_sep (me : Nat) (L : List Task) (p : Proc) (h : ∀ t ∈ L, Ready p t.args) (hp : L.Pairwise Before)
    (hs : ∀ t ∈ L, ∀ i ∈ t.outs, i ∉ p.data) :
    ∀ t' ∈ (Proc.pass me L p).2, (∀ i ∈ t'.outs, i ∉ (Proc.pass me L p).1.data) ∧ ∀ i ∈ t'.args, i ∉ (Proc.pass me L p).1.data := by
  induction L generalizing p with
  | nil => simp [Proc.pass]
  | cons t L ih =>
    obtain ⟨hp1, hp2⟩ := List.pairwise_cons.1 hp
    have a := attempt_work me p t (h t List.mem_cons_self)
    have a' := attempt_sep me p t (h t List.mem_cons_self) (hs t List.mem_cons_self)
    have hr : ∀ t' ∈ L, Ready (p.attempt me t).1 t'.args := by
      intro t' ht' i hi
      rcases h t' (List.mem_cons_of_mem _ ht') i hi with g | g
      · exact Or.inl (a.data i g)
      · exact Or.inr (by rw [a.owners]; exact g)
    have b := ih (p.attempt me t).1 hr hp2 (by
      intro u hu i hi hin
      rcases a.new i hin with g | ⟨v, hv, g⟩
      · exact hs u (List.mem_cons_of_mem _ hu) i hi g
      · rw [List.mem_singleton.1 hv] at g
        exact (hp1 u hu).2 i g hi)
    have w := pass_work me L (p.attempt me t).1 hr
    intro t' ht'
    rcases List.mem_append.1 (show t' ∈ (p.attempt me t).2.toList ++ (Proc.pass me L (p.attempt me t).1).2 from ht') with g | g
    · obtain ⟨k1, k2⟩ := a' t' g
      obtain ⟨v, hv, e1, -, e2⟩ := a.left t' g
      rw [List.mem_singleton.1 hv] at e1 e2
      refine ⟨fun i hi hin => ?_, fun i hi hin => ?_⟩
      · rcases w.new i hin with g | ⟨u, hu, g⟩
        · exact k1 i hi g
        · exact (hp1 u hu).2 i (e1 ▸ hi) g
      · rcases w.new i hin with g | ⟨u, hu, g⟩
        · exact k2 i hi g
        · exact (hp1 u hu).1 i (e2 i hi) g
    · exact b t' g

/-- The tasks a worker knows after receiving a message, in the order of submission. -/
def inOrder (p : Proc) : Msg → List Task
  | .task t => p.tasks ++ [t]
  | _ => p.tasks

theorem mem_inOrder (p : Proc) (m : Msg) (t : Task) : t ∈ inOrder p m ↔ t ∈ todo p m := by
  cases m <;> simp [inOrder, todo, or_comm]

/-- What receiving a message does to the requests and tasks of a worker without actors. -/
structure Recv3 (own : Nat → Option Nat) (me : Nat) (p p' : Proc) (m : Msg) : Prop where
  asks : ∀ a ∈ p.asks, a ∈ p'.asks ∨ (a.2, Msg.data a.1) ∈ p'.outbox ∨ a ∈ p.sent
  got : ∀ i src, m = .ask i src → (i, src) ∈ p'.asks ∨ (src, Msg.data i) ∈ p'.outbox ∨ (i, src) ∈ p.sent
  fresh : ∀ a ∈ p'.asks, (a ∈ p.asks ∧ (a.1 ∈ p'.data → a.1 ∈ p.data ∨ m = .data a.1)) ∨ (m = .ask a.1 a.2 ∧ a.1 ∉ p'.data)
  sent : ∀ e ∈ p'.sent, e ∈ p.sent ∨ (e.2, Msg.data e.1) ∈ p'.outbox
  outData : ∀ y i, (y, Msg.data i) ∈ p'.outbox → (y, Msg.data i) ∈ p.outbox ∨ i ∈ p'.data
  req : ∀ j ∈ p'.asked, (j ∈ p.asked ∧ m ≠ .data j) ∨ ∃ o, (j, o) ∈ p.owners ∧ (o, Msg.ask j me) ∈ p'.outbox
  left : (∀ t ∈ p.tasks, t.args ≠ [] ∧ ∀ i ∈ t.args, i ∈ p.asked ∨ own i = some me) →
    ∀ t ∈ p'.tasks, t.args ≠ [] ∧ ∀ i ∈ t.args, i ∈ p'.asked ∨ own i = some me
  shrunk : Shrunk p'.tasks (inOrder p m)
  sep : (inOrder p m).Pairwise Before → (∀ t ∈ inOrder p m, ∀ i ∈ t.outs, i ∉ p.data ∧ m ≠ .data i) → (∀ t ∈ p.tasks, ∀ i ∈ t.args, i ∉ p.data) →
    ∀ t ∈ p'.tasks, (∀ i ∈ t.outs, i ∉ p'.data) ∧ ∀ i ∈ t.args, i ∉ p'.data

theorem receive_recv3 (own : Nat → Option Nat) (me : Nat) (p : Proc) (m : Msg) (hm : p.methods = []) (ht : ∀ t, m = .task t → t.method = false)
    (hr : ∀ t ∈ todo p m, Ready p t.args) (hw : ∀ e ∈ p.owners, own e.1 = some e.2) : Recv3 own me p (p.receive me m) m := by
  cases m with
  | data i =>
    obtain ⟨l, e, -, -⟩ := store_rest p i
    have hr' : ∀ t ∈ p.tasks, Ready { p with data := i :: p.data, strong := l, asked := p.asked.filter (fun j => j ≠ i) } t.args := by
      intro t ht j hj
      rcases hr t ht j hj with g | g
      · exact Or.inl (List.mem_cons_of_mem _ g)
      · exact Or.inr g
    have w := pass_work me p.tasks { p with data := i :: p.data, strong := l, asked := p.asked.filter (fun j => j ≠ i) } hr'
    have f := pass_flow me p.tasks { p with data := i :: p.data, strong := l, asked := p.asked.filter (fun j => j ≠ i) } hr'
    have hrec : p.receive me (.data i) =
        { (Proc.pass me p.tasks { p with data := i :: p.data, strong := l, asked := p.asked.filter (fun j => j ≠ i) }).1 with
          tasks := (Proc.pass me p.tasks { p with data := i :: p.data, strong := l, asked := p.asked.filter (fun j => j ≠ i) }).2 } := by
      simp only [Proc.receive, e]
      rw [checkMethods_none]
      · rfl
      · exact w.methods.trans hm
    rw [hrec]
    refine ⟨f.asks, by simp, ?_, f.sent, f.outData, ?_, ?_, f.shrunk, ?_⟩
    · intro a ha
      obtain ⟨h1, h2⟩ := f.fresh a ha
      refine Or.inl ⟨h1, fun k => ?_⟩
      rcases List.mem_cons.1 (h2 k) with h | h
      · exact Or.inr (by rw [h])
      · exact Or.inl h
    · intro j hj
      rcases f.req j hj with h | h
      · obtain ⟨h1, h2⟩ := List.mem_filter.1 h
        refine Or.inl ⟨h1, ?_⟩
        intro k
        cases k
        simp at h2
      · exact Or.inr h
    · intro _ t ht
      obtain ⟨h1, h2⟩ := f.left t ht
      refine ⟨h1, fun j hj => ?_⟩
      rcases h2 j hj with h | h
      · exact Or.inl h
      · exact Or.inr (hw _ h)
    · intro hp hs _
      refine pass_sep me p.tasks _ hr' hp ?_
      intro t ht j hj hin
      obtain ⟨k1, k2⟩ := hs t ht j hj
      rcases List.mem_cons.1 hin with h | h
      · exact k2 (by rw [h])
      · exact k1 h
  | owner i r =>
    obtain ⟨l, e⟩ := keep_rest { p with owners := (i, r) :: p.owners.filter (fun e => e.1 ≠ i) } i
    have hrec : p.receive me (.owner i r) = { p with owners := (i, r) :: p.owners.filter (fun e => e.1 ≠ i), strong := l } := e
    rw [hrec]
    exact ⟨fun _ h => Or.inl h, by simp, fun a h => Or.inl ⟨h, fun k => Or.inl k⟩, fun _ h => Or.inl h, fun _ _ h => Or.inl h, fun j h => Or.inl ⟨h, by simp⟩,
      fun h => h, Shrunk.refl _, fun _ h1 h2 t ht => ⟨fun i hi => (h1 t ht i hi).1, h2 t ht⟩⟩
  | task t =>
    have hf := ht t rfl
    have a := attempt_work me p t (hr t List.mem_cons_self)
    have f := attempt_flow me p t (hr t List.mem_cons_self)
    simp only [Proc.receive, hf]
    cases hres : (p.attempt me t).2 with
    | some t' =>
      have hsep := attempt_sep me p t (hr t List.mem_cons_self)
      rw [hres] at a f hsep
      simp only
      refine ⟨f.asks, by simp, fun x h => Or.inl ⟨(f.fresh x h).1, fun k => Or.inl ((f.fresh x h).2 k)⟩, f.sent, f.outData, ?_, ?_, ?_, ?_⟩
      · intro j hj
        rcases f.req j hj with h | h
        · exact Or.inl ⟨h, by simp⟩
        · exact Or.inr h
      · intro hold u hu
        rcases List.mem_append.1 hu with h | h
        · rw [a.tasks] at h
          obtain ⟨k1, k2⟩ := hold u h
          refine ⟨k1, fun j hj => ?_⟩
          rcases k2 j hj with g | g
          · exact Or.inl (f.askedMono j g)
          · exact Or.inr g
        · obtain ⟨k1, k2⟩ := f.left u (by simpa using h)
          refine ⟨k1, fun j hj => ?_⟩
          rcases k2 j hj with g | g
          · exact Or.inl g
          · exact Or.inr (hw _ g)
      · show Shrunk ((p.attempt me t).1.tasks ++ [t']) (p.tasks ++ [t])
        rw [a.tasks]
        exact (Shrunk.refl _).append f.shrunk
      · intro hp hs ho u hu
        have hd : ∀ i ∈ (p.attempt me t).1.data, i ∈ p.data := by
          intro i hi
          revert hi hres
          unfold Proc.attempt
          simp only
          split
          · simp
          · split
            · simp
            · obtain ⟨a, b, e⟩ := requests_rest me (t.args.filter (fun i => i ∉ p.data)) p
              rw [e]
              exact fun _ h => h
        rcases List.mem_append.1 hu with h | h
        · rw [a.tasks] at h
          exact ⟨fun i hi hin => (hs u (List.mem_append_left _ h) i hi).1 (hd i hin), fun i hi hin => ho u h i hi (hd i hin)⟩
        · exact hsep (fun i hi => (hs t (List.mem_append_right _ (by simp)) i hi).1) u (by simpa using h)
    | none =>
      rw [hres] at a f
      simp only
      have htk : (p.attempt me t).1.tasks = p.tasks := a.tasks
      have hr' : ∀ u ∈ (p.attempt me t).1.tasks, Ready (p.attempt me t).1 u.args := by
        rw [htk]
        intro t' ht' i hi
        rcases hr t' (List.mem_cons_of_mem _ ht') i hi with g | g
        · exact Or.inl (a.data i g)
        · exact Or.inr (by rw [a.owners]; exact g)
      have f2 := pass_flow me (p.attempt me t).1.tasks (p.attempt me t).1 hr'
      have b := f.trans f2
      have sp := pass_sep me (p.attempt me t).1.tasks (p.attempt me t).1 hr'
      unfold Proc.checkTasks
      simp only
      rw [htk] at b f2 sp ⊢
      refine ⟨b.asks, by simp, fun x h => Or.inl ⟨(b.fresh x h).1, fun k => Or.inl ((b.fresh x h).2 k)⟩, b.sent, b.outData, ?_, ?_, ?_, ?_⟩
      · intro j hj
        rcases b.req j hj with h | h
        · exact Or.inl ⟨h, by simp⟩
        · exact Or.inr h
      · intro _ u hu
        obtain ⟨k1, k2⟩ := b.left u hu
        refine ⟨k1, fun j hj => ?_⟩
        rcases k2 j hj with g | g
        · exact Or.inl g
        · exact Or.inr (hw _ g)
      · have := f2.shrunk.append (Shrunk.drop t .nil)
        rw [List.append_nil] at this
        exact this
      · intro hp hs _
        obtain ⟨hp1, -, hp2⟩ := List.pairwise_append.1 hp
        refine sp hp1 ?_
        intro u hu i hi hin
        rcases a.new i hin with g | ⟨v, hv, g⟩
        · exact (hs u (List.mem_append_left _ hu) i hi).1 g
        · rw [List.mem_singleton.1 hv] at g
          exact (hp2 u hu t (by simp)).2 i hi g
  | ask i src =>
    simp only [Proc.receive]
    split
    · rename_i hin
      obtain ⟨h1, h2, h3, h4⟩ := push_flow p i src
      obtain ⟨a, b, e⟩ := push_rest p i src
      rw [e] at h1 h2 h3 h4 ⊢
      refine ⟨fun _ h => Or.inl h, ?_, fun a h => Or.inl ⟨h, fun k => Or.inl k⟩, h3, ?_, fun j h => Or.inl ⟨h, by simp⟩,
        fun h => h, Shrunk.refl _, fun _ h1 h2 t ht => ⟨fun i hi => (h1 t ht i hi).1, h2 t ht⟩⟩
      · intro j z hj
        cases hj
        exact Or.inr h2
      · intro y j hj
        rcases h4 _ hj with h | h
        · exact Or.inl h
        · cases h; exact Or.inr hin
    · rename_i hnd
      split
      · rename_i hin
        refine ⟨fun _ h => Or.inl h, ?_, fun a h => Or.inl ⟨h, fun k => Or.inl k⟩, fun _ h => Or.inl h, fun _ _ h => Or.inl h, fun j h => Or.inl ⟨h, by simp⟩,
          fun h => h, Shrunk.refl _, fun _ h1 h2 t ht => ⟨fun i hi => (h1 t ht i hi).1, h2 t ht⟩⟩
        intro j z hj
        cases hj
        exact Or.inl hin
      · refine ⟨fun _ h => Or.inl (List.mem_cons_of_mem _ h), ?_, ?_, fun _ h => Or.inl h, fun _ _ h => Or.inl h, fun j h => Or.inl ⟨h, by simp⟩,
          fun h => h, Shrunk.refl _, fun _ h1 h2 t ht => ⟨fun i hi => (h1 t ht i hi).1, h2 t ht⟩⟩
        · intro j z hj
          cases hj
          exact Or.inl List.mem_cons_self
        · intro a ha
          rcases List.mem_cons.1 ha with h | h
          · subst h; exact Or.inr ⟨rfl, hnd⟩
          · exact Or.inl ⟨h, fun k => Or.inl k⟩
  | clean ids =>
    exact ⟨fun _ h => Or.inl h, by simp, fun a h => Or.inl ⟨h, fun k => Or.inl k⟩, fun _ h => Or.inl h, fun _ _ h => Or.inl h, fun j h => Or.inl ⟨h, by simp⟩,
      fun h => h, Shrunk.refl _, fun _ h1 h2 t ht => ⟨fun i hi => (h1 t ht i hi).1, h2 t ht⟩⟩

end Verif.Lifetime
