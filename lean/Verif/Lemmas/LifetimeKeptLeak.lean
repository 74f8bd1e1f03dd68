import Verif.Lemmas.LifetimeLeak
import Verif.Lemmas.LifetimeKept

/-! What is left of an object after a cleanup in `Verif.Model.Lifetime`, for programs with actors that keep the arguments and
the results of calls until they are finished. -/
namespace Verif.Lifetime

/-! ### Requests -/

/-- What steps of a worker that runs calls of `L` do to its requests. -/
structure Tr (own : Nat → Option Nat) (me : Nat) (p p' : Proc) (L : List Task) : Prop where
  count : ∀ j W, p'.asks.count (j, W) + p'.outbox.count (W, Msg.data j) ≤ p.asks.count (j, W) + p.outbox.count (W, Msg.data j)
  asks : ∀ a ∈ p'.asks, a ∈ p.asks
  fresh : (∀ a ∈ p.asks, a.1 ∉ p.data) → ∀ a ∈ p'.asks, a.1 ∉ p'.data
  req : ∀ j d z, p'.outbox.count (d, Msg.ask j z) + bit p.asked j ≤ p.outbox.count (d, Msg.ask j z) + bit p'.asked j
  reqOwn : ∀ d j z, (d, Msg.ask j z) ∈ p'.outbox → (d, Msg.ask j z) ∈ p.outbox ∨ (z = me ∧ d ≠ me ∧ (j, d) ∈ p.owners)
  asked : ∀ j ∈ p'.asked, j ∈ p.asked ∨ ∃ o, o ≠ me ∧ (j, o) ∈ p.owners
  pending : (∀ j ∈ p.asked, j ∉ p.data ∧ (∃ t ∈ L, j ∈ t.args) ∧ own j ≠ some me) →
    ∀ j ∈ p'.asked, j ∉ p'.data ∧ (∃ t ∈ pend p', j ∈ t.args) ∧ own j ≠ some me

theorem Tr.refl (own : Nat → Option Nat) (me : Nat) (p : Proc) : Tr own me p p (pend p) :=
  ⟨fun _ _ => Nat.le_refl _, fun _ h => h, fun h => h, fun _ _ _ => Nat.le_refl _, fun _ _ _ h => Or.inl h, fun _ h => Or.inl h, fun h => h⟩

theorem Tr.pass {own : Nat → Option Nat} {me : Nat} {p q : Proc} {L : List Task} (v : Tr own me p q L) (u : Upd p q L) (hr : ∀ t ∈ L, Ready p t.args)
    (ho : ∀ t ∈ L, ∀ j ∈ t.outs, own j = some me) (hw : ∀ e ∈ p.owners, own e.1 = some e.2) (A B : List Task)
    (hA : ∀ t, t ∈ pend q ↔ t ∈ A ∨ t ∈ B) (q' : Proc) (hq : ∀ t, t ∈ pend q' ↔ t ∈ (Proc.pass me A q).2 ∨ t ∈ B)
    (hd : q'.data = (Proc.pass me A q).1.data) (h1 : q'.asks = (Proc.pass me A q).1.asks) (h2 : q'.outbox = (Proc.pass me A q).1.outbox)
    (h3 : q'.asked = (Proc.pass me A q).1.asked) : Tr own me p q' L := by
  have w := pass_traffic own me A q (by
    intro t ht i hi
    obtain ⟨t0, h0, -, -, e⟩ := u.left t ((hA t).2 (Or.inl ht))
    rcases hr t0 h0 i (e i hi) with g | g
    · exact Or.inl (u.data i g)
    · exact Or.inr (by rw [u.owners]; exact g)) (by
    intro t ht j hj
    obtain ⟨t0, h0, e, -, -⟩ := u.left t ((hA t).2 (Or.inl ht))
    exact ho t0 h0 j (e ▸ hj)) (by rw [u.owners]; exact hw)
  refine ⟨?_, ?_, ?_, ?_, ?_, ?_, ?_⟩
  · intro j W; rw [h1, h2]; exact Nat.le_trans (w.count j W) (v.count j W)
  · intro a h; rw [h1] at h; exact v.asks a (w.asks a h)
  · intro h; rw [h1, hd]; exact w.fresh (v.fresh h)
  · intro j d z
    have := w.req j d z
    have := v.req j d z
    rw [h2, h3]; omega
  · intro d j z h
    rw [h2] at h
    rcases w.reqOwn d j z h with h | h
    · exact v.reqOwn d j z h
    · exact Or.inr (by rw [← u.owners]; exact h)
  · intro j h
    rw [h3] at h
    rcases w.asked j h with h | h
    · exact v.asked j h
    · exact Or.inr (by rw [← u.owners]; exact h)
  · intro h j hj
    rw [h3] at hj
    obtain ⟨g1, g2, g3⟩ := w.pend (fun j => ∃ t ∈ B, j ∈ t.args) (by
      intro k hk
      obtain ⟨f1, ⟨t, ht, hx⟩, f3⟩ := v.pending h k hk
      refine ⟨f1, ?_, f3⟩
      rcases (hA t).1 ht with g | g
      · exact Or.inl ⟨t, g, hx⟩
      · exact Or.inr ⟨t, g, hx⟩) j hj
    refine ⟨by rw [hd]; exact g1, ?_, g3⟩
    rcases g2 with ⟨t, ht, hx⟩ | ⟨t, ht, hx⟩
    · exact ⟨t, (hq t).2 (Or.inl ht), hx⟩
    · exact ⟨t, (hq t).2 (Or.inr ht), hx⟩

theorem Upd.ready {p q : Proc} {L : List Task} (u : Upd p q L) (hr : ∀ t ∈ L, Ready p t.args) : ∀ t ∈ pend q, Ready q t.args := by
  intro t ht i hi
  obtain ⟨t0, h0, -, -, e⟩ := u.left t ht
  rcases hr t0 h0 i (e i hi) with g | g
  · exact Or.inl (u.data i g)
  · exact Or.inr (by rw [u.owners]; exact g)

theorem Tr.checkTasks {own : Nat → Option Nat} {me : Nat} {p q : Proc} {L : List Task} (v : Tr own me p q L) (u : Upd p q L) (hr : ∀ t ∈ L, Ready p t.args)
    (ho : ∀ t ∈ L, ∀ j ∈ t.outs, own j = some me) (hw : ∀ e ∈ p.owners, own e.1 = some e.2) : Tr own me p (q.checkTasks me) L := by
  have e : (Proc.pass me q.tasks q).1.methods = q.methods :=
    (pass_work me q.tasks q fun t ht => u.ready hr t (List.mem_append_left _ ht)).methods
  refine v.pass u hr ho hw q.tasks q.methods (fun t => List.mem_append) _ ?_ rfl rfl rfl rfl
  intro t
  show t ∈ (Proc.pass me q.tasks q).2 ++ (Proc.pass me q.tasks q).1.methods ↔ _
  rw [e, List.mem_append]

theorem Tr.checkMethods {own : Nat → Option Nat} {me : Nat} {p q : Proc} {L : List Task} (v : Tr own me p q L) (u : Upd p q L) (hr : ∀ t ∈ L, Ready p t.args)
    (ho : ∀ t ∈ L, ∀ j ∈ t.outs, own j = some me) (hw : ∀ e ∈ p.owners, own e.1 = some e.2) : Tr own me p (q.checkMethods me) L := by
  have e : (Proc.pass me q.methods q).1.tasks = q.tasks :=
    (pass_work me q.methods q fun t ht => u.ready hr t (List.mem_append_right _ ht)).tasks
  refine v.pass u hr ho hw q.methods q.tasks (fun t => by rw [Lifetime.pend, List.mem_append]; exact Or.comm) _ ?_ rfl rfl rfl rfl
  intro t
  show t ∈ (Proc.pass me q.methods q).1.tasks ++ (Proc.pass me q.methods q).2 ↔ _
  rw [e, List.mem_append]; exact Or.comm

theorem attempt_tr (own : Nat → Option Nat) (me : Nat) (p : Proc) (t : Task) (h : Ready p t.args) (ho : ∀ j ∈ t.outs, own j = some me)
    (hw : ∀ e ∈ p.owners, own e.1 = some e.2) (q : Proc)
    (hd : q.data = (p.attempt me t).1.data) (h1 : q.asks = (p.attempt me t).1.asks) (h2 : q.outbox = (p.attempt me t).1.outbox)
    (h3 : q.asked = (p.attempt me t).1.asked) (hp : ∀ u, u ∈ pend q ↔ u ∈ pend p ∨ u ∈ (p.attempt me t).2.toList) :
    Tr own me p q (t :: pend p) := by
  have a := attempt_traffic own me p t h ho hw
  refine ⟨?_, ?_, ?_, ?_, ?_, ?_, ?_⟩
  · intro j W; rw [h1, h2]; exact a.count j W
  · intro x hx; rw [h1] at hx; exact a.asks x hx
  · intro g; rw [h1, hd]; exact a.fresh g
  · intro j d z; rw [h2, h3]; exact a.req j d z
  · intro d j z g; rw [h2] at g; exact a.reqOwn d j z g
  · intro j g; rw [h3] at g; exact a.asked j g
  · intro g j hj
    rw [h3] at hj
    obtain ⟨g1, g2, g3⟩ := a.pend (fun j => ∃ t ∈ pend p, j ∈ t.args) (by
      intro k hk
      obtain ⟨f1, ⟨u, hu, hx⟩, f3⟩ := g k hk
      refine ⟨f1, ?_, f3⟩
      rcases List.mem_cons.1 hu with e | e
      · exact Or.inl ⟨u, by simp [e], hx⟩
      · exact Or.inr ⟨u, e, hx⟩) j hj
    refine ⟨by rw [hd]; exact g1, ?_, g3⟩
    rcases g2 with ⟨u, hu, hx⟩ | ⟨u, hu, hx⟩
    · exact ⟨u, (hp u).2 (Or.inr hu), hx⟩
    · exact ⟨u, (hp u).2 (Or.inl hu), hx⟩

/-- What receiving a message does to the requests of a worker. -/
structure Recv2M (own : Nat → Option Nat) (me : Nat) (p p' : Proc) (m : Msg) : Prop where
  count : ∀ j W, p'.asks.count (j, W) + p'.outbox.count (W, Msg.data j) ≤
    p.asks.count (j, W) + p.outbox.count (W, Msg.data j) + (if m = .ask j W then 1 else 0)
  asks : ∀ a ∈ p'.asks, a ∈ p.asks ∨ m = .ask a.1 a.2
  fresh : (∀ a ∈ p.asks, a.1 ∉ p.data) → (∀ i, m = .data i → ∀ a ∈ p.asks, a.1 ≠ i) → ∀ a ∈ p'.asks, a.1 ∉ p'.data
  req : ∀ j d z, p'.outbox.count (d, Msg.ask j z) + (if m = .data j then 0 else bit p.asked j) ≤ p.outbox.count (d, Msg.ask j z) + bit p'.asked j
  reqOwn : ∀ d j z, (d, Msg.ask j z) ∈ p'.outbox → (d, Msg.ask j z) ∈ p.outbox ∨ (z = me ∧ d ≠ me ∧ (j, d) ∈ p.owners)
  asked : ∀ j ∈ p'.asked, j ∈ p.asked ∨ ∃ o, o ≠ me ∧ (j, o) ∈ p.owners
  pend : (∀ j ∈ p.asked, j ∉ p.data ∧ (∃ t ∈ pend p, j ∈ t.args) ∧ own j ≠ some me) →
    ∀ j ∈ p'.asked, j ∉ p'.data ∧ (∃ t ∈ pend p', j ∈ t.args) ∧ own j ≠ some me

theorem receive_recv2M (own : Nat → Option Nat) (me : Nat) (p : Proc) (m : Msg)
    (hr : ∀ t ∈ todoM p m, Ready p t.args) (ho : ∀ t ∈ todoM p m, ∀ j ∈ t.outs, own j = some me)
    (hw : ∀ e ∈ p.owners, own e.1 = some e.2) : Recv2M own me p (p.receive me m) m := by
  cases m with
  | data i =>
    obtain ⟨l, e, -, -⟩ := store_rest p i
    have hr' : ∀ t ∈ pend { p with data := i :: p.data, strong := l, asked := p.asked.filter (fun j => j ≠ i) },
        Ready { p with data := i :: p.data, strong := l, asked := p.asked.filter (fun j => j ≠ i) } t.args := by
      intro t ht j hj
      rcases hr t ht j hj with g | g
      · exact Or.inl (List.mem_cons_of_mem _ g)
      · exact Or.inr g
    have u1 := (Upd.refl { p with data := i :: p.data, strong := l, asked := p.asked.filter (fun j => j ≠ i) }).checkTasks me hr'
    have w1 := (Tr.refl own me { p with data := i :: p.data, strong := l, asked := p.asked.filter (fun j => j ≠ i) }).checkTasks (Upd.refl _) hr' ho hw
    have w2 := w1.checkMethods u1 hr' ho hw
    have hrec : p.receive me (.data i) = Proc.checkMethods me (Proc.checkTasks me { p with data := i :: p.data, strong := l, asked := p.asked.filter (fun j => j ≠ i) }) := by
      simp only [Proc.receive, e]
    rw [hrec]
    refine ⟨?_, fun a h => Or.inl (w2.asks a h), ?_, ?_, w2.reqOwn, ?_, ?_⟩
    · intro j W
      exact Nat.le_trans (w2.count j W) (Nat.le_add_right _ _)
    · intro h1 h2
      refine w2.fresh ?_
      intro a ha hin
      rcases List.mem_cons.1 hin with g | g
      · exact h2 i rfl a ha g
      · exact h1 a ha g
    · intro j d z
      have := w2.req j d z
      simp only at this ⊢
      split
      · omega
      · rename_i hne
        have hne : j ≠ i := fun e => hne (by rw [e])
        have : bit p.asked j = bit (p.asked.filter (fun j => j ≠ i)) j := by simp [bit, hne]
        omega
    · intro j hj
      rcases w2.asked j hj with h | h
      · exact Or.inl (List.mem_filter.1 h).1
      · exact Or.inr h
    · intro hp j hj
      exact w2.pending (by
        intro k hk
        obtain ⟨hk1, hk2⟩ := List.mem_filter.1 hk
        obtain ⟨f1, f2, f3⟩ := hp k hk1
        refine ⟨?_, f2, f3⟩
        intro hin
        rcases List.mem_cons.1 hin with g | g
        · simp at hk2; exact hk2 g
        · exact f1 g) j hj
  | owner i r =>
    obtain ⟨l, e⟩ := keep_rest { p with owners := (i, r) :: p.owners.filter (fun e => e.1 ≠ i) } i
    have hrec : p.receive me (.owner i r) = { p with owners := (i, r) :: p.owners.filter (fun e => e.1 ≠ i), strong := l } := e
    rw [hrec]
    exact ⟨fun _ _ => Nat.le_add_right _ _, fun _ h => Or.inl h, fun h _ => h, fun _ _ _ => by simp, fun _ _ _ h => Or.inl h, fun _ h => Or.inl h, fun h => h⟩
  | task t =>
    have ht := hr t List.mem_cons_self
    have hot := ho t List.mem_cons_self
    have a := attempt_work me p t ht
    have key : Tr own me p (p.receive me (.task t)) (t :: pend p) := by
      simp only [Proc.receive]
      split
      · rename_i t' hres hf
        refine attempt_tr own me p t ht hot hw _ rfl rfl rfl rfl ?_
        intro u
        rw [hres]
        simp only [pend, a.tasks, a.methods, List.mem_append, Option.toList]
        tauto
      · rename_i t' hres hf
        refine attempt_tr own me p t ht hot hw _ rfl rfl rfl rfl ?_
        intro u
        rw [hres]
        simp only [pend, a.tasks, a.methods, List.mem_append, Option.toList]
        tauto
      · rename_i hres hf
        have hp : ∀ u, u ∈ pend (p.attempt me t).1 ↔ u ∈ pend p ∨ u ∈ (p.attempt me t).2.toList := by
          intro u
          rw [hres]
          simp [pend, a.tasks, a.methods]
        exact (attempt_tr own me p t ht hot hw _ rfl rfl rfl rfl hp).checkTasks (attempt_upd me p t ht _ rfl rfl rfl rfl hp) hr ho hw
      · rename_i hres hf
        have hp : ∀ u, u ∈ pend (p.attempt me t).1 ↔ u ∈ pend p ∨ u ∈ (p.attempt me t).2.toList := by
          intro u
          rw [hres]
          simp [pend, a.tasks, a.methods]
        exact (attempt_tr own me p t ht hot hw _ rfl rfl rfl rfl hp).checkMethods (attempt_upd me p t ht _ rfl rfl rfl rfl hp) hr ho hw
    refine ⟨fun j W => Nat.le_trans (key.count j W) (Nat.le_add_right _ _), fun x h => Or.inl (key.asks x h), fun h _ => key.fresh h, fun j d z => by simpa using key.req j d z, key.reqOwn, key.asked, ?_⟩
    intro hp
    refine key.pending ?_
    intro k hk
    obtain ⟨f1, ⟨u, hu, hx⟩, f3⟩ := hp k hk
    exact ⟨f1, ⟨u, List.mem_cons_of_mem _ hu, hx⟩, f3⟩
  | ask i src =>
    simp only [Proc.receive]
    split
    · rename_i hin
      obtain ⟨a, b, e⟩ := push_rest p i src
      have h1 := fun j W => push_data_count p i src j W
      have h2 := fun (j d z : Nat) => push_asks p i src (d, Msg.ask j z) (by simp)
      rw [e] at h1 h2 ⊢
      refine ⟨?_, fun _ h => Or.inl h, fun h _ => h, ?_, ?_, fun _ h => Or.inl h, fun h => h⟩
      · intro j W
        have := h1 j W
        simp only [Msg.ask.injEq] at this ⊢
        by_cases hc : i = j ∧ src = W
        · rw [if_pos hc]
          obtain ⟨rfl, rfl⟩ := hc
          simp at this
          omega
        · rw [if_neg hc]
          have h0 : [(i, src)].count (j, W) = 0 := by
            rw [List.count_eq_zero]
            simp only [List.mem_singleton, Prod.mk.injEq]
            rintro ⟨rfl, rfl⟩
            exact hc ⟨rfl, rfl⟩
          omega
      · intro j d z
        have := h2 j d z
        simp only at this
        simp [this]
      · intro d j z hin
        left
        have := h2 j d z
        exact List.count_pos_iff.1 (this ▸ List.count_pos_iff.2 hin)
    · rename_i hnd
      split
      · exact ⟨fun _ _ => Nat.le_add_right _ _, fun _ h => Or.inl h, fun h _ => h, fun _ _ _ => by simp, fun _ _ _ h => Or.inl h, fun _ h => Or.inl h, fun h => h⟩
      · refine ⟨?_, ?_, ?_, fun _ _ _ => by simp, fun _ _ _ h => Or.inl h, fun _ h => Or.inl h, fun h => h⟩
        · intro j W
          simp only [List.count_cons, Msg.ask.injEq]
          by_cases hc : i = j ∧ src = W
          · rw [if_pos hc]
            split <;> omega
          · rw [if_neg hc]
            have h0 : ((i, src) == (j, W)) = false := by
              simp only [beq_eq_false_iff_ne, ne_eq, Prod.mk.injEq]
              exact hc
            rw [h0]; simp
        · intro x hx
          rcases List.mem_cons.1 hx with h | h
          · subst h; exact Or.inr rfl
          · exact Or.inl h
        · intro h _ x hx
          rcases List.mem_cons.1 hx with g | g
          · subst g; exact hnd
          · exact h x g
  | clean ids =>
    exact ⟨fun _ _ => Nat.le_add_right _ _, fun _ h => Or.inl h, fun h _ => h, fun _ _ _ => by simp [Proc.receive], fun _ _ _ h => Or.inl h, fun _ h => Or.inl h, fun h => h⟩

/-! ### The invariant -/

/-- The message makes a worker know the reference. -/
def Pushes (m : Msg) (i : Nat) : Prop := m = .data i ∨ ∃ o, m = .owner i o

/-- Every such message in a channel is followed by a call with this argument. -/
def FollowedM : List Msg → Prop
  | [] => True
  | m :: r => (∀ i, Pushes m i → ∃ t, Msg.task t ∈ r ∧ i ∈ t.args) ∧ FollowedM r

theorem followedm_quiet {a b : List Msg} (ha : FollowedM a) (hb : ∀ m ∈ b, ∀ i, ¬ Pushes m i) : FollowedM (a ++ b) := by
  induction a with
  | nil =>
    induction b with
    | nil => trivial
    | cons m b ih => exact ⟨fun i h => absurd h (hb m List.mem_cons_self i), ih fun x hx => hb x (List.mem_cons_of_mem _ hx)⟩
  | cons m a ih =>
    refine ⟨fun i h => ?_, ih ha.2⟩
    obtain ⟨t, ht, hx⟩ := ha.1 i h
    exact ⟨t, List.mem_append_left _ ht, hx⟩

theorem followedm_task (a b : List Msg) (t : Task) (ha : FollowedM a) (hb : ∀ m ∈ b, ∀ i, Pushes m i → i ∈ t.args) : FollowedM (a ++ b ++ [.task t]) := by
  induction a with
  | nil =>
    induction b with
    | nil =>
      refine ⟨fun i h => ?_, trivial⟩
      rcases h with e | ⟨o, e⟩ <;> cases e
    | cons m b ih =>
      exact ⟨fun i h => ⟨t, by simp, hb m List.mem_cons_self i h⟩, ih fun x hx => hb x (List.mem_cons_of_mem _ hx)⟩
  | cons m a ih =>
    refine ⟨fun i h => ?_, ih ha.2⟩
    obtain ⟨u, hu, hx⟩ := ha.1 i h
    exact ⟨u, List.mem_append_left _ (List.mem_append_left _ hu), hx⟩

theorem followedm_mem {c : List Msg} (h : FollowedM c) {m : Msg} {i : Nat} (hm : m ∈ c) (hp : Pushes m i) : ∃ t, Msg.task t ∈ c ∧ i ∈ t.args := by
  induction c with
  | nil => cases hm
  | cons x c ih =>
    rcases List.mem_cons.1 hm with e | e
    · subst e
      obtain ⟨t, ht, hx⟩ := h.1 i hp
      exact ⟨t, List.mem_cons_of_mem _ ht, hx⟩
    · obtain ⟨t, ht, hx⟩ := ih h.2 e
      exact ⟨t, List.mem_cons_of_mem _ ht, hx⟩

theorem followedm_tail {src d w : Nat} {net rest : List (Nat × Nat × Msg)} {m : Msg} (h : takeMsg src d net = some (m, rest))
    (hf : FollowedM (chan 0 w net)) : FollowedM (chan 0 w rest) := by
  by_cases hw : src = 0 ∧ d = w
  · obtain ⟨rfl, rfl⟩ := hw
    rw [takeMsg_chan h] at hf
    exact hf.2
  · rw [takeMsg_other h hw]; exact hf

structure LeakM (s : Sys) : Prop where
  wsNet : ∀ x y m, (x, y, m) ∈ s.net → y = 0 ∨ y ∈ s.ws
  askMsg : ∀ x y i z, (x, y, Msg.ask i z) ∈ s.net → z = x ∧ x ≠ y ∧ s.owner i = some y ∧ (x = 0 ∨ x ∈ s.ws)
  asksOk : ∀ w, ∀ a ∈ (s.worker w).asks, a.2 ≠ w ∧ s.owner a.1 = some w ∧ (a.2 = 0 ∨ a.2 ∈ s.ws) ∧ a.1 ∉ (s.worker w).data
  dataMsg : ∀ x y i, (x, y, Msg.data i) ∈ s.net → (x = 0 ∧ s.owner i = none ∧ i < s.next) ∨ (s.owner i = some x ∧ x ≠ y)
  tok : ∀ i W o, s.owner i = some o →
    s.net.count (W, o, Msg.ask i W) + (s.worker o).asks.count (i, W) + s.net.count (o, W, Msg.data i) ≤ need s W i
  asked : ∀ w, ∀ j ∈ (s.worker w).asked, j ∉ (s.worker w).data ∧ (∃ t ∈ pend (s.worker w), j ∈ t.args) ∧ s.owner j ≠ some w
  waitHeld : ∀ i ∈ s.waiting, i ∈ s.held
  empty : ∀ w, w ∉ s.ws → (s.worker w).strong = []
  swept : ∀ w, (∀ i ∈ (s.worker w).data, (s.worker w).alive i = true) ∧ (∀ e ∈ (s.worker w).owners, (s.worker w).alive e.1 = true) ∧
    ∀ e ∈ (s.worker w).sent, (s.worker w).alive e.1 = true
  follow : ∀ w, FollowedM (chan 0 w s.net)
  outsOk : ∀ w t, UnfM s w t → ∀ i ∈ t.outs, i ∉ s.cleaned
  noPush : ∀ i ∈ s.cleaned, ∀ w, (0, w, Msg.data i) ∉ s.net ∧ ∀ o, (0, w, Msg.owner i o) ∉ s.net
  strongClean : ∀ i ∈ s.cleaned, ∀ w, i ∈ (s.worker w).strong → ∃ ids, i ∈ ids ∧ (0, w, Msg.clean ids) ∈ s.net

theorem leakm_init (ws : List Nat) : LeakM (Sys.init ws) where
  wsNet := by simp [Sys.init]
  askMsg := by simp [Sys.init]
  asksOk := by simp [Sys.init, Proc.init]
  dataMsg := by simp [Sys.init]
  tok := by simp [Sys.init]
  asked := by simp [Sys.init, Proc.init]
  waitHeld := by simp [Sys.init]
  empty := by simp [Sys.init, Proc.init]
  swept := by simp [Sys.init, Proc.init]
  follow := by simp [Sys.init, chan, FollowedM]
  outsOk := by simp [Sys.init, Proc.init, UnfM, pend]
  noPush := by simp [Sys.init]
  strongClean := by simp [Sys.init]

theorem leakm_put {s s' : Sys} (hl : LeakM s) (h : s.step .put = some s') : LeakM s' := by
  simp only [Sys.step] at h
  split at h
  · cases h
  · cases h
    refine { hl with dataMsg := ?_, waitHeld := fun i hx => List.mem_cons_of_mem _ (hl.waitHeld i hx) }
    intro x y i hx
    rcases hl.dataMsg x y i hx with ⟨a, b, c⟩ | h
    · exact Or.inl ⟨a, b, Nat.lt_succ_of_lt c⟩
    · exact Or.inr h

theorem leakm_drop {s s' : Sys} {i : Nat} (hl : LeakM s) (h : s.step (.drop i) = some s') : LeakM s' := by
  simp only [Sys.step] at h
  split at h
  · cases h
  · rename_i hc
    have hw : s.waiting = [] := by
      apply Classical.byContradiction
      intro hn
      exact hc (Or.inl hn)
    cases h
    refine { hl with waitHeld := ?_ }
    intro j hj
    have hj : j ∈ s.waiting := hj
    rw [hw] at hj; cases hj

theorem leakm_report {s s' : Sys} (hl : LeakM s) (h : s.step .report = some s') : LeakM s' := by
  simp only [Sys.step] at h
  split at h
  · cases h
  · cases h
    exact { hl with }

theorem leakm_get {s s' : Sys} {ids : List Nat} (hi : Kept s) (hl : LeakM s) (h : s.step (.get ids) = some s') : LeakM s' := by
  simp only [Sys.step] at h
  split at h
  · cases h
  · rename_i hc
    simp only [ne_eq, not_or, Classical.not_not, List.any_eq_true, decide_eq_true_eq, not_exists, not_and] at hc
    obtain ⟨hw, hids⟩ := hc
    cases h
    generalize hf : ids.filter (fun i => i ∉ s.stored) = far
    have hfar : ∀ i ∈ far, i ∈ s.held ∧ i ∉ s.stored := by
      intro i hx
      rw [← hf] at hx
      obtain ⟨h1, h2⟩ := List.mem_filter.1 hx
      exact ⟨hids i h1, by simpa using h2⟩
    have hmem : ∀ x y m, (x, y, m) ∈ far.map (fun i => ((0, (s.owner i).getD 0, Msg.ask i 0) : Nat × Nat × Msg)) →
        ∃ i ∈ far, x = 0 ∧ s.owner i = some y ∧ y ∈ s.ws ∧ m = .ask i 0 := by
      intro x y m hx
      obtain ⟨i, h1, e⟩ := List.mem_map.1 hx
      cases e
      obtain ⟨g1, g2⟩ := hfar i h1
      cases ho : s.owner i with
      | none =>
        rcases hi.heldKnown i g1 with k | k
        · exact absurd k g2
        · exact absurd ho k
      | some o => exact ⟨i, h1, rfl, by rw [ho]; rfl, (hi.ownerFresh i o ho).2, rfl⟩
    refine { wsNet := ?_, askMsg := ?_, asksOk := hl.asksOk, dataMsg := ?_, tok := ?_, asked := hl.asked, waitHeld := fun i hx => (hfar i hx).1, empty := hl.empty, swept := hl.swept, follow := ?_, outsOk := ?_, noPush := ?_, strongClean := ?_ }
    · intro x y m hx
      rcases List.mem_append.1 hx with h | h
      · exact hl.wsNet x y m h
      · obtain ⟨i, -, -, -, k, -⟩ := hmem x y m h
        exact Or.inr k
    · intro x y i z hx
      rcases List.mem_append.1 hx with h | h
      · exact hl.askMsg x y i z h
      · obtain ⟨j, -, k1, k2, k3, k4⟩ := hmem _ _ _ h
        cases k4
        subst k1
        exact ⟨rfl, fun e => hi.zero (e ▸ k3), k2, Or.inl rfl⟩
    · intro x y i hx
      rcases List.mem_append.1 hx with h | h
      · exact hl.dataMsg x y i h
      · obtain ⟨j, -, -, -, -, k4⟩ := hmem _ _ _ h
        cases k4
    · intro i W o ho
      have := hl.tok i W o ho
      have hd : (o, W, Msg.data i) ∉ far.map (fun i => ((0, (s.owner i).getD 0, Msg.ask i 0) : Nat × Nat × Msg)) := by
        intro hx
        obtain ⟨j, -, -, -, -, k4⟩ := hmem _ _ _ hx
        cases k4
      show (s.net ++ far.map (fun i => ((0, (s.owner i).getD 0, Msg.ask i 0) : Nat × Nat × Msg))).count (W, o, Msg.ask i W) + (s.worker o).asks.count (i, W) +
        (s.net ++ far.map (fun i => ((0, (s.owner i).getD 0, Msg.ask i 0) : Nat × Nat × Msg))).count (o, W, Msg.data i) ≤
        (if W = 0 then far.count i else bit (s.worker W).asked i)
      rw [count_append_zero _ _ _ hd]
      unfold need at this
      by_cases hW : W = 0
      · subst hW
        rw [if_pos rfl] at this ⊢
        rw [hw] at this
        rw [List.count_append]
        have := map_count_le s.owner far i o
        simp only [List.count_nil] at *
        omega
      · rw [if_neg hW] at this ⊢
        rw [count_append_zero]
        · exact this
        · intro hx
          obtain ⟨j, -, k1, -, -, -⟩ := hmem _ _ _ hx
          exact hW k1
    · intro w
      rw [chan_append]
      refine followedm_quiet (hl.follow w) ?_
      intro m hm i hp
      obtain ⟨j, -, -, -, -, k4⟩ := hmem _ _ _ (mem_chan.1 hm)
      subst k4
      rcases hp with e | ⟨o, e⟩ <;> cases e
    · intro w t hu
      refine hl.outsOk w t ?_
      rcases hu with h | h
      · rcases List.mem_append.1 h with h | h
        · exact Or.inl h
        · obtain ⟨j, -, -, -, -, k4⟩ := hmem _ _ _ h
          cases k4
      · exact Or.inr h
    · intro i hx w
      have := hl.noPush i hx w
      refine ⟨fun hin => ?_, fun o hin => ?_⟩
      · rcases List.mem_append.1 hin with h | h
        · exact this.1 h
        · obtain ⟨j, -, -, -, -, k4⟩ := hmem _ _ _ h
          cases k4
      · rcases List.mem_append.1 hin with h | h
        · exact this.2 o h
        · obtain ⟨j, -, -, -, -, k4⟩ := hmem _ _ _ h
          cases k4
    · intro i hx w hs
      obtain ⟨ids, h1, h2⟩ := hl.strongClean i hx w hs
      exact ⟨ids, h1, List.mem_append_left _ h2⟩

theorem leakm_cleanup {s s' : Sys} (hi : Kept s) (hl : LeakM s) (ga : ∀ w t, UnfM s w t → ∀ i ∈ t.args, i ∉ s.queue)
    (gr : ∀ w t, UnfM s w t → ∀ i ∈ t.outs, i ∉ s.queue) (h : s.step .cleanup = some s') : LeakM s' := by
  simp only [Sys.step] at h
  split at h
  · cases h
  · rename_i hc
    simp only [ne_eq, not_or, Classical.not_not] at hc
    cases h
    have hmem : ∀ x y m, (x, y, m) ∈ s.ws.map (fun w => ((0, w, Msg.clean s.queue) : Nat × Nat × Msg)) → x = 0 ∧ y ∈ s.ws ∧ m = .clean s.queue := by
      intro x y m hx
      obtain ⟨w, h1, e⟩ := List.mem_map.1 hx
      cases e
      exact ⟨rfl, h1, rfl⟩
    have hpush : ∀ i ∈ s.cleaned ++ s.queue, ∀ w, ∀ m, (0, w, m) ∈ s.net ++ s.ws.map (fun w => ((0, w, Msg.clean s.queue) : Nat × Nat × Msg)) → ¬ Pushes m i := by
      intro i hin w m hx hp
      rcases List.mem_append.1 hx with h | h
      · rcases List.mem_append.1 hin with g | g
        · rcases hp with rfl | ⟨o, rfl⟩
          · exact (hl.noPush i g w).1 h
          · exact (hl.noPush i g w).2 o h
        · obtain ⟨t, ht, hxt⟩ := followedm_mem (hl.follow w) (mem_chan.2 h) hp
          exact ga w t (Or.inl (mem_chan.1 ht)) i hxt g
      · obtain ⟨-, -, e⟩ := hmem _ _ _ h
        subst e
        rcases hp with e | ⟨o, e⟩ <;> cases e
    refine { wsNet := ?_, askMsg := ?_, asksOk := hl.asksOk, dataMsg := ?_, tok := ?_, asked := hl.asked, waitHeld := hl.waitHeld, empty := hl.empty, swept := hl.swept, follow := ?_, outsOk := ?_, noPush := ?_, strongClean := ?_ }
    · intro x y m hx
      rcases List.mem_append.1 hx with h | h
      · exact hl.wsNet x y m h
      · exact Or.inr (hmem _ _ _ h).2.1
    · intro x y i z hx
      rcases List.mem_append.1 hx with h | h
      · exact hl.askMsg x y i z h
      · have := (hmem _ _ _ h).2.2; cases this
    · intro x y i hx
      rcases List.mem_append.1 hx with h | h
      · exact hl.dataMsg x y i h
      · have := (hmem _ _ _ h).2.2; cases this
    · intro i W o ho
      have := hl.tok i W o ho
      show (s.net ++ s.ws.map (fun w => ((0, w, Msg.clean s.queue) : Nat × Nat × Msg))).count (W, o, Msg.ask i W) + (s.worker o).asks.count (i, W) +
        (s.net ++ s.ws.map (fun w => ((0, w, Msg.clean s.queue) : Nat × Nat × Msg))).count (o, W, Msg.data i) ≤ need s W i
      rw [count_append_zero, count_append_zero]
      · exact this
      · intro h; have := (hmem _ _ _ h).2.2; cases this
      · intro h; have := (hmem _ _ _ h).2.2; cases this
    · intro w
      rw [chan_append]
      refine followedm_quiet (hl.follow w) ?_
      intro m hm i hp
      have := (hmem _ _ _ (mem_chan.1 hm)).2.2
      subst this
      rcases hp with e | ⟨o, e⟩ <;> cases e
    · intro w t hu i hx
      have hu : UnfM s w t := by
        rcases hu with h | h
        · rcases List.mem_append.1 h with h | h
          · exact Or.inl h
          · have := (hmem _ _ _ h).2.2; cases this
        · exact Or.inr h
      simp only [List.mem_append, not_or]
      exact ⟨hl.outsOk w t hu i hx, gr w t hu i hx⟩
    · intro i hin w
      exact ⟨fun h => hpush i hin w _ h (Or.inl rfl), fun o h => hpush i hin w _ h (Or.inr ⟨o, rfl⟩)⟩
    · intro i hx w hs
      rcases List.mem_append.1 hx with h | h
      · obtain ⟨ids, h1, h2⟩ := hl.strongClean i h w hs
        exact ⟨ids, h1, List.mem_append_left _ h2⟩
      · refine ⟨s.queue, h, List.mem_append_right _ (List.mem_map.2 ⟨w, ?_, rfl⟩)⟩
        apply Classical.byContradiction
        intro hw
        have hs : i ∈ (s.worker w).strong := hs
        rw [hl.empty w hw] at hs; cases hs

theorem leakm_submit {s s' : Sys} {args : List Nat} {n d : Nat} {b : Bool} (hi : Kept s) (hl : LeakM s)
    (hf : ∀ a ∈ args, a ∈ s.stored → s.owner a = none) (h : s.step (.submit args n d b) = some s') : LeakM s' := by
  simp only [Sys.step] at h
  split at h
  · cases h
  · rename_i hc
    simp only [ne_eq, not_or, Classical.not_not, List.any_eq_true, decide_eq_true_eq, not_exists, not_and] at hc
    obtain ⟨hw, hd, hargs⟩ := hc
    simp only [Option.some.injEq] at h
    generalize houts : List.range' s.next n = outs at h
    have ho : ∀ i, i ∈ outs ↔ s.next ≤ i ∧ i < s.next + n := by intro i; rw [← houts, List.mem_range'_1]
    obtain ⟨L, sn, e, p1, p2, p3, p4⟩ := pushes_spec d args { s with next := s.next + n, held := outs ++ s.held, owner := fun i => if i ∈ outs then some d else s.owner i }
    rw [e] at h
    simp only at h p1 p2 p3 p4
    have hold : ∀ i, i < s.next → i ∉ outs := fun i hi h => by have := (ho i).1 h; omega
    have hargsN : ∀ i ∈ args, i < s.next := fun i h => hi.fresh i (Or.inl (hargs i h))
    have hown : ∀ i o, s.owner i = some o → (if i ∈ outs then some d else s.owner i) = some o := by
      intro i o h
      rw [if_neg (hold i (hi.ownerFresh i o h).1)]; exact h
    subst h
    have hnew : ∀ x y m, (x, y, m) ∈ L ++ [(0, d, Msg.task ⟨args, outs, b⟩)] → x = 0 ∧ y = d ∧
        ((∃ i ∈ args, i ∈ s.stored ∧ m = .data i) ∨ (∃ i ∈ args, ∃ o, m = .owner i o) ∨ m = .task ⟨args, outs, b⟩) := by
      intro x y m hx
      rcases List.mem_append.1 hx with h | h
      · obtain ⟨a, b, c⟩ := p1 _ h
        refine ⟨a, b, ?_⟩
        rcases c with ⟨i, h1, h2, h3, -⟩ | ⟨i, h1, o, -, -, h2⟩
        · exact Or.inl ⟨i, h1, h2, h3⟩
        · exact Or.inr (Or.inl ⟨i, h1, o, h2⟩)
      · have := List.mem_singleton.1 h
        cases this
        exact ⟨rfl, rfl, Or.inr (Or.inr rfl)⟩
    have hcases : ∀ x y m, (x, y, m) ∈ s.net ++ L ++ [(0, d, Msg.task ⟨args, outs, b⟩)] → (x, y, m) ∈ s.net ∨ (x = 0 ∧ y = d ∧
        ((∃ i ∈ args, i ∈ s.stored ∧ m = .data i) ∨ (∃ i ∈ args, ∃ o, m = .owner i o) ∨ m = .task ⟨args, outs, b⟩)) := by
      intro x y m hx
      rw [List.append_assoc] at hx
      rcases List.mem_append.1 hx with h | h
      · exact Or.inl h
      · exact Or.inr (hnew x y m h)
    refine { wsNet := ?_, askMsg := ?_, asksOk := ?_, dataMsg := ?_, tok := ?_, asked := ?_, waitHeld := ?_, empty := hl.empty, swept := hl.swept, follow := ?_, outsOk := ?_, noPush := ?_, strongClean := ?_ }
    · intro x y m hx
      rcases hcases x y m hx with h | ⟨-, e, -⟩
      · exact hl.wsNet x y m h
      · exact Or.inr (e ▸ hd)
    · intro x y i z hx
      rcases hcases _ _ _ hx with h | ⟨-, -, ⟨j, -, -, k⟩ | ⟨j, -, o, k⟩ | k⟩
      · obtain ⟨g1, g2, g3, g4⟩ := hl.askMsg x y i z h
        exact ⟨g1, g2, hown i y g3, g4⟩
      · cases k
      · cases k
      · cases k
    · intro w a ha
      obtain ⟨g1, g2, g3, g4⟩ := hl.asksOk w a ha
      exact ⟨g1, hown _ _ g2, g3, g4⟩
    · intro x y i hx
      rcases hcases _ _ _ hx with h | ⟨k0, -, ⟨j, h1, h2, k⟩ | ⟨j, -, o, k⟩ | k⟩
      · rcases hl.dataMsg x y i h with ⟨a, b, c⟩ | ⟨a, b⟩
        · left
          refine ⟨a, ?_, Nat.lt_add_right _ c⟩
          show (if i ∈ outs then some d else s.owner i) = none
          rw [if_neg (hold i c)]; exact b
        · exact Or.inr ⟨hown i x a, b⟩
      · cases k
        left
        refine ⟨k0, ?_, Nat.lt_add_right _ (hargsN i h1)⟩
        show (if i ∈ outs then some d else s.owner i) = none
        rw [if_neg (hold i (hargsN i h1))]; exact hf i h1 h2
      · cases k
      · cases k
    · intro i W o hio
      have hio : (if i ∈ outs then some d else s.owner i) = some o := hio
      have how : o ∈ s.ws := by
        split at hio
        · cases hio; exact hd
        · exact (hi.ownerFresh i o hio).2
      have ho0 : o ≠ 0 := fun e => hi.zero (e ▸ how)
      show (s.net ++ L ++ [(0, d, Msg.task ⟨args, outs, b⟩)]).count (W, o, Msg.ask i W) + (s.worker o).asks.count (i, W) +
        (s.net ++ L ++ [(0, d, Msg.task ⟨args, outs, b⟩)]).count (o, W, Msg.data i) ≤ need s W i
      rw [List.append_assoc, count_append_zero, count_append_zero]
      · split at hio
        · rename_i hx
          have hnone : s.owner i = none := by
            cases hy : s.owner i with
            | none => rfl
            | some y => exact absurd hx (hold i (hi.ownerFresh i y hy).1)
          have c1 : s.net.count (W, o, Msg.ask i W) = 0 := by
            rw [List.count_eq_zero]
            intro h
            have := (hl.askMsg _ _ _ _ h).2.2.1
            rw [hnone] at this; cases this
          have c2 : (s.worker o).asks.count (i, W) = 0 := by
            rw [List.count_eq_zero]
            intro h
            have := (hl.asksOk _ _ h).2.1
            rw [hnone] at this; cases this
          have c3 : s.net.count (o, W, Msg.data i) = 0 := by
            rw [List.count_eq_zero]
            intro h
            rcases hl.dataMsg _ _ _ h with ⟨a, -, -⟩ | ⟨a, -⟩
            · exact ho0 a
            · rw [hnone] at a; cases a
          omega
        · exact hl.tok i W o hio
      · intro h
        exact ho0 (hnew _ _ _ h).1
      · intro h
        rcases (hnew _ _ _ h).2.2 with ⟨j, -, -, k⟩ | ⟨j, -, o, k⟩ | k <;> cases k
    · intro w j hj
      obtain ⟨g1, ⟨t, ht, hx⟩, g3⟩ := hl.asked w j hj
      refine ⟨g1, ⟨t, ht, hx⟩, ?_⟩
      show (if j ∈ outs then some d else s.owner j) ≠ some w
      rw [if_neg]
      · exact g3
      · -- an argument of a held back task is not new
        intro hjo
        have hk := hi.known w t ht j hx
        rcases hk.2 with k | k
        · exact g1 k
        · cases hlk : (s.worker w).owners.lookup j with
          | none => exact k hlk
          | some o => exact hold j (hi.ownerFresh j o (hi.ownersTrue w _ (lookup_mem hlk))).1 hjo
    · intro i hx
      have hx : i ∈ s.waiting := hx
      rw [hw] at hx; cases hx
    · intro w
      rw [chan_append]
      by_cases hwd : w = d
      · subst hwd
        have : chan 0 w [(0, w, Msg.task ⟨args, outs, b⟩)] = [.task ⟨args, outs, b⟩] := by simp [chan]
        rw [this, chan_append]
        refine followedm_task _ _ _ (hl.follow w) ?_
        intro m hm i hp
        rcases (hnew _ _ _ (List.mem_append_left _ (mem_chan.1 hm))).2.2 with ⟨j, h1, -, e⟩ | ⟨j, h1, o, e⟩ | e
        · rw [e] at hp
          rcases hp with hp | ⟨o, hp⟩ <;> cases hp
          exact h1
        · rw [e] at hp
          rcases hp with hp | ⟨o, hp⟩ <;> cases hp
          exact h1
        · rw [e] at hp
          rcases hp with hp | ⟨o, hp⟩ <;> cases hp
      · rw [chan_append, chan_none (l := L), List.append_nil, chan_none (l := [_]), List.append_nil]
        · exact hl.follow w
        · intro x hx
          rw [List.mem_singleton.1 hx]
          rintro ⟨-, e⟩
          exact hwd e.symm
        · intro x hx
          rintro ⟨-, e⟩
          exact hwd (e.symm.trans (p1 x hx).2.1)
    · intro w t hu i hx hc
      have hc : i ∈ s.cleaned := hc
      rcases hu with h | h
      · rcases hcases _ _ _ h with h | ⟨-, -, ⟨j, -, -, k⟩ | ⟨j, -, o, k⟩ | k⟩
        · exact hl.outsOk w t (Or.inl h) i hx hc
        · cases k
        · cases k
        · cases k
          exact hold i (hi.fresh i (Or.inr (Or.inr hc))) hx
      · exact hl.outsOk w t (Or.inr h) i hx hc
    · intro i hx w
      have hni : i ∉ args := fun h => (hi.gone i (hargs i h)).2 hx
      refine ⟨fun h => ?_, fun o h => ?_⟩
      · rcases hcases _ _ _ h with h | ⟨-, -, ⟨j, h1, -, k⟩ | ⟨j, -, o, k⟩ | k⟩
        · exact (hl.noPush i hx w).1 h
        · cases k; exact hni h1
        · cases k
        · cases k
      · rcases hcases _ _ _ h with h | ⟨-, -, ⟨j, h1, -, k⟩ | ⟨j, h1, o, k⟩ | k⟩
        · exact (hl.noPush i hx w).2 o h
        · cases k
        · cases k; exact hni h1
        · cases k
    · intro i hx w hs
      obtain ⟨ids, h1, h2⟩ := hl.strongClean i hx w hs
      exact ⟨ids, h1, List.mem_append_left _ (List.mem_append_left _ h2)⟩

theorem leakm_deliver_root {s s' : Sys} {src : Nat} (hl : LeakM s) (h : s.step (.deliver src 0) = some s') : LeakM s' := by
  simp only [Sys.step] at h
  split at h
  · cases h
  · rename_i m rest hm
    simp only [if_true] at h
    split at h
    · rename_i i
      cases h
      obtain ⟨hmem, hsub, hcase⟩ := takeMsg_mem hm
      refine { wsNet := fun x y m h => hl.wsNet x y m (hsub _ h), askMsg := fun x y i z h => hl.askMsg x y i z (hsub _ h), asksOk := hl.asksOk, dataMsg := fun x y i h => hl.dataMsg x y i (hsub _ h), tok := ?_, asked := hl.asked, waitHeld := fun j hj => hl.waitHeld j (List.mem_of_mem_erase hj), empty := hl.empty, swept := hl.swept, follow := fun w => followedm_tail hm (hl.follow w), outsOk := ?_, noPush := ?_, strongClean := ?_ }
      · intro j W o ho
        have ht := hl.tok j W o ho
        have c1 := takeMsg_count hm (W, o, Msg.ask j W)
        have c2 := takeMsg_count hm (o, W, Msg.data j)
        show rest.count (W, o, Msg.ask j W) + (s.worker o).asks.count (j, W) + rest.count (o, W, Msg.data j) ≤
          (if W = 0 then (s.waiting.erase i).count j else bit (s.worker W).asked j)
        unfold need at ht
        by_cases hW : W = 0
        · subst hW
          rw [if_pos rfl] at ht ⊢
          by_cases hj : j = i
          · subst hj
            have hs : src = o := by
              rcases hl.dataMsg _ _ _ hmem with ⟨-, k, -⟩ | ⟨k, -⟩
              · rw [ho] at k; cases k
              · rw [ho] at k; cases k; rfl
            subst hs
            simp only [if_true] at c2
            rw [List.count_erase_self]
            omega
          · rw [List.count_erase_of_ne (fun e => hj e)]
            omega
        · rw [if_neg hW] at ht ⊢
          omega
      · intro w t hu
        refine hl.outsOk w t ?_
        rcases hu with h | h
        · exact Or.inl (hsub _ h)
        · exact Or.inr h
      · intro j hj w
        have := hl.noPush j hj w
        exact ⟨fun h => this.1 (hsub _ h), fun o h => this.2 o (hsub _ h)⟩
      · intro j hj w hs
        obtain ⟨ids, h1, h2⟩ := hl.strongClean j hj w hs
        refine ⟨ids, h1, ?_⟩
        rcases hcase _ h2 with e | e
        · cases e
        · exact e
    · cases h

theorem todoM_unf {s : Sys} {src d : Nat} {m : Msg} {rest : List (Nat × Nat × Msg)} (hi : Kept s)
    (hm : takeMsg src d s.net = some (m, rest)) : ∀ t ∈ todoM (s.worker d) m, UnfM s d t := by
  obtain ⟨hmem, -, -⟩ := takeMsg_mem hm
  intro t ht
  cases m with
  | task u =>
    rcases List.mem_cons.1 ht with h | h
    · subst h
      have h0 := (hi.taskMsg _ _ _ hmem).1
      subst h0
      exact Or.inl hmem
    · exact Or.inr h
  | data _ => exact Or.inr ht
  | owner _ _ => exact Or.inr ht
  | ask _ _ => exact Or.inr ht
  | clean _ => exact Or.inr ht

theorem todoM_ready {s : Sys} {src d : Nat} {m : Msg} {rest : List (Nat × Nat × Msg)} (hi : Kept s)
    (hm : takeMsg src d s.net = some (m, rest)) : ∀ t ∈ todoM (s.worker d) m, Ready (s.worker d) t.args := by
  obtain ⟨hmem, -, -⟩ := takeMsg_mem hm
  intro t ht i hx
  have hp : t ∈ pend (s.worker d) → i ∈ (s.worker d).data ∨ (s.worker d).owners.lookup i ≠ none :=
    fun h => (hi.known d t h i hx).2
  cases m with
  | task u =>
    rcases List.mem_cons.1 ht with h | h
    · subst h
      have h0 := (hi.taskMsg _ _ _ hmem).1
      subst h0
      have := hi.served d
      rw [takeMsg_chan hm] at this
      exact (this.1 i hx).2
    · exact hp h
  | data _ => exact hp ht
  | owner _ _ => exact hp ht
  | ask _ _ => exact hp ht
  | clean _ => exact hp ht

set_option maxHeartbeats 1600000 in
theorem leakm_deliver {s s' : Sys} {src d : Nat} (hd : d ≠ 0) (hi : Kept s) (hl : LeakM s) (h : s.step (.deliver src d) = some s') : LeakM s' := by
  obtain ⟨m, rest, hm, rfl⟩ := deliver_cases hd h
  clear h
  obtain ⟨hmem, hsub, hcase⟩ := takeMsg_mem hm
  have hdw : d ∈ s.ws := (hl.wsNet _ _ _ hmem).resolve_left hd
  have r := kept_recv hi hm
  have q := receive_quiet d (s.worker d) m
  have hunf := todoM_unf hi hm
  have r2 := receive_recv2M s.owner d (s.worker d) m (todoM_ready hi hm) (fun t ht j hj => (hi.taskOk d t (hunf t ht)).2 j hj) (hi.ownersTrue d)
  have hob := (hi.idle d).2.1
  generalize hp : (s.worker d).receive d m = p at r q r2
  have hout : ∀ y m', (y, m') ∈ p.outbox → (∃ i, m' = .data i ∧ s.owner i = some d ∧ y ≠ d ∧ (y = 0 ∨ y ∈ s.ws)) ∨
      (∃ j, m' = .ask j d ∧ y ≠ d ∧ s.owner j = some y ∧ y ∈ s.ws) := by
    intro y m' hx
    rcases q _ hx with h | ⟨i, h⟩ | ⟨i, j, h⟩
    · rw [hob] at h; cases h
    · have h : m' = .data i := h
      subst h
      left
      refine ⟨i, rfl, ?_⟩
      have hc := r2.count i y
      have hpos := List.count_pos_iff.2 hx
      rw [hob] at hc
      by_cases hq : m = .ask i y
      · subst hq
        obtain ⟨k1, k2, k3, k4⟩ := hl.askMsg _ _ _ _ hmem
        subst k1
        exact ⟨k3, k2, k4⟩
      · rw [if_neg hq] at hc
        simp only [List.count_nil] at hc
        have : 0 < (s.worker d).asks.count (i, y) := by omega
        obtain ⟨k1, k2, k3, k4⟩ := hl.asksOk d _ (List.count_pos_iff.1 this)
        exact ⟨k2, k1, k3⟩
    · have h : m' = .ask i j := h
      subst h
      right
      rcases r2.reqOwn _ _ _ hx with h | ⟨rfl, k2, k3⟩
      · rw [hob] at h; cases h
      · have := hi.ownersTrue _ _ k3
        exact ⟨i, rfl, k2, this, (hi.ownerFresh _ _ this).2⟩
  have hmap : ∀ x y m', (x, y, m') ∈ p.outbox.map (fun y => ((d, y.1, y.2) : Nat × Nat × Msg)) → x = d ∧ (y, m') ∈ p.outbox := by
    intro x y m' hx
    obtain ⟨⟨a, b⟩, h1, e⟩ := List.mem_map.1 hx
    cases e
    exact ⟨rfl, h1⟩
  have hnet : ∀ x y m', (x, y, m') ∈ rest ++ p.outbox.map (fun y => ((d, y.1, y.2) : Nat × Nat × Msg)) → (x, y, m') ∈ s.net ∨ (x = d ∧ (y, m') ∈ p.outbox) := by
    intro x y m' hx
    rcases List.mem_append.1 hx with h | h
    · exact Or.inl (hsub _ h)
    · exact Or.inr (hmap _ _ _ h)
  have hW : ∀ w, (({ s with net := rest }.setWorker d p).worker w) = if w = d then { p.sweep with outbox := [], done := 0 } else s.worker w := fun w => rfl
  have hWd : ({ s with net := rest }.setWorker d p).worker d = { p.sweep with outbox := [], done := 0 } := by rw [hW, if_pos rfl]
  have hWn : ∀ w, w ≠ d → ({ s with net := rest }.setWorker d p).worker w = s.worker w := fun w hw => by rw [hW, if_neg hw]
  have askMsg' : ∀ x y i z, (x, y, Msg.ask i z) ∈ rest ++ p.outbox.map (fun y => ((d, y.1, y.2) : Nat × Nat × Msg)) → z = x ∧ x ≠ y ∧ s.owner i = some y ∧ (x = 0 ∨ x ∈ s.ws) := by
    intro x y i z hx
    rcases hnet _ _ _ hx with h | ⟨e, h⟩
    · exact hl.askMsg x y i z h
    · rcases hout _ _ h with ⟨j, k, -⟩ | ⟨j, k, k1, k2, k3⟩
      · cases k
      · cases k
        subst e
        exact ⟨rfl, fun e => k1 e.symm, k2, Or.inr hdw⟩
  have dataMsg' : ∀ x y i, (x, y, Msg.data i) ∈ rest ++ p.outbox.map (fun y => ((d, y.1, y.2) : Nat × Nat × Msg)) → (x = 0 ∧ s.owner i = none ∧ i < s.next) ∨ (s.owner i = some x ∧ x ≠ y) := by
    intro x y i hx
    rcases hnet _ _ _ hx with h | ⟨e, h⟩
    · exact hl.dataMsg x y i h
    · rcases hout _ _ h with ⟨j, k, k1, k2, k3⟩ | ⟨j, k, -⟩
      · cases k
        subst e
        exact Or.inr ⟨k1, fun e => k2 e.symm⟩
      · cases k
  have asksOk' : ∀ a ∈ p.asks, a.2 ≠ d ∧ s.owner a.1 = some d ∧ (a.2 = 0 ∨ a.2 ∈ s.ws) ∧ a.1 ∉ p.data := by
    intro a ha
    have h4 : a.1 ∉ p.data := by
      refine r2.fresh (fun a ha => (hl.asksOk d a ha).2.2.2) ?_ a ha
      rintro i rfl b hb e
      have := (hl.asksOk d b hb).2.1
      rw [e] at this
      rcases hl.dataMsg _ _ _ hmem with ⟨-, k, -⟩ | ⟨k, k2⟩
      · rw [this] at k; cases k
      · rw [this] at k; cases k; exact k2 rfl
    rcases r2.asks a ha with h | h
    · obtain ⟨k1, k2, k3, -⟩ := hl.asksOk d a h
      exact ⟨k1, k2, k3, h4⟩
    · subst h
      obtain ⟨k1, k2, k3, k4⟩ := hl.askMsg _ _ _ _ hmem
      rw [k1]
      exact ⟨k2, k3, k4, h4⟩
  refine { wsNet := ?_, askMsg := askMsg', asksOk := ?_, dataMsg := dataMsg', tok := ?_, asked := ?_, waitHeld := hl.waitHeld, empty := ?_, swept := ?_, follow := ?_, outsOk := ?_, noPush := ?_, strongClean := ?_ }
  · intro x y m' hx
    rcases hnet x y m' hx with h | ⟨-, h⟩
    · exact hl.wsNet x y m' h
    · rcases hout _ _ h with ⟨j, -, -, -, k⟩ | ⟨j, -, -, -, k⟩
      · exact k
      · exact Or.inr k
  · intro w a ha
    by_cases hw : w = d
    · subst hw
      rw [hWd] at ha ⊢
      obtain ⟨k1, k2, k3, k4⟩ := asksOk' a ha
      exact ⟨k1, k2, k3, fun h => k4 (List.mem_filter.1 h).1⟩
    · rw [hWn w hw] at ha ⊢
      exact hl.asksOk w a ha
  · intro i W o ho0
    have ho : s.owner i = some o := ho0
    clear ho0
    have ht := hl.tok i W o ho
    have c1 := takeMsg_count hm (W, o, Msg.ask i W)
    have c2 := takeMsg_count hm (o, W, Msg.data i)
    show (rest ++ p.outbox.map (fun y => ((d, y.1, y.2) : Nat × Nat × Msg))).count (W, o, Msg.ask i W) + (({ s with net := rest }.setWorker d p).worker o).asks.count (i, W) +
      (rest ++ p.outbox.map (fun y => ((d, y.1, y.2) : Nat × Nat × Msg))).count (o, W, Msg.data i) ≤
      (if W = 0 then s.waiting.count i else bit (({ s with net := rest }.setWorker d p).worker W).asked i)
    unfold need at ht
    by_cases hod : o = d
    · subst hod
      by_cases hWd' : W = o
      · subst hWd'
        have z1 : (rest ++ p.outbox.map (fun y => ((W, y.1, y.2) : Nat × Nat × Msg))).count (W, W, Msg.ask i W) = 0 := by
          rw [List.count_eq_zero]
          intro h
          exact (askMsg' _ _ _ _ h).2.1 rfl
        have z2 : (({ s with net := rest }.setWorker W p).worker W).asks.count (i, W) = 0 := by
          rw [List.count_eq_zero, hWd]
          intro h
          exact (asksOk' _ h).1 rfl
        have z3 : (rest ++ p.outbox.map (fun y => ((W, y.1, y.2) : Nat × Nat × Msg))).count (W, W, Msg.data i) = 0 := by
          rw [List.count_eq_zero]
          intro h
          rcases dataMsg' _ _ _ h with ⟨k, -, -⟩ | ⟨-, k⟩
          · exact hd k
          · exact k rfl
        omega
      · rw [hWn W hWd', hWd, count_append_zero _ _ (W, o, Msg.ask i W) (fun h => hWd' (hmap _ _ _ h).1), List.count_append, map_count_eq]
        have hc := r2.count i W
        rw [hob] at hc
        simp only [List.count_nil, Nat.add_zero] at hc
        have hc1 : (if m = .ask i W then 1 else 0) ≤ (if (W, o, Msg.ask i W) = (src, o, m) then 1 else 0) := by
          by_cases hq : m = .ask i W
          · subst hq
            have := (hl.askMsg _ _ _ _ hmem).1
            subst this
            simp
          · rw [if_neg hq]; exact Nat.zero_le _
        have e1 : ({ p.sweep with outbox := [], done := 0 } : Proc).asks = p.asks := rfl
        rw [e1]
        omega
    · rw [hWn o hod, count_append_zero _ _ (o, W, Msg.data i) (fun h => hod (hmap _ _ _ h).1)]
      by_cases hWd' : W = d
      · subst hWd'
        rw [hWd, List.count_append, map_count_eq, if_neg hd]
        rw [if_neg hd] at ht
        have hq := r2.req i o W
        rw [hob] at hq
        simp only [List.count_nil, Nat.zero_add] at hq
        have e1 : ({ p.sweep with outbox := [], done := 0 } : Proc).asked = p.asked := rfl
        rw [e1]
        by_cases hmd : m = .data i
        · subst hmd
          have hs : src = o := by
            rcases hl.dataMsg _ _ _ hmem with ⟨-, k, -⟩ | ⟨k, -⟩
            · rw [ho] at k; cases k
            · rw [ho] at k; cases k; rfl
          subst hs
          simp only [if_true, Nat.add_zero] at c2 hq
          have : bit (s.worker W).asked i ≤ 1 := by unfold bit; split <;> omega
          omega
        · rw [if_neg hmd] at hq
          omega
      · rw [hWn W hWd', count_append_zero _ _ (W, o, Msg.ask i W) (fun h => hWd' (hmap _ _ _ h).1)]
        omega
  · intro w j hj
    by_cases hw : w = d
    · subst hw
      rw [hWd] at hj ⊢
      obtain ⟨k1, k2, k3⟩ := r2.pend (hl.asked w) j hj
      exact ⟨fun h => k1 (List.mem_filter.1 h).1, k2, k3⟩
    · rw [hWn w hw] at hj ⊢
      exact hl.asked w j hj
  · intro w hw
    have hw : w ∉ s.ws := hw
    rw [hWn w (fun e => hw (e ▸ hdw))]
    exact hl.empty w hw
  · intro w
    by_cases hw : w = d
    · subst hw
      rw [hWd]
      exact ⟨fun i h => (List.mem_filter.1 h).2, fun e h => (List.mem_filter.1 h).2, fun e h => (List.mem_filter.1 h).2⟩
    · rw [hWn w hw]
      exact hl.swept w
  · intro w
    show FollowedM (chan 0 w (rest ++ p.outbox.map (fun y => ((d, y.1, y.2) : Nat × Nat × Msg))))
    rw [chan_append, chan_none (l := p.outbox.map _), List.append_nil]
    · exact followedm_tail hm (hl.follow w)
    · intro x hx g
      exact hd ((hmap x.1 x.2.1 x.2.2 hx).1.symm.trans g.1)
  · intro w t' hu i hx
    rcases hu with h | h
    · rcases hnet _ _ _ h with h | ⟨-, h⟩
      · exact hl.outsOk w t' (Or.inl h) i hx
      · rcases hout _ _ h with ⟨j, k, -⟩ | ⟨j, k, -⟩ <;> cases k
    · by_cases hw : w = d
      · subst hw
        rw [hWd] at h
        obtain ⟨t, ht, e, -, -⟩ := r.left t' h
        exact hl.outsOk w t (hunf t ht) i (e ▸ hx)
      · rw [hWn w hw] at h
        exact hl.outsOk w t' (Or.inr h) i hx
  · intro i hx w
    have := hl.noPush i hx w
    refine ⟨fun h => ?_, fun o h => ?_⟩
    · rcases hnet _ _ _ h with h | ⟨e, -⟩
      · exact this.1 h
      · exact hd e.symm
    · rcases hnet _ _ _ h with h | ⟨e, -⟩
      · exact this.2 o h
      · exact hd e.symm
  · intro i hx w hs
    have hx : i ∈ s.cleaned := hx
    show ∃ ids, i ∈ ids ∧ (0, w, Msg.clean ids) ∈ rest ++ p.outbox.map (fun y => ((d, y.1, y.2) : Nat × Nat × Msg))
    by_cases hw : w = d
    · subst hw
      rw [hWd] at hs
      have hs : i ∈ p.strong := hs
      rcases r.newStrong i hs with h | h | ⟨o, h⟩ | ⟨t, ht, ho⟩
      · obtain ⟨ids, h1, h2⟩ := hl.strongClean i hx w h
        refine ⟨ids, h1, List.mem_append_left _ ?_⟩
        rcases hcase _ h2 with e | e
        · cases e
          exact absurd h1 (r.cleaned ids rfl i hs)
        · exact e
      · exfalso
        subst h
        rcases hl.dataMsg _ _ _ hmem with ⟨k, -, -⟩ | ⟨k, -⟩
        · subst k
          exact (hl.noPush i hx w).1 hmem
        · have ht := hl.tok i w src k
          have := List.count_pos_iff.2 hmem
          unfold need bit at ht
          rw [if_neg hd] at ht
          split at ht
          · rename_i ha
            obtain ⟨-, ⟨t, ht, hxt⟩, -⟩ := hl.asked w i ha
            exact (hi.taskOk w t (Or.inr ht)).1 i hxt hx
          · omega
      · exfalso
        subst h
        have := (hi.ownerMsg _ _ _ _ hmem).1
        subst this
        exact (hl.noPush i hx w).2 o hmem
      · exact absurd hx (hl.outsOk w t (hunf t ht) i ho)
    · rw [hWn w hw] at hs
      obtain ⟨ids, h1, h2⟩ := hl.strongClean i hx w hs
      refine ⟨ids, h1, List.mem_append_left _ ?_⟩
      rcases hcase _ h2 with e | e
      · cases e; exact absurd rfl hw
      · exact e

theorem leakm_run (ops : List Op) {s s' : Sys} (hi : Kept s) (hl : LeakM s) (ho : KeepsArguments s ops) (hk : KeepsResults s ops) (hf : Unfetched s ops)
    (h : s.run ops = some s') : Kept s' ∧ LeakM s' := by
  induction ops generalizing s with
  | nil => cases h; exact ⟨hi, hl⟩
  | cons op ops ih =>
    simp only [Sys.run, Option.bind_eq_some_iff] at h
    obtain ⟨s1, h1, h2⟩ := h
    refine ih (kept_step hi ho.1 h1) ?_ (ho.2 s1 h1) (hk.2 s1 h1) (hf.2 s1 h1) h2
    cases op with
    | put => exact leakm_put hl h1
    | drop i => exact leakm_drop hl h1
    | submit args n d m => exact leakm_submit hi hl hf.1 h1
    | get ids => exact leakm_get hi hl h1
    | deliver src d =>
      by_cases hd : d = 0
      · subst hd; exact leakm_deliver_root hl h1
      · exact leakm_deliver hd hi hl h1
    | report => exact leakm_report hl h1
    | cleanup =>
      have hne : s.step .cleanup ≠ none := by rw [h1]; simp
      exact leakm_cleanup hi hl (fun w t ht => ho.1 rfl hne w t ((unfinished_iff s w t).2 ht)) (fun w t ht => hk.1 rfl hne w t ((unfinished_iff s w t).2 ht)) h1

/-- A cleaned up object is alive only where the cleanup has not arrived. -/
theorem leakm_alive {s : Sys} (hi : Kept s) (hl : LeakM s) {i w : Nat} (hx : i ∈ s.cleaned) (hn : ∀ ids, (0, w, Msg.clean ids) ∈ s.net → i ∉ ids) :
    (s.worker w).alive i = false := by
  have hstrong : i ∉ (s.worker w).strong := by
    intro h
    obtain ⟨ids, h1, h2⟩ := hl.strongClean i hx w h
    exact hn ids h2 h1
  have htasks : ∀ t ∈ pend (s.worker w), i ∉ t.args ∧ i ∉ t.outs := by
    intro t ht
    have := hi.taskOk w t (Or.inr ht)
    exact ⟨fun h => this.1 i h hx, fun h => hl.outsOk w t (Or.inr ht) i h hx⟩
  have hasked : i ∉ (s.worker w).asked := by
    intro h
    obtain ⟨-, ⟨t, ht, hxt⟩, -⟩ := hl.asked w i h
    exact (htasks t ht).1 hxt
  have hasks : ∀ a ∈ (s.worker w).asks, a.1 ≠ i := by
    rintro ⟨j, W⟩ ha rfl
    have hx : j ∈ s.cleaned := hx
    have ho := (hl.asksOk w _ ha).2.1
    have ht := hl.tok j W w ho
    have := List.count_pos_iff.2 ha
    unfold need at ht
    by_cases hW : W = 0
    · subst hW
      rw [if_pos rfl] at ht
      have hpos : 0 < s.waiting.count j := by omega
      exact (hi.gone j (hl.waitHeld j (List.count_pos_iff.1 hpos))).2 hx
    · rw [if_neg hW] at ht
      unfold bit at ht
      split at ht
      · rename_i ha
        obtain ⟨-, ⟨t, ht, hxt⟩, -⟩ := hl.asked W j ha
        exact (hi.taskOk W t (Or.inr ht)).1 j hxt hx
      · omega
  unfold Proc.alive
  simp only [Bool.or_eq_false_iff, decide_eq_false_iff_not, List.any_eq_false, Bool.or_eq_true, decide_eq_true_eq, not_or]
  exact ⟨⟨⟨⟨hstrong, fun t ht => htasks t (List.mem_append_left _ ht)⟩, fun t ht => htasks t (List.mem_append_right _ ht)⟩, hasked⟩, hasks⟩

end Verif.Lifetime
