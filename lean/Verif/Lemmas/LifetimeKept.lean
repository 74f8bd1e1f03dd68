import Verif.Lemmas.LifetimeRun
import Verif.Spec.Lifetime

/-! Invariants of `Verif.Model.Lifetime` for programs with actors that keep the arguments of calls until they are finished. -/
namespace Verif.Lifetime

/-- Everything a worker holds back. -/
def pend (p : Proc) : List Task := p.tasks ++ p.methods

/-- A call is unfinished. -/
def UnfM (s : Sys) (w : Nat) (t : Task) : Prop := (0, w, Msg.task t) ∈ s.net ∨ t ∈ pend (s.worker w)

theorem unfinished_iff (s : Sys) (w : Nat) (t : Task) : Unfinished s w t ↔ UnfM s w t := by
  simp only [Unfinished, UnfM, pend, List.mem_append]

/-- What steps of a worker that runs calls of `L` do. -/
structure Upd (p p' : Proc) (L : List Task) : Prop where
  data : ∀ i ∈ p.data, i ∈ p'.data
  strong : ∀ i ∈ p.strong, i ∈ p'.strong
  new : ∀ i ∈ p'.data, i ∈ p.data ∨ ∃ t ∈ L, i ∈ t.outs
  newStrong : ∀ i ∈ p'.strong, i ∈ p.strong ∨ ∃ t ∈ L, i ∈ t.outs
  owners : p'.owners = p.owners
  left : ∀ t' ∈ pend p', ∃ t ∈ L, t'.outs = t.outs ∧ t'.method = t.method ∧ ∀ i ∈ t'.args, i ∈ t.args
  ran : ∀ t ∈ L, (∀ i ∈ t.outs, i ∈ p'.data ∧ i ∈ p'.strong) ∨ ∃ t' ∈ pend p', t'.outs = t.outs
  crashed : p'.crashed = p.crashed

theorem Upd.refl (p : Proc) : Upd p p (pend p) :=
  ⟨fun _ h => h, fun _ h => h, fun _ h => Or.inl h, fun _ h => Or.inl h, rfl, fun t ht => ⟨t, ht, rfl, rfl, fun _ h => h⟩, fun t ht => Or.inr ⟨t, ht, rfl⟩, rfl⟩

/-- One pass over a part of what is held back. -/
theorem Upd.pass {p q : Proc} {L : List Task} (u : Upd p q L) (me : Nat) (hr : ∀ t ∈ L, Ready p t.args) (A B : List Task)
    (hA : ∀ t, t ∈ pend q ↔ t ∈ A ∨ t ∈ B) (q' : Proc) (hq : ∀ t, t ∈ pend q' ↔ t ∈ (Proc.pass me A q).2 ∨ t ∈ B)
    (hd : q'.data = (Proc.pass me A q).1.data) (hs : q'.strong = (Proc.pass me A q).1.strong) (ho : q'.owners = (Proc.pass me A q).1.owners)
    (hc : q'.crashed = (Proc.pass me A q).1.crashed) : Upd p q' L := by
  have w := pass_work me A q (by
    intro t ht i hi
    obtain ⟨t0, h0, -, -, e⟩ := u.left t ((hA t).2 (Or.inl ht))
    rcases hr t0 h0 i (e i hi) with g | g
    · exact Or.inl (u.data i g)
    · exact Or.inr (by rw [u.owners]; exact g))
  refine ⟨?_, ?_, ?_, ?_, by rw [ho, w.owners, u.owners], ?_, ?_, by rw [hc, w.crashed, u.crashed]⟩
  · intro i h; rw [hd]; exact w.data i (u.data i h)
  · intro i h; rw [hs]; exact w.strong i (u.strong i h)
  · intro i h
    rw [hd] at h
    rcases w.new i h with h | ⟨t, ht, hx⟩
    · exact u.new i h
    · obtain ⟨t0, h0, e, -⟩ := u.left t ((hA t).2 (Or.inl ht))
      exact Or.inr ⟨t0, h0, e ▸ hx⟩
  · intro i h
    rw [hs] at h
    rcases w.newStrong i h with h | ⟨t, ht, hx⟩
    · exact u.newStrong i h
    · obtain ⟨t0, h0, e, -⟩ := u.left t ((hA t).2 (Or.inl ht))
      exact Or.inr ⟨t0, h0, e ▸ hx⟩
  · intro t' ht'
    rcases (hq t').1 ht' with h | h
    · obtain ⟨t, ht, e1, e2, e3⟩ := w.left t' h
      obtain ⟨t0, h0, f1, f2, f3⟩ := u.left t ((hA t).2 (Or.inl ht))
      exact ⟨t0, h0, e1.trans f1, e2.trans f2, fun i hi => f3 i (e3 i hi)⟩
    · exact u.left t' ((hA t').2 (Or.inr h))
  · intro t ht
    rcases u.ran t ht with h | ⟨t1, h1, e1⟩
    · left
      intro i hi
      rw [hd, hs]
      exact ⟨w.data i (h i hi).1, w.strong i (h i hi).2⟩
    · rcases (hA t1).1 h1 with h | h
      · rcases w.ran t1 h with g | ⟨t2, h2, e2⟩
        · left; rw [hd, hs, ← e1]; exact g
        · exact Or.inr ⟨t2, (hq t2).2 (Or.inl h2), e2.trans e1⟩
      · exact Or.inr ⟨t1, (hq t1).2 (Or.inr h), e1⟩

theorem Upd.checkTasks {p q : Proc} {L : List Task} (u : Upd p q L) (me : Nat) (hr : ∀ t ∈ L, Ready p t.args) : Upd p (q.checkTasks me) L := by
  have e : (Proc.pass me q.tasks q).1.methods = q.methods := by
    refine (pass_work me q.tasks q ?_).methods
    intro t ht i hi
    obtain ⟨t0, h0, -, -, e⟩ := u.left t (List.mem_append_left _ ht)
    rcases hr t0 h0 i (e i hi) with g | g
    · exact Or.inl (u.data i g)
    · exact Or.inr (by rw [u.owners]; exact g)
  refine u.pass me hr q.tasks q.methods (fun t => List.mem_append) _ ?_ rfl rfl rfl rfl
  intro t
  show t ∈ (Proc.pass me q.tasks q).2 ++ (Proc.pass me q.tasks q).1.methods ↔ _
  rw [e, List.mem_append]

theorem Upd.checkMethods {p q : Proc} {L : List Task} (u : Upd p q L) (me : Nat) (hr : ∀ t ∈ L, Ready p t.args) : Upd p (q.checkMethods me) L := by
  have e : (Proc.pass me q.methods q).1.tasks = q.tasks := by
    refine (pass_work me q.methods q ?_).tasks
    intro t ht i hi
    obtain ⟨t0, h0, -, -, e⟩ := u.left t (List.mem_append_right _ ht)
    rcases hr t0 h0 i (e i hi) with g | g
    · exact Or.inl (u.data i g)
    · exact Or.inr (by rw [u.owners]; exact g)
  refine u.pass me hr q.methods q.tasks (fun t => by rw [pend, List.mem_append]; exact Or.comm) _ ?_ rfl rfl rfl rfl
  intro t
  show t ∈ (Proc.pass me q.methods q).1.tasks ++ (Proc.pass me q.methods q).2 ↔ _
  rw [e, List.mem_append]; exact Or.comm

/-- What receiving a message does to a worker. -/
structure RecvM (p p' : Proc) (m : Msg) (L : List Task) : Prop where
  data : ∀ i ∈ p.data, i ∈ p'.data
  strong : ∀ i ∈ p.strong, (∀ ids, m = .clean ids → i ∉ ids) → i ∈ p'.strong
  got : ∀ i, m = .data i → i ∈ p'.data ∧ i ∈ p'.strong
  told : ∀ i r, m = .owner i r → p'.owners.lookup i ≠ none ∧ i ∈ p'.strong
  newStrong : ∀ i ∈ p'.strong, i ∈ p.strong ∨ m = .data i ∨ (∃ r, m = .owner i r) ∨ ∃ t ∈ L, i ∈ t.outs
  cleaned : ∀ ids, m = .clean ids → ∀ i ∈ p'.strong, i ∉ ids
  owners : ∀ i, p.owners.lookup i ≠ none → p'.owners.lookup i ≠ none
  newOwners : ∀ e ∈ p'.owners, e ∈ p.owners ∨ m = .owner e.1 e.2
  left : ∀ t' ∈ pend p', ∃ t ∈ L, t'.outs = t.outs ∧ t'.method = t.method ∧ ∀ i ∈ t'.args, i ∈ t.args
  ran : ∀ t ∈ L, (∀ i ∈ t.outs, i ∈ p'.data ∧ i ∈ p'.strong) ∨ ∃ t' ∈ pend p', t'.outs = t.outs
  crashed : p'.crashed = p.crashed

/-- The calls a worker knows after receiving a message. -/
def todoM (p : Proc) : Msg → List Task
  | .task t => t :: pend p
  | _ => pend p

theorem Upd.recv {p p' : Proc} {t : Task} (u : Upd p p' (todoM p (.task t))) : RecvM p p' (.task t) (todoM p (.task t)) :=
  ⟨u.data, fun i h _ => u.strong i h, by simp, by simp, fun i h => (u.newStrong i h).imp_right (fun g => Or.inr (Or.inr g)), by simp, fun i h => by rw [u.owners]; exact h, fun e he => Or.inl (by rw [← u.owners]; exact he), u.left, u.ran, u.crashed⟩

theorem attempt_upd (me : Nat) (p : Proc) (t : Task) (h : Ready p t.args) (q : Proc)
    (hd : q.data = (p.attempt me t).1.data) (hs : q.strong = (p.attempt me t).1.strong) (ho : q.owners = (p.attempt me t).1.owners)
    (hc : q.crashed = (p.attempt me t).1.crashed) (hp : ∀ u, u ∈ pend q ↔ u ∈ pend p ∨ u ∈ (p.attempt me t).2.toList) :
    Upd p q (t :: pend p) := by
  have a := attempt_work me p t h
  refine ⟨?_, ?_, ?_, ?_, by rw [ho, a.owners], ?_, ?_, by rw [hc, a.crashed]⟩
  · intro i h; rw [hd]; exact a.data i h
  · intro i h; rw [hs]; exact a.strong i h
  · intro i h
    rw [hd] at h
    rcases a.new i h with h | ⟨u, hu, hx⟩
    · exact Or.inl h
    · exact Or.inr ⟨t, List.mem_cons_self, List.mem_singleton.1 hu ▸ hx⟩
  · intro i h
    rw [hs] at h
    rcases a.newStrong i h with h | ⟨u, hu, hx⟩
    · exact Or.inl h
    · exact Or.inr ⟨t, List.mem_cons_self, List.mem_singleton.1 hu ▸ hx⟩
  · intro u hu
    rcases (hp u).1 hu with h | h
    · exact ⟨u, List.mem_cons_of_mem _ h, rfl, rfl, fun _ h => h⟩
    · obtain ⟨v, hv, e⟩ := a.left u h
      rw [List.mem_singleton.1 hv] at e
      exact ⟨t, List.mem_cons_self, e⟩
  · intro u hu
    rcases List.mem_cons.1 hu with h | h
    · subst h
      rcases a.ran u (by simp) with g | ⟨v, hv, e⟩
      · left; rw [hd, hs]; exact g
      · exact Or.inr ⟨v, (hp v).2 (Or.inr hv), e⟩
    · exact Or.inr ⟨u, (hp u).2 (Or.inl h), rfl⟩

theorem receive_recvM (me : Nat) (p : Proc) (m : Msg) (hr : ∀ t ∈ todoM p m, Ready p t.args) : RecvM p (p.receive me m) m (todoM p m) := by
  cases m with
  | data i =>
    obtain ⟨l, e, h1, h2⟩ := store_rest p i
    have hl : ∀ j ∈ l, j ∈ p.strong ∨ j = i := by
      intro j hj
      have hj' : j ∈ (p.store i).strong := by rw [e]; exact hj
      unfold Proc.store Proc.keep at hj'
      split at hj'
      · exact Or.inl hj'
      · rcases List.mem_cons.1 hj' with h | h
        · exact Or.inr h
        · exact Or.inl h
    have hr' : ∀ t ∈ pend { p with data := i :: p.data, strong := l, asked := p.asked.filter (fun j => j ≠ i) },
        Ready { p with data := i :: p.data, strong := l, asked := p.asked.filter (fun j => j ≠ i) } t.args := by
      intro t ht j hj
      rcases hr t ht j hj with g | g
      · exact Or.inl (List.mem_cons_of_mem _ g)
      · exact Or.inr g
    have u := ((Upd.refl { p with data := i :: p.data, strong := l, asked := p.asked.filter (fun j => j ≠ i) }).checkTasks me hr').checkMethods me hr'
    have hrec : p.receive me (.data i) = Proc.checkMethods me (Proc.checkTasks me { p with data := i :: p.data, strong := l, asked := p.asked.filter (fun j => j ≠ i) }) := by
      simp only [Proc.receive, e]
    rw [hrec]
    refine ⟨fun j h => u.data j (List.mem_cons_of_mem _ h), fun j h _ => u.strong j (h2 j h), ?_, by simp, ?_, by simp, ?_, ?_, u.left, u.ran, u.crashed⟩
    · rintro j hj
      cases hj
      exact ⟨u.data _ List.mem_cons_self, u.strong _ h1⟩
    · intro j hj
      rcases u.newStrong j hj with h | h
      · rcases hl j h with h | h
        · exact Or.inl h
        · exact Or.inr (Or.inl (h ▸ rfl))
      · exact Or.inr (Or.inr (Or.inr h))
    · intro j h; rw [u.owners]; exact h
    · intro x hx; rw [u.owners] at hx; exact Or.inl hx
  | owner i r =>
    have hrec : p.receive me (.owner i r) = { p with owners := (i, r) :: p.owners.filter (fun e => e.1 ≠ i) }.keep i := rfl
    obtain ⟨l, e⟩ := keep_rest { p with owners := (i, r) :: p.owners.filter (fun e => e.1 ≠ i) } i
    have h1 := keep_strong { p with owners := (i, r) :: p.owners.filter (fun e => e.1 ≠ i) } i
    have h2 := keep_sub { p with owners := (i, r) :: p.owners.filter (fun e => e.1 ≠ i) } i
    have hl : ∀ j ∈ l, j ∈ p.strong ∨ j = i := by
      intro j hj
      have hj' : j ∈ ({ p with owners := (i, r) :: p.owners.filter (fun e => e.1 ≠ i) }.keep i).strong := by rw [e]; exact hj
      unfold Proc.keep at hj'
      split at hj'
      · exact Or.inl hj'
      · rcases List.mem_cons.1 hj' with h | h
        · exact Or.inr h
        · exact Or.inl h
    rw [e] at h1 h2
    rw [hrec, e]
    refine ⟨fun _ h => h, fun j h _ => h2 j h, by simp, ?_, ?_, by simp, ?_, ?_,
      fun t ht => ⟨t, ht, rfl, rfl, fun _ h => h⟩, fun t ht => Or.inr ⟨t, ht, rfl⟩, rfl⟩
    · rintro j s hj
      cases hj
      exact ⟨by simp [List.lookup], h1⟩
    · intro j hj
      rcases hl j hj with h | h
      · exact Or.inl h
      · exact Or.inr (Or.inr (Or.inl ⟨r, by rw [h]⟩))
    · intro j hj
      by_cases hx : j = i
      · subst hx; simp [List.lookup]
      · have : (j == i) = false := by simp [hx]
        simp only [List.lookup, this]
        rw [lookup_filter_ne _ _ _ hx]; exact hj
    · intro x hx
      rcases List.mem_cons.1 hx with h | h
      · right; rw [h]
      · exact Or.inl (List.mem_filter.1 h).1
  | task t =>
    have ht := hr t List.mem_cons_self
    have a := attempt_work me p t ht
    have key : Upd p (p.receive me (.task t)) (t :: pend p) := by
      simp only [Proc.receive]
      split
      · rename_i t' hres hf
        refine attempt_upd me p t ht _ rfl rfl rfl rfl ?_
        intro u
        rw [hres]
        simp only [pend, a.tasks, a.methods, List.mem_append, Option.toList]
        tauto
      · rename_i t' hres hf
        refine attempt_upd me p t ht _ rfl rfl rfl rfl ?_
        intro u
        rw [hres]
        simp only [pend, a.tasks, a.methods, List.mem_append, Option.toList]
        tauto
      · rename_i hres hf
        refine (attempt_upd me p t ht (p.attempt me t).1 rfl rfl rfl rfl ?_).checkTasks me hr
        intro u
        rw [hres]
        simp [pend, a.tasks, a.methods]
      · rename_i hres hf
        refine (attempt_upd me p t ht (p.attempt me t).1 rfl rfl rfl rfl ?_).checkMethods me hr
        intro u
        rw [hres]
        simp [pend, a.tasks, a.methods]
    exact key.recv
  | ask i src =>
    have key : ∃ a b c, p.receive me (.ask i src) = { p with outbox := a, sent := b, asks := c } := by
      simp only [Proc.receive]
      split
      · obtain ⟨a, b, e⟩ := push_rest p i src
        exact ⟨a, b, p.asks, e⟩
      · split
        · exact ⟨p.outbox, p.sent, p.asks, rfl⟩
        · exact ⟨p.outbox, p.sent, _, rfl⟩
    obtain ⟨a, b, c, e⟩ := key
    rw [e]
    exact ⟨fun _ h => h, fun _ h _ => h, by simp, by simp, fun _ h => Or.inl h, by simp, fun _ h => h, fun _ h => Or.inl h,
      fun t ht => ⟨t, ht, rfl, rfl, fun _ h => h⟩, fun t ht => Or.inr ⟨t, ht, rfl⟩, rfl⟩
  | clean ids =>
    refine ⟨fun _ h => h, ?_, by simp, by simp, fun i hi => Or.inl (List.mem_filter.1 hi).1, ?_, fun _ h => h, fun _ h => Or.inl h,
      fun t ht => ⟨t, ht, rfl, rfl, fun _ h => h⟩, fun t ht => Or.inr ⟨t, ht, rfl⟩, rfl⟩
    · intro i hi hc
      exact List.mem_filter.2 ⟨hi, by simpa using hc ids rfl⟩
    · intro l hl i hi
      cases hl
      simpa using (List.mem_filter.1 hi).2

/-! ### The invariant -/

structure Kept (s : Sys) : Prop where
  zero : 0 ∉ s.ws
  nodup : s.ws.Nodup
  heldNodup : s.held.Nodup
  fresh : ∀ i, (i ∈ s.held ∨ i ∈ s.queue ∨ i ∈ s.cleaned) → i < s.next
  ownerFresh : ∀ i o, s.owner i = some o → i < s.next ∧ o ∈ s.ws
  sentHeld : ∀ e ∈ s.sent, e.1 ∈ s.held ∧ e.2 ∈ s.ws
  storedHeld : ∀ i ∈ s.stored, i ∈ s.held
  gone : ∀ i ∈ s.held, i ∉ s.queue ∧ i ∉ s.cleaned
  heldKnown : ∀ i ∈ s.held, i ∈ s.stored ∨ s.owner i ≠ none
  idle : ∀ w, (s.worker w).crashed = false ∧ (s.worker w).outbox = [] ∧ (s.worker w).done = 0
  pendWs : ∀ w t, t ∈ pend (s.worker w) → w ∈ s.ws
  taskMsg : ∀ x w t, (x, w, Msg.task t) ∈ s.net → x = 0 ∧ w ∈ s.ws
  cleanMsg : ∀ x w ids, (x, w, Msg.clean ids) ∈ s.net → x = 0 ∧ ∀ i ∈ ids, i ∈ s.cleaned
  ownerMsg : ∀ x w i o, (x, w, Msg.owner i o) ∈ s.net → x = 0 ∧ s.owner i = some o
  ownersTrue : ∀ w, ∀ e ∈ (s.worker w).owners, s.owner e.1 = some e.2
  taskOk : ∀ w t, UnfM s w t → (∀ i ∈ t.args, i ∉ s.cleaned) ∧ ∀ i ∈ t.outs, s.owner i = some w
  home : ∀ i o, s.owner i = some o → i ∉ s.cleaned →
    (i ∈ (s.worker o).strong ∧ i ∈ (s.worker o).data) ∨ ∃ t, UnfM s o t ∧ i ∈ t.outs
  served : ∀ w, Served (Kn (s.worker w)) (chan 0 w s.net)
  known : ∀ w, ∀ t ∈ pend (s.worker w), ∀ i ∈ t.args, Kn (s.worker w) i
  sentOk : ∀ i w, (i, w) ∈ s.sent → (i ∈ (s.worker w).strong ∧ i ∈ (s.worker w).data) ∨ (0, w, Msg.data i) ∈ s.net

theorem kept_init (ws : List Nat) (h0 : 0 ∉ ws) (hn : ws.Nodup) : Kept (Sys.init ws) where
  zero := h0
  nodup := hn
  heldNodup := List.nodup_nil
  fresh := by simp [Sys.init]
  ownerFresh := by simp [Sys.init]
  sentHeld := by simp [Sys.init]
  storedHeld := by simp [Sys.init]
  gone := by simp [Sys.init]
  heldKnown := by simp [Sys.init]
  idle := by simp [Sys.init, Proc.init]
  pendWs := by simp [Sys.init, Proc.init, pend]
  taskMsg := by simp [Sys.init]
  cleanMsg := by simp [Sys.init]
  ownerMsg := by simp [Sys.init]
  ownersTrue := by simp [Sys.init, Proc.init]
  taskOk := by simp [Sys.init, Proc.init, UnfM, pend]
  home := by simp [Sys.init]
  served := by simp [Sys.init, chan, Served]
  known := by simp [Sys.init, Proc.init, pend]
  sentOk := by simp [Sys.init]

/-! ### Steps of the main process -/

theorem kept_put {s s' : Sys} (hi : Kept s) (h : s.step .put = some s') : Kept s' := by
  simp only [Sys.step] at h
  split at h
  · cases h
  · cases h
    have hf := hi.fresh
    refine { hi with heldNodup := ?_, fresh := ?_, ownerFresh := ?_, sentHeld := ?_, storedHeld := ?_, gone := ?_, heldKnown := ?_ }
    · exact List.nodup_cons.2 ⟨fun h => absurd (hf _ (Or.inl h)) (by omega), hi.heldNodup⟩
    · intro i h
      simp only [List.mem_cons] at h
      rcases h with (h | h) | h | h
      · show i < s.next + 1; omega
      · have := hf i (Or.inl h); show i < s.next + 1; omega
      · have := hf i (Or.inr (Or.inl h)); show i < s.next + 1; omega
      · have := hf i (Or.inr (Or.inr h)); show i < s.next + 1; omega
    · intro i o h
      have := hi.ownerFresh i o h
      exact ⟨by have := this.1; show i < s.next + 1; omega, this.2⟩
    · intro e he; exact ⟨List.mem_cons_of_mem _ (hi.sentHeld e he).1, (hi.sentHeld e he).2⟩
    · intro i h
      rcases List.mem_cons.1 h with h | h
      · exact h ▸ List.mem_cons_self
      · exact List.mem_cons_of_mem _ (hi.storedHeld i h)
    · intro i h
      rcases List.mem_cons.1 h with h | h
      · subst h
        exact ⟨fun h => absurd (hf _ (Or.inr (Or.inl h))) (by omega), fun h => absurd (hf _ (Or.inr (Or.inr h))) (by omega)⟩
      · exact hi.gone i h
    · intro i h
      rcases List.mem_cons.1 h with h | h
      · exact Or.inl (h ▸ List.mem_cons_self)
      · rcases hi.heldKnown i h with h | h
        · exact Or.inl (List.mem_cons_of_mem _ h)
        · exact Or.inr h

theorem kept_drop {s s' : Sys} {i : Nat} (hi : Kept s) (h : s.step (.drop i) = some s') : Kept s' := by
  simp only [Sys.step] at h
  split at h
  · cases h
  · rename_i hc
    simp only [not_or, not_not, Classical.not_not] at hc
    cases h
    have hmem : ∀ j, j ∈ s.held.erase i ↔ j ≠ i ∧ j ∈ s.held := fun j => hi.heldNodup.mem_erase_iff
    refine { hi with heldNodup := hi.heldNodup.erase i, fresh := ?_, sentHeld := ?_, storedHeld := ?_, gone := ?_, heldKnown := ?_, sentOk := ?_ }
    · intro j h
      simp only [hmem, List.mem_append, List.mem_singleton] at h
      rcases h with h | (h | h) | h
      · exact hi.fresh j (Or.inl h.2)
      · exact hi.fresh j (Or.inr (Or.inl h))
      · exact hi.fresh j (Or.inl (h ▸ hc.2))
      · exact hi.fresh j (Or.inr (Or.inr h))
    · intro e he
      simp only [List.mem_filter, ne_eq, decide_not, Bool.not_eq_eq_eq_not, Bool.not_true, decide_eq_false_iff_not] at he
      exact ⟨(hmem _).2 ⟨he.2, (hi.sentHeld e he.1).1⟩, (hi.sentHeld e he.1).2⟩
    · intro j hj
      simp only [List.mem_filter, ne_eq, decide_not, Bool.not_eq_eq_eq_not, Bool.not_true, decide_eq_false_iff_not] at hj
      exact (hmem _).2 ⟨hj.2, hi.storedHeld j hj.1⟩
    · intro j hj
      have hj := (hmem j).1 hj
      have := hi.gone j hj.2
      simp only [List.mem_append, List.mem_singleton, not_or]
      exact ⟨⟨this.1, hj.1⟩, this.2⟩
    · intro j hj
      have hj := (hmem j).1 hj
      rcases hi.heldKnown j hj.2 with h | h
      · exact Or.inl (List.mem_filter.2 ⟨h, by simpa using hj.1⟩)
      · exact Or.inr h
    · intro j w hj
      exact hi.sentOk j w (List.mem_filter.1 hj).1

theorem kept_report {s s' : Sys} (hi : Kept s) (h : s.step .report = some s') : Kept s' := by
  simp only [Sys.step] at h
  split at h
  · cases h
  · cases h
    exact { hi with }

theorem kept_get {s s' : Sys} {ids : List Nat} (hi : Kept s) (h : s.step (.get ids) = some s') : Kept s' := by
  simp only [Sys.step] at h
  split at h
  · cases h
  · cases h
    generalize hl : (ids.filter (fun i => i ∉ s.stored)).map (fun i => ((0, (s.owner i).getD 0, Msg.ask i 0) : Nat × Nat × Msg)) = L
    have hL : ∀ x ∈ L, ∃ i, x.2.2 = .ask i 0 := by
      intro x hx
      rw [← hl] at hx
      obtain ⟨i, -, rfl⟩ := List.mem_map.1 hx
      exact ⟨i, rfl⟩
    have hno : ∀ x w m, (x, w, m) ∈ s.net ++ L → (∃ i, m = .ask i 0) ∨ (x, w, m) ∈ s.net := by
      intro x w m hx
      rcases List.mem_append.1 hx with h | h
      · exact Or.inr h
      · exact Or.inl (hL _ h)
    have htask : ∀ x w t, (x, w, Msg.task t) ∈ s.net ++ L → (x, w, Msg.task t) ∈ s.net := by
      intro x w t hx
      rcases hno _ _ _ hx with ⟨i, e⟩ | h
      · cases e
      · exact h
    have hunf : ∀ w t, UnfM { s with waiting := ids.filter (fun i => i ∉ s.stored), net := s.net ++ L } w t ↔ UnfM s w t := by
      intro w t
      constructor
      · rintro (h | h)
        · exact Or.inl (htask _ _ _ h)
        · exact Or.inr h
      · rintro (h | h)
        · exact Or.inl (List.mem_append_left _ h)
        · exact Or.inr h
    refine { hi with taskMsg := ?_, cleanMsg := ?_, ownerMsg := ?_, taskOk := ?_, home := ?_, served := ?_, sentOk := ?_ }
    · intro x w t hx; exact hi.taskMsg x w t (htask x w t hx)
    · intro x w l hx
      rcases hno _ _ _ hx with ⟨i, e⟩ | h
      · cases e
      · exact hi.cleanMsg x w l h
    · intro x w i o hx
      rcases hno _ _ _ hx with ⟨j, e⟩ | h
      · cases e
      · exact hi.ownerMsg x w i o h
    · intro w t hu; exact hi.taskOk w t ((hunf w t).1 hu)
    · intro i o ho hc
      rcases hi.home i o ho hc with h | ⟨t, ht, hx⟩
      · exact Or.inl h
      · exact Or.inr ⟨t, (hunf o t).2 ht, hx⟩
    · intro w
      show Served _ (chan 0 w (s.net ++ L))
      rw [chan_append]
      refine (hi.served w).append (served_quiet ?_)
      intro t ht
      obtain ⟨i, e⟩ := hL _ (mem_chan.1 ht)
      cases e
    · intro i w hx
      rcases hi.sentOk i w hx with h | h
      · exact Or.inl h
      · exact Or.inr (List.mem_append_left _ h)

theorem kept_cleanup {s s' : Sys} (hi : Kept s) (hg : ∀ w t, UnfM s w t → ∀ i ∈ t.args, i ∉ s.queue) (h : s.step .cleanup = some s') : Kept s' := by
  simp only [Sys.step] at h
  split at h
  · cases h
  · rename_i hc
    simp only [ne_eq, not_or, Classical.not_not] at hc
    cases h
    generalize hl : s.ws.map (fun w => ((0, w, Msg.clean s.queue) : Nat × Nat × Msg)) = L
    have hL : ∀ x ∈ L, x.1 = 0 ∧ x.2.2 = .clean s.queue := by
      intro x hx
      rw [← hl] at hx
      obtain ⟨w, -, rfl⟩ := List.mem_map.1 hx
      exact ⟨rfl, rfl⟩
    have htask : ∀ x w t, (x, w, Msg.task t) ∈ s.net ++ L → (x, w, Msg.task t) ∈ s.net := by
      intro x w t hx
      rcases List.mem_append.1 hx with h | h
      · exact h
      · have := (hL _ h).2; cases this
    have hunf : ∀ w t, UnfM { s with queue := [], cleaned := s.cleaned ++ s.queue, net := s.net ++ L } w t → UnfM s w t := by
      rintro w t (h | h)
      · exact Or.inl (htask _ _ _ h)
      · exact Or.inr h
    refine { hi with fresh := ?_, gone := ?_, taskMsg := ?_, cleanMsg := ?_, ownerMsg := ?_, taskOk := ?_, home := ?_, served := ?_, sentOk := ?_ }
    · intro i h
      simp only [List.not_mem_nil, false_or, List.mem_append] at h
      exact hi.fresh i (by tauto)
    · intro i h
      have := hi.gone i h
      simp only [List.not_mem_nil, not_false_eq_true, true_and, List.mem_append, not_or]
      exact ⟨this.2, this.1⟩
    · intro x w t hx; exact hi.taskMsg x w t (htask x w t hx)
    · intro x w l hx
      rcases List.mem_append.1 hx with h | h
      · have := hi.cleanMsg x w l h
        exact ⟨this.1, fun i hi => List.mem_append_left _ (this.2 i hi)⟩
      · have := hL _ h
        refine ⟨this.1, fun i hi => List.mem_append_right _ ?_⟩
        have e := this.2
        cases e
        exact hi
    · intro x w i o hx
      rcases List.mem_append.1 hx with h | h
      · exact hi.ownerMsg x w i o h
      · have := (hL _ h).2; cases this
    · intro w t hu
      have hu := hunf w t hu
      have := hi.taskOk w t hu
      refine ⟨fun i hx => ?_, this.2⟩
      simp only [List.mem_append, not_or]
      exact ⟨this.1 i hx, hg w t hu i hx⟩
    · intro i o ho hcl
      simp only [List.mem_append, not_or] at hcl
      rcases hi.home i o ho hcl.1 with h | ⟨t, ht, hx⟩
      · exact Or.inl h
      · refine Or.inr ⟨t, ?_, hx⟩
        rcases ht with h | h
        · exact Or.inl (List.mem_append_left _ h)
        · exact Or.inr h
    · intro w
      show Served _ (chan 0 w (s.net ++ L))
      rw [chan_append]
      refine (hi.served w).append (served_quiet ?_)
      intro t ht
      have := (hL _ (mem_chan.1 ht)).2
      cases this
    · intro i w hx
      rcases hi.sentOk i w hx with h | h
      · exact Or.inl h
      · exact Or.inr (List.mem_append_left _ h)

theorem kept_submit {s s' : Sys} {args : List Nat} {n d : Nat} {b : Bool} (hi : Kept s) (h : s.step (.submit args n d b) = some s') : Kept s' := by
  simp only [Sys.step] at h
  split at h
  · cases h
  · rename_i hc
    simp only [ne_eq, not_or, Classical.not_not, List.any_eq_true, decide_eq_true_eq, not_exists, not_and] at hc
    obtain ⟨-, hd, hargs⟩ := hc
    simp only [Option.some.injEq] at h
    generalize houts : List.range' s.next n = outs at h
    have ho : ∀ i, i ∈ outs ↔ s.next ≤ i ∧ i < s.next + n := by intro i; rw [← houts, List.mem_range'_1]
    obtain ⟨L, sn, e, p1, p2, p3, p4⟩ := pushes_spec d args { s with next := s.next + n, held := outs ++ s.held, owner := fun i => if i ∈ outs then some d else s.owner i }
    rw [e] at h
    simp only at h p1 p2 p3 p4
    have hold : ∀ i, i < s.next → i ∉ outs := fun i hi h => by have := (ho i).1 h; omega
    have hargsN : ∀ i ∈ args, i < s.next := fun i h => hi.fresh i (Or.inl (hargs i h))
    have hown : ∀ i o, s.owner i = some o → (if i ∈ outs then some d else s.owner i) = some o := by
      intro i o h
      rw [if_neg (hold i (hi.ownerFresh i o h).1)]; exact h
    subst h
    have hL : ∀ x ∈ L, ∀ t, x.2.2 ≠ .task t := by
      intro x hx t ht
      rcases (p1 x hx).2.2 with ⟨i, -, -, k, -⟩ | ⟨i, -, o, -, -, k⟩ <;> rw [k] at ht <;> cases ht
    have hcl : ∀ x ∈ L, ∀ ids, x.2.2 ≠ .clean ids := by
      intro x hx t ht
      rcases (p1 x hx).2.2 with ⟨i, -, -, k, -⟩ | ⟨i, -, o, -, -, k⟩ <;> rw [k] at ht <;> cases ht
    have htask : ∀ x w t, (x, w, Msg.task t) ∈ s.net ++ L ++ [(0, d, .task ⟨args, outs, b⟩)] → (x, w, Msg.task t) ∈ s.net ∨ (x = 0 ∧ w = d ∧ t = ⟨args, outs, b⟩) := by
      intro x w t hx
      rcases List.mem_append.1 hx with h | h
      · rcases List.mem_append.1 h with h | h
        · exact Or.inl h
        · exact absurd rfl (hL _ h t)
      · have := List.mem_singleton.1 h
        cases this
        exact Or.inr ⟨rfl, rfl, rfl⟩
    refine { zero := hi.zero, nodup := hi.nodup, heldNodup := ?_, fresh := ?_, ownerFresh := ?_, sentHeld := ?_, storedHeld := ?_, gone := ?_, heldKnown := ?_, idle := hi.idle, pendWs := hi.pendWs, taskMsg := ?_, cleanMsg := ?_, ownerMsg := ?_, ownersTrue := ?_, taskOk := ?_, home := ?_, served := ?_, known := hi.known, sentOk := ?_ }
    · show (outs ++ s.held).Nodup
      rw [List.nodup_append]
      refine ⟨houts ▸ List.nodup_range', hi.heldNodup, ?_⟩
      intro a ha b hb hab
      subst hab
      have := hi.fresh a (Or.inl hb)
      exact hold a this ha
    · intro i h
      show i < s.next + n
      rcases h with h | h
      · rcases List.mem_append.1 h with h | h
        · exact ((ho i).1 h).2
        · have := hi.fresh i (Or.inl h); omega
      · have := hi.fresh i (Or.inr h); omega
    · intro i o h
      show i < s.next + n ∧ o ∈ s.ws
      by_cases hx : i ∈ outs
      · have h : (if i ∈ outs then some d else s.owner i) = some o := h
        rw [if_pos hx] at h
        cases h
        exact ⟨((ho i).1 hx).2, hd⟩
      · have h : (if i ∈ outs then some d else s.owner i) = some o := h
        rw [if_neg hx] at h
        have := hi.ownerFresh i o h
        exact ⟨by omega, this.2⟩
    · intro x hx
      rcases p3 x hx with h | ⟨h2, h, -, -⟩
      · exact ⟨List.mem_append_right _ (hi.sentHeld x h).1, (hi.sentHeld x h).2⟩
      · exact ⟨List.mem_append_right _ (hargs _ h), h2 ▸ hd⟩
    · intro i h; exact List.mem_append_right _ (hi.storedHeld i h)
    · intro i h
      rcases List.mem_append.1 h with h | h
      · have h := (ho i).1 h
        exact ⟨fun g => by have := hi.fresh i (Or.inr (Or.inl g)); omega, fun g => by have := hi.fresh i (Or.inr (Or.inr g)); omega⟩
      · exact hi.gone i h
    · intro i h
      show i ∈ s.stored ∨ (if i ∈ outs then some d else s.owner i) ≠ none
      by_cases hx : i ∈ outs
      · rw [if_pos hx]; exact Or.inr (by simp)
      · rw [if_neg hx]
        rcases List.mem_append.1 h with h | h
        · exact absurd h hx
        · exact hi.heldKnown i h
    · intro x w t hx
      rcases htask x w t hx with h | ⟨rfl, rfl, rfl⟩
      · exact hi.taskMsg x w t h
      · exact ⟨rfl, hd⟩
    · intro x w l hx
      rcases List.mem_append.1 hx with h | h
      · rcases List.mem_append.1 h with h | h
        · exact hi.cleanMsg x w l h
        · exact absurd rfl (hcl _ h l)
      · have := List.mem_singleton.1 h
        cases this
    · intro x w i o hx
      rcases List.mem_append.1 hx with h | h
      · rcases List.mem_append.1 h with h | h
        · have := hi.ownerMsg x w i o h
          exact ⟨this.1, hown i o this.2⟩
        · obtain ⟨k1, -, k3⟩ := p1 _ h
          refine ⟨k1, ?_⟩
          rcases k3 with ⟨j, -, -, k, -⟩ | ⟨j, -, o', -, ko, k⟩
          · cases k
          · cases k; exact ko
      · have := List.mem_singleton.1 h
        cases this
    · intro w x hx
      exact hown _ _ (hi.ownersTrue w x hx)
    · intro w t hu
      have hcase : UnfM s w t ∨ (w = d ∧ t = ⟨args, outs, b⟩) := by
        rcases hu with h | h
        · rcases htask _ _ _ h with h | ⟨-, h⟩
          · exact Or.inl (Or.inl h)
          · exact Or.inr h
        · exact Or.inl (Or.inr h)
      rcases hcase with h | ⟨rfl, rfl⟩
      · have := hi.taskOk w t h
        exact ⟨this.1, fun i hx => hown i w (this.2 i hx)⟩
      · refine ⟨fun i hx => (hi.gone i (hargs i hx)).2, fun i hx => ?_⟩
        · show (if i ∈ outs then some w else s.owner i) = some w
          rw [if_pos hx]
    · intro i o h hcl
      have h : (if i ∈ outs then some d else s.owner i) = some o := h
      by_cases hx : i ∈ outs
      · rw [if_pos hx] at h
        cases h
        exact Or.inr ⟨⟨args, outs, b⟩, Or.inl (List.mem_append_right _ (List.mem_singleton.2 rfl)), hx⟩
      · rw [if_neg hx] at h
        rcases hi.home i o h hcl with g | ⟨t, ht, g⟩
        · exact Or.inl g
        · refine Or.inr ⟨t, ?_, g⟩
          rcases ht with ht | ht
          · exact Or.inl (List.mem_append_left _ (List.mem_append_left _ ht))
          · exact Or.inr ht
    · intro w
      show Served (Kn (s.worker w)) (chan 0 w (s.net ++ L ++ [(0, d, .task ⟨args, outs, b⟩)]))
      rw [chan_append, chan_append]
      have hq : ∀ t, Msg.task t ∉ chan 0 w L := fun t ht => hL _ (mem_chan.1 ht) t rfl
      refine ((hi.served w).append (served_quiet hq)).append ?_
      by_cases hw : w = d
      · subst hw
        simp only [chan, List.filterMap_cons, List.filterMap_nil, and_self, if_true]
        refine ⟨?_, trivial⟩
        intro i hx
        by_cases hs : i ∈ s.stored
        · rcases p3 _ ((p4 i hx).1 hs) with h | ⟨-, -, -, h⟩
          · rcases hi.sentOk i w h with h | h
            · exact Or.inl ⟨h.1, Or.inl h.2⟩
            · exact Or.inr (Or.inl (List.mem_append_left _ (mem_chan.2 h)))
          · exact Or.inr (Or.inl (List.mem_append_right _ (mem_chan.2 h)))
        · rcases hi.heldKnown i (hargs i hx) with h | h
          · exact absurd h hs
          · obtain ⟨o, ho'⟩ := Option.ne_none_iff_exists'.1 h
            exact Or.inr (Or.inr ⟨o, List.mem_append_right _ (mem_chan.2 ((p4 i hx).2 hs o (hown i o ho')))⟩)
      · have : chan 0 w [((0, d, .task ⟨args, outs, b⟩) : Nat × Nat × Msg)] = [] := by
          apply chan_none
          intro x hx
          rw [List.mem_singleton.1 hx]
          exact fun g => hw g.2.symm
        rw [this]; trivial
    · intro i w hx
      rcases p3 _ hx with h | ⟨h1, -, -, h⟩
      · rcases hi.sentOk i w h with h | h
        · exact Or.inl h
        · exact Or.inr (List.mem_append_left _ (List.mem_append_left _ h))
      · simp only at h1 h
        subst h1
        exact Or.inr (List.mem_append_left _ (List.mem_append_right _ h))

theorem kept_deliver_root {s s' : Sys} {src : Nat} (hi : Kept s) (h : s.step (.deliver src 0) = some s') : Kept s' := by
  simp only [Sys.step] at h
  split at h
  · cases h
  · rename_i m rest hm
    simp only [if_true] at h
    split at h
    · rename_i i
      cases h
      obtain ⟨hmem, hsub, hcase⟩ := takeMsg_mem hm
      have hchan : ∀ w, w ≠ 0 → chan 0 w rest = chan 0 w s.net := fun w hw => takeMsg_other hm (fun g => hw g.2.symm)
      have htask : ∀ w t, (0, w, Msg.task t) ∈ s.net → (0, w, Msg.task t) ∈ rest := by
        intro w t h
        rcases hcase _ h with h | h
        · cases h
        · exact h
      refine { hi with storedHeld := ?_, heldKnown := ?_, taskMsg := fun x w t h => hi.taskMsg x w t (hsub _ h), cleanMsg := fun x w t h => hi.cleanMsg x w t (hsub _ h), ownerMsg := fun x w t o h => hi.ownerMsg x w t o (hsub _ h), taskOk := ?_, home := ?_, served := ?_, sentOk := ?_ }
      · intro j hj
        have hj : j ∈ (if i ∈ s.held then i :: s.stored else s.stored) := hj
        split at hj
        · rename_i hx
          rcases List.mem_cons.1 hj with h | h
          · exact h ▸ hx
          · exact hi.storedHeld j h
        · exact hi.storedHeld j hj
      · intro j hj
        show j ∈ (if i ∈ s.held then i :: s.stored else s.stored) ∨ _
        rcases hi.heldKnown j hj with h | h
        · left; split
          · exact List.mem_cons_of_mem _ h
          · exact h
        · exact Or.inr h
      · intro w t hu
        refine hi.taskOk w t ?_
        rcases hu with h | h
        · exact Or.inl (hsub _ h)
        · exact Or.inr h
      · intro j o ho hc
        rcases hi.home j o ho hc with h | ⟨t, ht, hx⟩
        · exact Or.inl h
        · refine Or.inr ⟨t, ?_, hx⟩
          rcases ht with h | h
          · exact Or.inl (htask o t h)
          · exact Or.inr h
      · intro w
        show Served _ (chan 0 w rest)
        by_cases hw : w = 0
        · subst hw
          refine served_quiet fun t ht => ?_
          have := hi.taskMsg _ _ _ (hsub _ (mem_chan.1 ht))
          exact hi.zero this.2
        · rw [hchan w hw]; exact hi.served w
      · intro j w hj
        rcases hi.sentOk j w hj with h | h
        · exact Or.inl h
        · have hw : w ≠ 0 := fun g => hi.zero (g ▸ (hi.sentHeld _ hj).2)
          rcases hcase _ h with e | e
          · cases e; exact absurd rfl hw
          · exact Or.inr e
    · cases h

theorem kept_recv {s : Sys} {src d : Nat} {m : Msg} {rest : List (Nat × Nat × Msg)} (hi : Kept s)
    (hm : takeMsg src d s.net = some (m, rest)) : RecvM (s.worker d) ((s.worker d).receive d m) m (todoM (s.worker d) m) := by
  obtain ⟨hmem, -, -⟩ := takeMsg_mem hm
  refine receive_recvM d (s.worker d) m ?_
  · intro t ht i hx
    have hp : t ∈ pend (s.worker d) → i ∈ (s.worker d).data ∨ (s.worker d).owners.lookup i ≠ none :=
      fun h => (hi.known d t h i hx).2
    cases m with
    | task u =>
      rcases List.mem_cons.1 ht with h | h
      · subst h
        have h0 := (hi.taskMsg _ _ _ hmem).1
        subst h0
        have := hi.served d
        rw [takeMsg_chan hm] at this
        exact (this.1 i hx).2
      · exact hp h
    | data _ => exact hp ht
    | owner _ _ => exact hp ht
    | ask _ _ => exact hp ht
    | clean _ => exact hp ht

set_option maxHeartbeats 1600000 in
theorem kept_deliver {s s' : Sys} {src d : Nat} (hd : d ≠ 0) (hi : Kept s) (h : s.step (.deliver src d) = some s') : Kept s' := by
  obtain ⟨m, rest, hm, rfl⟩ := deliver_cases hd h
  clear h
  obtain ⟨hmem, hsub, hcase⟩ := takeMsg_mem hm
  have r := kept_recv hi hm
  have q := receive_quiet d (s.worker d) m
  generalize hp : (s.worker d).receive d m = p at r q
  have hout : ∀ x ∈ p.outbox.map (fun y => ((d, y.1, y.2) : Nat × Nat × Msg)), x.1 = d ∧ ((∃ i, x.2.2 = .data i) ∨ ∃ i j, x.2.2 = .ask i j) := by
    intro x hx
    obtain ⟨y, hy, rfl⟩ := List.mem_map.1 hx
    refine ⟨rfl, ?_⟩
    rcases q y hy with h | h
    · rw [(hi.idle d).2.1] at h; cases h
    · exact h
  have hmsg : ∀ x ∈ rest ++ p.outbox.map (fun y => ((d, y.1, y.2) : Nat × Nat × Msg)), x ∈ s.net ∨ (x.1 = d ∧ ((∃ i, x.2.2 = .data i) ∨ ∃ i j, x.2.2 = .ask i j)) := by
    intro x hx
    rcases List.mem_append.1 hx with h | h
    · exact Or.inl (hsub x h)
    · exact Or.inr (hout x h)
  have hchan : ∀ w, chan 0 w (rest ++ p.outbox.map (fun y => ((d, y.1, y.2) : Nat × Nat × Msg))) = chan 0 w rest := by
    intro w
    rw [chan_append, chan_none (l := p.outbox.map _), List.append_nil]
    intro x hx g
    exact hd ((hout x hx).1.symm.trans g.1)
  have hW : ∀ w, (({ s with net := rest }.setWorker d p).worker w) = if w = d then { p.sweep with outbox := [], done := 0 } else s.worker w := fun w => rfl
  have hN : ({ s with net := rest }.setWorker d p).net = rest ++ p.outbox.map (fun y => ((d, y.1, y.2) : Nat × Nat × Msg)) := rfl
  -- what a worker keeps
  have kS : ∀ w i, i ∉ s.cleaned → i ∈ (s.worker w).strong → i ∈ (({ s with net := rest }.setWorker d p).worker w).strong := by
    intro w i hc hx
    rw [hW]
    split
    · rename_i hw
      subst hw
      refine r.strong i hx ?_
      rintro ids rfl hin
      exact hc ((hi.cleanMsg _ _ _ hmem).2 i hin)
    · exact hx
  have kD : ∀ w i, i ∉ s.cleaned → i ∈ (s.worker w).strong → i ∈ (s.worker w).data → i ∈ (({ s with net := rest }.setWorker d p).worker w).data := by
    intro w i hc hx hy
    have := kS w i hc hx
    rw [hW] at this ⊢
    split at this
    · rename_i hw
      subst hw
      rw [if_pos rfl]
      exact sweep_data p i this (r.data i hy)
    · rename_i hw
      rw [if_neg hw]; exact hy
  have kO : ∀ w i, i ∉ s.cleaned → i ∈ (s.worker w).strong → (s.worker w).owners.lookup i ≠ none → (({ s with net := rest }.setWorker d p).worker w).owners.lookup i ≠ none := by
    intro w i hc hx hy
    have := kS w i hc hx
    rw [hW] at this ⊢
    split at this
    · rename_i hw
      subst hw
      rw [if_pos rfl]
      show p.sweep.owners.lookup i ≠ none
      rw [sweep_owners p i this]; exact r.owners i hy
    · rename_i hw
      rw [if_neg hw]; exact hy
  have kK : ∀ w i, i ∉ s.cleaned → Kn (s.worker w) i → Kn (({ s with net := rest }.setWorker d p).worker w) i := by
    intro w i hc hx
    refine ⟨kS w i hc hx.1, ?_⟩
    rcases hx.2 with h | h
    · exact Or.inl (kD w i hc hx.1 h)
    · exact Or.inr (kO w i hc hx.1 h)
  have hTasks : ∀ w, pend (({ s with net := rest }.setWorker d p).worker w) = if w = d then pend p else pend (s.worker w) := by
    intro w; rw [hW]; split <;> rfl
  have htodo : ∀ t ∈ todoM (s.worker d) m, UnfM s d t := by
    intro t ht
    cases m with
    | task u =>
      rcases List.mem_cons.1 ht with h | h
      · subst h
        have h0 := (hi.taskMsg _ _ _ hmem).1
        subst h0
        exact Or.inl hmem
      · exact Or.inr h
    | data _ => exact Or.inr ht
    | owner _ _ => exact Or.inr ht
    | ask _ _ => exact Or.inr ht
    | clean _ => exact Or.inr ht
  have hunf : ∀ w t', UnfM ({ s with net := rest }.setWorker d p) w t' → ∃ t, UnfM s w t ∧ t'.outs = t.outs ∧ ∀ i ∈ t'.args, i ∈ t.args := by
    intro w t' hu
    rcases hu with h | h
    · rw [hN] at h
      rcases hmsg _ h with h | ⟨-, ⟨i, e⟩ | ⟨i, j, e⟩⟩
      · exact ⟨t', Or.inl h, rfl, fun _ h => h⟩
      · cases e
      · cases e
    · rw [hTasks] at h
      split at h
      · rename_i hw
        subst hw
        obtain ⟨t, ht, e1, -, e3⟩ := r.left t' h
        exact ⟨t, htodo t ht, e1, e3⟩
      · exact ⟨t', Or.inr h, rfl, fun _ h => h⟩
  have hcln : ∀ w t, Msg.task t ∈ chan 0 w s.net → ∀ i ∈ t.args, i ∉ s.cleaned :=
    fun w t ht => (hi.taskOk w t (Or.inl (mem_chan.1 ht))).1
  refine { zero := hi.zero, nodup := hi.nodup, heldNodup := hi.heldNodup, fresh := hi.fresh, ownerFresh := hi.ownerFresh, sentHeld := hi.sentHeld, storedHeld := hi.storedHeld, gone := hi.gone, heldKnown := hi.heldKnown, idle := ?_, pendWs := ?_, taskMsg := ?_, cleanMsg := ?_, ownerMsg := ?_, ownersTrue := ?_, taskOk := ?_, home := ?_, served := ?_, known := ?_, sentOk := ?_ }
  · intro w
    rw [hW]
    split
    · exact ⟨r.crashed.trans (hi.idle d).1, rfl, rfl⟩
    · exact hi.idle w
  · intro w t ht
    rw [hTasks] at ht
    split at ht
    · rename_i hw
      subst hw
      obtain ⟨u, hu, -⟩ := r.left t ht
      rcases htodo u hu with h | h
      · exact (hi.taskMsg _ _ _ h).2
      · exact hi.pendWs w u h
    · exact hi.pendWs w t ht
  · intro x w t hx
    rw [hN] at hx
    rcases hmsg _ hx with h | ⟨-, ⟨i, e⟩ | ⟨i, j, e⟩⟩
    · exact hi.taskMsg x w t h
    · cases e
    · cases e
  · intro x w l hx
    rw [hN] at hx
    rcases hmsg _ hx with h | ⟨-, ⟨i, e⟩ | ⟨i, j, e⟩⟩
    · exact hi.cleanMsg x w l h
    · cases e
    · cases e
  · intro x w i o hx
    rw [hN] at hx
    rcases hmsg _ hx with h | ⟨-, ⟨i, e⟩ | ⟨i, j, e⟩⟩
    · exact hi.ownerMsg x w i o h
    · cases e
    · cases e
  · intro w e he
    rw [hW] at he
    split at he
    · have he : e ∈ p.owners := (List.mem_filter.1 he).1
      rcases r.newOwners e he with h | h
      · exact hi.ownersTrue d e h
      · subst h
        exact (hi.ownerMsg _ _ _ _ hmem).2
    · exact hi.ownersTrue w e he
  · intro w t' hu
    obtain ⟨t, ht, e1, e2⟩ := hunf w t' hu
    have := hi.taskOk w t ht
    exact ⟨fun i hx => this.1 i (e2 i hx), fun i hx => this.2 i (e1 ▸ hx)⟩
  · intro i o ho hc
    rcases hi.home i o ho hc with ⟨h1, h2⟩ | ⟨t, ht, hx⟩
    · exact Or.inl ⟨kS o i hc h1, kD o i hc h1 h2⟩
    · have fin : t ∈ todoM (s.worker d) m → o = d → (i ∈ (({ s with net := rest }.setWorker d p).worker o).strong ∧ i ∈ (({ s with net := rest }.setWorker d p).worker o).data) ∨
          ∃ t, UnfM ({ s with net := rest }.setWorker d p) o t ∧ i ∈ t.outs := by
        intro hto hod
        subst hod
        rcases r.ran t hto with g | ⟨t', ht', e⟩
        · left
          rw [hW, if_pos rfl]
          exact ⟨(g i hx).2, sweep_data p i (g i hx).2 (g i hx).1⟩
        · right
          exact ⟨t', Or.inr (by rw [hTasks, if_pos rfl]; exact ht'), e ▸ hx⟩
      rcases ht with h | h
      · rcases hcase _ h with e | e
        · cases e
          exact fin List.mem_cons_self rfl
        · exact Or.inr ⟨t, Or.inl (by rw [hN]; exact List.mem_append_left _ e), hx⟩
      · by_cases hod : o = d
        · subst hod
          refine fin ?_ rfl
          cases m with
          | task u => exact List.mem_cons_of_mem _ h
          | data _ => exact h
          | owner _ _ => exact h
          | ask _ _ => exact h
          | clean _ => exact h
        · exact Or.inr ⟨t, Or.inr (by rw [hTasks, if_neg hod]; exact h), hx⟩
  · intro w
    rw [hN, hchan]
    by_cases hw : src = 0 ∧ d = w
    · obtain ⟨rfl, rfl⟩ := hw
      have hs := hi.served d
      have hcl := hcln d
      rw [takeMsg_chan hm] at hs hcl
      have hP : ∀ t, Msg.task t ∈ chan 0 d rest → ∀ i ∈ t.args, i ∉ s.cleaned := fun t ht => hcl t (List.mem_cons_of_mem _ ht)
      have hself : ({ s with net := rest }.setWorker d p).worker d = { p.sweep with outbox := [], done := 0 } := by rw [hW, if_pos rfl]
      cases m with
      | task u => exact hs.2.mono (fun i => i ∉ s.cleaned) (kK d) hP
      | data i =>
        refine Served.mono (kn := fun j => j = i ∨ Kn (s.worker d) j) (fun i => i ∉ s.cleaned) hs ?_ hP
        rintro j hj (rfl | h)
        · have g := r.got j rfl
          rw [hself]
          exact ⟨g.2, Or.inl (sweep_data p j g.2 g.1)⟩
        · exact kK d j hj h
      | owner i o =>
        refine Served.mono (kn := fun j => j = i ∨ Kn (s.worker d) j) (fun i => i ∉ s.cleaned) hs ?_ hP
        rintro j hj (rfl | h)
        · have g := r.told j o rfl
          rw [hself]
          exact ⟨g.2, Or.inr (by show p.sweep.owners.lookup j ≠ none; rw [sweep_owners p j g.2]; exact g.1)⟩
        · exact kK d j hj h
      | ask _ _ => exact Served.mono (kn := Kn (s.worker d)) (fun i => i ∉ s.cleaned) hs (kK d) hP
      | clean _ => exact Served.mono (kn := Kn (s.worker d)) (fun i => i ∉ s.cleaned) hs (kK d) hP
    · have e := takeMsg_other (s' := 0) (d' := w) hm hw
      rw [e]
      exact (hi.served w).mono (fun i => i ∉ s.cleaned) (kK w) (hcln w)
  · intro w t' ht' i hx
    rw [hTasks] at ht'
    split at ht'
    · rename_i hw
      subst hw
      obtain ⟨t, ht, -, -, e⟩ := r.left t' ht'
      have hu := htodo t ht
      have hk : Kn (s.worker w) i := by
        cases m with
        | task u =>
          rcases List.mem_cons.1 ht with h | h
          · subst h
            have h0 := (hi.taskMsg _ _ _ hmem).1
            subst h0
            have := hi.served w
            rw [takeMsg_chan hm] at this
            exact this.1 i (e i hx)
          · exact hi.known w t h i (e i hx)
        | data _ => exact hi.known w t ht i (e i hx)
        | owner _ _ => exact hi.known w t ht i (e i hx)
        | ask _ _ => exact hi.known w t ht i (e i hx)
        | clean _ => exact hi.known w t ht i (e i hx)
      exact kK w i ((hi.taskOk w t hu).1 i (e i hx)) hk
    · exact kK w i ((hi.taskOk w t' (Or.inr ht')).1 i hx) (hi.known w t' ht' i hx)
  · intro i w hx
    have hc := (hi.gone i (hi.sentHeld _ hx).1).2
    rcases hi.sentOk i w hx with ⟨h1, h2⟩ | h
    · exact Or.inl ⟨kS w i hc h1, kD w i hc h1 h2⟩
    · rcases hcase _ h with e | e
      · cases e
        left
        have g := r.got i rfl
        rw [hW, if_pos rfl]
        exact ⟨g.2, sweep_data p i g.2 g.1⟩
      · exact Or.inr (by rw [hN]; exact List.mem_append_left _ e)

theorem kept_step {s s' : Sys} {op : Op} (hi : Kept s) (hg : op = .cleanup → s.step .cleanup ≠ none → ∀ w t, Unfinished s w t → ∀ i ∈ t.args, i ∉ s.queue) (h : s.step op = some s') : Kept s' := by
  cases op with
  | put => exact kept_put hi h
  | drop i => exact kept_drop hi h
  | submit args n d m => exact kept_submit hi h
  | get ids => exact kept_get hi h
  | deliver src d =>
    by_cases hd : d = 0
    · subst hd; exact kept_deliver_root hi h
    · exact kept_deliver hd hi h
  | report => exact kept_report hi h
  | cleanup => exact kept_cleanup hi (fun w t ht => hg rfl (by rw [h]; simp) w t ((unfinished_iff s w t).2 ht)) h

theorem kept_run (ops : List Op) {s s' : Sys} (hi : Kept s) (ho : KeepsArguments s ops) (h : s.run ops = some s') : Kept s' := by
  induction ops generalizing s with
  | nil => cases h; exact hi
  | cons op ops ih =>
    simp only [Sys.run, Option.bind_eq_some_iff] at h
    obtain ⟨s1, h1, h2⟩ := h
    exact ih (kept_step hi ho.1 h1) (ho.2 s1 h1) h2

/-- Programs without actors need not keep anything: a cleanup waits for all their calls. -/
theorem keeps_of_noMethods (ops : List Op) {s : Sys} (hi : Inv s) (ho : NoMethods ops) : KeepsArguments s ops := by
  induction ops generalizing s with
  | nil => trivial
  | cons op ops ih =>
    have hop : ∀ a n d, op ≠ .submit a n d true := by
      rintro a n d rfl
      exact ho a n d List.mem_cons_self
    refine ⟨?_, fun s' h => ih (inv_step hi hop h) (fun a n d hx => ho a n d (List.mem_cons_of_mem _ hx))⟩
    rintro rfl h w t hu
    obtain ⟨s', hs⟩ := Option.ne_none_iff_exists'.1 h
    simp only [Sys.step] at hs
    split at hs
    · cases hs
    · rename_i hc
      simp only [ne_eq, not_or, Classical.not_not] at hc
      exfalso
      refine no_unfinished hi hc.2 w t ?_
      rcases hu with h | h | h
      · exact Or.inl h
      · exact Or.inr h
      · rw [(hi.idle w).1] at h; cases h

end Verif.Lifetime
