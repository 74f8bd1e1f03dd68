import Verif.Lemmas.Lifetime
import Mathlib.Data.List.Nodup
import Mathlib.Tactic.Tauto

/-! Invariants of `Verif.Model.Lifetime` for programs without actors. -/
namespace Verif.Lifetime

/-! ### What a worker sends -/

/-- Only data and requests are added to the messages to be sent. -/
def Quiet (p p' : Proc) : Prop := ∀ x ∈ p'.outbox, x ∈ p.outbox ∨ (∃ i, x.2 = .data i) ∨ ∃ i j, x.2 = .ask i j

theorem Quiet.refl (p : Proc) : Quiet p p := fun _ h => Or.inl h

theorem Quiet.trans {p q r : Proc} (a : Quiet p q) (b : Quiet q r) : Quiet p r := by
  intro x hx
  rcases b x hx with h | h
  · exact a x h
  · exact Or.inr h

theorem foldl_quiet {α : Type} (f : Proc → α → Proc) (hf : ∀ p a, Quiet p (f p a)) (l : List α) (p : Proc) : Quiet p (l.foldl f p) := by
  induction l generalizing p with
  | nil => exact .refl p
  | cons a l ih => exact (hf p a).trans (ih (f p a))

theorem push_quiet (p : Proc) (i d : Nat) : Quiet p (p.push i d) := by
  unfold Proc.push
  split
  · exact .refl p
  · intro x hx
    rcases List.mem_append.1 hx with h | h
    · exact Or.inl h
    · rw [List.mem_singleton.1 h]; exact Or.inr (Or.inl ⟨i, rfl⟩)

theorem keep_quiet (p : Proc) (i : Nat) : Quiet p (p.keep i) := by
  unfold Proc.keep; split <;> exact fun x h => Or.inl h

theorem answer_quiet (p : Proc) (i : Nat) : Quiet p (p.answer i) := by
  refine fun x hx => ?_
  exact foldl_quiet (fun p (a : Nat × Nat) => p.push a.1 a.2) (fun p a => push_quiet p a.1 a.2) _ { p with asks := p.asks.filter (fun a => a.1 ≠ i) } x hx

theorem execute_quiet (p : Proc) (t : Task) : Quiet p (p.execute t) := by
  have a := foldl_quiet Proc.store (fun p i => keep_quiet { p with data := i :: p.data } i) t.outs p
  exact a.trans (foldl_quiet Proc.answer answer_quiet t.outs _)

theorem request_quiet (me : Nat) (p : Proc) (i : Nat) : Quiet p (p.request me i) := by
  unfold Proc.request
  split
  · exact .refl p
  · split
    · exact .refl p
    · intro x hx
      rcases List.mem_append.1 hx with h | h
      · exact Or.inl h
      · rw [List.mem_singleton.1 h]; exact Or.inr (Or.inr ⟨i, me, rfl⟩)

theorem attempt_quiet (me : Nat) (p : Proc) (t : Task) : Quiet p (p.attempt me t).1 := by
  unfold Proc.attempt
  simp only
  split
  · exact execute_quiet p t
  · split
    · exact .refl p
    · exact foldl_quiet (Proc.request me) (request_quiet me) _ p

theorem pass_quiet (me : Nat) (L : List Task) (p : Proc) : Quiet p (Proc.pass me L p).1 := by
  induction L generalizing p with
  | nil => exact .refl p
  | cons t L ih => exact (attempt_quiet me p t).trans (ih _)

theorem receive_quiet (me : Nat) (p : Proc) (m : Msg) : Quiet p (p.receive me m) := by
  cases m with
  | data i =>
    have a : Quiet p { p.store i with asked := p.asked.filter (fun j => j ≠ i) } := keep_quiet { p with data := i :: p.data } i
    exact (a.trans (pass_quiet me _ _)).trans (pass_quiet me _ (Proc.checkTasks me { p.store i with asked := p.asked.filter (fun j => j ≠ i) }))
  | owner i r => exact keep_quiet { p with owners := (i, r) :: p.owners.filter (fun e => e.1 ≠ i) } i
  | task t =>
    have a := attempt_quiet me p t
    simp only [Proc.receive]
    split
    · exact a
    · exact a
    · exact a.trans (pass_quiet me _ _)
    · exact a.trans (pass_quiet me _ _)
  | ask i src =>
    simp only [Proc.receive]
    split
    · exact push_quiet p i src
    · split
      · exact .refl p
      · exact .refl p
  | clean ids => exact .refl p

/-! ### Channels -/

/-- The messages of one process to another in order. -/
def chan (s d : Nat) (net : List (Nat × Nat × Msg)) : List Msg :=
  net.filterMap fun m => if m.1 = s ∧ m.2.1 = d then some m.2.2 else none

theorem mem_chan {s d : Nat} {net : List (Nat × Nat × Msg)} {m : Msg} : m ∈ chan s d net ↔ (s, d, m) ∈ net := by
  simp only [chan, List.mem_filterMap]
  constructor
  · rintro ⟨⟨a, b, c⟩, h, e⟩
    split at e
    · rename_i hx
      obtain ⟨rfl, rfl⟩ := hx
      cases e
      exact h
    · cases e
  · intro h
    exact ⟨(s, d, m), h, by simp⟩

theorem chan_append (s d : Nat) (a b : List (Nat × Nat × Msg)) : chan s d (a ++ b) = chan s d a ++ chan s d b := by
  simp [chan]

theorem chan_none {s d : Nat} {l : List (Nat × Nat × Msg)} (h : ∀ x ∈ l, ¬ (x.1 = s ∧ x.2.1 = d)) : chan s d l = [] := by
  simp only [chan, List.filterMap_eq_nil_iff]
  intro x hx
  simp [h x hx]

theorem takeMsg_spec {s d : Nat} {net rest : List (Nat × Nat × Msg)} {m : Msg} (h : takeMsg s d net = some (m, rest)) :
    ∃ pre post, net = pre ++ (s, d, m) :: post ∧ rest = pre ++ post ∧ ∀ x ∈ pre, ¬ (x.1 = s ∧ x.2.1 = d) := by
  induction net generalizing rest with
  | nil => simp [takeMsg] at h
  | cons x net ih =>
    simp only [takeMsg] at h
    split at h
    · rename_i hx
      obtain ⟨rfl, rfl⟩ := hx
      cases h
      exact ⟨[], _, rfl, rfl, by simp⟩
    · rename_i hx
      simp only [Option.map_eq_some_iff, Prod.mk.injEq] at h
      obtain ⟨⟨m', r⟩, hr, rfl, rfl⟩ := h
      obtain ⟨pre, post, e1, e2, e3⟩ := ih hr
      refine ⟨x :: pre, post, by rw [e1]; rfl, by rw [e2]; rfl, ?_⟩
      intro y hy
      rcases List.mem_cons.1 hy with h | h
      · rw [h]; exact hx
      · exact e3 y h

theorem takeMsg_chan {s d : Nat} {net rest : List (Nat × Nat × Msg)} {m : Msg} (h : takeMsg s d net = some (m, rest)) :
    chan s d net = m :: chan s d rest := by
  obtain ⟨pre, post, rfl, rfl, hp⟩ := takeMsg_spec h
  rw [chan_append, chan_append, chan_none hp]
  simp [chan]

theorem takeMsg_other {s d s' d' : Nat} {net rest : List (Nat × Nat × Msg)} {m : Msg} (h : takeMsg s d net = some (m, rest))
    (hne : ¬ (s = s' ∧ d = d')) : chan s' d' rest = chan s' d' net := by
  obtain ⟨pre, post, rfl, rfl, hp⟩ := takeMsg_spec h
  rw [chan_append, chan_append]
  simp [chan, hne]

theorem takeMsg_mem {s d : Nat} {net rest : List (Nat × Nat × Msg)} {m : Msg} (h : takeMsg s d net = some (m, rest)) :
    (s, d, m) ∈ net ∧ (∀ x ∈ rest, x ∈ net) ∧ ∀ x ∈ net, x = (s, d, m) ∨ x ∈ rest := by
  obtain ⟨pre, post, rfl, rfl, hp⟩ := takeMsg_spec h
  refine ⟨by simp, ?_, ?_⟩
  · intro x hx
    rcases List.mem_append.1 hx with h | h
    · simp [h]
    · simp [h]
  · intro x hx
    rcases List.mem_append.1 hx with h | h
    · simp [h]
    · rcases List.mem_cons.1 h with h | h
      · exact Or.inl h
      · simp [h]

/-- Every task in a channel finds its arguments known, given what is known before. -/
def Served (kn : Nat → Prop) : List Msg → Prop
  | [] => True
  | .task t :: r => (∀ i ∈ t.args, kn i) ∧ Served kn r
  | .data i :: r => Served (fun j => j = i ∨ kn j) r
  | .owner i _ :: r => Served (fun j => j = i ∨ kn j) r
  | _ :: r => Served kn r

theorem Served.mono {kn kn' : Nat → Prop} (P : Nat → Prop) {c : List Msg} (h : Served kn c) (hk : ∀ j, P j → kn j → kn' j)
    (hP : ∀ t, Msg.task t ∈ c → ∀ i ∈ t.args, P i) : Served kn' c := by
  induction c generalizing kn kn' with
  | nil => trivial
  | cons m c ih =>
    have hP' : ∀ t, Msg.task t ∈ c → ∀ i ∈ t.args, P i := fun t ht => hP t (List.mem_cons_of_mem _ ht)
    cases m with
    | task t => exact ⟨fun i hi => hk i (hP t List.mem_cons_self i hi) (h.1 i hi), ih h.2 hk hP'⟩
    | data i =>
      refine ih (kn := fun j => j = i ∨ kn j) (kn' := fun j => j = i ∨ kn' j) h ?_ hP'
      intro j hj hx
      rcases hx with hx | hx
      · exact Or.inl hx
      · exact Or.inr (hk j hj hx)
    | owner i o =>
      refine ih (kn := fun j => j = i ∨ kn j) (kn' := fun j => j = i ∨ kn' j) h ?_ hP'
      intro j hj hx
      rcases hx with hx | hx
      · exact Or.inl hx
      · exact Or.inr (hk j hj hx)
    | ask i src => exact ih (kn := kn) h hk hP'
    | clean ids => exact ih (kn := kn) h hk hP'

theorem Served.append {kn : Nat → Prop} {a b : List Msg} (ha : Served kn a)
    (hb : Served (fun j => kn j ∨ Msg.data j ∈ a ∨ ∃ o, Msg.owner j o ∈ a) b) : Served kn (a ++ b) := by
  induction a generalizing kn with
  | nil =>
    refine Served.mono (fun _ => True) hb ?_ (fun _ _ _ _ => trivial)
    intro j _ h
    simpa using h
  | cons m a ih =>
    have conv : ∀ (kn' : Nat → Prop), (∀ j, (kn j ∨ Msg.data j ∈ m :: a ∨ ∃ o, Msg.owner j o ∈ m :: a) → (kn' j ∨ Msg.data j ∈ a ∨ ∃ o, Msg.owner j o ∈ a)) →
        Served (fun j => kn' j ∨ Msg.data j ∈ a ∨ ∃ o, Msg.owner j o ∈ a) b :=
      fun kn' h => Served.mono (fun _ => True) hb (fun j _ => h j) (fun _ _ _ _ => trivial)
    cases m with
    | task t => exact ⟨ha.1, ih ha.2 (conv kn (by intro j h; simpa using h))⟩
    | data i =>
      refine ih (kn := fun j => j = i ∨ kn j) ha (conv _ ?_)
      intro j h
      simp only [List.mem_cons, Msg.data.injEq, reduceCtorEq, false_or] at h
      tauto
    | owner i o =>
      refine ih (kn := fun j => j = i ∨ kn j) ha (conv _ ?_)
      intro j h
      simp only [List.mem_cons, Msg.owner.injEq, reduceCtorEq, false_or] at h
      rcases h with h | h | ⟨o', h | h⟩
      · exact Or.inl (Or.inr h)
      · exact Or.inr (Or.inl h)
      · exact Or.inl (Or.inl h.1)
      · exact Or.inr (Or.inr ⟨o', h⟩)
    | ask i src => exact ih (kn := kn) ha (conv kn (by intro j h; simpa using h))
    | clean ids => exact ih (kn := kn) ha (conv kn (by intro j h; simpa using h))

theorem served_quiet {kn : Nat → Prop} {c : List Msg} (h : ∀ t, Msg.task t ∉ c) : Served kn c := by
  induction c generalizing kn with
  | nil => trivial
  | cons m c ih =>
    have h' : ∀ t, Msg.task t ∉ c := fun t ht => h t (List.mem_cons_of_mem _ ht)
    cases m with
    | task t => exact absurd List.mem_cons_self (h t)
    | _ => exact ih h'

/-! ### The invariant -/

/-- The worker has the data of a reference or knows its owner, and keeps it. -/
def Kn (p : Proc) (i : Nat) : Prop := i ∈ p.strong ∧ (i ∈ p.data ∨ p.owners.lookup i ≠ none)

/-- A task is unfinished. -/
def Unf (s : Sys) (w : Nat) (t : Task) : Prop := (0, w, Msg.task t) ∈ s.net ∨ t ∈ (s.worker w).tasks

/-- Messages that are tasks. -/
def isTask (x : Nat × Nat × Msg) : Bool := match x.2.2 with | .task _ => true | _ => false

theorem isTask_iff (x : Nat × Nat × Msg) : isTask x = true ↔ ∃ t, x.2.2 = .task t := by
  obtain ⟨a, b, m⟩ := x
  cases m <;> simp [isTask]

structure Inv (s : Sys) : Prop where
  zero : 0 ∉ s.ws
  nodup : s.ws.Nodup
  heldNodup : s.held.Nodup
  fresh : ∀ i, (i ∈ s.held ∨ i ∈ s.queue ∨ i ∈ s.cleaned) → i < s.next
  ownerFresh : ∀ i o, s.owner i = some o → i < s.next ∧ o ∈ s.ws
  sentHeld : ∀ e ∈ s.sent, e.1 ∈ s.held ∧ e.2 ∈ s.ws
  storedHeld : ∀ i ∈ s.stored, i ∈ s.held
  gone : ∀ i ∈ s.held, i ∉ s.queue ∧ i ∉ s.cleaned
  heldKnown : ∀ i ∈ s.held, i ∈ s.stored ∨ s.owner i ≠ none
  idle : ∀ w, (s.worker w).methods = [] ∧ (s.worker w).crashed = false ∧ (s.worker w).outbox = [] ∧ (s.worker w).done = 0
  pendWs : ∀ w t, t ∈ (s.worker w).tasks → w ∈ s.ws
  taskMsg : ∀ x w t, (x, w, Msg.task t) ∈ s.net → x = 0 ∧ w ∈ s.ws ∧ t.method = false
  cleanMsg : ∀ x w ids, (x, w, Msg.clean ids) ∈ s.net → x = 0 ∧ ∀ i ∈ ids, i ∈ s.cleaned
  ownerMsg : ∀ x w i o, (x, w, Msg.owner i o) ∈ s.net → x = 0 ∧ s.owner i = some o
  ownersTrue : ∀ w, ∀ e ∈ (s.worker w).owners, s.owner e.1 = some e.2
  taskOk : ∀ w t, Unf s w t → (∀ i ∈ t.args, i ∉ s.cleaned) ∧ ∀ i ∈ t.outs, s.owner i = some w
  home : ∀ i o, s.owner i = some o → i ∉ s.cleaned →
    (i ∈ (s.worker o).strong ∧ i ∈ (s.worker o).data) ∨ ∃ t, Unf s o t ∧ i ∈ t.outs
  served : ∀ w, Served (Kn (s.worker w)) (chan 0 w s.net)
  known : ∀ w, ∀ t ∈ (s.worker w).tasks, ∀ i ∈ t.args, Kn (s.worker w) i
  sentOk : ∀ i w, (i, w) ∈ s.sent → (i ∈ (s.worker w).strong ∧ i ∈ (s.worker w).data) ∨ (0, w, Msg.data i) ∈ s.net
  count : s.submitted = s.executed + s.reports + s.net.countP isTask + (s.ws.map fun w => (s.worker w).tasks.length).sum

theorem inv_init (ws : List Nat) (h0 : 0 ∉ ws) (hn : ws.Nodup) : Inv (Sys.init ws) where
  zero := h0
  nodup := hn
  heldNodup := List.nodup_nil
  fresh := by simp [Sys.init]
  ownerFresh := by simp [Sys.init]
  sentHeld := by simp [Sys.init]
  storedHeld := by simp [Sys.init]
  gone := by simp [Sys.init]
  heldKnown := by simp [Sys.init]
  idle := by simp [Sys.init, Proc.init]
  pendWs := by simp [Sys.init, Proc.init]
  taskMsg := by simp [Sys.init]
  cleanMsg := by simp [Sys.init]
  ownerMsg := by simp [Sys.init]
  ownersTrue := by simp [Sys.init, Proc.init]
  taskOk := by simp [Sys.init, Proc.init, Unf]
  home := by simp [Sys.init]
  served := by simp [Sys.init, chan, Served]
  known := by simp [Sys.init, Proc.init]
  sentOk := by simp [Sys.init]
  count := by
    simp only [Sys.init, Proc.init, List.length_nil, List.countP_nil]
    induction ws with
    | nil => rfl
    | cons w ws ih => simp

/-! ### Steps of the main process -/

theorem inv_put {s s' : Sys} (hi : Inv s) (h : s.step .put = some s') : Inv s' := by
  simp only [Sys.step] at h
  split at h
  · cases h
  · cases h
    have hf := hi.fresh
    refine { hi with heldNodup := ?_, fresh := ?_, ownerFresh := ?_, sentHeld := ?_, storedHeld := ?_, gone := ?_, heldKnown := ?_ }
    · exact List.nodup_cons.2 ⟨fun h => absurd (hf _ (Or.inl h)) (by omega), hi.heldNodup⟩
    · intro i h
      simp only [List.mem_cons] at h
      rcases h with (h | h) | h | h
      · show i < s.next + 1; omega
      · have := hf i (Or.inl h); show i < s.next + 1; omega
      · have := hf i (Or.inr (Or.inl h)); show i < s.next + 1; omega
      · have := hf i (Or.inr (Or.inr h)); show i < s.next + 1; omega
    · intro i o h
      have := hi.ownerFresh i o h
      exact ⟨by have := this.1; show i < s.next + 1; omega, this.2⟩
    · intro e he; exact ⟨List.mem_cons_of_mem _ (hi.sentHeld e he).1, (hi.sentHeld e he).2⟩
    · intro i h
      rcases List.mem_cons.1 h with h | h
      · exact h ▸ List.mem_cons_self
      · exact List.mem_cons_of_mem _ (hi.storedHeld i h)
    · intro i h
      rcases List.mem_cons.1 h with h | h
      · subst h
        exact ⟨fun h => absurd (hf _ (Or.inr (Or.inl h))) (by omega), fun h => absurd (hf _ (Or.inr (Or.inr h))) (by omega)⟩
      · exact hi.gone i h
    · intro i h
      rcases List.mem_cons.1 h with h | h
      · exact Or.inl (h ▸ List.mem_cons_self)
      · rcases hi.heldKnown i h with h | h
        · exact Or.inl (List.mem_cons_of_mem _ h)
        · exact Or.inr h

theorem inv_drop {s s' : Sys} {i : Nat} (hi : Inv s) (h : s.step (.drop i) = some s') : Inv s' := by
  simp only [Sys.step] at h
  split at h
  · cases h
  · rename_i hc
    simp only [not_or, not_not, Classical.not_not] at hc
    cases h
    have hmem : ∀ j, j ∈ s.held.erase i ↔ j ≠ i ∧ j ∈ s.held := fun j => hi.heldNodup.mem_erase_iff
    refine { hi with heldNodup := hi.heldNodup.erase i, fresh := ?_, sentHeld := ?_, storedHeld := ?_, gone := ?_, heldKnown := ?_, sentOk := ?_ }
    · intro j h
      simp only [hmem, List.mem_append, List.mem_singleton] at h
      rcases h with h | (h | h) | h
      · exact hi.fresh j (Or.inl h.2)
      · exact hi.fresh j (Or.inr (Or.inl h))
      · exact hi.fresh j (Or.inl (h ▸ hc.2))
      · exact hi.fresh j (Or.inr (Or.inr h))
    · intro e he
      simp only [List.mem_filter, ne_eq, decide_not, Bool.not_eq_eq_eq_not, Bool.not_true, decide_eq_false_iff_not] at he
      exact ⟨(hmem _).2 ⟨he.2, (hi.sentHeld e he.1).1⟩, (hi.sentHeld e he.1).2⟩
    · intro j hj
      simp only [List.mem_filter, ne_eq, decide_not, Bool.not_eq_eq_eq_not, Bool.not_true, decide_eq_false_iff_not] at hj
      exact (hmem _).2 ⟨hj.2, hi.storedHeld j hj.1⟩
    · intro j hj
      have hj := (hmem j).1 hj
      have := hi.gone j hj.2
      simp only [List.mem_append, List.mem_singleton, not_or]
      exact ⟨⟨this.1, hj.1⟩, this.2⟩
    · intro j hj
      have hj := (hmem j).1 hj
      rcases hi.heldKnown j hj.2 with h | h
      · exact Or.inl (List.mem_filter.2 ⟨h, by simpa using hj.1⟩)
      · exact Or.inr h
    · intro j w hj
      exact hi.sentOk j w (List.mem_filter.1 hj).1

theorem inv_report {s s' : Sys} (hi : Inv s) (h : s.step .report = some s') : Inv s' := by
  simp only [Sys.step] at h
  split at h
  · cases h
  · cases h
    refine { hi with count := ?_ }
    have := hi.count
    show s.submitted = s.executed + 1 + (s.reports - 1) + s.net.countP isTask + (s.ws.map fun w => (s.worker w).tasks.length).sum
    omega

theorem inv_get {s s' : Sys} {ids : List Nat} (hi : Inv s) (h : s.step (.get ids) = some s') : Inv s' := by
  simp only [Sys.step] at h
  split at h
  · cases h
  · cases h
    generalize hl : (ids.filter (fun i => i ∉ s.stored)).map (fun i => ((0, (s.owner i).getD 0, Msg.ask i 0) : Nat × Nat × Msg)) = L
    have hL : ∀ x ∈ L, ∃ i, x.2.2 = .ask i 0 := by
      intro x hx
      rw [← hl] at hx
      obtain ⟨i, -, rfl⟩ := List.mem_map.1 hx
      exact ⟨i, rfl⟩
    have hno : ∀ x w m, (x, w, m) ∈ s.net ++ L → (∃ i, m = .ask i 0) ∨ (x, w, m) ∈ s.net := by
      intro x w m hx
      rcases List.mem_append.1 hx with h | h
      · exact Or.inr h
      · exact Or.inl (hL _ h)
    have htask : ∀ x w t, (x, w, Msg.task t) ∈ s.net ++ L → (x, w, Msg.task t) ∈ s.net := by
      intro x w t hx
      rcases hno _ _ _ hx with ⟨i, e⟩ | h
      · cases e
      · exact h
    have hunf : ∀ w t, Unf { s with waiting := ids.filter (fun i => i ∉ s.stored), net := s.net ++ L } w t ↔ Unf s w t := by
      intro w t
      constructor
      · rintro (h | h)
        · exact Or.inl (htask _ _ _ h)
        · exact Or.inr h
      · rintro (h | h)
        · exact Or.inl (List.mem_append_left _ h)
        · exact Or.inr h
    refine { hi with taskMsg := ?_, cleanMsg := ?_, ownerMsg := ?_, taskOk := ?_, home := ?_, served := ?_, sentOk := ?_, count := ?_ }
    · intro x w t hx; exact hi.taskMsg x w t (htask x w t hx)
    · intro x w l hx
      rcases hno _ _ _ hx with ⟨i, e⟩ | h
      · cases e
      · exact hi.cleanMsg x w l h
    · intro x w i o hx
      rcases hno _ _ _ hx with ⟨j, e⟩ | h
      · cases e
      · exact hi.ownerMsg x w i o h
    · intro w t hu; exact hi.taskOk w t ((hunf w t).1 hu)
    · intro i o ho hc
      rcases hi.home i o ho hc with h | ⟨t, ht, hx⟩
      · exact Or.inl h
      · exact Or.inr ⟨t, (hunf o t).2 ht, hx⟩
    · intro w
      show Served _ (chan 0 w (s.net ++ L))
      rw [chan_append]
      refine (hi.served w).append (served_quiet ?_)
      intro t ht
      obtain ⟨i, e⟩ := hL _ (mem_chan.1 ht)
      cases e
    · intro i w hx
      rcases hi.sentOk i w hx with h | h
      · exact Or.inl h
      · exact Or.inr (List.mem_append_left _ h)
    · have : L.countP isTask = 0 := by
        rw [List.countP_eq_zero]
        intro x hx
        obtain ⟨i, e⟩ := hL x hx
        simp [isTask, e]
      have hc := hi.count
      show s.submitted = s.executed + s.reports + (s.net ++ L).countP isTask + _
      rw [List.countP_append, this]
      omega

theorem no_unfinished {s : Sys} (hi : Inv s) (he : s.executed = s.submitted) : ∀ w t, ¬ Unf s w t := by
  intro w t h
  have hc := hi.count
  have h1 : s.net.countP isTask = 0 := by omega
  have h2 : (s.ws.map fun w => (s.worker w).tasks.length).sum = 0 := by omega
  rcases h with h | h
  · rw [List.countP_eq_zero] at h1
    exact h1 _ h rfl
  · have hw := hi.pendWs w t h
    rw [List.sum_eq_zero_iff_forall_eq_nat] at h2
    have := h2 _ (List.mem_map.2 ⟨w, hw, rfl⟩)
    rw [List.length_eq_zero_iff.1 this] at h
    cases h

/-- The dropped references are sent to all workers. -/
def Sys.cleanAll (s : Sys) : Sys :=
  { s with queue := [], cleaned := s.cleaned ++ s.queue, net := s.net ++ s.ws.map (fun w => (0, w, .clean s.queue)) }

theorem cleanup_cleanAll {s s' : Sys} (h : s.step .cleanup = some s') : s' = s.cleanAll ∧ s.executed = s.submitted := by
  simp only [Sys.step] at h
  split at h
  · cases h
  · rename_i hc
    simp only [ne_eq, not_or, Classical.not_not] at hc
    cases h
    exact ⟨rfl, hc.2⟩

theorem inv_cleanAll {s : Sys} (hi : Inv s) (hg : ∀ w t, Unf s w t → ∀ i ∈ t.args, i ∉ s.queue) : Inv s.cleanAll := by
  · unfold Sys.cleanAll
    generalize hl : s.ws.map (fun w => ((0, w, Msg.clean s.queue) : Nat × Nat × Msg)) = L
    have hL : ∀ x ∈ L, x.1 = 0 ∧ x.2.2 = .clean s.queue := by
      intro x hx
      rw [← hl] at hx
      obtain ⟨w, -, rfl⟩ := List.mem_map.1 hx
      exact ⟨rfl, rfl⟩
    have htask : ∀ x w t, (x, w, Msg.task t) ∈ s.net ++ L → (x, w, Msg.task t) ∈ s.net := by
      intro x w t hx
      rcases List.mem_append.1 hx with h | h
      · exact h
      · have := (hL _ h).2; cases this
    have hunf : ∀ w t, Unf { s with queue := [], cleaned := s.cleaned ++ s.queue, net := s.net ++ L } w t → Unf s w t := by
      rintro w t (h | h)
      · exact Or.inl (htask _ _ _ h)
      · exact Or.inr h
    refine { hi with fresh := ?_, gone := ?_, taskMsg := ?_, cleanMsg := ?_, ownerMsg := ?_, taskOk := ?_, home := ?_, served := ?_, sentOk := ?_, count := ?_ }
    · intro i h
      simp only [List.not_mem_nil, false_or, List.mem_append] at h
      exact hi.fresh i (by tauto)
    · intro i h
      have := hi.gone i h
      simp only [List.not_mem_nil, not_false_eq_true, true_and, List.mem_append, not_or]
      exact ⟨this.2, this.1⟩
    · intro x w t hx; exact hi.taskMsg x w t (htask x w t hx)
    · intro x w l hx
      rcases List.mem_append.1 hx with h | h
      · have := hi.cleanMsg x w l h
        exact ⟨this.1, fun i hi => List.mem_append_left _ (this.2 i hi)⟩
      · have := hL _ h
        refine ⟨this.1, fun i hi => List.mem_append_right _ ?_⟩
        have e := this.2
        cases e
        exact hi
    · intro x w i o hx
      rcases List.mem_append.1 hx with h | h
      · exact hi.ownerMsg x w i o h
      · have := (hL _ h).2; cases this
    · intro w t hu
      have := hi.taskOk w t (hunf w t hu)
      refine ⟨fun i hx => ?_, this.2⟩
      simp only [List.mem_append, not_or]
      exact ⟨this.1 i hx, hg w t (hunf w t hu) i hx⟩
    · intro i o ho hcl
      simp only [List.mem_append, not_or] at hcl
      rcases hi.home i o ho hcl.1 with h | ⟨t, ht, hx⟩
      · exact Or.inl h
      · refine Or.inr ⟨t, ?_, hx⟩
        rcases ht with h | h
        · exact Or.inl (List.mem_append_left _ h)
        · exact Or.inr h
    · intro w
      show Served _ (chan 0 w (s.net ++ L))
      rw [chan_append]
      refine (hi.served w).append (served_quiet ?_)
      intro t ht
      have := (hL _ (mem_chan.1 ht)).2
      cases this
    · intro i w hx
      rcases hi.sentOk i w hx with h | h
      · exact Or.inl h
      · exact Or.inr (List.mem_append_left _ h)
    · have : L.countP isTask = 0 := by
        rw [List.countP_eq_zero]
        intro x hx
        simp [isTask, (hL x hx).2]
      have hc := hi.count
      show s.submitted = s.executed + s.reports + (s.net ++ L).countP isTask + _
      rw [List.countP_append, this]
      omega

theorem inv_cleanup {s s' : Sys} (hi : Inv s) (h : s.step .cleanup = some s') : Inv s' := by
  obtain ⟨rfl, hc⟩ := cleanup_cleanAll h
  exact inv_cleanAll hi fun w t hu => absurd hu (no_unfinished hi hc w t)

/-- What `push_data` of a list of arguments does. -/
theorem pushes_spec (d : Nat) (args : List Nat) (s : Sys) :
    ∃ L sn, args.foldl (Sys.push d) s = { s with net := s.net ++ L, sent := sn } ∧
      (∀ x ∈ L, x.1 = 0 ∧ x.2.1 = d ∧ ((∃ i ∈ args, i ∈ s.stored ∧ x.2.2 = .data i ∧ (i, d) ∈ sn) ∨ ∃ i ∈ args, ∃ o, i ∉ s.stored ∧ s.owner i = some o ∧ x.2.2 = .owner i o)) ∧
      (∀ e ∈ s.sent, e ∈ sn) ∧
      (∀ e ∈ sn, e ∈ s.sent ∨ (e.2 = d ∧ e.1 ∈ args ∧ e.1 ∈ s.stored ∧ (0, d, Msg.data e.1) ∈ L)) ∧
      ∀ i ∈ args, (i ∈ s.stored → (i, d) ∈ sn) ∧ (i ∉ s.stored → ∀ o, s.owner i = some o → (0, d, Msg.owner i o) ∈ L) := by
  induction args generalizing s with
  | nil => exact ⟨[], s.sent, by simp, by simp, fun _ h => h, fun _ h => Or.inl h, by simp⟩
  | cons a args ih =>
    have one : ∃ L sn, s.push d a = { s with net := s.net ++ L, sent := sn } ∧
        (∀ x ∈ L, x.1 = 0 ∧ x.2.1 = d ∧ ((a ∈ s.stored ∧ x.2.2 = .data a ∧ (a, d) ∈ sn) ∨ ∃ o, a ∉ s.stored ∧ s.owner a = some o ∧ x.2.2 = .owner a o)) ∧
        (∀ e ∈ s.sent, e ∈ sn) ∧ (∀ e ∈ sn, e ∈ s.sent ∨ (e = (a, d) ∧ a ∈ s.stored ∧ (0, d, Msg.data a) ∈ L)) ∧
        (a ∈ s.stored → (a, d) ∈ sn) ∧ (a ∉ s.stored → ∀ o, s.owner a = some o → (0, d, Msg.owner a o) ∈ L) := by
      unfold Sys.push
      split
      · rename_i hs
        split
        · rename_i hx
          exact ⟨[], s.sent, by simp, by simp, fun _ h => h, fun _ h => Or.inl h, fun _ => hx, fun h => absurd hs h⟩
        · refine ⟨[(0, d, .data a)], (a, d) :: s.sent, rfl, ?_, fun _ h => List.mem_cons_of_mem _ h, ?_, by simp, fun h => absurd hs h⟩
          · intro x hx
            rw [List.mem_singleton.1 hx]
            exact ⟨rfl, rfl, Or.inl ⟨hs, rfl, List.mem_cons_self⟩⟩
          · intro e he
            rcases List.mem_cons.1 he with h | h
            · exact Or.inr ⟨h, hs, List.mem_singleton.2 rfl⟩
            · exact Or.inl h
      · rename_i hs
        split
        · rename_i o ho
          refine ⟨[(0, d, .owner a o)], s.sent, rfl, ?_, fun _ h => h, fun _ h => Or.inl h, fun h => absurd h hs, ?_⟩
          · intro x hx
            rw [List.mem_singleton.1 hx]
            exact ⟨rfl, rfl, Or.inr ⟨o, hs, ho, rfl⟩⟩
          · intro _ o' ho'
            rw [ho] at ho'; cases ho'
            exact List.mem_singleton.2 rfl
        · rename_i ho
          refine ⟨[], s.sent, by simp, by simp, fun _ h => h, fun _ h => Or.inl h, fun h => absurd h hs, ?_⟩
          intro _ o ho'; rw [ho] at ho'; cases ho'
    obtain ⟨L1, s1, e1, a1, a2, a3, a4, a5⟩ := one
    obtain ⟨L2, s2, e2, b1, b2, b3, b4⟩ := ih (s.push d a)
    rw [e1] at e2 b1 b2 b3 b4
    simp only at e2 b1 b2 b3 b4
    refine ⟨L1 ++ L2, s2, by rw [List.foldl_cons, e1, e2, List.append_assoc], ?_, fun e he => b2 e (a2 e he), ?_, ?_⟩
    · intro x hx
      rcases List.mem_append.1 hx with h | h
      · obtain ⟨c1, c2, c3⟩ := a1 x h
        refine ⟨c1, c2, ?_⟩
        rcases c3 with ⟨k1, k2, k3⟩ | ⟨o, k⟩
        · exact Or.inl ⟨a, List.mem_cons_self, k1, k2, b2 _ k3⟩
        · exact Or.inr ⟨a, List.mem_cons_self, o, k⟩
      · obtain ⟨c1, c2, c3⟩ := b1 x h
        refine ⟨c1, c2, ?_⟩
        rcases c3 with ⟨i, hi, k⟩ | ⟨i, hi, k⟩
        · exact Or.inl ⟨i, List.mem_cons_of_mem _ hi, k⟩
        · exact Or.inr ⟨i, List.mem_cons_of_mem _ hi, k⟩
    · intro e he
      rcases b3 e he with h | ⟨h1, h2, h3, h4⟩
      · rcases a3 e h with h | ⟨rfl, h1, h2⟩
        · exact Or.inl h
        · exact Or.inr ⟨rfl, List.mem_cons_self, h1, List.mem_append_left _ h2⟩
      · exact Or.inr ⟨h1, List.mem_cons_of_mem _ h2, h3, List.mem_append_right _ h4⟩
    · intro i hi
      rcases List.mem_cons.1 hi with h | h
      · subst h
        exact ⟨fun hs => b2 _ (a4 hs), fun hs o ho => List.mem_append_left _ (a5 hs o ho)⟩
      · exact ⟨(b4 i h).1, fun hs o ho => List.mem_append_right _ ((b4 i h).2 hs o ho)⟩

theorem inv_submit {s s' : Sys} {args : List Nat} {n d : Nat} (hi : Inv s) (h : s.step (.submit args n d false) = some s') : Inv s' := by
  simp only [Sys.step] at h
  split at h
  · cases h
  · rename_i hc
    simp only [ne_eq, not_or, Classical.not_not, List.any_eq_true, decide_eq_true_eq, not_exists, not_and] at hc
    obtain ⟨-, hd, hargs⟩ := hc
    simp only [Bool.false_eq_true, if_false, Option.some.injEq] at h
    generalize houts : List.range' s.next n = outs at h
    have ho : ∀ i, i ∈ outs ↔ s.next ≤ i ∧ i < s.next + n := by intro i; rw [← houts, List.mem_range'_1]
    obtain ⟨L, sn, e, p1, p2, p3, p4⟩ := pushes_spec d args { s with next := s.next + n, held := outs ++ s.held, owner := fun i => if i ∈ outs then some d else s.owner i }
    rw [e] at h
    simp only at h p1 p2 p3 p4
    have hold : ∀ i, i < s.next → i ∉ outs := fun i hi h => by have := (ho i).1 h; omega
    have hargsN : ∀ i ∈ args, i < s.next := fun i h => hi.fresh i (Or.inl (hargs i h))
    have hown : ∀ i o, s.owner i = some o → (if i ∈ outs then some d else s.owner i) = some o := by
      intro i o h
      rw [if_neg (hold i (hi.ownerFresh i o h).1)]; exact h
    subst h
    have hL : ∀ x ∈ L, ∀ t, x.2.2 ≠ .task t := by
      intro x hx t ht
      rcases (p1 x hx).2.2 with ⟨i, -, -, k, -⟩ | ⟨i, -, o, -, -, k⟩ <;> rw [k] at ht <;> cases ht
    have hcl : ∀ x ∈ L, ∀ ids, x.2.2 ≠ .clean ids := by
      intro x hx t ht
      rcases (p1 x hx).2.2 with ⟨i, -, -, k, -⟩ | ⟨i, -, o, -, -, k⟩ <;> rw [k] at ht <;> cases ht
    have htask : ∀ x w t, (x, w, Msg.task t) ∈ s.net ++ L ++ [(0, d, .task ⟨args, outs, false⟩)] → (x, w, Msg.task t) ∈ s.net ∨ (x = 0 ∧ w = d ∧ t = ⟨args, outs, false⟩) := by
      intro x w t hx
      rcases List.mem_append.1 hx with h | h
      · rcases List.mem_append.1 h with h | h
        · exact Or.inl h
        · exact absurd rfl (hL _ h t)
      · have := List.mem_singleton.1 h
        cases this
        exact Or.inr ⟨rfl, rfl, rfl⟩
    refine { zero := hi.zero, nodup := hi.nodup, heldNodup := ?_, fresh := ?_, ownerFresh := ?_, sentHeld := ?_, storedHeld := ?_, gone := ?_, heldKnown := ?_, idle := hi.idle, pendWs := hi.pendWs, taskMsg := ?_, cleanMsg := ?_, ownerMsg := ?_, ownersTrue := ?_, taskOk := ?_, home := ?_, served := ?_, known := hi.known, sentOk := ?_, count := ?_ }
    · show (outs ++ s.held).Nodup
      rw [List.nodup_append]
      refine ⟨houts ▸ List.nodup_range', hi.heldNodup, ?_⟩
      intro a ha b hb hab
      subst hab
      have := hi.fresh a (Or.inl hb)
      exact hold a this ha
    · intro i h
      show i < s.next + n
      rcases h with h | h
      · rcases List.mem_append.1 h with h | h
        · exact ((ho i).1 h).2
        · have := hi.fresh i (Or.inl h); omega
      · have := hi.fresh i (Or.inr h); omega
    · intro i o h
      show i < s.next + n ∧ o ∈ s.ws
      by_cases hx : i ∈ outs
      · have h : (if i ∈ outs then some d else s.owner i) = some o := h
        rw [if_pos hx] at h
        cases h
        exact ⟨((ho i).1 hx).2, hd⟩
      · have h : (if i ∈ outs then some d else s.owner i) = some o := h
        rw [if_neg hx] at h
        have := hi.ownerFresh i o h
        exact ⟨by omega, this.2⟩
    · intro x hx
      rcases p3 x hx with h | ⟨h2, h, -, -⟩
      · exact ⟨List.mem_append_right _ (hi.sentHeld x h).1, (hi.sentHeld x h).2⟩
      · exact ⟨List.mem_append_right _ (hargs _ h), h2 ▸ hd⟩
    · intro i h; exact List.mem_append_right _ (hi.storedHeld i h)
    · intro i h
      rcases List.mem_append.1 h with h | h
      · have h := (ho i).1 h
        exact ⟨fun g => by have := hi.fresh i (Or.inr (Or.inl g)); omega, fun g => by have := hi.fresh i (Or.inr (Or.inr g)); omega⟩
      · exact hi.gone i h
    · intro i h
      show i ∈ s.stored ∨ (if i ∈ outs then some d else s.owner i) ≠ none
      by_cases hx : i ∈ outs
      · rw [if_pos hx]; exact Or.inr (by simp)
      · rw [if_neg hx]
        rcases List.mem_append.1 h with h | h
        · exact absurd h hx
        · exact hi.heldKnown i h
    · intro x w t hx
      rcases htask x w t hx with h | ⟨rfl, rfl, rfl⟩
      · exact hi.taskMsg x w t h
      · exact ⟨rfl, hd, rfl⟩
    · intro x w l hx
      rcases List.mem_append.1 hx with h | h
      · rcases List.mem_append.1 h with h | h
        · exact hi.cleanMsg x w l h
        · exact absurd rfl (hcl _ h l)
      · have := List.mem_singleton.1 h
        cases this
    · intro x w i o hx
      rcases List.mem_append.1 hx with h | h
      · rcases List.mem_append.1 h with h | h
        · have := hi.ownerMsg x w i o h
          exact ⟨this.1, hown i o this.2⟩
        · obtain ⟨k1, -, k3⟩ := p1 _ h
          refine ⟨k1, ?_⟩
          rcases k3 with ⟨j, -, -, k, -⟩ | ⟨j, -, o', -, ko, k⟩
          · cases k
          · cases k; exact ko
      · have := List.mem_singleton.1 h
        cases this
    · intro w x hx
      exact hown _ _ (hi.ownersTrue w x hx)
    · intro w t hu
      have hcase : Unf s w t ∨ (w = d ∧ t = ⟨args, outs, false⟩) := by
        rcases hu with h | h
        · rcases htask _ _ _ h with h | ⟨-, h⟩
          · exact Or.inl (Or.inl h)
          · exact Or.inr h
        · exact Or.inl (Or.inr h)
      rcases hcase with h | ⟨rfl, rfl⟩
      · have := hi.taskOk w t h
        exact ⟨this.1, fun i hx => hown i w (this.2 i hx)⟩
      · refine ⟨fun i hx => (hi.gone i (hargs i hx)).2, fun i hx => ?_⟩
        show (if i ∈ outs then some w else s.owner i) = some w
        rw [if_pos hx]
    · intro i o h hcl
      have h : (if i ∈ outs then some d else s.owner i) = some o := h
      by_cases hx : i ∈ outs
      · rw [if_pos hx] at h
        cases h
        exact Or.inr ⟨⟨args, outs, false⟩, Or.inl (List.mem_append_right _ (List.mem_singleton.2 rfl)), hx⟩
      · rw [if_neg hx] at h
        rcases hi.home i o h hcl with g | ⟨t, ht, g⟩
        · exact Or.inl g
        · refine Or.inr ⟨t, ?_, g⟩
          rcases ht with ht | ht
          · exact Or.inl (List.mem_append_left _ (List.mem_append_left _ ht))
          · exact Or.inr ht
    · intro w
      show Served (Kn (s.worker w)) (chan 0 w (s.net ++ L ++ [(0, d, .task ⟨args, outs, false⟩)]))
      rw [chan_append, chan_append]
      have hq : ∀ t, Msg.task t ∉ chan 0 w L := fun t ht => hL _ (mem_chan.1 ht) t rfl
      refine ((hi.served w).append (served_quiet hq)).append ?_
      by_cases hw : w = d
      · subst hw
        simp only [chan, List.filterMap_cons, List.filterMap_nil, and_self, if_true]
        refine ⟨?_, trivial⟩
        intro i hx
        by_cases hs : i ∈ s.stored
        · rcases p3 _ ((p4 i hx).1 hs) with h | ⟨-, -, -, h⟩
          · rcases hi.sentOk i w h with h | h
            · exact Or.inl ⟨h.1, Or.inl h.2⟩
            · exact Or.inr (Or.inl (List.mem_append_left _ (mem_chan.2 h)))
          · exact Or.inr (Or.inl (List.mem_append_right _ (mem_chan.2 h)))
        · rcases hi.heldKnown i (hargs i hx) with h | h
          · exact absurd h hs
          · obtain ⟨o, ho'⟩ := Option.ne_none_iff_exists'.1 h
            exact Or.inr (Or.inr ⟨o, List.mem_append_right _ (mem_chan.2 ((p4 i hx).2 hs o (hown i o ho')))⟩)
      · have : chan 0 w [((0, d, .task ⟨args, outs, false⟩) : Nat × Nat × Msg)] = [] := by
          apply chan_none
          intro x hx
          rw [List.mem_singleton.1 hx]
          exact fun g => hw g.2.symm
        rw [this]; trivial
    · intro i w hx
      rcases p3 _ hx with h | ⟨h1, -, -, h⟩
      · rcases hi.sentOk i w h with h | h
        · exact Or.inl h
        · exact Or.inr (List.mem_append_left _ (List.mem_append_left _ h))
      · simp only at h1 h
        subst h1
        exact Or.inr (List.mem_append_left _ (List.mem_append_right _ h))
    · have hz : L.countP isTask = 0 := by
        rw [List.countP_eq_zero]
        intro x hx
        rw [isTask_iff]
        rintro ⟨t, k⟩
        exact hL x hx t k
      have hc := hi.count
      show s.submitted + 1 = s.executed + s.reports + (s.net ++ L ++ [(0, d, Msg.task ⟨args, outs, false⟩)]).countP isTask + _
      rw [List.countP_append, List.countP_append, hz]
      simp only [List.countP_singleton, isTask, if_true]
      omega

/-! ### Receiving a message -/

theorem sum_update (ws : List Nat) (hn : ws.Nodup) (f g : Nat → Nat) (d : Nat) (h : ∀ w, w ≠ d → g w = f w) :
    (d ∈ ws → (ws.map g).sum + f d = (ws.map f).sum + g d) ∧ (d ∉ ws → (ws.map g).sum = (ws.map f).sum) := by
  induction ws with
  | nil => simp
  | cons w ws ih =>
    obtain ⟨i1, i2⟩ := ih hn.of_cons
    simp only [List.map_cons, List.sum_cons, List.mem_cons, not_or]
    constructor
    · intro hd
      by_cases hw : d = w
      · subst hw
        have := i2 (List.nodup_cons.1 hn).1
        omega
      · have := i1 (by tauto)
        have := h w (Ne.symm hw)
        omega
    · rintro ⟨hd1, hd2⟩
      have := i2 hd2
      have := h w (Ne.symm hd1)
      omega

theorem sweep_strong (p : Proc) : p.sweep.strong = p.strong := rfl

theorem sweep_data (p : Proc) (i : Nat) (h : i ∈ p.strong) (hd : i ∈ p.data) : i ∈ p.sweep.data := by
  refine List.mem_filter.2 ⟨hd, ?_⟩
  simp [Proc.alive, h]

theorem lookup_filter_alive (l : List (Nat × Nat)) (f : Nat → Bool) (i : Nat) (h : f i = true) :
    (l.filter (fun e => f e.1)).lookup i = l.lookup i := by
  induction l with
  | nil => rfl
  | cons e l ih =>
    obtain ⟨a, b⟩ := e
    rw [List.filter_cons]
    by_cases hx : i = a
    · subst hx
      simp [h, List.lookup]
    · have hb : (i == a) = false := by simp [hx]
      split
      · simp only [List.lookup, hb, ih]
      · simp only [List.lookup, hb, ih]

theorem sweep_owners (p : Proc) (i : Nat) (h : i ∈ p.strong) : p.sweep.owners.lookup i = p.owners.lookup i :=
  lookup_filter_alive p.owners p.alive i (by simp [Proc.alive, h])

theorem Kn.ready {p : Proc} {i : Nat} (h : Kn p i) : i ∈ p.data ∨ p.owners.lookup i ≠ none := h.2

theorem inv_deliver_root {s s' : Sys} {src : Nat} (hi : Inv s) (h : s.step (.deliver src 0) = some s') : Inv s' := by
  simp only [Sys.step] at h
  split at h
  · cases h
  · rename_i m rest hm
    simp only [if_true] at h
    split at h
    · rename_i i
      cases h
      obtain ⟨hmem, hsub, hcase⟩ := takeMsg_mem hm
      have hchan : ∀ w, w ≠ 0 → chan 0 w rest = chan 0 w s.net := fun w hw => takeMsg_other hm (fun g => hw g.2.symm)
      have htask : ∀ w t, (0, w, Msg.task t) ∈ s.net → (0, w, Msg.task t) ∈ rest := by
        intro w t h
        rcases hcase _ h with h | h
        · cases h
        · exact h
      refine { hi with storedHeld := ?_, heldKnown := ?_, taskMsg := fun x w t h => hi.taskMsg x w t (hsub _ h), cleanMsg := fun x w t h => hi.cleanMsg x w t (hsub _ h), ownerMsg := fun x w t o h => hi.ownerMsg x w t o (hsub _ h), taskOk := ?_, home := ?_, served := ?_, sentOk := ?_, count := ?_ }
      · intro j hj
        have hj : j ∈ (if i ∈ s.held then i :: s.stored else s.stored) := hj
        split at hj
        · rename_i hx
          rcases List.mem_cons.1 hj with h | h
          · exact h ▸ hx
          · exact hi.storedHeld j h
        · exact hi.storedHeld j hj
      · intro j hj
        show j ∈ (if i ∈ s.held then i :: s.stored else s.stored) ∨ _
        rcases hi.heldKnown j hj with h | h
        · left; split
          · exact List.mem_cons_of_mem _ h
          · exact h
        · exact Or.inr h
      · intro w t hu
        refine hi.taskOk w t ?_
        rcases hu with h | h
        · exact Or.inl (hsub _ h)
        · exact Or.inr h
      · intro j o ho hc
        rcases hi.home j o ho hc with h | ⟨t, ht, hx⟩
        · exact Or.inl h
        · refine Or.inr ⟨t, ?_, hx⟩
          rcases ht with h | h
          · exact Or.inl (htask o t h)
          · exact Or.inr h
      · intro w
        show Served _ (chan 0 w rest)
        by_cases hw : w = 0
        · subst hw
          refine served_quiet fun t ht => ?_
          have := hi.taskMsg _ _ _ (hsub _ (mem_chan.1 ht))
          exact hi.zero this.2.1
        · rw [hchan w hw]; exact hi.served w
      · intro j w hj
        rcases hi.sentOk j w hj with h | h
        · exact Or.inl h
        · have hw : w ≠ 0 := fun g => hi.zero (g ▸ (hi.sentHeld _ hj).2)
          rcases hcase _ h with e | e
          · cases e; exact absurd rfl hw
          · exact Or.inr e
      · have hc := hi.count
        obtain ⟨pre, post, e1, e2, -⟩ := takeMsg_spec hm
        show s.submitted = s.executed + s.reports + rest.countP isTask + (s.ws.map fun w => (s.worker w).tasks.length).sum
        rw [e1, List.countP_append, List.countP_cons] at hc
        rw [e2, List.countP_append]
        simp only [isTask, Bool.false_eq_true, if_false] at hc
        omega
    · cases h

/-- The facts about a step of worker `d` that the invariant needs. -/
theorem deliver_cases {s s' : Sys} {src d : Nat} (hd : d ≠ 0) (h : s.step (.deliver src d) = some s') :
    ∃ m rest, takeMsg src d s.net = some (m, rest) ∧
      s' = { s with net := rest }.setWorker d ((s.worker d).receive d m) := by
  simp only [Sys.step] at h
  split at h
  · cases h
  · rename_i m rest hm
    rw [if_neg hd] at h
    split at h
    · cases h
    · cases h
      exact ⟨m, rest, hm, rfl⟩

theorem inv_recv {s : Sys} {src d : Nat} {m : Msg} {rest : List (Nat × Nat × Msg)} (hi : Inv s)
    (hm : takeMsg src d s.net = some (m, rest)) : Recv (s.worker d) ((s.worker d).receive d m) m (todo (s.worker d) m) := by
  obtain ⟨hmem, -, -⟩ := takeMsg_mem hm
  refine receive_recv d (s.worker d) m (hi.idle d).1 ?_ ?_
  · intro t ht
    subst ht
    exact (hi.taskMsg _ _ _ hmem).2.2
  · intro t ht i hx
    have hp : t ∈ (s.worker d).tasks → i ∈ (s.worker d).data ∨ (s.worker d).owners.lookup i ≠ none :=
      fun h => (hi.known d t h i hx).2
    cases m with
    | task u =>
      rcases List.mem_cons.1 ht with h | h
      · subst h
        have h0 := (hi.taskMsg _ _ _ hmem).1
        subst h0
        have := hi.served d
        rw [takeMsg_chan hm] at this
        exact (this.1 i hx).2
      · exact hp h
    | data _ => exact hp ht
    | owner _ _ => exact hp ht
    | ask _ _ => exact hp ht
    | clean _ => exact hp ht

set_option maxHeartbeats 1600000 in
theorem inv_deliver {s s' : Sys} {src d : Nat} (hd : d ≠ 0) (hi : Inv s) (h : s.step (.deliver src d) = some s') : Inv s' := by
  obtain ⟨m, rest, hm, rfl⟩ := deliver_cases hd h
  clear h
  obtain ⟨hmem, hsub, hcase⟩ := takeMsg_mem hm
  have r := inv_recv hi hm
  have q := receive_quiet d (s.worker d) m
  generalize hp : (s.worker d).receive d m = p at r q
  have hout : ∀ x ∈ p.outbox.map (fun y => ((d, y.1, y.2) : Nat × Nat × Msg)), x.1 = d ∧ ((∃ i, x.2.2 = .data i) ∨ ∃ i j, x.2.2 = .ask i j) := by
    intro x hx
    obtain ⟨y, hy, rfl⟩ := List.mem_map.1 hx
    refine ⟨rfl, ?_⟩
    rcases q y hy with h | h
    · rw [(hi.idle d).2.2.1] at h; cases h
    · exact h
  have hmsg : ∀ x ∈ rest ++ p.outbox.map (fun y => ((d, y.1, y.2) : Nat × Nat × Msg)), x ∈ s.net ∨ (x.1 = d ∧ ((∃ i, x.2.2 = .data i) ∨ ∃ i j, x.2.2 = .ask i j)) := by
    intro x hx
    rcases List.mem_append.1 hx with h | h
    · exact Or.inl (hsub x h)
    · exact Or.inr (hout x h)
  have hchan : ∀ w, chan 0 w (rest ++ p.outbox.map (fun y => ((d, y.1, y.2) : Nat × Nat × Msg))) = chan 0 w rest := by
    intro w
    rw [chan_append, chan_none (l := p.outbox.map _), List.append_nil]
    intro x hx g
    exact hd ((hout x hx).1.symm.trans g.1)
  have hW : ∀ w, (({ s with net := rest }.setWorker d p).worker w) = if w = d then { p.sweep with outbox := [], done := 0 } else s.worker w := fun w => rfl
  have hN : ({ s with net := rest }.setWorker d p).net = rest ++ p.outbox.map (fun y => ((d, y.1, y.2) : Nat × Nat × Msg)) := rfl
  -- what a worker keeps
  have kS : ∀ w i, i ∉ s.cleaned → i ∈ (s.worker w).strong → i ∈ (({ s with net := rest }.setWorker d p).worker w).strong := by
    intro w i hc hx
    rw [hW]
    split
    · rename_i hw
      subst hw
      refine r.strong i hx ?_
      rintro ids rfl hin
      exact hc ((hi.cleanMsg _ _ _ hmem).2 i hin)
    · exact hx
  have kD : ∀ w i, i ∉ s.cleaned → i ∈ (s.worker w).strong → i ∈ (s.worker w).data → i ∈ (({ s with net := rest }.setWorker d p).worker w).data := by
    intro w i hc hx hy
    have := kS w i hc hx
    rw [hW] at this ⊢
    split at this
    · rename_i hw
      subst hw
      rw [if_pos rfl]
      exact sweep_data p i this (r.data i hy)
    · rename_i hw
      rw [if_neg hw]; exact hy
  have kO : ∀ w i, i ∉ s.cleaned → i ∈ (s.worker w).strong → (s.worker w).owners.lookup i ≠ none → (({ s with net := rest }.setWorker d p).worker w).owners.lookup i ≠ none := by
    intro w i hc hx hy
    have := kS w i hc hx
    rw [hW] at this ⊢
    split at this
    · rename_i hw
      subst hw
      rw [if_pos rfl]
      show p.sweep.owners.lookup i ≠ none
      rw [sweep_owners p i this]; exact r.owners i hy
    · rename_i hw
      rw [if_neg hw]; exact hy
  have kK : ∀ w i, i ∉ s.cleaned → Kn (s.worker w) i → Kn (({ s with net := rest }.setWorker d p).worker w) i := by
    intro w i hc hx
    refine ⟨kS w i hc hx.1, ?_⟩
    rcases hx.2 with h | h
    · exact Or.inl (kD w i hc hx.1 h)
    · exact Or.inr (kO w i hc hx.1 h)
  have hTasks : ∀ w, (({ s with net := rest }.setWorker d p).worker w).tasks = if w = d then p.tasks else (s.worker w).tasks := by
    intro w; rw [hW]; split <;> rfl
  have htodo : ∀ t ∈ todo (s.worker d) m, Unf s d t := by
    intro t ht
    cases m with
    | task u =>
      rcases List.mem_cons.1 ht with h | h
      · subst h
        have h0 := (hi.taskMsg _ _ _ hmem).1
        subst h0
        exact Or.inl hmem
      · exact Or.inr h
    | data _ => exact Or.inr ht
    | owner _ _ => exact Or.inr ht
    | ask _ _ => exact Or.inr ht
    | clean _ => exact Or.inr ht
  have hunf : ∀ w t', Unf ({ s with net := rest }.setWorker d p) w t' → ∃ t, Unf s w t ∧ t'.outs = t.outs ∧ ∀ i ∈ t'.args, i ∈ t.args := by
    intro w t' hu
    rcases hu with h | h
    · rw [hN] at h
      rcases hmsg _ h with h | ⟨-, ⟨i, e⟩ | ⟨i, j, e⟩⟩
      · exact ⟨t', Or.inl h, rfl, fun _ h => h⟩
      · cases e
      · cases e
    · rw [hTasks] at h
      split at h
      · rename_i hw
        subst hw
        obtain ⟨t, ht, e1, -, e3⟩ := r.left t' h
        exact ⟨t, htodo t ht, e1, e3⟩
      · exact ⟨t', Or.inr h, rfl, fun _ h => h⟩
  have hcln : ∀ w t, Msg.task t ∈ chan 0 w s.net → ∀ i ∈ t.args, i ∉ s.cleaned :=
    fun w t ht => (hi.taskOk w t (Or.inl (mem_chan.1 ht))).1
  refine { zero := hi.zero, nodup := hi.nodup, heldNodup := hi.heldNodup, fresh := hi.fresh, ownerFresh := hi.ownerFresh, sentHeld := hi.sentHeld, storedHeld := hi.storedHeld, gone := hi.gone, heldKnown := hi.heldKnown, idle := ?_, pendWs := ?_, taskMsg := ?_, cleanMsg := ?_, ownerMsg := ?_, ownersTrue := ?_, taskOk := ?_, home := ?_, served := ?_, known := ?_, sentOk := ?_, count := ?_ }
  · intro w
    rw [hW]
    split
    · exact ⟨r.methods, r.crashed.trans (hi.idle d).2.1, rfl, rfl⟩
    · exact hi.idle w
  · intro w t ht
    rw [hTasks] at ht
    split at ht
    · rename_i hw
      subst hw
      obtain ⟨u, hu, -⟩ := r.left t ht
      rcases htodo u hu with h | h
      · exact (hi.taskMsg _ _ _ h).2.1
      · exact hi.pendWs w u h
    · exact hi.pendWs w t ht
  · intro x w t hx
    rw [hN] at hx
    rcases hmsg _ hx with h | ⟨-, ⟨i, e⟩ | ⟨i, j, e⟩⟩
    · exact hi.taskMsg x w t h
    · cases e
    · cases e
  · intro x w l hx
    rw [hN] at hx
    rcases hmsg _ hx with h | ⟨-, ⟨i, e⟩ | ⟨i, j, e⟩⟩
    · exact hi.cleanMsg x w l h
    · cases e
    · cases e
  · intro x w i o hx
    rw [hN] at hx
    rcases hmsg _ hx with h | ⟨-, ⟨i, e⟩ | ⟨i, j, e⟩⟩
    · exact hi.ownerMsg x w i o h
    · cases e
    · cases e
  · intro w e he
    rw [hW] at he
    split at he
    · have he : e ∈ p.owners := (List.mem_filter.1 he).1
      rcases r.newOwners e he with h | h
      · exact hi.ownersTrue d e h
      · subst h
        exact (hi.ownerMsg _ _ _ _ hmem).2
    · exact hi.ownersTrue w e he
  · intro w t' hu
    obtain ⟨t, ht, e1, e2⟩ := hunf w t' hu
    have := hi.taskOk w t ht
    exact ⟨fun i hx => this.1 i (e2 i hx), fun i hx => this.2 i (e1 ▸ hx)⟩
  · intro i o ho hc
    rcases hi.home i o ho hc with ⟨h1, h2⟩ | ⟨t, ht, hx⟩
    · exact Or.inl ⟨kS o i hc h1, kD o i hc h1 h2⟩
    · have fin : t ∈ todo (s.worker d) m → o = d → (i ∈ (({ s with net := rest }.setWorker d p).worker o).strong ∧ i ∈ (({ s with net := rest }.setWorker d p).worker o).data) ∨
          ∃ t, Unf ({ s with net := rest }.setWorker d p) o t ∧ i ∈ t.outs := by
        intro hto hod
        subst hod
        rcases r.ran t hto with g | ⟨t', ht', e⟩
        · left
          rw [hW, if_pos rfl]
          exact ⟨(g i hx).2, sweep_data p i (g i hx).2 (g i hx).1⟩
        · right
          exact ⟨t', Or.inr (by rw [hTasks, if_pos rfl]; exact ht'), e ▸ hx⟩
      rcases ht with h | h
      · rcases hcase _ h with e | e
        · cases e
          exact fin List.mem_cons_self rfl
        · exact Or.inr ⟨t, Or.inl (by rw [hN]; exact List.mem_append_left _ e), hx⟩
      · by_cases hod : o = d
        · subst hod
          refine fin ?_ rfl
          cases m with
          | task u => exact List.mem_cons_of_mem _ h
          | data _ => exact h
          | owner _ _ => exact h
          | ask _ _ => exact h
          | clean _ => exact h
        · exact Or.inr ⟨t, Or.inr (by rw [hTasks, if_neg hod]; exact h), hx⟩
  · intro w
    rw [hN, hchan]
    by_cases hw : src = 0 ∧ d = w
    · obtain ⟨rfl, rfl⟩ := hw
      have hs := hi.served d
      have hcl := hcln d
      rw [takeMsg_chan hm] at hs hcl
      have hP : ∀ t, Msg.task t ∈ chan 0 d rest → ∀ i ∈ t.args, i ∉ s.cleaned := fun t ht => hcl t (List.mem_cons_of_mem _ ht)
      have hself : ({ s with net := rest }.setWorker d p).worker d = { p.sweep with outbox := [], done := 0 } := by rw [hW, if_pos rfl]
      cases m with
      | task u => exact hs.2.mono (fun i => i ∉ s.cleaned) (kK d) hP
      | data i =>
        refine Served.mono (kn := fun j => j = i ∨ Kn (s.worker d) j) (fun i => i ∉ s.cleaned) hs ?_ hP
        rintro j hj (rfl | h)
        · have g := r.got j rfl
          rw [hself]
          exact ⟨g.2, Or.inl (sweep_data p j g.2 g.1)⟩
        · exact kK d j hj h
      | owner i o =>
        refine Served.mono (kn := fun j => j = i ∨ Kn (s.worker d) j) (fun i => i ∉ s.cleaned) hs ?_ hP
        rintro j hj (rfl | h)
        · have g := r.told j o rfl
          rw [hself]
          exact ⟨g.2, Or.inr (by show p.sweep.owners.lookup j ≠ none; rw [sweep_owners p j g.2]; exact g.1)⟩
        · exact kK d j hj h
      | ask _ _ => exact Served.mono (kn := Kn (s.worker d)) (fun i => i ∉ s.cleaned) hs (kK d) hP
      | clean _ => exact Served.mono (kn := Kn (s.worker d)) (fun i => i ∉ s.cleaned) hs (kK d) hP
    · have e := takeMsg_other (s' := 0) (d' := w) hm hw
      rw [e]
      exact (hi.served w).mono (fun i => i ∉ s.cleaned) (kK w) (hcln w)
  · intro w t' ht' i hx
    rw [hTasks] at ht'
    split at ht'
    · rename_i hw
      subst hw
      obtain ⟨t, ht, -, -, e⟩ := r.left t' ht'
      have hu := htodo t ht
      have hk : Kn (s.worker w) i := by
        cases m with
        | task u =>
          rcases List.mem_cons.1 ht with h | h
          · subst h
            have h0 := (hi.taskMsg _ _ _ hmem).1
            subst h0
            have := hi.served w
            rw [takeMsg_chan hm] at this
            exact this.1 i (e i hx)
          · exact hi.known w t h i (e i hx)
        | data _ => exact hi.known w t ht i (e i hx)
        | owner _ _ => exact hi.known w t ht i (e i hx)
        | ask _ _ => exact hi.known w t ht i (e i hx)
        | clean _ => exact hi.known w t ht i (e i hx)
      exact kK w i ((hi.taskOk w t hu).1 i (e i hx)) hk
    · exact kK w i ((hi.taskOk w t' (Or.inr ht')).1 i hx) (hi.known w t' ht' i hx)
  · intro i w hx
    have hc := (hi.gone i (hi.sentHeld _ hx).1).2
    rcases hi.sentOk i w hx with ⟨h1, h2⟩ | h
    · exact Or.inl ⟨kS w i hc h1, kD w i hc h1 h2⟩
    · rcases hcase _ h with e | e
      · cases e
        left
        have g := r.got i rfl
        rw [hW, if_pos rfl]
        exact ⟨g.2, sweep_data p i g.2 g.1⟩
      · exact Or.inr (by rw [hN]; exact List.mem_append_left _ e)
  · have hz : (p.outbox.map (fun y => ((d, y.1, y.2) : Nat × Nat × Msg))).countP isTask = 0 := by
      rw [List.countP_eq_zero]
      intro x hx
      rw [isTask_iff]
      rintro ⟨t, k⟩
      rcases (hout x hx).2 with ⟨i, e⟩ | ⟨i, j, e⟩ <;> rw [e] at k <;> cases k
    have hc := hi.count
    obtain ⟨pre, post, e1, e2, -⟩ := takeMsg_spec hm
    have hnet : s.net.countP isTask = rest.countP isTask + (if isTask (src, d, m) then 1 else 0) := by
      rw [e1, e2, List.countP_append, List.countP_cons, List.countP_append]; omega
    have hlen : (todo (s.worker d) m).length = (s.worker d).tasks.length + (if isTask (src, d, m) then 1 else 0) := by
      cases m <;> simp [todo, isTask]
    have hcnt := r.count
    rw [(hi.idle d).2.2.2] at hcnt
    have hsum := sum_update s.ws hi.nodup (fun w => (s.worker w).tasks.length) (fun w => (({ s with net := rest }.setWorker d p).worker w).tasks.length) d (by
      intro w hw
      show (({ s with net := rest }.setWorker d p).worker w).tasks.length = _
      rw [hTasks, if_neg hw])
    have hself : (({ s with net := rest }.setWorker d p).worker d).tasks.length = p.tasks.length := by rw [hTasks, if_pos rfl]
    simp only [hself] at hsum
    show s.submitted = s.executed + (s.reports + p.done) + (rest ++ p.outbox.map (fun y => ((d, y.1, y.2) : Nat × Nat × Msg))).countP isTask + (s.ws.map fun w => (({ s with net := rest }.setWorker d p).worker w).tasks.length).sum
    rw [List.countP_append, hz]
    by_cases hdw : d ∈ s.ws
    · have := hsum.1 hdw
      omega
    · have hno : (todo (s.worker d) m).length = 0 := by
        apply List.length_eq_zero_iff.2
        apply List.eq_nil_iff_forall_not_mem.2
        intro t ht
        rcases htodo t ht with h | h
        · exact hdw (hi.taskMsg _ _ _ h).2.1
        · exact hdw (hi.pendWs d t h)
      have := hsum.2 hdw
      omega

/-- No actor method is called. -/
def NoMethods (ops : List Op) : Prop := ∀ args n d, Op.submit args n d true ∉ ops

theorem inv_step {s s' : Sys} {op : Op} (hi : Inv s) (ho : ∀ args n d, op ≠ .submit args n d true) (h : s.step op = some s') : Inv s' := by
  cases op with
  | put => exact inv_put hi h
  | drop i => exact inv_drop hi h
  | submit args n d m =>
    cases m with
    | false => exact inv_submit hi h
    | true => exact absurd rfl (ho args n d)
  | get ids => exact inv_get hi h
  | deliver src d =>
    by_cases hd : d = 0
    · subst hd; exact inv_deliver_root hi h
    · exact inv_deliver hd hi h
  | report => exact inv_report hi h
  | cleanup => exact inv_cleanup hi h

theorem inv_run (ops : List Op) {s s' : Sys} (hi : Inv s) (ho : NoMethods ops) (h : s.run ops = some s') : Inv s' := by
  induction ops generalizing s with
  | nil => cases h; exact hi
  | cons op ops ih =>
    simp only [Sys.run, Option.bind_eq_some_iff] at h
    obtain ⟨s1, h1, h2⟩ := h
    refine ih (inv_step hi ?_ h1) (fun a n d hx => ho a n d (List.mem_cons_of_mem _ hx)) h2
    rintro a n d rfl
    exact ho a n d List.mem_cons_self

end Verif.Lifetime
