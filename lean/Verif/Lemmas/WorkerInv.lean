import Verif.Lemmas.Worker

/-! Invariant of a worker relative to the sequential meaning of the program (safety part). -/
namespace Verif.Worker
open Verif.Spec

/-- A submitted task. -/
structure Sub where
  fn : Nat
  args : List Val
  outs : List Nat
  dest : Nat

/-- The program seen from a worker: sequential meaning, producer of each reference, submitted tasks. -/
structure Ctx where
  W : World
  D : Nat → Option Val
  own : Nat → Option Nat
  subs : List Sub
  monitor : Nat

/-- Facts about the program. -/
structure Ctx.OK (x : Ctx) : Prop where
  closed : Closed x.D
  value : ∀ s ∈ x.subs, ∀ r, taskResult x.W x.D s.fn s.args = some r → ∀ p ∈ outputValues s.outs r, x.D p.1 = some p.2
  own : ∀ s ∈ x.subs, ∀ o ∈ s.outs, x.own o = some s.dest

/-- A request in worker `d` is a submitted task, some of whose references were replaced by their values. -/
def Corr (x : Ctx) (d : Nat) (r : Request) : Prop :=
  ∃ s, x.subs[r.tag]? = some s ∧ s.dest = d ∧ r.task = .fn s.fn ∧ r.outs = s.outs ∧
    substList x.D r.args = substList x.D s.args ∧ (∀ i ∈ refsList r.args, i ∈ refsList s.args) ∧
    ∀ i ∈ refsList s.args, i ∈ refsList r.args ∨ x.D i ≠ none

/-- A request whose references and function are known. -/
def Ready (x : Ctx) (d : Nat) (w : Worker) (r : Request) : Prop :=
  Corr x d r ∧ KnownIn w (refsList r.args) ∧ ∀ f, r.task = .fn f → w.store f ≠ none

/-- An executed request got the values of its references. -/
def Done (x : Ctx) (d : Nat) (r : Request) : Prop :=
  ∃ s, x.subs[r.tag]? = some s ∧ s.dest = d ∧ r.task = .fn s.fn ∧ r.outs = s.outs ∧
    r.args = substList x.D s.args ∧ (∀ i ∈ refsList s.args, x.D i ≠ none) ∧ x.D s.fn ≠ none

/-- Messages a worker may send. -/
def OutOK (x : Ctx) (d : Nat) : Nat × Msg → Prop
  | (dest, .get src id b) => src = d ∧ b = false ∧ x.own id = some dest ∧ dest ≠ d
  | (dest, .putData id v) => x.D id = some v ∧ dest ≠ 0 ∧ x.own id = some d
  | (dest, .data id v) => x.D id = some v ∧ dest = 0 ∧ x.own id = some d
  | (dest, .taskDone _) => dest = x.monitor
  | _ => False

/-- Data messages in a list of messages: reference and destination. -/
def keys (l : List (Nat × Msg)) : List (Nat × Nat) :=
  l.filterMap fun p => match p.2 with
    | .putData id _ => some (id, p.1)
    | .data id _ => some (id, p.1)
    | _ => none

theorem keys_append (a b : List (Nat × Msg)) : keys (a ++ b) = keys a ++ keys b := by simp [keys]

/-- The invariant; `sent0` are the transfers recorded before the messages of the outbox. -/
structure WI (x : Ctx) (d : Nat) (sent0 : List (Nat × Nat)) (w : Worker) : Prop where
  rank : w.rank = d
  monitor : w.monitor = x.monitor
  store : Le w.store x.D
  owner : ∀ (i : Nat) (o : Nat), w.owner i = some o → x.own i = some o
  nb : ∀ p ∈ w.nbGet, x.own p.1 = some d ∧ p.2 ≠ 0
  b : ∀ p ∈ w.bGet, x.own p.1 = some d ∧ p.2 = 0
  act : w.pendingActor = []
  run : ∀ k ∈ w.running, ∃ s ∈ x.subs, k.outs = s.outs ∧ s.dest = d ∧ taskResult x.W x.D s.fn s.args = some k.result
  log : ∀ r ∈ w.log, Done x d r
  out : ∀ p ∈ w.outbox, OutOK x d p
  sent : w.sent = (keys w.outbox).reverse ++ sent0
  nodup : w.sent.Nodup

theorem WI.closed {x : Ctx} (hx : x.OK) {d : Nat} {s0 : List (Nat × Nat)} {w : Worker} (h : WI x d s0 w) :
    Closed w.store := fun i v hv => hx.closed i v (h.store i v hv)

theorem wi_asks {x : Ctx} {d : Nat} {s0 : List (Nat × Nat)} {w w' : Worker} {ids : List Nat} (h : WI x d s0 w)
    (a : Asks ids w w') : WI x d s0 w' := by
  obtain ⟨l, r, o, n, p⟩ := a.asked
  refine ⟨a.rank.trans h.rank, a.monitor.trans h.monitor, by rw [a.store]; exact h.store, by rw [a.owner]; exact h.owner,
    by rw [a.nbGet]; exact h.nb, by rw [a.bGet]; exact h.b, by rw [a.pendingActor]; exact h.act,
    by rw [a.running]; exact h.run, by rw [a.log]; exact h.log, ?_, ?_, by rw [a.sent]; exact h.nodup⟩
  · rw [o]
    intro q hq
    rw [List.mem_append] at hq
    rcases hq with hq | hq
    · exact h.out q hq
    · rw [List.mem_map] at hq
      obtain ⟨i, hi, rfl⟩ := hq
      obtain ⟨-, -, -, ow, ho, hne⟩ := p i hi
      simp only [OutOK, ho, Option.getD_some]
      refine ⟨h.rank, trivial, h.owner i ow ho, ?_⟩
      rw [← h.rank]; exact hne
  · rw [a.sent, h.sent, o, keys_append]
    have : keys (l.map fun i => ((w.owner i).getD 0, Msg.get w.rank i false)) = [] := by
      rw [keys, List.filterMap_eq_nil_iff]
      intro q hq
      rw [List.mem_map] at hq
      obtain ⟨i, -, rfl⟩ := hq
      rfl
    rw [this]; simp

/-- The invariant does not mention `pending` and `requested`. -/
theorem wi_congr {x : Ctx} {d : Nat} {s0 : List (Nat × Nat)} {w : Worker} (h : WI x d s0 w) (q : List Nat)
    (l : List Request) : WI x d s0 { w with requested := q, pending := l } :=
  ⟨h.rank, h.monitor, h.store, h.owner, h.nb, h.b, h.act, h.run, h.log, h.out, h.sent, h.nodup⟩

theorem wi_push {x : Ctx} {d : Nat} {s0 : List (Nat × Nat)} {w : Worker} (h : WI x d s0 w) (dest id : Nat) (bl : Bool)
    (v : Val) (hv : x.D id = some v) (ho : x.own id = some d) (hb : bl = true ↔ dest = 0) :
    WI x d s0 (w.push dest id bl v) := by
  simp only [Worker.push]
  split
  · exact h
  · rename_i hn
    refine ⟨h.rank, h.monitor, h.store, h.owner, h.nb, h.b, h.act, h.run, h.log, ?_, ?_, ?_⟩
    · simp only [Worker.send]
      intro q hq
      rw [List.mem_append, List.mem_singleton] at hq
      rcases hq with hq | rfl
      · exact h.out q hq
      · cases bl with
        | true => exact ⟨hv, hb.1 rfl, ho⟩
        | false => exact ⟨hv, fun hc => absurd (hb.2 hc) (by simp), ho⟩
    · simp only [Worker.send, keys_append, List.reverse_append]
      cases bl <;> simp [keys, h.sent]
    · simp only
      rw [List.nodup_cons]
      exact ⟨hn, h.nodup⟩

theorem push_static (w : Worker) (dest id : Nat) (bl : Bool) (v : Val) :
    (w.push dest id bl v).store = w.store ∧ (w.push dest id bl v).owner = w.owner ∧
    (w.push dest id bl v).nbGet = w.nbGet ∧ (w.push dest id bl v).bGet = w.bGet := by
  simp only [Worker.push]
  split <;> simp [Worker.send]

theorem wi_getRequest {x : Ctx} {d : Nat} {s0 : List (Nat × Nat)} {w : Worker} (h : WI x d s0 w) (src id : Nat)
    (bl : Bool) (ho : x.own id = some d) (hb : bl = true ↔ src = 0) : WI x d s0 (w.getRequest src id bl) := by
  simp only [Worker.getRequest]
  split
  · rename_i v hv
    apply wi_push h
    · exact h.store id v hv
    · exact ho
    · simp only [Bool.or_eq_true, decide_eq_true_eq]
      constructor
      · rintro (hc | hc)
        · exact hc
        · exact hb.1 hc
      · exact Or.inl
  · split
    · rename_i hbl
      refine ⟨h.rank, h.monitor, h.store, h.owner, h.nb, ?_, h.act, h.run, h.log, h.out, h.sent, h.nodup⟩
      intro p hp
      simp only [addReq] at hp
      split at hp
      · exact h.b p hp
      · rw [List.mem_append, List.mem_singleton] at hp
        rcases hp with hp | rfl
        · exact h.b p hp
        · exact ⟨ho, hb.1 hbl⟩
    · rename_i hbl
      refine ⟨h.rank, h.monitor, h.store, h.owner, ?_, h.b, h.act, h.run, h.log, h.out, h.sent, h.nodup⟩
      intro p hp
      simp only [addReq] at hp
      split at hp
      · exact h.nb p hp
      · rw [List.mem_append, List.mem_singleton] at hp
        rcases hp with hp | rfl
        · exact h.nb p hp
        · exact ⟨ho, fun hc => hbl (hb.2 hc)⟩

theorem wi_fold {x : Ctx} {d : Nat} {s0 : List (Nat × Nat)} (id : Nat) (bl : Bool) (ho : x.own id = some d) :
    ∀ (l : List (Nat × Nat)) (w : Worker), (∀ p ∈ l, bl = true ↔ p.2 = 0) → WI x d s0 w →
      WI x d s0 (l.foldl (fun w p => w.getRequest p.2 id bl) w)
  | [], w, _, h => h
  | p :: l, w, hb, h => wi_fold id bl ho l _ (fun q hq => hb q (List.mem_cons_of_mem _ hq))
      (wi_getRequest h p.2 id bl ho (hb p (by simp)))

theorem wi_checkGet {x : Ctx} {d : Nat} {s0 : List (Nat × Nat)} {w : Worker} (h : WI x d s0 w) (id : Nat)
    (ho : x.own id = some d) : WI x d s0 (w.checkGet id) := by
  simp only [Worker.checkGet]
  have h1 := wi_fold id false ho (w.nbGet.filter (·.1 = id)) w
    (fun p hp => by simp [(h.nb p (List.mem_filter.1 hp).1).2]) h
  generalize (w.nbGet.filter (·.1 = id)).foldl (fun w x => w.getRequest x.2 id false) w = w1 at h1 ⊢
  have h2 : WI x d s0 { w1 with nbGet := w1.nbGet.filter (·.1 ≠ id) } :=
    ⟨h1.rank, h1.monitor, h1.store, h1.owner, fun p hp => h1.nb p (List.mem_filter.1 hp).1, h1.b, h1.act, h1.run, h1.log,
      h1.out, h1.sent, h1.nodup⟩
  have h3 := wi_fold id true ho (w1.bGet.filter (·.1 = id)) _
    (fun p hp => by simp [(h2.b p (List.mem_filter.1 hp).1).2]) h2
  exact ⟨h3.rank, h3.monitor, h3.store, h3.owner, h3.nb, fun p hp => h3.b p (List.mem_filter.1 hp).1, h3.act, h3.run,
    h3.log, h3.out, h3.sent, h3.nodup⟩

theorem wi_checkGets {x : Ctx} {d : Nat} {s0 : List (Nat × Nat)} : ∀ (ids : List Nat) (w : Worker),
    (∀ o ∈ ids, x.own o = some d) → WI x d s0 w → WI x d s0 (w.checkGets ids)
  | [], w, _, h => h
  | i :: ids, w, ho, h => by
    have := wi_checkGets ids (w.checkGet i) (fun o hi => ho o (List.mem_cons_of_mem _ hi)) (wi_checkGet h i (ho i (by simp)))
    simpa [Worker.checkGets] using this

theorem wi_putAll {x : Ctx} {d : Nat} {s0 : List (Nat × Nat)} : ∀ (l : List (Nat × Val)) (w : Worker),
    (∀ p ∈ l, x.D p.1 = some p.2) → WI x d s0 w → WI x d s0 (w.putAll l)
  | [], w, _, h => h
  | p :: l, w, hl, h => by
    have h1 : WI x d s0 (w.put p.1 p.2) := by
      refine ⟨h.rank, h.monitor, ?_, h.owner, h.nb, h.b, h.act, h.run, h.log, h.out, h.sent, h.nodup⟩
      intro i v hv
      simp only [Worker.put, upd] at hv
      split at hv
      · rename_i hi
        subst hi
        rw [hl p (by simp), hv]
      · exact h.store i v hv
    have := wi_putAll l _ (fun q hq => hl q (List.mem_cons_of_mem _ hq)) h1
    simpa [Worker.putAll] using this

theorem outputs_eq {outs : List Nat} {r : Ret} {l : List (Nat × Val)} {k : List (Option Nat)}
    (h : outputs outs r = .ok (l, k)) : l = outputValues outs r := by
  cases r with
  | raise e =>
    cases outs with
    | nil => simp [outputs] at h
    | cons o t => simp only [outputs, Except.ok.injEq, Prod.mk.injEq] at h; rw [← h.1]; rfl
  | ret v =>
    match outs with
    | [] =>
      simp only [outputs, Except.ok.injEq, Prod.mk.injEq] at h
      rw [← h.1]
      cases v <;> simp [outputValues]
    | [o] => simp only [outputs, Except.ok.injEq, Prod.mk.injEq] at h; rw [← h.1]; simp [outputValues]
    | a :: b :: t =>
      cases v with
      | list vs => simp only [outputs, Except.ok.injEq, Prod.mk.injEq] at h; rw [← h.1]; simp [outputValues]
      | _ => simp [outputs] at h

theorem wi_send {x : Ctx} {d : Nat} {s0 : List (Nat × Nat)} {w : Worker} (h : WI x d s0 w) (ids : List (Option Nat)) :
    WI x d s0 (w.send w.monitor (.taskDone ids)) := by
  refine ⟨h.rank, h.monitor, h.store, h.owner, h.nb, h.b, h.act, h.run, h.log, ?_, ?_, h.nodup⟩
  · simp only [Worker.send]
    intro q hq
    rw [List.mem_append, List.mem_singleton] at hq
    rcases hq with hq | rfl
    · exact h.out q hq
    · exact h.monitor
  · simp only [Worker.send, keys_append]
    simp [keys, h.sent]

theorem wi_finish {x : Ctx} (hx : x.OK) {d : Nat} {s0 : List (Nat × Nat)} {w w' : Worker} (h : WI x d s0 w) (s : Sub)
    (hs : s ∈ x.subs) (hd : s.dest = d) (r : Ret) (hr : taskResult x.W x.D s.fn s.args = some r)
    (hf : w.finish s.outs r = .ok w') : WI x d s0 w' := by
  simp only [Worker.finish] at hf
  cases ho : outputs s.outs r with
  | error e => rw [ho] at hf; simp at hf
  | ok q =>
    obtain ⟨l, k⟩ := q
    rw [ho] at hf
    simp only [Except.ok.injEq] at hf
    subst hf
    have hl := outputs_eq ho
    have h1 : WI x d s0 (w.putAll l) := wi_putAll l w (by rw [hl]; exact hx.value s hs r hr) h
    have h2 := wi_checkGets s.outs _ (fun o ho => hd ▸ hx.own s hs o ho) h1
    have h3 := wi_send h2 k
    have : ((w.putAll l).checkGets s.outs).monitor = w.monitor := by rw [h2.monitor, h.monitor]
    rw [← this]
    exact h3

theorem wi_finishAsync {x : Ctx} (hx : x.OK) {d : Nat} {s0 : List (Nat × Nat)} {w : Worker} (h : WI x d s0 w) (s : Sub)
    (hs : s ∈ x.subs) (hd : s.dest = d) (r : Ret) (hr : taskResult x.W x.D s.fn s.args = some r) :
    WI x d s0 (w.finishAsync s.outs r) := by
  simp only [Worker.finishAsync]
  cases ho : outputs s.outs r with
  | error e => exact h
  | ok q =>
    obtain ⟨l, k⟩ := q
    simp only
    have hl := outputs_eq ho
    have h1 : WI x d s0 (w.putAll l) := wi_putAll l w (by rw [hl]; exact hx.value s hs r hr) h
    have h2 := wi_checkGets s.outs _ (fun o ho => hd ▸ hx.own s hs o ho) h1
    split
    · exact wi_send h2 k
    · exact h2

theorem firstExc_eq (args : List Val) : firstExc args = firstFailure args := by
  induction args with
  | nil => rfl
  | cons a t ih =>
    cases a <;> simp_all [firstExc, firstFailure]

/-- Executing a request whose references are all present. -/
theorem wi_execute {x : Ctx} (hx : x.OK) {d : Nat} {s0 : List (Nat × Nat)} {w w' : Worker} (h : WI x d s0 w) {r : Request}
    (hr : Ready x d w r) (hm : ∀ i ∈ refsList r.args, w.store i ≠ none)
    (he : w.execute x.W r (substList w.store r.args) = .ok w') : WI x d s0 w' := by
  obtain ⟨⟨s, c1, c2, c3, c4, c5, c6, c7⟩, -, hf⟩ := hr
  have hs : s ∈ x.subs := List.mem_of_getElem? c1
  have hargs : substList w.store r.args = substList x.D s.args := by
    rw [← c5]
    apply substList_congr
    intro i hi
    cases hv : w.store i with
    | none => exact absurd hv (hm i hi)
    | some v => rw [h.store i v hv]
  have hall : ∀ i ∈ refsList s.args, x.D i ≠ none := by
    intro i hi
    rcases c7 i hi with hc | hc
    · cases hv : w.store i with
      | none => exact absurd hv (hm i hc)
      | some v => rw [h.store i v hv]; simp
    · exact hc
  have hfn := hf s.fn c3
  obtain ⟨fv, hfv⟩ := Option.ne_none_iff_exists'.1 hfn
  have hDf := h.store s.fn fv hfv
  have hres : taskResult x.W x.D s.fn s.args =
      some (Worker.evaluate x.W { w with log := w.log ++ [{ r with args := substList w.store r.args }] } r.task
        (substList w.store r.args)).1 := by
    rw [taskResult, if_pos ⟨fun i hi => by
      obtain ⟨v, hv⟩ := Option.ne_none_iff_exists'.1 (hall i hi); simp [hv], by simp [hDf]⟩]
    simp only [Worker.evaluate, firstExc_eq, hargs, c3]
    cases firstFailure (substList x.D s.args) with
    | some e => rfl
    | none =>
      simp only [hDf, hfv]
      cases fv <;> rfl
  have hw1 : (Worker.evaluate x.W { w with log := w.log ++ [{ r with args := substList w.store r.args }] } r.task
        (substList w.store r.args)).2 = { w with log := w.log ++ [{ r with args := substList w.store r.args }] } := by
    simp only [Worker.evaluate, c3]
    split
    · rfl
    · split <;> rfl
  have h1 : WI x d s0 { w with log := w.log ++ [{ r with args := substList w.store r.args }] } := by
    refine ⟨h.rank, h.monitor, h.store, h.owner, h.nb, h.b, h.act, h.run, ?_, h.out, h.sent, h.nodup⟩
    intro q hq
    rw [List.mem_append, List.mem_singleton] at hq
    rcases hq with hq | rfl
    · exact h.log q hq
    · exact ⟨s, c1, c2, c3, c4, hargs, hall, by rw [hDf]; simp⟩
  simp only [Worker.execute] at he
  rw [hw1] at he
  split at he
  · simp only [Except.ok.injEq] at he
    subst he
    refine ⟨h1.rank, h1.monitor, h1.store, h1.owner, h1.nb, h1.b, h1.act, ?_, h1.log, h1.out, h1.sent, h1.nodup⟩
    intro k hk
    simp only [List.mem_append, List.mem_singleton] at hk
    rcases hk with hk | rfl
    · exact h.run k hk
    · exact ⟨s, hs, c4, c2, hres⟩
  · refine wi_finish hx h1 s hs c2 _ hres ?_
    rw [← c4]
    exact he

/-- What never shrinks in a worker. -/
structure Grow (w w' : Worker) : Prop where
  store : ∀ i, w.store i ≠ none → w'.store i ≠ none
  owner : w'.owner = w.owner

theorem Grow.refl (w : Worker) : Grow w w := ⟨fun _ h => h, rfl⟩

theorem Grow.trans {a b c : Worker} (h1 : Grow a b) (h2 : Grow b c) : Grow a c :=
  ⟨fun i h => h2.store i (h1.store i h), h2.owner.trans h1.owner⟩

theorem grow_getRequest (w : Worker) (src id : Nat) (bl : Bool) :
    (w.getRequest src id bl).store = w.store ∧ (w.getRequest src id bl).owner = w.owner := by
  simp only [Worker.getRequest]
  split
  · exact ⟨(push_static ..).1, (push_static ..).2.1⟩
  · split <;> exact ⟨rfl, rfl⟩

theorem grow_fold (id : Nat) (bl : Bool) : ∀ (l : List (Nat × Nat)) (w : Worker),
    (l.foldl (fun w p => w.getRequest p.2 id bl) w).store = w.store ∧
    (l.foldl (fun w p => w.getRequest p.2 id bl) w).owner = w.owner
  | [], w => ⟨rfl, rfl⟩
  | p :: l, w => by
    simp only [List.foldl_cons]
    rw [(grow_fold id bl l _).1, (grow_fold id bl l _).2]
    exact grow_getRequest w p.2 id bl

theorem checkGet_static (w : Worker) (id : Nat) : (w.checkGet id).store = w.store ∧ (w.checkGet id).owner = w.owner := by
  simp only [Worker.checkGet]
  constructor
  · rw [(grow_fold id true _ _).1]; exact (grow_fold id false _ _).1
  · rw [(grow_fold id true _ _).2]; exact (grow_fold id false _ _).2

theorem checkGets_static : ∀ (ids : List Nat) (w : Worker),
    (w.checkGets ids).store = w.store ∧ (w.checkGets ids).owner = w.owner
  | [], w => ⟨rfl, rfl⟩
  | i :: ids, w => by
    have h := checkGets_static ids (w.checkGet i)
    simp only [Worker.checkGets, List.foldl_cons] at h ⊢
    rw [h.1, h.2]
    exact checkGet_static w i

theorem grow_putAll : ∀ (l : List (Nat × Val)) (w : Worker), Grow w (w.putAll l)
  | [], w => Grow.refl w
  | p :: l, w => by
    have h := grow_putAll l (w.put p.1 p.2)
    simp only [Worker.putAll, List.foldl_cons] at h ⊢
    have h0 : Grow w (w.put p.1 p.2) := by
      refine ⟨?_, rfl⟩
      intro i hi
      simp only [Worker.put, upd]
      split
      · simp
      · exact hi
    exact h0.trans h

theorem grow_finish {w w' : Worker} {outs : List Nat} {r : Ret} (h : w.finish outs r = .ok w') : Grow w w' := by
  simp only [Worker.finish] at h
  split at h
  · simp at h
  · rename_i l k _
    simp only [Except.ok.injEq] at h
    subst h
    refine (grow_putAll l w).trans ⟨?_, ?_⟩
    · intro i hi; simp only [Worker.send]; rw [(checkGets_static outs _).1]; exact hi
    · simp only [Worker.send]; exact (checkGets_static outs _).2

theorem grow_finishAsync (w : Worker) (outs : List Nat) (r : Ret) : Grow w (w.finishAsync outs r) := by
  simp only [Worker.finishAsync]
  split
  · exact Grow.refl w
  · rename_i l k _
    have hg : Grow w ((w.putAll l).checkGets outs) := by
      refine (grow_putAll l w).trans ⟨?_, ?_⟩
      · intro i hi; rw [(checkGets_static outs _).1]; exact hi
      · exact (checkGets_static outs _).2
    split
    · exact ⟨hg.store, hg.owner⟩
    · exact hg

theorem grow_evaluate (W : World) (w : Worker) (t : Task) (args : List Val) :
    (w.evaluate W t args).2.store = w.store ∧ (w.evaluate W t args).2.owner = w.owner := by
  cases t with
  | fn id =>
    simp only [Worker.evaluate]
    split
    · exact ⟨rfl, rfl⟩
    · split <;> exact ⟨rfl, rfl⟩
  | method h c =>
    simp only [Worker.evaluate]
    split
    · exact ⟨rfl, rfl⟩
    · split
      · split <;> exact ⟨rfl, rfl⟩
      · exact ⟨rfl, rfl⟩

theorem grow_execute {W : World} {w w' : Worker} {r : Request} {args : List Val} (h : w.execute W r args = .ok w') :
    Grow w w' := by
  simp only [Worker.execute] at h
  have he := grow_evaluate W { w with log := w.log ++ [{ r with args := args }] } r.task args
  split at h
  · simp only [Except.ok.injEq] at h
    subst h
    exact ⟨by simp only; rw [he.1]; exact fun i hi => hi, he.2⟩
  · have := grow_finish h
    exact ⟨fun i hi => this.store i (by rw [he.1]; exact hi), this.owner.trans he.2⟩

theorem ready_grow {x : Ctx} {d : Nat} {w w' : Worker} {r : Request} (g : Grow w w') (h : Ready x d w r) : Ready x d w' r := by
  obtain ⟨h1, h2, h3⟩ := h
  refine ⟨h1, ?_, fun f hf => g.store f (h3 f hf)⟩
  intro i hi
  rcases h2 i hi with hc | hc
  · exact Or.inl (g.store i hc)
  · rw [g.owner]; exact Or.inr hc

/-- Keeping a request keeps it a submitted task. -/
theorem ready_pending {x : Ctx} (hx : x.OK) {d : Nat} {s0 : List (Nat × Nat)} {w : Worker} (h : WI x d s0 w) {r : Request}
    (hr : Ready x d w r) : Ready x d w { r with args := substList w.store r.args } := by
  obtain ⟨⟨s, c1, c2, c3, c4, c5, c6, c7⟩, hk, hf⟩ := hr
  have hc := h.closed hx
  refine ⟨⟨s, c1, c2, c3, c4, ?_, ?_, ?_⟩, ?_, hf⟩
  · simp only
    rw [substList_substList w.store x.D hc h.store]; exact c5
  · intro i hi
    exact c6 i ((refsList_subst w.store hc r.args i).1 hi).1
  · intro i hi
    rcases c7 i hi with hq | hq
    · cases hv : w.store i with
      | none => exact Or.inl ((refsList_subst w.store hc r.args i).2 ⟨hq, hv⟩)
      | some v => exact Or.inr (by rw [h.store i v hv]; simp)
    · exact Or.inr hq
  · intro i hi
    exact hk i ((refsList_subst w.store hc r.args i).1 hi).1

/-- One attempt at a request. -/
theorem wi_process {x : Ctx} (hx : x.OK) {d : Nat} {s0 : List (Nat × Nat)} {w w' : Worker} (h : WI x d s0 w) {r : Request}
    (hr : Ready x d w r) {o : Option Request} (hp : w.process x.W r = .ok (o, w')) :
    WI x d s0 w' ∧ Grow w w' ∧ ∀ r', o = some r' → Ready x d w' r' := by
  have hc := h.closed hx
  obtain ⟨w1, m1, a1⟩ := materializeList_spec r.args w false hc hr.2.1
  have hw1 := wi_asks h a1
  have g1 : Grow w w1 := ⟨by rw [a1.store]; exact fun i hi => hi, a1.owner⟩
  have hkn : w.known r.task = true := by
    obtain ⟨⟨s, -, -, c3, -⟩, -, hf⟩ := hr
    rw [c3]
    exact Option.isSome_iff_ne_none.2 (hf s.fn c3)
  simp only [Worker.process, hkn, if_true, m1] at hp
  cases hb : Missing w (refsList r.args) with
  | true =>
    simp only [hb, Bool.or_true, Except.ok.injEq, Prod.mk.injEq] at hp
    obtain ⟨rfl, rfl⟩ := hp
    refine ⟨hw1, g1, ?_⟩
    intro r' hr'
    simp only [Option.some.injEq] at hr'
    subst hr'
    exact ready_grow g1 (ready_pending hx h hr)
  | false =>
    simp only [hb, Bool.or_false] at hp
    cases he : w1.execute x.W r (substList w.store r.args) with
    | error e => rw [he] at hp; simp at hp
    | ok w2 =>
      rw [he] at hp
      simp only [Except.ok.injEq, Prod.mk.injEq] at hp
      obtain ⟨rfl, rfl⟩ := hp
      refine ⟨?_, (g1.trans (grow_execute he)).trans ⟨fun i hi => by rw [(checkGets_static r.outs w2).1]; exact hi,
        (checkGets_static r.outs w2).2⟩, by simp⟩
      rw [← a1.store] at he
      refine wi_checkGets r.outs _ ?_ (wi_execute hx hw1 (ready_grow g1 hr) ?_ he)
      · obtain ⟨⟨s, c1, c2, c3, c4, -⟩, -⟩ := hr
        intro o ho
        rw [c4] at ho
        exact c2 ▸ hx.own s (List.mem_of_getElem? c1) o ho
      intro i hi
      rw [a1.store]
      simp only [Missing, List.any_eq_false] at hb
      have := hb i hi
      intro hn
      simp [hn] at this

theorem wi_processAll {x : Ctx} (hx : x.OK) {d : Nat} {s0 : List (Nat × Nat)} : ∀ (rs : List Request) {w w' : Worker}
    {l : List Request}, WI x d s0 w → (∀ r ∈ rs, Ready x d w r) → w.processAll x.W rs = .ok (l, w') →
    WI x d s0 w' ∧ Grow w w' ∧ ∀ r ∈ l, Ready x d w' r
  | [], w, w', l, h, hr, hp => by
    simp only [Worker.processAll, Except.ok.injEq, Prod.mk.injEq] at hp
    obtain ⟨rfl, rfl⟩ := hp
    exact ⟨h, Grow.refl _, by simp⟩
  | r :: rs, w, w', l, h, hr, hp => by
    simp only [Worker.processAll] at hp
    split at hp
    · simp at hp
    · rename_i o w1 h1
      split at hp
      · simp at hp
      · rename_i l2 w2 h2
        simp only [Except.ok.injEq, Prod.mk.injEq] at hp
        obtain ⟨rfl, rfl⟩ := hp
        obtain ⟨i1, g1, p1⟩ := wi_process hx h (hr r (by simp)) h1
        obtain ⟨i2, g2, p2⟩ := wi_processAll hx rs i1 (fun q hq => ready_grow g1 (hr q (List.mem_cons_of_mem _ hq))) h2
        refine ⟨i2, g1.trans g2, ?_⟩
        intro q hq
        rw [List.mem_append] at hq
        rcases hq with hq | hq
        · exact ready_grow g2 (p1 q (by simpa using hq))
        · exact p2 q hq


theorem wi_checkTasks {x : Ctx} (hx : x.OK) {d : Nat} {s0 : List (Nat × Nat)} {w w' : Worker} (h : WI x d s0 w)
    (hr : ∀ r ∈ w.pending, Ready x d w r) (hp : w.checkTasks x.W = .ok w') :
    WI x d s0 w' ∧ Grow w w' ∧ ∀ r ∈ w'.pending, Ready x d w' r := by
  simp only [Worker.checkTasks] at hp
  split at hp
  · simp at hp
  · rename_i l w1 h1
    simp only [Except.ok.injEq] at hp
    subst hp
    obtain ⟨i1, g1, p1⟩ := wi_processAll hx _ h hr h1
    exact ⟨wi_congr i1 _ l, ⟨g1.store, g1.owner⟩, p1⟩

theorem checkActorTasks_nil (W : World) (w : Worker) (h : w.pendingActor = []) : w.checkActorTasks W = .ok w := by
  simp only [Worker.checkActorTasks, h, Worker.processAll]
  rw [← h]

/-- The result of a request whose references are present. -/
theorem ready_result {x : Ctx} {d : Nat} {w : Worker} (hle : Le w.store x.D) {r : Request}
    (hr : Ready x d w r) (hm : ∀ i ∈ refsList r.args, w.store i ≠ none) : ∃ s, x.subs[r.tag]? = some s ∧ s.dest = d ∧
      r.outs = s.outs ∧ ∀ w1 : Worker, w1.store = w.store →
        taskResult x.W x.D s.fn s.args = some (w1.evaluate x.W r.task (substList w.store r.args)).1 := by
  obtain ⟨⟨s, c1, c2, c3, c4, c5, c6, c7⟩, -, hf⟩ := hr
  have hargs : substList w.store r.args = substList x.D s.args := by
    rw [← c5]
    apply substList_congr
    intro i hi
    cases hv : w.store i with
    | none => exact absurd hv (hm i hi)
    | some v => rw [hle i v hv]
  have hall : ∀ i ∈ refsList s.args, x.D i ≠ none := by
    intro i hi
    rcases c7 i hi with hc | hc
    · cases hv : w.store i with
      | none => exact absurd hv (hm i hc)
      | some v => rw [hle i v hv]; simp
    · exact hc
  have hfn := hf s.fn c3
  obtain ⟨fv, hfv⟩ := Option.ne_none_iff_exists'.1 hfn
  have hDf := hle s.fn fv hfv
  refine ⟨s, c1, c2, c4, ?_⟩
  intro w1 hw1
  rw [taskResult, if_pos ⟨fun i hi => by
      obtain ⟨v, hv⟩ := Option.ne_none_iff_exists'.1 (hall i hi); simp [hv], by simp [hDf]⟩]
  simp only [Worker.evaluate, firstExc_eq, hargs, c3, hw1]
  cases firstFailure (substList x.D s.args) with
  | some e => rfl
  | none =>
    simp only [hDf, hfv]
    cases fv <;> rfl

end Verif.Worker
