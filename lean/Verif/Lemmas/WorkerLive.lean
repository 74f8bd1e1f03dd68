import Verif.Lemmas.WorkerServe
import Verif.Lemmas.WorkerStep

/-! Progress of a worker: a request is kept only if an argument is missing, and every missing argument was asked for. -/
namespace Verif.Worker
open Verif.Spec

/-! ### Messages sent are not lost -/

/-- The outbox grows. -/
def OutLe (w w' : Worker) : Prop := ∀ p ∈ w.outbox, p ∈ w'.outbox

theorem OutLe.trans {a b c : Worker} (h1 : OutLe a b) (h2 : OutLe b c) : OutLe a c := fun p hp => h2 p (h1 p hp)

theorem out_push (w : Worker) (dest id : Nat) (bl : Bool) (v : Val) : OutLe w (w.push dest id bl v) := by
  intro p hp
  simp only [Worker.push]
  split
  · exact hp
  · simp [Worker.send, hp]

theorem out_getRequest (w : Worker) (src id : Nat) (bl : Bool) : OutLe w (w.getRequest src id bl) := by
  intro p hp
  simp only [Worker.getRequest]
  split
  · exact out_push _ _ _ _ _ p hp
  · split <;> exact hp

theorem out_fold (id : Nat) (bl : Bool) : ∀ (l : List (Nat × Nat)) (w : Worker),
    OutLe w (l.foldl (fun w x => w.getRequest x.2 id bl) w)
  | [], _ => fun _ hp => hp
  | x :: l, w => (out_getRequest w x.2 id bl).trans (out_fold id bl l _)

theorem out_checkGet (w : Worker) (id : Nat) : OutLe w (w.checkGet id) := by
  intro p hp
  simp only [Worker.checkGet]
  exact out_fold id true _ _ p (out_fold id false _ _ p hp)

theorem out_checkGets : ∀ (ids : List Nat) (w : Worker), OutLe w (w.checkGets ids)
  | [], _ => fun _ hp => hp
  | i :: ids, w => (out_checkGet w i).trans (out_checkGets ids _)

theorem out_putAll : ∀ (l : List (Nat × Val)) (w : Worker), (w.putAll l).outbox = w.outbox
  | [], _ => rfl
  | x :: l, w => out_putAll l (w.put x.1 x.2)

theorem putAll_store : ∀ (l : List (Nat × Val)) (w : Worker) (i : Nat), (w.putAll l).store i ≠ none →
    w.store i ≠ none ∨ i ∈ l.map (·.1)
  | [], _, _, h => Or.inl h
  | x :: l, w, i, h => by
    rcases putAll_store l (w.put x.1 x.2) i h with hc | hc
    · simp only [Worker.put, upd] at hc
      split at hc
      · rename_i hi; right; simp [hi]
      · exact Or.inl hc
    · right; simp [hc]

theorem putAll_has : ∀ (l : List (Nat × Val)) (w : Worker) (i : Nat), i ∈ l.map (·.1) → (w.putAll l).store i ≠ none
  | x :: l, w, i, h => by
    simp only [List.map_cons, List.mem_cons] at h
    rcases h with rfl | h
    · exact (grow_putAll l (w.put x.1 x.2)).store _ (by simp [Worker.put, upd])
    · exact putAll_has l _ i h

/-- What executing a plain task does; `P` are the outputs that get a value. -/
theorem execute_live {W : World} {w w' : Worker} {r : Request} {f : Nat} (hf : r.task = .fn f) {P : Nat → Prop}
    (hsync : w.taskAsync W r.task = false) {args : List Val}
    (hP : ∀ l k, outputs r.outs (Worker.evaluate W { w with log := w.log ++ [{ r with args := args }] } r.task args).1 = .ok (l, k) →
      ∀ o ∈ r.outs, P o → o ∈ l.map (·.1))
    (h : w.execute W r args = .ok w') :
    OutLe w w' ∧ (∀ o ∈ r.outs, P o → w'.store o ≠ none) ∧ (∀ i, w'.store i ≠ none → w.store i ≠ none ∨ i ∈ r.outs) ∧
      w'.running = w.running ∧
      ∀ s0 H t, (t ∈ r.outs → P t) → Serve s0 t [] H w → Serve s0 t [] H w' := by
  simp only [Worker.execute, hsync] at h
  rw [hf, evaluate_fn] at h
  rw [hf] at hP
  generalize (Worker.evaluate W { w with log := w.log ++ [{ r with args := args }] } (.fn f) args).1 = res at h hP
  simp only [Bool.false_eq_true, if_false, Worker.finish] at h
  split at h
  · simp at h
  · rename_i l k ho
    simp only [Except.ok.injEq] at h
    subst h
    have hst := fun w0 : Worker => (checkGets_static r.outs (w0.putAll l)).1
    have hco := fun w0 : Worker => core_ext ((checkGets_core r.outs (w0.putAll l)).trans (putAll_core l w0))
    refine ⟨?_, ?_, ?_, by simp [Worker.send, hco], ?_⟩
    · intro p hp
      simp only [Worker.send, List.mem_append]
      left
      apply out_checkGets
      rw [out_putAll]
      exact hp
    · intro o hoo hPo
      simp only [Worker.send]
      rw [hst]
      exact putAll_has _ _ _ (hP l k ho o hoo hPo)
    · intro i hi
      simp only [Worker.send] at hi
      rw [hst] at hi
      rcases putAll_store _ _ _ hi with hc | hc
      · exact Or.inl hc
      · exact Or.inr (by rw [outputs_eq ho] at hc; exact (outputValues_fst _ _).subset hc)
    · intro s0 H t ht hs
      have h1 : Serve s0 t [] H { w with log := w.log ++ [⟨r.tag, .fn f, args, r.outs⟩] } :=
        serve_congr hs rfl rfl rfl rfl (l := []) (by simp) (by simp)
      exact serve_congr (serve_stored h1 (fun hm => hP l k ho t hm (ht hm)) ho) rfl rfl rfl rfl
        (l := [(w.monitor, .taskDone k)]) (by simp [Worker.send, hco]) (by simp)

theorem executed_live {W : World} {w w' : Worker} {r : Request} {f : Nat} (hf : r.task = .fn f) {P : Nat → Prop}
    (hsync : w.taskAsync W r.task = false) {args : List Val}
    (hP : ∀ l k, outputs r.outs (Worker.evaluate W { w with log := w.log ++ [{ r with args := args }] } r.task args).1 = .ok (l, k) →
      ∀ o ∈ r.outs, P o → o ∈ l.map (·.1))
    (h : Executed W w r args w') :
    OutLe w w' ∧ (∀ o ∈ r.outs, P o → w'.store o ≠ none) ∧ (∀ i, w'.store i ≠ none → w.store i ≠ none ∨ i ∈ r.outs) ∧
      w'.running = w.running ∧
      ∀ s0 H t, (t ∈ r.outs → P t) → Serve s0 t [] H w → Serve s0 t [] H w' := by
  obtain ⟨w2, h, rfl⟩ := h
  obtain ⟨a, b, c, d, e⟩ := execute_live hf hsync hP h
  have hst := (checkGets_static r.outs w2).1
  refine ⟨fun p hp => out_checkGets _ _ _ (a p hp), by rw [hst]; exact b, by rw [hst]; exact c, ?_, ?_⟩
  · have hc := core_ext (checkGets_core r.outs w2)
    simp only [hc, d]
  · exact fun s0 H t ht hs => serve_checkGets r.outs (serve_weaken (by simp) (e s0 H t ht hs)) (fun hm => b t hm (ht hm))

theorem grow_executed {W : World} {w w' : Worker} {r : Request} {args : List Val} (h : Executed W w r args w') : Grow w w' := by
  obtain ⟨w2, h, rfl⟩ := h
  exact (grow_execute h).trans ⟨fun i hi => by rw [(checkGets_static r.outs w2).1]; exact hi, (checkGets_static r.outs w2).2⟩

/-- `r'` does not make an argument of `r`. -/
def Before (r r' : Request) : Prop := ∀ i ∈ refsList r.args, i ∉ r'.outs

/-- A request that is rightly kept. -/
def Held (w : Worker) (r : Request) : Prop :=
  (∃ i ∈ refsList r.args, w.store i = none) ∧
    ∀ i ∈ refsList r.args, w.store i = none → ∀ o, w.owner i = some o → o ≠ w.rank → i ∈ w.requested

/-- New entries of `requested` come with a request. -/
def AsksFor (w w' : Worker) : Prop := (∀ i ∈ w.requested, i ∈ w'.requested) ∧ OutLe w w' ∧
  ∀ i ∈ w'.requested, i ∈ w.requested ∨ ∃ o, w.owner i = some o ∧ (o, Msg.get w.rank i false) ∈ w'.outbox

theorem AsksFor.trans {a b c : Worker} (h1 : AsksFor a b) (h2 : AsksFor b c) (ho : b.owner = a.owner) (hr : b.rank = a.rank) :
    AsksFor a c := by
  refine ⟨fun i hi => h2.1 i (h1.1 i hi), h1.2.1.trans h2.2.1, ?_⟩
  intro i hi
  rcases h2.2.2 i hi with hc | ⟨o, h3, h4⟩
  · rcases h1.2.2 i hc with hc | ⟨o, h3, h4⟩
    · exact Or.inl hc
    · exact Or.inr ⟨o, h3, h2.2.1 _ h4⟩
  · rw [ho] at h3
    rw [hr] at h4
    exact Or.inr ⟨o, h3, h4⟩

theorem asks_asksFor {ids : List Nat} {w w' : Worker} (a : Asks ids w w') : AsksFor w w' := by
  obtain ⟨l, h1, h2, h3, h4⟩ := a.asked
  refine ⟨?_, ?_, ?_⟩
  · intro i hi; rw [h1]; simp [hi]
  · intro p hp; rw [h2]; simp [hp]
  · intro i hi
    rw [h1, List.mem_append, List.mem_reverse] at hi
    rcases hi with hi | hi
    · obtain ⟨-, -, -, o, ho, -⟩ := h4 i hi
      refine Or.inr ⟨o, ho, ?_⟩
      rw [h2, List.mem_append, List.mem_map]
      exact Or.inr ⟨i, hi, by rw [ho]; rfl⟩
    · exact Or.inl hi

variable {x : Ctx} {d : Nat} {s0 : List (Nat × Nat)} {H : List Req}

/-- If the reference is an output then it has a value. -/
def Good (x : Ctx) (t : Nat) : Prop := ∀ s ∈ x.subs, t ∈ s.outs → x.D t ≠ none

/-- No submitted task is a coroutine. -/
def Sync (x : Ctx) : Prop := ∀ s ∈ x.subs, ∀ c, x.D s.fn = some (.code c) → x.W.isAsync c = false

/-- Values of outputs come from their task. -/
def Made (x : Ctx) : Prop := ∀ s ∈ x.subs, ∀ o ∈ s.outs, ∀ v, x.D o = some v →
  ∃ r, taskResult x.W x.D s.fn s.args = some r ∧ (o, v) ∈ outputValues s.outs r

/-- Executed tasks have stored all outputs that have a value. -/
def LogStored (x : Ctx) (w : Worker) : Prop := ∀ r ∈ w.log, ∀ o ∈ r.outs, x.D o ≠ none → w.store o ≠ none

/-- And no request for data is lost. -/
structure Stored (x : Ctx) (s0 : List (Nat × Nat)) (H : List Req) (w : Worker) : Prop where
  log : LogStored x w
  serve : ∀ t, Good x t → Serve s0 t [] H w

/-- One attempt. -/
theorem process_live (hx : x.OK) (hsy : Sync x) (hmk : Made x) {w w' : Worker} (h : WI x d s0 w) (hl : Stored x s0 H w) {r : Request}
    (hr : Ready x d w r) {o : Option Request} (hp : w.process x.W r = .ok (o, w')) :
    Stored x s0 H w' ∧ AsksFor w w' ∧ w'.owner = w.owner ∧ (w'.rank = w.rank ∧ w'.running = w.running) ∧
    (∀ i, w.store i ≠ none → w'.store i ≠ none) ∧
    (∀ i, w'.store i ≠ none → w.store i ≠ none ∨ (o = none ∧ i ∈ r.outs)) ∧
    ∀ q ∈ o, (q.outs = r.outs ∧ q.task = r.task) ∧ (∀ i ∈ refsList q.args, i ∈ refsList r.args) ∧ Held w' q := by
  have hr0 := hr
  obtain ⟨⟨s, c1, -, c3, c4, -⟩, hk, hf⟩ := hr
  rcases process_spec c3 (hf _ c3) (h.closed hx) hk hp with ⟨rfl, a, hm⟩ | ⟨rfl, hm, he⟩
  · obtain ⟨la, -, ha, -⟩ := a.asked
    refine ⟨⟨?_, fun t ht => serve_congr (hl.serve t ht) a.store a.nbGet a.bGet a.sent ha (by
      intro p hp; rw [List.mem_map] at hp; obtain ⟨i, -, rfl⟩ := hp; simp)⟩, asks_asksFor a, a.owner, ⟨a.rank, a.running⟩, by rw [a.store]; exact fun i hi => hi,
      by rw [a.store]; exact fun i hi => Or.inl hi, ?_⟩
    · intro q hq; rw [a.log] at hq; rw [a.store]; exact hl.log q hq
    · intro q hq
      simp only [Option.mem_def, Option.some.injEq] at hq
      subst hq
      have hiff := refsList_subst w.store (h.closed hx) r.args
      refine ⟨⟨rfl, rfl⟩, fun i hi => ((hiff i).1 hi).1, ?_, ?_⟩
      · simp only [Missing, List.any_eq_true] at hm
        obtain ⟨i, hi, hn⟩ := hm
        have hn' : w.store i = none := by simpa using hn
        exact ⟨i, (hiff i).2 ⟨hi, hn'⟩, by rw [a.store]; exact hn'⟩
      · intro i hi _ o ho hne
        obtain ⟨hi1, hi2⟩ := (hiff i).1 hi
        rw [a.owner] at ho
        rw [a.rank] at hne
        exact a.all i hi1 hi2 o ho hne
  · obtain ⟨e1, e2, e3, e4, e5, e6⟩ := executed_fn c3 he
    have hmem : ∀ i ∈ refsList r.args, w.store i ≠ none := by
      intro i hi hc
      simp only [Missing, List.any_eq_false] at hm
      have := hm i hi
      simp [hc] at this
    obtain ⟨s', q1, -, q3, q4⟩ := ready_result h.store hr0 hmem
    obtain rfl : s' = s := by rw [c1] at q1; simpa using q1.symm
    have hs : s' ∈ x.subs := List.mem_of_getElem? c1
    have hsyn : w.taskAsync x.W r.task = false := by
      rw [c3]
      simp only [Worker.taskAsync]
      split
      · rename_i hc
        exact hsy s' hs _ (h.store _ _ hc)
      · rfl
    obtain ⟨g1, g2, g3, g4, g5⟩ := executed_live (P := fun o => x.D o ≠ none) c3 hsyn (by
      intro l k ho o hoo hDo
      obtain ⟨v, hv⟩ := Option.ne_none_iff_exists'.1 hDo
      obtain ⟨res, hres, hin⟩ := hmk s' hs o (by rw [← c4]; exact hoo) v hv
      have q5 := q4 { w with log := w.log ++ [{ r with args := substList w.store r.args }] } rfl
      rw [hres, Option.some.injEq] at q5
      rw [outputs_eq ho, ← q5, List.mem_map]
      exact ⟨(o, v), by rw [c4]; exact hin, rfl⟩) he
    have hg := grow_executed he
    refine ⟨⟨?_, fun t ht => g5 s0 H t (fun hm => ht s' hs (by rw [← c4]; exact hm)) (hl.serve t ht)⟩, ⟨by rw [e3]; exact fun i hi => hi, g1, by rw [e3]; exact fun i hi => Or.inl hi⟩, e4, ⟨e5, g4⟩, hg.store, ?_, by simp⟩
    · intro q hq
      rw [e1, List.mem_append, List.mem_singleton] at hq
      rcases hq with hq | rfl
      · exact fun o ho hD => hg.store o (hl.log q hq o ho hD)
      · exact g2
    · intro i hi
      rcases g3 i hi with hc | hc
      · exact Or.inl hc
      · exact Or.inr ⟨rfl, hc⟩

/-- All requests kept. -/
theorem processAll_live (hx : x.OK) (hsy : Sync x) (hmk : Made x) : ∀ (rs : List Request) {w w' : Worker} {l : List Request},
    WI x d s0 w → Stored x s0 H w → (∀ r ∈ rs, Ready x d w r) → rs.Pairwise Before →
    w.processAll x.W rs = .ok (l, w') →
    Stored x s0 H w' ∧ AsksFor w w' ∧ w'.owner = w.owner ∧ (w'.rank = w.rank ∧ w'.running = w.running) ∧
    (∀ i, w.store i ≠ none → w'.store i ≠ none) ∧
    (∀ i, w'.store i ≠ none → w.store i ≠ none ∨ ∃ r ∈ rs, i ∈ r.outs) ∧
    (∀ q ∈ l, ∃ r ∈ rs, (q.outs = r.outs ∧ q.task = r.task) ∧ ∀ i ∈ refsList q.args, i ∈ refsList r.args) ∧ (∀ q ∈ l, Held w' q) ∧
    l.Pairwise Before
  | [], w, w', l, h, hl, hr, hpw, hp => by
    simp only [Worker.processAll, Except.ok.injEq, Prod.mk.injEq] at hp
    obtain ⟨rfl, rfl⟩ := hp
    exact ⟨hl, ⟨fun i hi => hi, fun p hp => hp, fun i hi => Or.inl hi⟩, rfl, ⟨rfl, rfl⟩, fun i hi => hi, fun i hi => Or.inl hi,
      by simp, by simp, List.Pairwise.nil⟩
  | r :: rs, w, w', l, h, hl, hr, hpw, hp => by
    simp only [Worker.processAll] at hp
    split at hp
    · simp at hp
    · rename_i o w1 h1
      split at hp
      · simp at hp
      · rename_i l2 w2 h2
        simp only [Except.ok.injEq, Prod.mk.injEq] at hp
        obtain ⟨rfl, rfl⟩ := hp
        rw [List.pairwise_cons] at hpw
        obtain ⟨i1, g1, p1⟩ := wi_process hx h (hr r (by simp)) h1
        obtain ⟨a1, a2, a3, a4, a5, a6, a7⟩ := process_live hx hsy hmk h hl (hr r (by simp)) h1
        obtain ⟨b1, b2, b3, b4, b5, b6, b7, b8, b9⟩ := processAll_live hx hsy hmk rs i1 a1
          (fun q hq => ready_grow g1 (hr q (List.mem_cons_of_mem _ hq))) hpw.2 h2
        refine ⟨b1, a2.trans b2 a3 a4.1, b3.trans a3, ⟨b4.1.trans a4.1, b4.2.trans a4.2⟩, fun i hi => b5 i (a5 i hi), ?_, ?_, ?_, ?_⟩
        · intro i hi
          rcases b6 i hi with hc | ⟨q, hq, hc⟩
          · rcases a6 i hc with hc | ⟨-, hc⟩
            · exact Or.inl hc
            · exact Or.inr ⟨r, by simp, hc⟩
          · exact Or.inr ⟨q, by simp [hq], hc⟩
        · intro q hq
          rw [List.mem_append] at hq
          rcases hq with hq | hq
          · obtain ⟨e1, e2, -⟩ := a7 q (by simpa using hq)
            exact ⟨r, by simp, e1, e2⟩
          · obtain ⟨r', hr', e⟩ := b7 q hq
            exact ⟨r', by simp [hr'], e⟩
        · intro q hq
          rw [List.mem_append] at hq
          rcases hq with hq | hq
          · obtain ⟨e1, e2, ⟨i, hi, hn⟩, e4⟩ := a7 q (by simpa using hq)
            refine ⟨⟨i, hi, ?_⟩, ?_⟩
            · cases hs : w2.store i with
              | none => rfl
              | some v =>
                rcases b6 i (by rw [hs]; simp) with hc | ⟨q', hq', hc⟩
                · exact absurd hn hc
                · exact absurd hc (hpw.1 q' hq' i (e2 i hi))
            · intro j hj hjn oo ho hne
              rw [b3] at ho
              rw [b4.1] at hne
              refine b2.1 j (e4 j hj ?_ oo ho hne)
              cases hs : w1.store j with
              | none => rfl
              | some v => exact absurd hjn (b5 j (by rw [hs]; simp))
          · exact b8 q hq
        · rw [List.pairwise_append]
          refine ⟨?_, b9, ?_⟩
          · cases o with
            | none => simp
            | some q => simp
          · intro q hq q' hq' i hi hc
            obtain ⟨e1, e2, -⟩ := a7 q (by simpa using hq)
            obtain ⟨r', hr', e3, -⟩ := b7 q' hq'
            rw [e3.1] at hc
            exact hpw.1 r' hr' i (e2 i hi) hc

/-- Requests in a list of messages. -/
def execReqs (l : List Msg) : List Request :=
  l.filterMap fun
    | .execute r => some r
    | _ => none

/-- The progress invariant of a worker. -/
structure WL (x : Ctx) (w : Worker) : Prop where
  log : LogStored x w
  held : ∀ r ∈ w.pending, Held w r
  order : w.pending.Pairwise Before
  run : w.running = []

theorem checkTasks_live (hx : x.OK) (hsy : Sync x) (hmk : Made x) {w w' : Worker} (h : WI x d s0 w) (hl : Stored x s0 H w)
    (hr : ∀ r ∈ w.pending, Ready x d w r) (ho : w.pending.Pairwise Before)
    (hrun : w.running = []) (hp : w.checkTasks x.W = .ok w') :
    (WL x w' ∧ ∀ t, Good x t → Serve s0 t [] H w') ∧ AsksFor w w' ∧ w'.owner = w.owner ∧ w'.rank = w.rank ∧
    ∀ q ∈ w'.pending, ∃ r ∈ w.pending, (q.outs = r.outs ∧ q.task = r.task) ∧ ∀ i ∈ refsList q.args, i ∈ refsList r.args := by
  simp only [Worker.checkTasks] at hp
  split at hp
  · simp at hp
  · rename_i l w1 h1
    simp only [Except.ok.injEq] at hp
    subst hp
    obtain ⟨b1, b2, b3, b4, b5, b6, b7, b8, b9⟩ := processAll_live hx hsy hmk _ h hl hr ho h1
    exact ⟨⟨⟨b1.log, b8, b9, by simp only; rw [b4.2]; exact hrun⟩,
      fun t ht => serve_congr (b1.serve t ht) rfl rfl rfl rfl (l := []) (by simp) (by simp)⟩, b2, b3, b4.1, b7⟩

/-- One operation. -/
theorem handle_live (hx : x.OK) (hsy : Sync x) (hmk : Made x) {s : Nat} (hd : d ≠ 0) {w w' : Worker}
    (h : WI x d s0 w) (hp : ∀ r ∈ w.pending, Ready x d w r) {m : Msg} (hm : MsgOK x s d m)
    (ha : Arrives (fun i => w.store i ≠ none ∨ w.owner i ≠ none) (fun i => w.store i ≠ none) m)
    (hl : WL x w) (hsv : ∀ t, Good x t → Serve s0 t [] H w) (ho : ∀ r ∈ w.pending, ∀ q ∈ execReqs [m], Before r q)
    (hown : ∀ i v, m = .putData i v → w.store i = none → ∀ q ∈ H, q.1 ≠ i) (hh : w.handle x.W m = .ok w') :
    (WL x w' ∧ ∀ t, Good x t → Serve s0 t [] (H ++ reqOf (.op m)) w') ∧ (∀ q ∈ w'.pending, ∃ r ∈ w.pending ++ execReqs [m], ∀ i ∈ refsList q.args, i ∈ refsList r.args) ∧
      ∀ i ∈ w'.requested, i ∈ w.requested ∨ ∃ o, w.owner i = some o ∧ (o, Msg.get d i false) ∈ w'.outbox := by
  have hrank := h.rank
  cases m with
  | execute r =>
    have hr : Ready x d w r := ⟨hm.2, ha.1, ha.2⟩
    have her : execReqs [.execute r] = [r] := rfl
    rw [her] at ho ⊢
    simp only [reqOf, List.append_nil]
    have hbef : ∀ q ∈ w.pending, Before q r := fun q hq => ho q hq r (by simp)
    simp only [Worker.handle] at hh
    split at hh
    · simp at hh
    · rename_i r' w1 h1
      simp only [Except.ok.injEq] at hh
      subst hh
      obtain ⟨a1, a2, a3, a4, a5, a6, a7⟩ := process_live hx hsy hmk h ⟨hl.log, hsv⟩ hr h1
      obtain ⟨⟨su, -, -, c3, -⟩, hk, hf'⟩ := hr
      rcases process_spec c3 (hf' _ c3) (h.closed hx) hk h1 with ⟨ho', a, -⟩ | ⟨ho', -, he⟩
      · obtain ⟨e1, e2, e3⟩ := a7 r' rfl
        have hpe : w1.pending = w.pending := a.pending
        refine ⟨⟨⟨a1.log, ?_, ?_, by simp only; rw [a4.2]; exact hl.run⟩,
          fun t ht => serve_congr (a1.serve t ht) rfl rfl rfl rfl (l := []) (by simp) (by simp)⟩, ?_, ?_⟩
        · intro q hq
          simp only [List.mem_append, List.mem_singleton] at hq
          rcases hq with hq | rfl
          · rw [hpe] at hq
            obtain ⟨⟨i, hi, hn⟩, hq2⟩ := hl.held q hq
            refine ⟨⟨i, hi, by simp only; rw [a.store]; exact hn⟩, ?_⟩
            intro j hj hjn oo hoo hne
            simp only at hjn hoo hne ⊢
            rw [a.store] at hjn
            rw [a.owner] at hoo
            rw [a.rank] at hne
            exact a2.1 j (hq2 j hj hjn oo hoo hne)
          · exact e3
        · simp only
          rw [hpe, List.pairwise_append]
          refine ⟨hl.order, by simp, ?_⟩
          intro q hq q' hq' i hi
          rw [List.mem_singleton] at hq'
          subst hq'
          rw [e1.1]
          exact hbef q hq i hi
        · intro q hq
          simp only [List.mem_append, List.mem_singleton] at hq ⊢
          rcases hq with hq | rfl
          · rw [hpe] at hq; exact ⟨q, Or.inl hq, fun i hi => hi⟩
          · exact ⟨r, Or.inr rfl, e2⟩
        · intro i hi
          have := a2.2.2 i hi
          rw [hrank] at this
          exact this
      · simp at ho'
    · rename_i w1 h1
      obtain ⟨i1, g1, -⟩ := wi_process hx h hr h1
      obtain ⟨a1, a2, a3, a4, a5, a6, a7⟩ := process_live hx hsy hmk h ⟨hl.log, hsv⟩ hr h1
      obtain ⟨⟨su, -, -, c3, -⟩, hk, hf'⟩ := hr
      rcases process_spec c3 (hf' _ c3) (h.closed hx) hk h1 with ⟨ho', a, -⟩ | ⟨ho', -, he⟩
      · simp at ho'
      · obtain ⟨e1, e2, -⟩ := executed_fn c3 he
        have hp1 : ∀ q ∈ w1.pending, Ready x d w1 q := by
          intro q hq
          rw [e2] at hq
          exact ready_grow g1 (hp q hq)
        obtain ⟨b1, b2, b3, b4, b5⟩ := checkTasks_live hx hsy hmk i1 a1 hp1 (by rw [e2]; exact hl.order)
          (by rw [a4.2]; exact hl.run) hh
        refine ⟨b1, ?_, ?_⟩
        · intro q hq
          obtain ⟨r', hr', -, e⟩ := b5 q hq
          rw [e2] at hr'
          exact ⟨r', List.mem_append_left _ hr', e⟩
        · intro i hi
          have := (a2.trans b2 a3 a4.1).2.2 i hi
          rw [hrank] at this
          exact this
  | get src id b =>
    simp only [Worker.handle, Except.ok.injEq] at hh
    subst hh
    have hc := core_ext (getRequest_core w src id b)
    have hst := grow_getRequest w src id b
    refine ⟨⟨⟨?_, ?_, ?_, by rw [hc.2.2.2.2.2.2.2.1]; exact hl.run⟩, fun t ht => serve_get (hsv t ht) src id b⟩, ?_, ?_⟩
    · intro q hq; rw [hc.2.2.2.2.2.2.2.2] at hq; rw [hst.1]; exact hl.log q hq
    · intro q hq
      rw [hc.2.2.2.2.1] at hq
      have := hl.held q hq
      simp only [Held, hst.1, hst.2, hc.1, hc.2.2.2.1]
      exact this
    · rw [hc.2.2.2.2.1]; exact hl.order
    · intro q hq; rw [hc.2.2.2.2.1] at hq; exact ⟨q, List.mem_append_left _ hq, fun i hi => hi⟩
    · intro i hi; rw [hc.2.2.2.1] at hi; exact Or.inl hi
  | putData id v =>
    obtain ⟨m1, -⟩ := hm
    simp only [Worker.handle] at hh
    have i0 : WI x d s0 { w.put id v with requested := w.requested.filter (· ≠ id) } := by
      refine ⟨h.rank, h.monitor, ?_, h.owner, h.nb, h.b, h.act, h.run, h.log, h.out, h.sent, h.nodup⟩
      intro i u hu
      simp only [Worker.put, upd] at hu
      split at hu
      · rename_i hi
        subst hi
        rw [m1, hu]
      · exact h.store i u hu
    have g0 : ∀ i, w.store i ≠ none → (upd w.store id v) i ≠ none := by
      intro i hi
      simp only [upd]
      split
      · simp
      · exact hi
    have hp0 : ∀ q ∈ w.pending, Ready x d { w.put id v with requested := w.requested.filter (· ≠ id) } q :=
      fun q hq => ready_grow ⟨g0, rfl⟩ (hp q hq)
    have hs0 : ∀ t, Good x t → Serve s0 t [] H { w.put id v with requested := w.requested.filter (· ≠ id) } := by
      intro t ht
      have h1 := hsv t ht
      have hk : ∀ q ∈ H, w.store q.1 = none → (w.put id v).store q.1 = none := by
        intro q hq hn
        simp only [Worker.put, upd]
        rw [if_neg]
        · exact hn
        · intro he
          exact hown id v rfl (by rw [← he]; exact hn) q hq he
      refine ⟨?_, ?_, h1.sent, h1.nodup, h1.all, h1.kind, fun p hp => g0 _ (h1.has p hp)⟩
      · intro p hp
        obtain ⟨a, b⟩ := h1.nb p hp
        exact ⟨a.imp_right (hk _ b), b⟩
      · intro p hp
        obtain ⟨a, b⟩ := h1.b p hp
        exact ⟨a.imp_right (hk _ b), b⟩
    simp only [reqOf, List.append_nil]
    split at hh
    · simp at hh
    · rename_i w1 h1
      obtain ⟨i2, g2, p2⟩ := wi_checkTasks hx i0 hp0 h1
      rw [checkActorTasks_nil _ _ i2.act] at hh
      simp only [Except.ok.injEq] at hh
      subst hh
      obtain ⟨b1, b2, b3, b4, b5⟩ := checkTasks_live (H := H) hx hsy hmk i0 ⟨fun q hq o hoo hD => g0 o (hl.log q hq o hoo hD), hs0⟩ hp0 hl.order
        hl.run h1
      refine ⟨b1, ?_, ?_⟩
      · intro q hq
        obtain ⟨r', hr', -, e⟩ := b5 q hq
        exact ⟨r', List.mem_append_left _ hr', e⟩
      · intro i hi
        rcases b2.2.2 i hi with hc | ⟨o, h3, h4⟩
        · simp only [List.mem_filter] at hc
          exact Or.inl hc.1
        · refine Or.inr ⟨o, h3, ?_⟩
          rw [← hrank]; exact h4
  | putOwner id o =>
    simp only [Worker.handle, Except.ok.injEq] at hh
    subst hh
    refine ⟨⟨⟨hl.log, ?_, hl.order, hl.run⟩, fun t ht => by
      simp only [reqOf, List.append_nil]
      exact serve_congr (hsv t ht) rfl rfl rfl rfl (l := []) (by simp) (by simp)⟩, fun q hq => ⟨q, List.mem_append_left _ hq, fun i hi => hi⟩, fun i hi => Or.inl hi⟩
    intro q hq
    obtain ⟨h1, h2⟩ := hl.held q hq
    refine ⟨h1, ?_⟩
    intro i hi hn oo hoo hne
    simp only [upd] at hoo
    split at hoo
    · rename_i hid
      subst hid
      simp only [Option.some.injEq] at hoo
      subst hoo
      rcases (hp q hq).2.1 i hi with hk | hk
      · exact absurd hn hk
      · obtain ⟨o', ho'⟩ := Option.ne_none_iff_exists'.1 hk
        have e1 := h.owner i o' ho'
        rw [hm] at e1
        simp only [Option.some.injEq] at e1
        subst e1
        exact h2 i hi hn _ ho' hne
    · exact h2 i hi hn oo hoo hne
  | actorCreate _ _ => exact absurd hm id
  | actorExecute _ _ _ => exact absurd hm id
  | data id v => exact absurd hm.2.1 hd
  | taskDone ids =>
    simp only [Worker.handle, Except.ok.injEq] at hh
    subst hh
    exact ⟨⟨hl, by simpa [reqOf] using hsv⟩, fun q hq => ⟨q, List.mem_append_left _ hq, fun i hi => hi⟩, fun i hi => Or.inl hi⟩

end Verif.Worker
