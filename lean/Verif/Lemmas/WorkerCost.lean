import Verif.Lemmas.Worker

/-! A potential of a worker that bounds the number of messages it can still cause. -/
namespace Verif.Worker

theorem countP_mono {α : Type} {p q : α → Bool} : ∀ (l : List α), (∀ x ∈ l, p x = true → q x = true) →
    l.countP p ≤ l.countP q
  | [], _ => by simp
  | a :: t, h => by
    have h1 := countP_mono t (fun x hx => h x (List.mem_cons_of_mem _ hx))
    have h2 := h a (by simp)
    simp only [List.countP_cons]
    split
    · rename_i hp; rw [if_pos (h2 hp)]; omega
    · omega

theorem countP_drop {α : Type} {p q : α → Bool} {x : α} (hp : p x = false) (hq : q x = true) : ∀ (l : List α), x ∈ l →
    (∀ y ∈ l, p y = true → q y = true) → l.countP p + 1 ≤ l.countP q
  | [], hx, _ => by simp at hx
  | a :: t, hx, h => by
    have h1 := countP_mono t (fun x hx => h x (List.mem_cons_of_mem _ hx))
    have h2 := h a (by simp)
    simp only [List.countP_cons]
    rcases List.mem_cons.1 hx with rfl | hx
    · rw [hp, hq]; simp; omega
    · have h3 := countP_drop hp hq t hx (fun y hy => h y (List.mem_cons_of_mem _ hy))
      split
      · rename_i hp; rw [if_pos (h2 hp)]; omega
      · omega

/-- How many steps a message can cause at most. -/
def weight : Msg → Nat
  | .execute _ => 3
  | .actorExecute _ _ _ => 3
  | .get _ _ _ => 2
  | _ => 1

/-- The messages in a list of messages with destinations. -/
def weightOut (l : List (Nat × Msg)) : Nat := (l.map fun x => weight x.2).sum

theorem weightOut_append (a b : List (Nat × Msg)) : weightOut (a ++ b) = weightOut a + weightOut b := by
  simp [weightOut]

/-- The references below `N` that the worker may still ask for. -/
def Worker.asks (N : Nat) (w : Worker) : Nat :=
  (List.range N).countP fun i => (w.store i).isNone && !(w.requested.contains i)

/-- The potential without the held back tasks. -/
def Worker.cost (N : Nat) (w : Worker) : Nat :=
  weightOut w.outbox + 2 * w.asks N + w.nbGet.length + w.bGet.length + 2 * w.running.length

/-- `w'` is reached from `w` with at most `k` additional cost and without change of the owners and held back tasks. -/
structure Costs (N k : Nat) (w w' : Worker) : Prop where
  cost : w'.cost N ≤ w.cost N + k
  owner : w'.owner = w.owner
  pending : w'.pending = w.pending
  pendingActor : w'.pendingActor = w.pendingActor

theorem Costs.refl (N : Nat) (w : Worker) : Costs N 0 w w := ⟨by omega, rfl, rfl, rfl⟩

theorem Costs.trans {N j k : Nat} {a b c : Worker} (h1 : Costs N j a b) (h2 : Costs N k b c) : Costs N (j + k) a c :=
  ⟨by have := h1.cost; have := h2.cost; omega, h2.owner.trans h1.owner, h2.pending.trans h1.pending,
    h2.pendingActor.trans h1.pendingActor⟩

/-- Owners are known only for references below `N`. -/
def OwnBelow (N : Nat) (w : Worker) : Prop := ∀ i, w.owner i ≠ none → i < N

theorem OwnBelow.costs {N k : Nat} {w w' : Worker} (h : OwnBelow N w) (c : Costs N k w w') : OwnBelow N w' := by
  intro i hi; rw [c.owner] at hi; exact h i hi

theorem unwrap_costs {N : Nat} {w w' : Worker} (hN : OwnBelow N w) {v v' : Val} {p : Bool}
    (h : w.unwrap v = .ok (v', p, w')) : Costs N 0 w w' := by
  cases v with
  | ref id =>
    simp only [Worker.unwrap] at h
    split at h
    · simp only [Except.ok.injEq, Prod.mk.injEq] at h
      obtain ⟨-, -, rfl⟩ := h
      exact .refl N w
    · rename_i hs
      split at h
      · simp at h
      · rename_i o ho
        split at h
        · simp only [Except.ok.injEq, Prod.mk.injEq] at h
          obtain ⟨-, -, rfl⟩ := h
          exact .refl N w
        · rename_i hc
          simp only [Except.ok.injEq, Prod.mk.injEq] at h
          obtain ⟨-, -, rfl⟩ := h
          refine ⟨?_, rfl, rfl, rfl⟩
          have hid : id < N := hN id (by rw [ho]; simp)
          have := countP_drop (p := fun i => (w.store i).isNone && !((id :: w.requested).contains i))
            (q := fun i => (w.store i).isNone && !(w.requested.contains i)) (x := id) (by simp)
            (by simp only [not_or] at hc; simp [hs, hc.1]) (List.range N) (List.mem_range.2 hid)
            (by intro y _ hy; simp only [List.contains_cons, Bool.and_eq_true, Bool.not_eq_true', Bool.or_eq_false_iff] at hy ⊢
                exact ⟨hy.1, hy.2.2⟩)
          simp only [Worker.cost, Worker.asks, Worker.send, weightOut_append]
          simp only [weightOut, List.map_cons, List.map_nil, weight, List.sum_cons, List.sum_nil]
          omega
  | _ =>
    simp only [Worker.unwrap, Except.ok.injEq, Prod.mk.injEq] at h
    obtain ⟨-, -, rfl⟩ := h
    exact .refl N w

mutual
theorem materialize_costs {N : Nat} : ∀ (v : Val) {w w' : Worker} {q p : Bool} {v' : Val}, OwnBelow N w →
    materialize w q v = .ok (v', p, w') → Costs N 0 w w'
  | .list vs, w, w', q, p, v', hN, h => by
    simp only [materialize] at h
    split at h
    · rename_i hm
      simp only [Except.ok.injEq, Prod.mk.injEq] at h
      obtain ⟨-, -, rfl⟩ := h
      exact materializeList_costs vs hN hm
    · simp at h
  | .data _, w, w', q, p, v', hN, h => by
    simp only [materialize] at h
    split at h
    · rename_i hu
      simp only [Except.ok.injEq, Prod.mk.injEq] at h
      obtain ⟨-, -, rfl⟩ := h
      exact unwrap_costs hN hu
    · simp at h
  | .exc _, w, w', q, p, v', hN, h => by
    simp only [materialize] at h
    split at h
    · rename_i hu
      simp only [Except.ok.injEq, Prod.mk.injEq] at h
      obtain ⟨-, -, rfl⟩ := h
      exact unwrap_costs hN hu
    · simp at h
  | .code _, w, w', q, p, v', hN, h => by
    simp only [materialize] at h
    split at h
    · rename_i hu
      simp only [Except.ok.injEq, Prod.mk.injEq] at h
      obtain ⟨-, -, rfl⟩ := h
      exact unwrap_costs hN hu
    · simp at h
  | .ref _, w, w', q, p, v', hN, h => by
    simp only [materialize] at h
    split at h
    · rename_i hu
      simp only [Except.ok.injEq, Prod.mk.injEq] at h
      obtain ⟨-, -, rfl⟩ := h
      exact unwrap_costs hN hu
    · simp at h
theorem materializeList_costs {N : Nat} : ∀ (vs : List Val) {w w' : Worker} {q p : Bool} {vs' : List Val}, OwnBelow N w →
    materializeList w q vs = .ok (vs', p, w') → Costs N 0 w w'
  | [], w, w', q, p, vs', _, h => by
    simp only [materializeList, Except.ok.injEq, Prod.mk.injEq] at h
    obtain ⟨-, -, rfl⟩ := h
    exact .refl N w
  | v :: vs, w, w', q, p, vs', hN, h => by
    simp only [materializeList] at h
    split at h
    · simp at h
    · rename_i h1
      split at h
      · simp at h
      · rename_i h2
        split at h
        · simp at h
        · rename_i h3
          simp only [Except.ok.injEq, Prod.mk.injEq] at h
          obtain ⟨-, -, rfl⟩ := h
          have a1 := materialize_costs v hN h1
          have a2 := unwrap_costs (hN.costs a1) h2
          have a3 := materializeList_costs vs ((hN.costs a1).costs a2) h3
          exact (a1.trans a2).trans a3
end

/-! ### Results and kept requests -/

theorem put_costs (N : Nat) (w : Worker) (id : Nat) (v : Val) : Costs N 0 w (w.put id v) := by
  refine ⟨?_, rfl, rfl, rfl⟩
  have : (w.put id v).asks N ≤ w.asks N := by
    apply countP_mono
    intro i _ hi
    simp only [Worker.put, upd, Bool.and_eq_true] at hi ⊢
    refine ⟨?_, hi.2⟩
    by_cases he : i = id
    · simp [he] at hi
    · simpa [he] using hi.1
  simp only [Worker.cost] at *
  simp only [Worker.put] at *
  omega

theorem putAll_costs (N : Nat) : ∀ (l : List (Nat × Val)) (w : Worker), Costs N 0 w (w.putAll l)
  | [], w => .refl N w
  | x :: t, w => (put_costs N w x.1 x.2).trans (putAll_costs N t (w.put x.1 x.2))

theorem addReq_of_mem {l : List (Nat × Nat)} {x : Nat × Nat} (h : x ∈ l) : addReq l x = l := by simp [addReq, h]

/-- Serving a request that is already kept: at most one message. -/
theorem serve_costs (N : Nat) (w : Worker) (src id : Nat) (b : Bool)
    (hb : if b then (id, src) ∈ w.bGet else (id, src) ∈ w.nbGet) : Costs N 1 w (w.getRequest src id b) ∧
      (w.getRequest src id b).nbGet = w.nbGet ∧ (w.getRequest src id b).bGet = w.bGet ∧
      (w.getRequest src id b).store = w.store := by
  cases hs : w.store id with
  | some v =>
    simp only [Worker.getRequest, hs, Worker.push]
    split
    · exact ⟨⟨by omega, rfl, rfl, rfl⟩, rfl, rfl, rfl⟩
    · refine ⟨⟨?_, rfl, rfl, rfl⟩, rfl, rfl, rfl⟩
      have hw : weight (if (decide (src = 0) || b) = true then Msg.data id v else Msg.putData id v) = 1 := by
        split <;> rfl
      simp only [Worker.cost, Worker.asks, Worker.send, weightOut_append]
      simp only [weightOut, List.map_cons, List.map_nil, List.sum_cons, List.sum_nil, hw]
      omega
  | none =>
    have e : w.getRequest src id b = w := by
      cases b with
      | true => simp only [if_true] at hb; simp [Worker.getRequest, hs, addReq_of_mem hb]
      | false => simp only [Bool.false_eq_true, if_false] at hb; simp [Worker.getRequest, hs, addReq_of_mem hb]
    rw [e]
    exact ⟨⟨by omega, rfl, rfl, rfl⟩, rfl, rfl, rfl⟩

theorem serveAll_costs (N id : Nat) (b : Bool) : ∀ (l : List (Nat × Nat)) (w : Worker), (∀ x ∈ l, x.1 = id) →
    (∀ x ∈ l, if b then x ∈ w.bGet else x ∈ w.nbGet) →
    Costs N l.length w (l.foldl (fun w x => w.getRequest x.2 id b) w) ∧
    (l.foldl (fun w x => w.getRequest x.2 id b) w).nbGet = w.nbGet ∧
    (l.foldl (fun w x => w.getRequest x.2 id b) w).bGet = w.bGet
  | [], w, _, _ => ⟨.refl N w, rfl, rfl⟩
  | x :: t, w, h1, h2 => by
    have hx : (id, x.2) = x := by rw [← h1 x (by simp)]
    obtain ⟨a1, a2, a3, a4⟩ := serve_costs N w x.2 id b (by rw [hx]; exact h2 x (by simp))
    obtain ⟨b1, b2, b3⟩ := serveAll_costs N id b t (w.getRequest x.2 id b) (fun y hy => h1 y (List.mem_cons_of_mem _ hy))
      (fun y hy => by rw [a2, a3]; exact h2 y (List.mem_cons_of_mem _ hy))
    refine ⟨?_, b2.trans a2, b3.trans a3⟩
    have := a1.trans b1
    rw [List.foldl_cons, List.length_cons, Nat.add_comm]
    exact this

theorem filter_lengths (l : List (Nat × Nat)) (id : Nat) :
    (l.filter (·.1 ≠ id)).length + (l.filter (·.1 = id)).length = l.length := by
  induction l with
  | nil => rfl
  | cons a t ih =>
    by_cases h : a.1 = id
    · simp [h] at ih ⊢; omega
    · simp [h] at ih ⊢; omega

theorem serveNb_costs (N : Nat) (w : Worker) (id : Nat) : Costs N 0 w
    { (w.nbGet.filter (·.1 = id)).foldl (fun w x => w.getRequest x.2 id false) w with
      nbGet := ((w.nbGet.filter (·.1 = id)).foldl (fun w x => w.getRequest x.2 id false) w).nbGet.filter (·.1 ≠ id) } := by
  obtain ⟨a1, a2, a3⟩ := serveAll_costs N id false (w.nbGet.filter (·.1 = id)) w
    (fun x hx => by simpa using (List.mem_filter.1 hx).2) (fun x hx => by simpa using (List.mem_filter.1 hx).1)
  refine ⟨?_, a1.owner, a1.pending, a1.pendingActor⟩
  have h1 := a1.cost
  have h2 := filter_lengths w.nbGet id
  simp only [Worker.cost, Worker.asks] at h1 ⊢
  rw [a2] at h1 ⊢
  omega

theorem serveB_costs (N : Nat) (w : Worker) (id : Nat) : Costs N 0 w
    { (w.bGet.filter (·.1 = id)).foldl (fun w x => w.getRequest x.2 id true) w with
      bGet := ((w.bGet.filter (·.1 = id)).foldl (fun w x => w.getRequest x.2 id true) w).bGet.filter (·.1 ≠ id) } := by
  obtain ⟨a1, a2, a3⟩ := serveAll_costs N id true (w.bGet.filter (·.1 = id)) w
    (fun x hx => by simpa using (List.mem_filter.1 hx).2) (fun x hx => by simpa using (List.mem_filter.1 hx).1)
  refine ⟨?_, a1.owner, a1.pending, a1.pendingActor⟩
  have h1 := a1.cost
  have h2 := filter_lengths w.bGet id
  simp only [Worker.cost, Worker.asks] at h1 ⊢
  rw [a3] at h1 ⊢
  omega

theorem checkGet_costs (N : Nat) (w : Worker) (id : Nat) : Costs N 0 w (w.checkGet id) :=
  (serveNb_costs N w id).trans (serveB_costs N _ id)

theorem checkGets_costs (N : Nat) : ∀ (ids : List Nat) (w : Worker), Costs N 0 w (w.checkGets ids)
  | [], w => .refl N w
  | i :: t, w => (checkGet_costs N w i).trans (checkGets_costs N t (w.checkGet i))

theorem done_costs (N : Nat) (w : Worker) (d : Nat) (l : List (Option Nat)) : Costs N 1 w (w.send d (.taskDone l)) := by
  refine ⟨?_, rfl, rfl, rfl⟩
  simp only [Worker.cost, Worker.asks, Worker.send, weightOut_append]
  simp only [weightOut, List.map_cons, List.map_nil, List.sum_cons, List.sum_nil, weight]
  omega

theorem finish_costs {N : Nat} {w w' : Worker} {outs : List Nat} {r : Ret} (h : w.finish outs r = .ok w') :
    Costs N 1 w w' := by
  simp only [Worker.finish] at h
  split at h
  · simp at h
  · simp only [Except.ok.injEq] at h
    subst h
    exact ((putAll_costs N _ w).trans (checkGets_costs N outs _)).trans (done_costs N _ _ _)

theorem finishAsync_costs (N : Nat) (w : Worker) (outs : List Nat) (r : Ret) : Costs N 1 w (w.finishAsync outs r) := by
  simp only [Worker.finishAsync]
  split
  · exact ⟨by omega, rfl, rfl, rfl⟩
  · have := (putAll_costs N ‹_› w).trans (checkGets_costs N outs _)
    split
    · exact this.trans (done_costs N _ _ _)
    · exact ⟨by have := this.cost; omega, this.owner, this.pending, this.pendingActor⟩

theorem evaluate_costs (N : Nat) (W : World) (w : Worker) (t : Task) (args : List Val) :
    Costs N 0 w (w.evaluate W t args).2 := by
  simp only [Worker.evaluate]
  split
  · exact .refl N w
  · split
    · split <;> exact .refl N w
    · split
      · split
        · exact .refl N w
        · exact ⟨by simp [Worker.cost, Worker.asks], rfl, rfl, rfl⟩
      · exact .refl N w

theorem execute_costs {N : Nat} {W : World} {w w' : Worker} {r : Request} {args : List Val}
    (h : w.execute W r args = .ok w') : Costs N 2 w w' := by
  simp only [Worker.execute] at h
  have h1 : Costs N 0 w { w with log := w.log ++ [{ r with args := args }] } := ⟨by simp [Worker.cost, Worker.asks], rfl, rfl, rfl⟩
  have h2 := h1.trans (evaluate_costs N W { w with log := w.log ++ [{ r with args := args }] } r.task args)
  generalize Worker.evaluate W { w with log := w.log ++ [{ r with args := args }] } r.task args = e at *
  split at h
  · simp only [Except.ok.injEq] at h
    subst h
    refine ⟨?_, h2.owner, h2.pending, h2.pendingActor⟩
    have := h2.cost
    simp only [Worker.cost, Worker.asks, List.length_append, List.length_cons, List.length_nil] at this ⊢
    omega
  · have := h2.trans (finish_costs (N := N) h)
    exact ⟨by have := this.cost; omega, this.owner, this.pending, this.pendingActor⟩

theorem process_costs {N : Nat} {W : World} {w w' : Worker} (hN : OwnBelow N w) {r : Request} {o : Option Request}
    (h : w.process W r = .ok (o, w')) : Costs N (2 - 2 * o.toList.length) w w' := by
  simp only [Worker.process] at h
  split at h
  · split at h
    · simp at h
    · rename_i hm
      simp only [Except.ok.injEq, Prod.mk.injEq] at h
      obtain ⟨rfl, rfl⟩ := h
      exact materializeList_costs _ hN hm
    · rename_i hm
      split at h
      · rename_i he
        simp only [Except.ok.injEq, Prod.mk.injEq] at h
        obtain ⟨rfl, rfl⟩ := h
        simpa using ((materializeList_costs _ hN hm).trans (execute_costs (N := N) he)).trans (checkGets_costs N r.outs _)
      · simp at h
  · simp at h

theorem option_length {α : Type} (o : Option α) : o.toList.length ≤ 1 := by cases o <;> simp

theorem processAll_costs {N : Nat} {W : World} : ∀ (rs : List Request) {w w' : Worker} {l : List Request}, OwnBelow N w →
    w.processAll W rs = .ok (l, w') → l.length ≤ rs.length ∧ Costs N (2 * rs.length - 2 * l.length) w w'
  | [], w, w', l, _, h => by
    simp only [Worker.processAll, Except.ok.injEq, Prod.mk.injEq] at h
    obtain ⟨rfl, rfl⟩ := h
    exact ⟨by simp, .refl N w⟩
  | r :: rs, w, w', l, hN, h => by
    simp only [Worker.processAll] at h
    split at h
    · simp at h
    · rename_i o w1 h1
      split at h
      · simp at h
      · rename_i l2 w2 h2
        simp only [Except.ok.injEq, Prod.mk.injEq] at h
        obtain ⟨rfl, rfl⟩ := h
        have a1 := process_costs hN h1
        obtain ⟨a2, a3⟩ := processAll_costs rs (hN.costs a1) h2
        have a4 := option_length o
        refine ⟨by simp only [List.length_append, List.length_cons]; omega, ?_⟩
        have := a1.trans a3
        refine ⟨?_, this.owner, this.pending, this.pendingActor⟩
        have := this.cost
        simp only [List.length_append, List.length_cons]
        omega

/-! ### Operations -/

/-- The potential of a worker. -/
def Worker.total (N : Nat) (w : Worker) : Nat := w.cost N + 2 * w.pending.length + 2 * w.pendingActor.length

theorem checkTasks_total {N : Nat} {W : World} {w w' : Worker} (hN : OwnBelow N w) (h : w.checkTasks W = .ok w') :
    w'.total N ≤ w.total N ∧ OwnBelow N w' := by
  simp only [Worker.checkTasks] at h
  split at h
  · simp at h
  · rename_i l w1 h1
    simp only [Except.ok.injEq] at h
    subst h
    obtain ⟨a1, a2⟩ := processAll_costs _ hN h1
    refine ⟨?_, fun i hi => hN.costs a2 i hi⟩
    have := a2.cost
    simp only [Worker.total, Worker.cost, Worker.asks] at this ⊢
    rw [a2.pendingActor]
    omega

theorem checkActorTasks_total {N : Nat} {W : World} {w w' : Worker} (hN : OwnBelow N w) (h : w.checkActorTasks W = .ok w') :
    w'.total N ≤ w.total N ∧ OwnBelow N w' := by
  simp only [Worker.checkActorTasks] at h
  split at h
  · simp at h
  · rename_i l w1 h1
    simp only [Except.ok.injEq] at h
    subst h
    obtain ⟨a1, a2⟩ := processAll_costs _ hN h1
    refine ⟨?_, fun i hi => hN.costs a2 i hi⟩
    have := a2.cost
    simp only [Worker.total, Worker.cost, Worker.asks] at this ⊢
    rw [a2.pending]
    omega

theorem getRequest_total (N : Nat) (w : Worker) (src id : Nat) (b : Bool) :
    (w.getRequest src id b).total N ≤ w.total N + 1 := by
  have hadd : ∀ l x, (addReq l x).length ≤ l.length + 1 := by
    intro l x; simp only [addReq]; split <;> simp
  simp only [Worker.getRequest]
  split
  · simp only [Worker.push]
    split
    · omega
    · have hw : weight (if (decide (src = 0) || b) = true then Msg.data id ‹Val› else Msg.putData id ‹Val›) = 1 := by
        split <;> rfl
      simp only [Worker.total, Worker.cost, Worker.asks, Worker.send, weightOut_append]
      simp only [weightOut, List.map_cons, List.map_nil, List.sum_cons, List.sum_nil, hw]
      omega
  · split
    · have := hadd w.bGet (id, src)
      simp only [Worker.total, Worker.cost, Worker.asks]
      omega
    · have := hadd w.nbGet (id, src)
      simp only [Worker.total, Worker.cost, Worker.asks]
      omega

/-- Every operation decreases the potential. -/
theorem handle_total {N : Nat} {W : World} {w w' : Worker} (hN : OwnBelow N w) {k : Msg}
    (hk : ∀ id o, k = .putOwner id o → id < N) (h : w.handle W k = .ok w') :
    w'.total N + 1 ≤ w.total N + weight k ∧ OwnBelow N w' := by
  cases k with
  | execute r =>
    simp only [Worker.handle] at h
    split at h
    · simp at h
    · rename_i r' w1 h1
      simp only [Except.ok.injEq] at h
      subst h
      have a := process_costs hN h1
      refine ⟨?_, fun i hi => hN.costs a i hi⟩
      have := a.cost
      simp only [Option.toList_some, List.length_cons, List.length_nil] at this
      simp only [Worker.total, Worker.cost, Worker.asks, weight, List.length_append, List.length_cons, List.length_nil] at this ⊢
      rw [a.pending, a.pendingActor]
      omega
    · rename_i w1 h1
      have a := process_costs hN h1
      obtain ⟨b1, b2⟩ := checkTasks_total (hN.costs a) h
      refine ⟨?_, b2⟩
      have := a.cost
      simp only [Worker.total, weight, Option.toList_none, List.length_nil] at this b1 ⊢
      rw [a.pending, a.pendingActor] at b1
      omega
  | get src id b =>
    simp only [Worker.handle, Except.ok.injEq] at h
    subst h
    refine ⟨by have := getRequest_total N w src id b; simp only [weight]; omega, ?_⟩
    intro i hi
    apply hN i
    revert hi
    simp only [Worker.getRequest, Worker.push, Worker.send]
    split
    · split <;> exact fun h => h
    · split <;> exact fun h => h
  | putData id v =>
    simp only [Worker.handle] at h
    have h0 : ({ w.put id v with requested := w.requested.filter (· ≠ id) } : Worker).total N ≤ w.total N := by
      have : ({ w.put id v with requested := w.requested.filter (· ≠ id) } : Worker).asks N ≤ w.asks N := by
        apply countP_mono
        intro i _ hi
        simp only [Worker.put, upd, Bool.and_eq_true] at hi ⊢
        by_cases he : i = id
        · simp [he] at hi
        · refine ⟨by simpa [he] using hi.1, ?_⟩
          have := hi.2
          simp only [Bool.not_eq_true', List.contains_eq_mem, List.mem_filter, decide_eq_false_iff_not, not_and] at this ⊢
          intro hm
          exact this hm (by simp [he])
      simp only [Worker.total, Worker.cost] at *
      simp only [Worker.put] at *
      omega
    have hN0 : OwnBelow N { w.put id v with requested := w.requested.filter (· ≠ id) } := hN
    generalize ({ w.put id v with requested := w.requested.filter (· ≠ id) } : Worker) = w0 at *
    split at h
    · simp at h
    · rename_i w1 h1
      obtain ⟨a1, a2⟩ := checkTasks_total hN0 h1
      obtain ⟨b1, b2⟩ := checkActorTasks_total a2 h
      exact ⟨by simp only [weight]; omega, b2⟩
  | putOwner id o =>
    simp only [Worker.handle, Except.ok.injEq] at h
    subst h
    refine ⟨by simp [Worker.total, Worker.cost, Worker.asks, weight], ?_⟩
    intro i hi
    simp only [upd] at hi
    by_cases he : i = id
    · rw [he]; exact hk id o rfl
    · rw [if_neg he] at hi; exact hN i hi
  | actorCreate hd s =>
    simp only [Worker.handle, Except.ok.injEq] at h
    subst h
    exact ⟨by simp [Worker.total, Worker.cost, Worker.asks, weight], hN⟩
  | actorExecute r hd name =>
    simp only [Worker.handle] at h
    split at h
    · simp at h
    · split at h
      · simp at h
      · rename_i r' w1 h1
        simp only [Except.ok.injEq] at h
        subst h
        have a := process_costs hN h1
        refine ⟨?_, fun i hi => hN.costs a i hi⟩
        have := a.cost
        simp only [Option.toList_some, List.length_cons, List.length_nil] at this
        simp only [Worker.total, Worker.cost, Worker.asks, weight, List.length_append, List.length_cons, List.length_nil] at this ⊢
        rw [a.pending, a.pendingActor]
        omega
      · rename_i w1 h1
        have a := process_costs hN h1
        obtain ⟨b1, b2⟩ := checkActorTasks_total (hN.costs a) h
        refine ⟨?_, b2⟩
        have := a.cost
        simp only [Worker.total, weight, Option.toList_none, List.length_nil] at this b1 ⊢
        rw [a.pending, a.pendingActor] at b1
        omega
  | data id v =>
    simp only [Worker.handle, Except.ok.injEq] at h
    subst h
    exact ⟨by simp [weight], hN⟩
  | taskDone l =>
    simp only [Worker.handle, Except.ok.injEq] at h
    subst h
    exact ⟨by simp [weight], hN⟩

theorem complete_total {N : Nat} {w : Worker} (hN : OwnBelow N w) {i : Nat} (hi : i < w.running.length) :
    (w.complete i).total N + 1 ≤ w.total N ∧ OwnBelow N (w.complete i) := by
  simp only [Worker.complete, List.getElem?_eq_getElem hi]
  have a := finishAsync_costs N { w with running := w.running.eraseIdx i } (w.running[i]).outs (w.running[i]).result
  have hN0 : OwnBelow N { w with running := w.running.eraseIdx i } := hN
  refine ⟨?_, hN0.costs a⟩
  have h1 := a.cost
  have h2 : (w.running.eraseIdx i).length + 1 = w.running.length := by
    rw [List.length_eraseIdx_of_lt hi]; omega
  simp only [Worker.total]
  rw [a.pending, a.pendingActor]
  simp only [Worker.cost, Worker.asks] at h1 ⊢
  omega

end Verif.Worker
