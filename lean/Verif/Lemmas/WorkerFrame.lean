import Verif.Lemmas.WorkerInv

/-! What the operations of a worker leave unchanged. -/
namespace Verif.Worker
open Verif.Spec

/-- The fields not touched by storing results and answering requests. -/
def Worker.core (w : Worker) :=
  (w.rank, w.monitor, w.owner, w.requested, w.pending, w.pendingActor, w.actors, w.running, w.log)

theorem core_ext {a b : Worker} (h : a.core = b.core) : a.rank = b.rank ∧ a.monitor = b.monitor ∧ a.owner = b.owner ∧
    a.requested = b.requested ∧ a.pending = b.pending ∧ a.pendingActor = b.pendingActor ∧ a.actors = b.actors ∧
    a.running = b.running ∧ a.log = b.log := by
  simpa [Worker.core] using h

theorem push_core (w : Worker) (dest id : Nat) (bl : Bool) (v : Val) : (w.push dest id bl v).core = w.core := by
  simp only [Worker.push]
  split <;> rfl

theorem getRequest_core (w : Worker) (src id : Nat) (bl : Bool) : (w.getRequest src id bl).core = w.core := by
  simp only [Worker.getRequest]
  split
  · exact push_core ..
  · split <;> rfl

theorem fold_core (id : Nat) (bl : Bool) : ∀ (l : List (Nat × Nat)) (w : Worker),
    (l.foldl (fun w p => w.getRequest p.2 id bl) w).core = w.core
  | [], _ => rfl
  | p :: l, w => by
    simp only [List.foldl_cons]
    rw [fold_core id bl l]
    exact getRequest_core w p.2 id bl

theorem checkGet_core (w : Worker) (id : Nat) : (w.checkGet id).core = w.core := by
  simp only [Worker.checkGet]
  exact (fold_core id true _ _).trans (fold_core id false _ _)

theorem checkGets_core : ∀ (ids : List Nat) (w : Worker), (w.checkGets ids).core = w.core
  | [], _ => rfl
  | i :: ids, w => by
    have h := checkGets_core ids (w.checkGet i)
    simp only [Worker.checkGets, List.foldl_cons] at h ⊢
    exact h.trans (checkGet_core w i)

theorem putAll_core : ∀ (l : List (Nat × Val)) (w : Worker), (w.putAll l).core = w.core
  | [], _ => rfl
  | p :: l, w => by
    have h := putAll_core l (w.put p.1 p.2)
    simp only [Worker.putAll, List.foldl_cons] at h ⊢
    exact h

theorem finish_core {w w' : Worker} {outs : List Nat} {r : Ret} (h : w.finish outs r = .ok w') : w'.core = w.core := by
  simp only [Worker.finish] at h
  split at h
  · simp at h
  · simp only [Except.ok.injEq] at h
    subst h
    exact (checkGets_core outs _).trans (putAll_core _ _)

theorem finishAsync_core (w : Worker) (outs : List Nat) (r : Ret) : (w.finishAsync outs r).core = w.core := by
  simp only [Worker.finishAsync]
  split
  · rfl
  · split
    · exact (checkGets_core _ _).trans (putAll_core _ _)
    · exact (checkGets_core _ _).trans (putAll_core _ _)

theorem evaluate_fn (W : World) (w : Worker) (f : Nat) (args : List Val) : (w.evaluate W (.fn f) args).2 = w := by
  simp only [Worker.evaluate]
  split
  · rfl
  · split <;> rfl

/-- Executing a plain task appends to the log (and to the running coroutines). -/
theorem execute_fn {W : World} {w w' : Worker} {r : Request} {f : Nat} (hf : r.task = .fn f) {args : List Val}
    (h : w.execute W r args = .ok w') :
    w'.log = w.log ++ [{ r with args := args }] ∧ w'.pending = w.pending ∧ w'.requested = w.requested ∧ w'.owner = w.owner ∧
      w'.rank = w.rank ∧ w'.pendingActor = w.pendingActor := by
  simp only [Worker.execute, hf] at h
  rw [evaluate_fn] at h
  split at h
  · simp only [Except.ok.injEq] at h
    subst h
    simp [hf]
  · have := core_ext (finish_core h)
    simp only at this
    simp [this, hf]

/-- The request was executed and the requests for its outputs were looked at. -/
def Executed (W : World) (w : Worker) (r : Request) (args : List Val) (w' : Worker) : Prop :=
  ∃ w2, w.execute W r args = .ok w2 ∧ w' = w2.checkGets r.outs

theorem executed_fn {W : World} {w w' : Worker} {r : Request} {f : Nat} (hf : r.task = .fn f) {args : List Val}
    (h : Executed W w r args w') :
    w'.log = w.log ++ [{ r with args := args }] ∧ w'.pending = w.pending ∧ w'.requested = w.requested ∧ w'.owner = w.owner ∧
      w'.rank = w.rank ∧ w'.pendingActor = w.pendingActor := by
  obtain ⟨w2, h, rfl⟩ := h
  have := execute_fn hf h
  have hc := core_ext (checkGets_core r.outs w2)
  simp only [hc, this, and_self]

/-- The two outcomes of an attempt. -/
theorem process_spec {W : World} {w w' : Worker} {r : Request} {f : Nat} (hf : r.task = .fn f) (hst : w.store f ≠ none)
    (hc : Closed w.store) (hk : KnownIn w (refsList r.args)) {o : Option Request} (hp : w.process W r = .ok (o, w')) :
    (o = some { r with args := substList w.store r.args } ∧ Asks (refsList r.args) w w' ∧
      Missing w (refsList r.args) = true) ∨
    (o = none ∧ Missing w (refsList r.args) = false ∧ Executed W w r (substList w.store r.args) w') := by
  obtain ⟨w1, m1, a1⟩ := materializeList_spec r.args w false hc hk
  have hkn : w.known r.task = true := by
    rw [hf]; exact Option.isSome_iff_ne_none.2 hst
  simp only [Worker.process, hkn, if_true, m1] at hp
  cases hb : Missing w (refsList r.args) with
  | true =>
    simp only [hb, Bool.or_true, Except.ok.injEq, Prod.mk.injEq] at hp
    obtain ⟨rfl, rfl⟩ := hp
    exact Or.inl ⟨rfl, a1, rfl⟩
  | false =>
    simp only [hb, Bool.or_false] at hp
    cases he : w1.execute W r (substList w.store r.args) with
    | error e => rw [he] at hp; simp at hp
    | ok w2 =>
      rw [he] at hp
      simp only [Except.ok.injEq, Prod.mk.injEq] at hp
      obtain ⟨rfl, rfl⟩ := hp
      have hw : w1 = w := by
        obtain ⟨l, q, ho, -, p⟩ := a1.asked
        have hl : l = [] := by
          cases l with
          | nil => rfl
          | cons j l =>
            obtain ⟨q1, -, q3, -⟩ := p j (by simp)
            simp only [Missing, List.any_eq_false] at hb
            have := hb j q1
            simp [q3] at this
        subst hl
        cases w
        cases w1
        obtain ⟨z1, z2, z3, z4, z5, z6, z7, z8, z9, z10, z11, z12, -, -⟩ := a1
        simp only [List.map_nil, List.append_nil, List.reverse_nil, List.nil_append] at *
        subst z1 z2 z3 z4 z5 z6 z7 z8 z9 z10 z11 z12 q ho
        rfl
      rw [hw] at he
      exact Or.inr ⟨rfl, rfl, w2, he, rfl⟩

/-- Tags of requests. -/
def tags (l : List Request) : List Nat := l.map (·.tag)

/-- The attempts at a list of requests execute some and keep the others in order. -/
theorem processAll_tags {x : Ctx} (hx : x.OK) {d : Nat} {s0 : List (Nat × Nat)} : ∀ (rs : List Request) {w w' : Worker}
    {l : List Request}, WI x d s0 w → (∀ r ∈ rs, Ready x d w r) → w.processAll x.W rs = .ok (l, w') →
    (tags w'.log ++ tags l).Perm (tags w.log ++ tags rs) ∧ (tags l).Sublist (tags rs) ∧ w'.pending = w.pending
  | [], w, w', l, h, hr, hp => by
    simp only [Worker.processAll, Except.ok.injEq, Prod.mk.injEq] at hp
    obtain ⟨rfl, rfl⟩ := hp
    exact ⟨List.Perm.refl _, List.Sublist.refl _, rfl⟩
  | r :: rs, w, w', l, h, hr, hp => by
    simp only [Worker.processAll] at hp
    split at hp
    · simp at hp
    · rename_i o w1 h1
      split at hp
      · simp at hp
      · rename_i l2 w2 h2
        simp only [Except.ok.injEq, Prod.mk.injEq] at hp
        obtain ⟨rfl, rfl⟩ := hp
        obtain ⟨i1, g1, p1⟩ := wi_process hx h (hr r (by simp)) h1
        obtain ⟨j1, j2, j3⟩ := processAll_tags hx rs i1 (fun q hq => ready_grow g1 (hr q (List.mem_cons_of_mem _ hq))) h2
        obtain ⟨⟨s, -, -, c3, -⟩, hk, hf⟩ := hr r (by simp)
        rcases process_spec c3 (hf _ c3) (h.closed hx) hk h1 with ⟨rfl, a, -⟩ | ⟨rfl, -, he⟩
        · rw [a.log] at j1
          refine ⟨?_, ?_, j3.trans a.pending⟩
          · simp only [Option.toList_some, tags, List.map_append, List.map_cons, List.map_nil] at j1 ⊢
            refine List.Perm.trans List.perm_middle ?_
            refine List.Perm.trans (List.Perm.cons _ j1) ?_
            exact List.perm_middle.symm
          · simp only [Option.toList_some, tags, List.map_append, List.map_cons, List.map_nil] at j2 ⊢
            exact List.Sublist.cons_cons _ j2
        · obtain ⟨e1, e2, -⟩ := executed_fn c3 he
          rw [e1] at j1
          refine ⟨?_, ?_, j3.trans e2⟩
          · simpa [tags] using j1
          · simp only [Option.toList_none, List.nil_append, tags, List.map_cons] at j2 ⊢
            exact List.Sublist.cons _ j2

end Verif.Worker
