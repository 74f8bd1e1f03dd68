import Verif.Lemmas.WorkerServe

/-! When a coroutine starts, the requests kept for its outputs are forgotten; those that come later are kept until it ends. -/
namespace Verif.Worker
open Verif.Spec

/-- No request for a reference is kept. -/
def Unkept (t : Nat) (w : Worker) : Prop := (∀ p ∈ w.nbGet, p.1 ≠ t) ∧ ∀ p ∈ w.bGet, p.1 ≠ t

/-- A running coroutine makes a reference. -/
def Makes (t : Nat) (w : Worker) : Prop := ∃ k ∈ w.running, t ∈ k.outs

theorem mem_addReq {l : List (Nat × Nat)} {x p : Nat × Nat} (h : p ∈ addReq l x) : p ∈ l ∨ p = x := by
  unfold addReq at h
  split at h
  · exact Or.inl h
  · simpa using h

theorem getRequest_unkept {t j : Nat} (hj : j ≠ t) {w : Worker} (h : Unkept t w) (src : Nat) (bl : Bool) :
    Unkept t (w.getRequest src j bl) := by
  unfold Worker.getRequest
  split
  · obtain ⟨-, h2, h3, -⟩ := push_fields w src j (src = 0 || bl) (by assumption)
    exact ⟨by rw [h2]; exact h.1, by rw [h3]; exact h.2⟩
  · split
    · refine ⟨h.1, fun p hp => ?_⟩
      rcases mem_addReq hp with h1 | rfl
      · exact h.2 p h1
      · exact hj
    · refine ⟨fun p hp => ?_, h.2⟩
      rcases mem_addReq hp with h1 | rfl
      · exact h.1 p h1
      · exact hj

theorem fold_unkept {t j : Nat} (hj : j ≠ t) (bl : Bool) : ∀ (l : List (Nat × Nat)) {w : Worker}, Unkept t w →
    Unkept t (l.foldl (fun w x => w.getRequest x.2 j bl) w)
  | [], _, h => h
  | x :: l, w, h => fold_unkept hj bl l (getRequest_unkept hj h x.2 bl)

theorem fold_nb (j : Nat) : ∀ (l : List (Nat × Nat)) (w : Worker),
    (l.foldl (fun w x => w.getRequest x.2 j true) w).nbGet = w.nbGet
  | [], _ => rfl
  | x :: l, w => by
    rw [List.foldl_cons, fold_nb j l]
    unfold Worker.getRequest
    split
    · exact (push_fields w _ _ _ _).2.1
    · simp

theorem checkGet_unkept {t j : Nat} {w : Worker} (h : j = t ∨ Unkept t w) : Unkept t (w.checkGet j) := by
  simp only [Worker.checkGet]
  by_cases hj : j = t
  · subst hj
    refine ⟨?_, ?_⟩
    · intro p hp
      simp only [fold_nb, List.mem_filter, decide_eq_true_eq] at hp
      exact hp.2
    · intro p hp
      simp only [List.mem_filter, decide_eq_true_eq] at hp
      exact hp.2
  · have h := h.resolve_left hj
    have h1 := fold_unkept hj false (w.nbGet.filter (·.1 = j)) h
    have h2 : Unkept t { (w.nbGet.filter (·.1 = j)).foldl (fun w x => w.getRequest x.2 j false) w with
        nbGet := ((w.nbGet.filter (·.1 = j)).foldl (fun w x => w.getRequest x.2 j false) w).nbGet.filter (·.1 ≠ j) } :=
      ⟨fun p hp => h1.1 p (List.mem_filter.1 hp).1, h1.2⟩
    have h3 := fold_unkept hj true (((w.nbGet.filter (·.1 = j)).foldl (fun w x => w.getRequest x.2 j false) w).bGet.filter (·.1 = j)) h2
    exact ⟨h3.1, fun p hp => h3.2 p (List.mem_filter.1 hp).1⟩

theorem checkGets_unkept {t : Nat} : ∀ (outs : List Nat) {w : Worker}, t ∈ outs ∨ Unkept t w → Unkept t (w.checkGets outs)
  | [], _, h => h.resolve_left (by simp)
  | i :: outs, w, h => by
    have : w.checkGets (i :: outs) = (w.checkGet i).checkGets outs := rfl
    rw [this]
    refine checkGets_unkept outs ?_
    by_cases ho : t ∈ outs
    · exact Or.inl ho
    · refine Or.inr (checkGet_unkept ?_)
      rcases h with h | h
      · rw [List.mem_cons] at h
        exact Or.inl (h.resolve_right ho).symm
      · exact Or.inr h

/-- Whoever makes the reference started after all kept requests for it. -/
def Cleared (t : Nat) (w : Worker) : Prop := Makes t w → Unkept t w

theorem process_cleared {W : World} {t : Nat} {w w' : Worker} (h : Cleared t w) {r : Request} {o : Option Request}
    (hp : w.process W r = .ok (o, w')) : Cleared t w' := by
  have quiet : ∀ {a b : Worker}, Quiet a b → Cleared t a → Cleared t b := by
    intro a b hq ha
    unfold Cleared Makes Unkept at ha ⊢
    rw [hq.same]; exact ha
  simp only [Worker.process] at hp
  split at hp
  · split at hp
    · simp at hp
    · rename_i hm
      simp only [Except.ok.injEq, Prod.mk.injEq] at hp
      obtain ⟨-, rfl⟩ := hp
      exact quiet (materializeList_quiet _ hm) h
    · rename_i args w1 hm
      split at hp
      · rename_i w2 he
        simp only [Except.ok.injEq, Prod.mk.injEq] at hp
        obtain ⟨-, rfl⟩ := hp
        have h1 := quiet (materializeList_quiet _ hm) h
        have hc := core_ext (checkGets_core r.outs w2)
        intro hk
        refine checkGets_unkept r.outs ?_
        by_cases ht : t ∈ r.outs
        · exact Or.inl ht
        · refine Or.inr ?_
          unfold Makes at hk
          rw [hc.2.2.2.2.2.2.2.1] at hk
          simp only [Worker.execute] at he
          have hev := evaluate_fields W { w1 with log := w1.log ++ [{ r with args := args }] } r.task args
          generalize Worker.evaluate W { w1 with log := w1.log ++ [{ r with args := args }] } r.task args = e at he hev
          obtain ⟨res, w3⟩ := e
          simp only at he hev
          have v1 : w3.running = w1.running := by rw [hev]
          have v2 : w3.nbGet = w1.nbGet := by rw [hev]
          have v3 : w3.bGet = w1.bGet := by rw [hev]
          clear hev
          split at he
          · simp only [Except.ok.injEq] at he
            subst he
            obtain ⟨k, hk1, hk2⟩ := hk
            simp only [v1, List.mem_append, List.mem_singleton] at hk1
            rcases hk1 with hk1 | rfl
            · have := h1 ⟨k, hk1, hk2⟩
              unfold Unkept at this ⊢
              simp only [v2, v3]; exact this
            · exact absurd hk2 ht
          · simp only [Worker.finish] at he
            split at he
            · simp at he
            · rename_i l c ho
              simp only [Except.ok.injEq] at he
              subst he
              obtain ⟨k, hk1, hk2⟩ := hk
              have hcc := core_ext ((checkGets_core r.outs (w3.putAll l)).trans (putAll_core l w3))
              simp only [Worker.send] at hk1
              rw [hcc.2.2.2.2.2.2.2.1, v1] at hk1
              have hu := h1 ⟨k, hk1, hk2⟩
              have : Unkept t ((w3.putAll l).checkGets r.outs) := by
                refine checkGets_unkept _ (Or.inr ?_)
                obtain ⟨a1, a2, -⟩ := putAll_fields l w3
                unfold Unkept at hu ⊢
                rw [a1, a2, v2, v3]; exact hu
              exact this
      · simp at hp
  · simp at hp

theorem processAll_cleared {W : World} {t : Nat} : ∀ (rs : List Request) {w w' : Worker} {l : List Request}, Cleared t w →
    w.processAll W rs = .ok (l, w') → Cleared t w'
  | [], w, w', l, h, hp => by
    simp only [Worker.processAll, Except.ok.injEq, Prod.mk.injEq] at hp
    obtain ⟨-, rfl⟩ := hp
    exact h
  | r :: rs, w, w', l, h, hp => by
    simp only [Worker.processAll] at hp
    split at hp
    · simp at hp
    · rename_i o w1 h1
      split at hp
      · simp at hp
      · rename_i l2 w2 h2
        simp only [Except.ok.injEq, Prod.mk.injEq] at hp
        obtain ⟨-, rfl⟩ := hp
        exact processAll_cleared rs (process_cleared h h1) h2

theorem checkTasks_cleared {W : World} {t : Nat} {w w' : Worker} (h : Cleared t w) (hp : w.checkTasks W = .ok w') :
    Cleared t w' := by
  simp only [Worker.checkTasks] at hp
  split at hp
  · simp at hp
  · rename_i l w1 h1
    simp only [Except.ok.injEq] at hp
    subst hp
    have := processAll_cleared _ h h1
    exact this

theorem checkActorTasks_cleared {W : World} {t : Nat} {w w' : Worker} (h : Cleared t w) (hp : w.checkActorTasks W = .ok w') :
    Cleared t w' := by
  simp only [Worker.checkActorTasks] at hp
  split at hp
  · simp at hp
  · rename_i l w1 h1
    simp only [Except.ok.injEq] at hp
    subst hp
    have := processAll_cleared _ h h1
    exact this

/-- A coroutine that starts in an event leaves no request for its outputs. -/
theorem run_cleared {W : World} {t : Nat} {w w' : Worker} {e : Event} (h : ¬ Makes t w) (hr : w.run W [e] = .ok w') :
    Cleared t w' := by
  have h0 : Cleared t w := fun hc => absurd hc h
  cases e with
  | complete i =>
    simp only [Worker.run, Except.ok.injEq] at hr
    subst hr
    intro ⟨k, hk, ht⟩
    refine absurd ⟨k, ?_, ht⟩ h
    simp only [Worker.complete] at hk
    split at hk
    · exact hk
    · simp only [Worker.finishAsync] at hk
      split at hk
      · exact List.mem_of_mem_eraseIdx hk
      · rename_i c hc _ l d ho
        have hcc := core_ext ((checkGets_core c.outs (Worker.putAll { w with running := w.running.eraseIdx i } l)).trans
          (putAll_core l { w with running := w.running.eraseIdx i }))
        split at hk
        · simp only [Worker.send, hcc] at hk
          exact List.mem_of_mem_eraseIdx hk
        · rw [hcc.2.2.2.2.2.2.2.1] at hk
          exact List.mem_of_mem_eraseIdx hk
  | op m =>
    simp only [Worker.run] at hr
    split at hr
    · simp at hr
    · rename_i w1 hh
      simp only [Except.ok.injEq] at hr
      subst hr
      cases m with
      | execute r =>
        simp only [Worker.handle] at hh
        split at hh
        · simp at hh
        · rename_i r' w2 h1
          simp only [Except.ok.injEq] at hh
          subst hh
          have := process_cleared h0 h1
          exact this
        · rename_i w2 h1
          exact checkTasks_cleared (process_cleared h0 h1) hh
      | get src id bl =>
        simp only [Worker.handle, Except.ok.injEq] at hh
        subst hh
        have hc := core_ext (getRequest_core w src id bl)
        intro hk
        unfold Makes at hk
        rw [hc.2.2.2.2.2.2.2.1] at hk
        exact absurd hk h
      | putData id v =>
        simp only [Worker.handle] at hh
        have h1 : Cleared t { w.put id v with requested := w.requested.filter (· ≠ id) } := fun hc => absurd hc h
        split at hh
        · simp at hh
        · rename_i w2 h2
          exact checkActorTasks_cleared (checkTasks_cleared h1 h2) hh
      | actorExecute r k name =>
        simp only [Worker.handle] at hh
        split at hh
        · simp at hh
        · split at hh
          · simp at hh
          · rename_i r' w2 h1
            simp only [Except.ok.injEq] at hh
            subst hh
            have := process_cleared h0 h1
            exact this
          · rename_i w2 h1
            exact checkActorTasks_cleared (process_cleared h0 h1) hh
      | putOwner id o =>
        simp only [Worker.handle, Except.ok.injEq] at hh
        subst hh
        exact h0
      | actorCreate k s =>
        simp only [Worker.handle, Except.ok.injEq] at hh
        subst hh
        exact h0
      | data id v =>
        simp only [Worker.handle, Except.ok.injEq] at hh
        subst hh
        exact h0
      | taskDone l =>
        simp only [Worker.handle, Except.ok.injEq] at hh
        subst hh
        exact h0

/-- The references that an event makes outputs. -/
def outsOf : Event → List Nat
  | .op (.execute r) => r.outs
  | .op (.actorExecute r _ _) => r.outs
  | _ => []

theorem fresh_ref (es : List Event) : ∃ t, ∀ e ∈ es, t ∉ outsOf e := by
  have hb : ∀ l : List Nat, ∃ n, ∀ x ∈ l, x < n := by
    intro l
    induction l with
    | nil => exact ⟨0, by simp⟩
    | cons a l ih =>
      obtain ⟨n, hn⟩ := ih
      refine ⟨max n (a + 1), ?_⟩
      intro x hx
      rw [List.mem_cons] at hx
      rcases hx with rfl | hx
      · omega
      · have := hn x hx; omega
  obtain ⟨n, hn⟩ := hb (es.flatMap outsOf)
  refine ⟨n, fun e he hc => ?_⟩
  have := hn n (List.mem_flatMap.2 ⟨e, he, hc⟩)
  omega

/-- Events that do not make the tracked reference are fine for it. -/
theorem fine_other {W : World} {t : Nat} {R : Nat → Prop} {e : Event} (h1 : t ∉ outsOf e)
    (h2 : ∀ i v, e = .op (.putData i v) → ¬ R i) (h3 : ∀ s i b, e = .op (.get s i b) → R i) :
    Fine W (fun _ _ => True) t R e := by
  cases e with
  | complete i => trivial
  | op m =>
    cases m with
    | execute r =>
      refine ⟨fun _ _ _ => trivial, ?_⟩
      split
      · exact ⟨fun _ _ _ hc => absurd hc h1, fun hc => absurd hc h1⟩
      · exact ⟨fun _ _ hc => absurd hc h1, fun hc => absurd hc h1⟩
    | actorExecute r k n => exact ⟨fun _ _ _ => trivial, fun _ _ hc => absurd hc h1, fun hc => absurd hc h1⟩
    | putData i v => exact ⟨h2 i v rfl, fun _ _ => trivial⟩
    | get s i b => exact h3 s i b rfl
    | _ => trivial

/-- Requests that come after a state in which none is kept for a missing reference are served once, earlier ones never. -/
theorem served_restart {W : World} {t t' : Nat} {H : List Req} {w : Worker} (h : Served W (fun _ _ => True) [] t' H w)
    (hk : Unkept t w) (hn : w.store t = none) (hp : ∀ r ∈ w.pending ++ w.pendingActor, t ∉ r.outs)
    (hf : ∀ k ∈ w.running, Full t k.outs k.result) :
    Served W (fun _ _ => True) [] t (H.filter (·.1 ≠ t)) w := by
  have hq : ∀ r : Request, t ∉ r.outs → FullReq W (fun _ _ => True) t r := by
    intro r h1
    refine ⟨fun _ _ _ => trivial, ?_⟩
    split
    · exact ⟨fun _ _ _ hc => absurd hc h1, fun hc => absurd hc h1⟩
    · exact ⟨fun _ _ hc => absurd hc h1, fun hc => absurd hc h1⟩
  have hsent : ∀ p ∈ w.outbox, ∀ i, ((∃ v, p.2 = .putData i v) ∨ ∃ v, p.2 = .data i v) → i ≠ t := by
    rintro p hpo i hi rfl
    have : (i, p.1) ∈ w.sent := by
      rw [h.serve.sent]
      simp only [List.append_nil, List.mem_reverse, keys, List.mem_filterMap]
      refine ⟨p, hpo, ?_⟩
      rcases hi with ⟨v, hv⟩ | ⟨v, hv⟩ <;> simp [hv]
    exact h.serve.has _ this hn
  refine ⟨⟨?_, ?_, h.serve.sent, h.serve.nodup, ?_, ?_, h.serve.has⟩, ?_, ?_, ?_, ?_⟩
  · intro p hp
    obtain ⟨a, b⟩ := h.serve.nb p hp
    exact ⟨a, List.mem_filter.2 ⟨b, by simpa using hk.1 p hp⟩⟩
  · intro p hp
    obtain ⟨a, b⟩ := h.serve.b p hp
    exact ⟨a, List.mem_filter.2 ⟨b, by simpa using hk.2 p hp⟩⟩
  · intro q hq hqt
    have := (List.mem_filter.1 hq).2
    simp [hqt] at this
  · intro p hp
    obtain ⟨a, b⟩ := h.serve.kind p hp
    refine ⟨fun i v hv => ⟨(a i v hv).1, List.mem_filter.2 ⟨(a i v hv).2, ?_⟩⟩, fun i v hv => ?_⟩
    · simpa using hsent p hp i (Or.inl ⟨v, hv⟩)
    · have hne := hsent p hp i (Or.inr ⟨v, hv⟩)
      rcases b i v hv with hb | ⟨hb1, hb2⟩
      · exact Or.inl (List.mem_filter.2 ⟨hb, by simpa using hne⟩)
      · exact Or.inr ⟨hb1, List.mem_filter.2 ⟨hb2, by simpa using hne⟩⟩
  · exact fun r hr => hq r (hp r (List.mem_append_left _ hr))
  · exact fun r hr => hq r (hp r (List.mem_append_right _ hr))
  · exact fun k hk' => ⟨hf k hk', fun _ _ _ => trivial⟩
  · exact fun _ _ _ => trivial

end Verif.Worker
