import Verif.Spec.Sequential

/-! Helper lemmas about a single worker. -/
namespace Verif.Worker
open Verif.Spec

/-! ## Substitution -/

mutual
theorem subst_noRef (f : Nat → Option Val) : ∀ v, refs v = [] → subst f v = v
  | .ref i, h => by simp [refs] at h
  | .list vs, h => by simp only [subst]; rw [substList_noRef f vs (by simpa [refs] using h)]
  | .data _, _ => rfl
  | .exc _, _ => rfl
  | .code _, _ => rfl
theorem substList_noRef (f : Nat → Option Val) : ∀ vs, refsList vs = [] → substList f vs = vs
  | [], _ => rfl
  | v :: vs, h => by
    simp only [refsList, List.append_eq_nil_iff] at h
    simp only [substList]
    rw [subst_noRef f v h.1, substList_noRef f vs h.2]
end

/-- A partial assignment of reference free values. -/
def Closed (f : Nat → Option Val) : Prop := ∀ i v, f i = some v → refs v = []

/-- `f` is below `g`. -/
def Le (f g : Nat → Option Val) : Prop := ∀ i v, f i = some v → g i = some v

mutual
theorem refs_subst (f : Nat → Option Val) (hf : Closed f) : ∀ v i, i ∈ refs (subst f v) ↔ i ∈ refs v ∧ f i = none
  | .ref j, i => by
    simp only [subst]
    cases h : f j with
    | none =>
      simp only [Option.getD_none, refs, List.mem_singleton]
      constructor
      · rintro rfl; exact ⟨rfl, h⟩
      · exact fun hc => hc.1
    | some v =>
      simp only [Option.getD_some, refs, List.mem_singleton]
      rw [hf j v h]
      simp only [List.not_mem_nil, false_iff, not_and]
      rintro rfl hn
      rw [h] at hn; simp at hn
  | .list vs, i => by simp only [subst, refs]; exact refsList_subst f hf vs i
  | .data _, i => by simp [subst, refs]
  | .exc _, i => by simp [subst, refs]
  | .code _, i => by simp [subst, refs]
theorem refsList_subst (f : Nat → Option Val) (hf : Closed f) :
    ∀ vs i, i ∈ refsList (substList f vs) ↔ i ∈ refsList vs ∧ f i = none
  | [], i => by simp [substList, refsList]
  | v :: vs, i => by
    simp only [substList, refsList, List.mem_append]
    rw [refs_subst f hf v i, refsList_subst f hf vs i]
    constructor
    · rintro (h | h)
      · exact ⟨Or.inl h.1, h.2⟩
      · exact ⟨Or.inr h.1, h.2⟩
    · rintro ⟨h | h, hn⟩
      · exact Or.inl ⟨h, hn⟩
      · exact Or.inr ⟨h, hn⟩
end

mutual
theorem subst_subst (f g : Nat → Option Val) (hf : Closed f) (hle : Le f g) : ∀ v, subst g (subst f v) = subst g v
  | .ref j => by
    simp only [subst]
    cases h : f j with
    | none => simp only [Option.getD_none, subst]
    | some v =>
      simp only [Option.getD_some]
      rw [subst_noRef g v (hf j v h), hle j v h]
      rfl
  | .list vs => by simp only [subst]; rw [substList_substList f g hf hle vs]
  | .data _ => rfl
  | .exc _ => rfl
  | .code _ => rfl
theorem substList_substList (f g : Nat → Option Val) (hf : Closed f) (hle : Le f g) :
    ∀ vs, substList g (substList f vs) = substList g vs
  | [] => rfl
  | v :: vs => by
    simp only [substList]
    rw [subst_subst f g hf hle v, substList_substList f g hf hle vs]
end

mutual
theorem subst_congr (f g : Nat → Option Val) : ∀ v, (∀ i ∈ refs v, f i = g i) → subst f v = subst g v
  | .ref j, h => by simp only [subst]; rw [h j (by simp [refs])]
  | .list vs, h => by simp only [subst]; rw [substList_congr f g vs (by simpa [refs] using h)]
  | .data _, _ => rfl
  | .exc _, _ => rfl
  | .code _, _ => rfl
theorem substList_congr (f g : Nat → Option Val) : ∀ vs, (∀ i ∈ refsList vs, f i = g i) → substList f vs = substList g vs
  | [], _ => rfl
  | v :: vs, h => by
    simp only [substList]
    rw [subst_congr f g v (fun i hi => h i (by simp [refsList, hi])),
      substList_congr f g vs (fun i hi => h i (by simp [refsList, hi]))]
end

/-! ## Materialization

Only the set of requested references and the outbox change. -/

/-- `w'` differs from `w` only by data requests: the new requests are recorded and exactly one request is sent for each. -/
structure Asks (ids : List Nat) (w w' : Worker) : Prop where
  rank : w'.rank = w.rank
  monitor : w'.monitor = w.monitor
  store : w'.store = w.store
  owner : w'.owner = w.owner
  sent : w'.sent = w.sent
  nbGet : w'.nbGet = w.nbGet
  bGet : w'.bGet = w.bGet
  pending : w'.pending = w.pending
  pendingActor : w'.pendingActor = w.pendingActor
  actors : w'.actors = w.actors
  running : w'.running = w.running
  log : w'.log = w.log
  /-- the requests sent -/
  asked : ∃ l : List Nat, w'.requested = l.reverse ++ w.requested ∧
    w'.outbox = w.outbox ++ l.map (fun i => ((w.owner i).getD 0, Msg.get w.rank i false)) ∧
    l.Nodup ∧ ∀ i ∈ l, i ∈ ids ∧ i ∉ w.requested ∧ w.store i = none ∧ ∃ o, w.owner i = some o ∧ o ≠ w.rank
  /-- all missing foreign references are requested -/
  all : ∀ i ∈ ids, w.store i = none → ∀ o, w.owner i = some o → o ≠ w.rank → i ∈ w'.requested

theorem Asks.refl (w : Worker) : Asks [] w w :=
  ⟨rfl, rfl, rfl, rfl, rfl, rfl, rfl, rfl, rfl, rfl, rfl, rfl, ⟨[], by simp⟩, by simp⟩

theorem Asks.trans {a b : List Nat} {w w1 w2 : Worker} (h1 : Asks a w w1) (h2 : Asks b w1 w2) : Asks (a ++ b) w w2 := by
  obtain ⟨l1, r1, o1, n1, p1⟩ := h1.asked
  obtain ⟨l2, r2, o2, n2, p2⟩ := h2.asked
  refine ⟨h2.rank.trans h1.rank, h2.monitor.trans h1.monitor, h2.store.trans h1.store, h2.owner.trans h1.owner,
    h2.sent.trans h1.sent, h2.nbGet.trans h1.nbGet, h2.bGet.trans h1.bGet, h2.pending.trans h1.pending,
    h2.pendingActor.trans h1.pendingActor, h2.actors.trans h1.actors, h2.running.trans h1.running,
    h2.log.trans h1.log, ⟨l1 ++ l2, ?_, ?_, ?_, ?_⟩, ?_⟩
  · rw [r2, r1]; simp
  · rw [o2, o1, h1.owner, h1.rank]; simp
  · rw [List.nodup_append]
    refine ⟨n1, n2, ?_⟩
    intro x hx y hy hxy
    subst hxy
    exact (p2 x hy).2.1 (by rw [r1]; simp [hx])
  · intro i hi
    rw [List.mem_append] at hi
    rcases hi with hi | hi
    · obtain ⟨q1, q2, q3, q4⟩ := p1 i hi
      exact ⟨by simp [q1], q2, q3, q4⟩
    · obtain ⟨q1, q2, q3, q4⟩ := p2 i hi
      rw [h1.store] at q3
      rw [h1.owner, h1.rank] at q4
      refine ⟨by simp [q1], ?_, q3, q4⟩
      intro hc
      exact q2 (by rw [r1]; simp [hc])
  · intro i hi hs o ho hne
    rw [List.mem_append] at hi
    rcases hi with hi | hi
    · have := h1.all i hi hs o ho hne
      rw [r2]; simp [this]
    · exact h2.all i hi (by rw [h1.store]; exact hs) o (by rw [h1.owner]; exact ho) (by rw [h1.rank]; exact hne)

/-- All references are known: present or with known owner. -/
def KnownIn (w : Worker) (ids : List Nat) : Prop := ∀ i ∈ ids, w.store i ≠ none ∨ w.owner i ≠ none

theorem unwrap_ref (w : Worker) (i : Nat) (hk : w.store i ≠ none ∨ w.owner i ≠ none) :
    ∃ w', w.unwrap (.ref i) = .ok ((w.store i).getD (.ref i), (w.store i).isNone, w') ∧ Asks [i] w w' := by
  simp only [Worker.unwrap]
  cases hs : w.store i with
  | some v =>
    refine ⟨w, rfl, ?_⟩
    refine ⟨rfl, rfl, rfl, rfl, rfl, rfl, rfl, rfl, rfl, rfl, rfl, rfl, ⟨[], by simp⟩, ?_⟩
    intro j hj hn
    simp only [List.mem_singleton] at hj
    subst hj
    rw [hs] at hn; simp at hn
  | none =>
    cases ho : w.owner i with
    | none => simp [hs, ho] at hk
    | some o =>
      simp only
      split
      · rename_i hc
        refine ⟨w, rfl, ?_⟩
        refine ⟨rfl, rfl, rfl, rfl, rfl, rfl, rfl, rfl, rfl, rfl, rfl, rfl, ⟨[], by simp⟩, ?_⟩
        intro j hj _ o' ho' hne
        simp only [List.mem_singleton] at hj
        subst hj
        rw [ho] at ho'
        injection ho' with ho'
        subst ho'
        rcases hc with hc | hc
        · exact hc
        · exact absurd hc hne
      · rename_i hc
        simp only [not_or] at hc
        refine ⟨_, rfl, ?_⟩
        refine ⟨rfl, rfl, rfl, rfl, rfl, rfl, rfl, rfl, rfl, rfl, rfl, rfl, ⟨[i], ?_, ?_, ?_, ?_⟩, ?_⟩
        · simp
        · simp [Worker.send, ho]
        · simp
        · intro j hj
          simp only [List.mem_singleton] at hj
          subst hj
          exact ⟨by simp, hc.1, hs, o, ho, hc.2⟩
        · intro j hj _ o' ho' hne
          simp only [List.mem_singleton] at hj
          subst hj
          simp

theorem unwrap_noRef (w : Worker) (v : Val) (h : refs v = []) : w.unwrap v = .ok (v, false, w) := by
  cases v <;> simp_all [Worker.unwrap, refs]

/-- Result of materialization of values whose references are known. -/
def Missing (w : Worker) (ids : List Nat) : Bool := ids.any fun i => (w.store i).isNone

theorem asks_ids {a b : List Nat} {w w' : Worker} (h : Asks a w w') (hab : ∀ i, i ∈ a ↔ i ∈ b) : Asks b w w' := by
  obtain ⟨l, r, o, n, p⟩ := h.asked
  exact ⟨h.rank, h.monitor, h.store, h.owner, h.sent, h.nbGet, h.bGet, h.pending, h.pendingActor, h.actors, h.running,
    h.log, ⟨l, r, o, n, fun i hi => ⟨(hab i).1 (p i hi).1, (p i hi).2⟩⟩, fun i hi => h.all i ((hab i).2 hi)⟩

mutual
theorem materialize_spec : ∀ (v : Val) (w : Worker) (p : Bool), Closed w.store → KnownIn w (refs v) →
    ∃ w', materialize w p v = .ok (subst w.store v, p || Missing w (refs v), w') ∧ Asks (refs v) w w'
  | .ref i, w, p, hc, hk => by
    obtain ⟨w', h1, h2⟩ := unwrap_ref w i (hk i (by simp [refs]))
    refine ⟨w', ?_, h2⟩
    simp only [materialize, h1, subst, Missing, refs, List.any_cons, List.any_nil, Bool.or_false]
  | .list vs, w, p, hc, hk => by
    obtain ⟨w', h1, h2⟩ := materializeList_spec vs w p hc hk
    exact ⟨w', by simp only [materialize, h1, subst, refs], h2⟩
  | .data n, w, p, hc, hk => ⟨w, by simp [materialize, Worker.unwrap, subst, Missing, refs], Asks.refl w⟩
  | .exc n, w, p, hc, hk => ⟨w, by simp [materialize, Worker.unwrap, subst, Missing, refs], Asks.refl w⟩
  | .code n, w, p, hc, hk => ⟨w, by simp [materialize, Worker.unwrap, subst, Missing, refs], Asks.refl w⟩
theorem materializeList_spec : ∀ (vs : List Val) (w : Worker) (p : Bool), Closed w.store → KnownIn w (refsList vs) →
    ∃ w', materializeList w p vs = .ok (substList w.store vs, p || Missing w (refsList vs), w') ∧ Asks (refsList vs) w w'
  | [], w, p, hc, hk => ⟨w, by simp [materializeList, substList, Missing, refsList], Asks.refl w⟩
  | v :: vs, w, p, hc, hk => by
    obtain ⟨w1, h1, a1⟩ := materialize_spec v w p hc (fun i hi => hk i (by simp [refsList, hi]))
    -- the second unwrapping changes nothing
    have h2 : ∃ w2 b, w1.unwrap (subst w.store v) = .ok (subst w.store v, b, w2) ∧ Asks [] w1 w2 ∧
        (b = true → Missing w (refs v) = true) := by
      cases v with
      | ref i =>
        cases hs : w.store i with
        | some u =>
          refine ⟨w1, false, ?_, Asks.refl w1, by simp⟩
          simp only [subst, hs, Option.getD_some]
          exact unwrap_noRef w1 u (hc i u hs)
        | none =>
          have hk1 : w1.store i ≠ none ∨ w1.owner i ≠ none := by
            rw [a1.store, a1.owner]; exact hk i (by simp [refsList, refs])
          obtain ⟨w2, u1, u2⟩ := unwrap_ref w1 i hk1
          rw [a1.store, hs] at u1
          simp only [subst, hs, Option.getD_none]
          refine ⟨w2, true, by simpa using u1, ?_, by simp [Missing, refs, hs]⟩
          obtain ⟨l, r, o, n, q⟩ := u2.asked
          have hl : l = [] := by
            cases l with
            | nil => rfl
            | cons j l =>
              obtain ⟨q1, q2, q3, o', q4, q5⟩ := q j (by simp)
              simp only [List.mem_singleton] at q1
              subst q1
              rw [a1.owner] at q4
              rw [a1.rank] at q5
              exact absurd (a1.all j (by simp [refs]) hs o' q4 q5) q2
          subst hl
          exact ⟨u2.rank, u2.monitor, u2.store, u2.owner, u2.sent, u2.nbGet, u2.bGet, u2.pending, u2.pendingActor,
            u2.actors, u2.running, u2.log, ⟨[], r, o, n, by simp⟩, by simp⟩
      | list vs => exact ⟨w1, false, by simp [subst, Worker.unwrap], Asks.refl w1, by simp⟩
      | data n => exact ⟨w1, false, by simp [subst, Worker.unwrap], Asks.refl w1, by simp⟩
      | exc n => exact ⟨w1, false, by simp [subst, Worker.unwrap], Asks.refl w1, by simp⟩
      | code n => exact ⟨w1, false, by simp [subst, Worker.unwrap], Asks.refl w1, by simp⟩
    obtain ⟨w2, b, h2, a2, hb⟩ := h2
    have hs2 : w2.store = w.store := a2.store.trans a1.store
    have ho2 : w2.owner = w.owner := a2.owner.trans a1.owner
    obtain ⟨w3, h3, a3⟩ := materializeList_spec vs w2 ((p || Missing w (refs v)) || b) (by rw [hs2]; exact hc)
      (fun i hi => by rw [hs2, ho2]; exact hk i (by simp [refsList, hi]))
    refine ⟨w3, ?_, asks_ids ((a1.trans a2).trans a3) (by simp [refsList])⟩
    simp only [materializeList, h1, h2, h3]
    rw [hs2]
    simp only [substList, Missing, refsList, List.any_append, hs2]
    refine congrArg Except.ok (Prod.ext rfl (Prod.ext ?_ rfl))
    simp only
    simp only [Missing] at hb
    cases b <;> cases p <;> simp_all
end

end Verif.Worker
