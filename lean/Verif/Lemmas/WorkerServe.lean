import Verif.Lemmas.Meaning

/-! Invariants of a worker over arbitrary histories: data requests are kept until they are served, and each is served once;
the state of an actor. -/
namespace Verif.Worker
open Verif.Spec

/-- `w'` differs from `w` at most by recorded and sent data requests. -/
structure Quiet (w w' : Worker) : Prop where
  same : w' = { w with requested := w'.requested, outbox := w'.outbox }
  out : ∃ l, w'.outbox = w.outbox ++ l ∧ ∀ p ∈ l, ∃ s i b, p.2 = Msg.get s i b

theorem Quiet.refl (w : Worker) : Quiet w w := ⟨rfl, [], by simp⟩

theorem Quiet.trans {a b c : Worker} (h1 : Quiet a b) (h2 : Quiet b c) : Quiet a c := by
  obtain ⟨s1, l1, o1, p1⟩ := h1
  obtain ⟨s2, l2, o2, p2⟩ := h2
  refine ⟨?_, l1 ++ l2, ?_, ?_⟩
  · rw [s2, s1]
  · rw [o2, o1, List.append_assoc]
  · intro p hp
    rw [List.mem_append] at hp
    rcases hp with hp | hp
    · exact p1 p hp
    · exact p2 p hp

theorem unwrap_quiet {w w' : Worker} {v v' : Val} {p : Bool} (h : w.unwrap v = .ok (v', p, w')) : Quiet w w' := by
  cases v with
  | ref id =>
    simp only [Worker.unwrap] at h
    split at h
    · simp only [Except.ok.injEq, Prod.mk.injEq] at h
      obtain ⟨-, -, rfl⟩ := h
      exact Quiet.refl w
    · split at h
      · simp at h
      · split at h
        · simp only [Except.ok.injEq, Prod.mk.injEq] at h
          obtain ⟨-, -, rfl⟩ := h
          exact Quiet.refl w
        · simp only [Except.ok.injEq, Prod.mk.injEq] at h
          obtain ⟨-, -, rfl⟩ := h
          refine ⟨rfl, _, rfl, ?_⟩
          simp
  | _ =>
    simp only [Worker.unwrap, Except.ok.injEq, Prod.mk.injEq] at h
    obtain ⟨-, -, rfl⟩ := h
    exact Quiet.refl w

mutual
theorem materialize_quiet : ∀ (v : Val) {w w' : Worker} {p p' : Bool} {v' : Val}, materialize w p v = .ok (v', p', w') →
    Quiet w w'
  | .list vs, w, w', p, p', v', h => by
    simp only [materialize] at h
    split at h
    · rename_i q hq
      simp only [Except.ok.injEq, Prod.mk.injEq] at h
      obtain ⟨-, -, rfl⟩ := h
      exact materializeList_quiet vs hq
    · simp at h
  | .data n, w, w', p, p', v', h => by
    simp only [materialize] at h
    split at h
    · rename_i q hq
      simp only [Except.ok.injEq, Prod.mk.injEq] at h
      obtain ⟨-, -, rfl⟩ := h
      exact unwrap_quiet hq
    · simp at h
  | .exc n, w, w', p, p', v', h => by
    simp only [materialize] at h
    split at h
    · rename_i q hq
      simp only [Except.ok.injEq, Prod.mk.injEq] at h
      obtain ⟨-, -, rfl⟩ := h
      exact unwrap_quiet hq
    · simp at h
  | .code n, w, w', p, p', v', h => by
    simp only [materialize] at h
    split at h
    · rename_i q hq
      simp only [Except.ok.injEq, Prod.mk.injEq] at h
      obtain ⟨-, -, rfl⟩ := h
      exact unwrap_quiet hq
    · simp at h
  | .ref n, w, w', p, p', v', h => by
    simp only [materialize] at h
    split at h
    · rename_i q hq
      simp only [Except.ok.injEq, Prod.mk.injEq] at h
      obtain ⟨-, -, rfl⟩ := h
      exact unwrap_quiet hq
    · simp at h
theorem materializeList_quiet : ∀ (vs : List Val) {w w' : Worker} {p p' : Bool} {vs' : List Val},
    materializeList w p vs = .ok (vs', p', w') → Quiet w w'
  | [], w, w', p, p', vs', h => by
    simp only [materializeList, Except.ok.injEq, Prod.mk.injEq] at h
    obtain ⟨-, -, rfl⟩ := h
    exact Quiet.refl w
  | v :: vs, w, w', p, p', vs', h => by
    simp only [materializeList] at h
    split at h
    · simp at h
    · rename_i h1
      split at h
      · simp at h
      · rename_i h2
        split at h
        · simp at h
        · rename_i h3
          simp only [Except.ok.injEq, Prod.mk.injEq] at h
          obtain ⟨-, -, rfl⟩ := h
          exact ((materialize_quiet v h1).trans (unwrap_quiet h2)).trans (materializeList_quiet vs h3)
end

/-- A data request received by a worker: reference, requester, blocking. -/
abbrev Req := Nat × Nat × Bool

/-- The state of the data requests after the requests `H`; `ids` are references that may just have been stored and whose
requests are not yet served, `t` is the reference for which no request may be lost. -/
structure Serve (s0 : List (Nat × Nat)) (t : Nat) (ids : List Nat) (H : List Req) (w : Worker) : Prop where
  nb : ∀ p ∈ w.nbGet, (p.1 ∈ ids ∨ w.store p.1 = none) ∧ (p.1, p.2, false) ∈ H
  b : ∀ p ∈ w.bGet, (p.1 ∈ ids ∨ w.store p.1 = none) ∧ (p.1, p.2, true) ∈ H
  sent : w.sent = (keys w.outbox).reverse ++ s0
  nodup : w.sent.Nodup
  all : ∀ q ∈ H, q.1 = t → (q.1, q.2.1) ∈ w.sent ∨ (q.2.2 = false ∧ (q.1, q.2.1) ∈ w.nbGet) ∨ (q.2.2 = true ∧ (q.1, q.2.1) ∈ w.bGet)
  kind : ∀ p ∈ w.outbox, (∀ i v, p.2 = .putData i v → p.1 ≠ 0 ∧ (i, p.1, false) ∈ H) ∧
    ∀ i v, p.2 = .data i v → (i, p.1, true) ∈ H ∨ (p.1 = 0 ∧ (i, 0, false) ∈ H)
  has : ∀ p ∈ w.sent, w.store p.1 ≠ none

variable {s0 : List (Nat × Nat)} {t : Nat} {ids : List Nat} {H : List Req}

theorem keys_gets {l : List (Nat × Msg)} (h : ∀ p ∈ l, ∃ s i b, p.2 = Msg.get s i b) : keys l = [] := by
  rw [keys, List.filterMap_eq_nil_iff]
  intro p hp
  obtain ⟨s, i, b, hb⟩ := h p hp
  rw [hb]

/-- Changes that do not concern requests: other fields, and messages that carry no data. -/
theorem serve_congr {w w' : Worker} (h : Serve s0 t ids H w) (h1 : w'.store = w.store) (h2 : w'.nbGet = w.nbGet)
    (h3 : w'.bGet = w.bGet) (h4 : w'.sent = w.sent) {l : List (Nat × Msg)} (h5 : w'.outbox = w.outbox ++ l)
    (h6 : ∀ p ∈ l, (∀ i v, p.2 ≠ .putData i v) ∧ ∀ i v, p.2 ≠ .data i v) : Serve s0 t ids H w' := by
  have hk : keys l = [] := by
    rw [keys, List.filterMap_eq_nil_iff]
    intro p hp
    obtain ⟨a, b⟩ := h6 p hp
    split
    · rename_i hb; exact absurd hb (a _ _)
    · rename_i hb; exact absurd hb (b _ _)
    · rfl
  refine ⟨by rw [h1, h2]; exact h.nb, by rw [h1, h3]; exact h.b, by rw [h4, h5, keys_append, hk]; simpa using h.sent,
    by rw [h4]; exact h.nodup, by rw [h4, h2, h3]; exact h.all, ?_, by rw [h4, h1]; exact h.has⟩
  rw [h5]
  intro p hp
  rw [List.mem_append] at hp
  rcases hp with hp | hp
  · exact h.kind p hp
  · obtain ⟨a, b⟩ := h6 p hp
    exact ⟨fun i v he => absurd he (a i v), fun i v he => absurd he (b i v)⟩

theorem serve_quiet {w w' : Worker} (h : Serve s0 t ids H w) (hq : Quiet w w') : Serve s0 t ids H w' := by
  obtain ⟨hs, l, ho, hp⟩ := hq
  refine serve_congr h (by rw [hs]) (by rw [hs]) (by rw [hs]) (by rw [hs]) ho ?_
  intro p h1
  obtain ⟨s, i, b, hb⟩ := hp p h1
  simp [hb]

/-- Sending requested data. -/
theorem serve_push {w : Worker} (h : Serve s0 t ids H w) {dest id : Nat} {bl : Bool} {v : Val}
    (hb : (bl = true → (id, dest, true) ∈ H ∨ (dest = 0 ∧ (id, 0, false) ∈ H)) ∧
      (bl = false → dest ≠ 0 ∧ (id, dest, false) ∈ H)) (hst : w.store id ≠ none) :
    Serve s0 t ids H (w.push dest id bl v) ∧ (id, dest) ∈ (w.push dest id bl v).sent := by
  simp only [Worker.push]
  split
  · rename_i hin
    exact ⟨h, hin⟩
  · rename_i hin
    refine ⟨⟨h.nb, h.b, ?_, ?_, ?_, ?_, ?has⟩, by simp⟩
    case has =>
      simp only [List.mem_cons]
      rintro p (rfl | hp)
      · exact hst
      · exact h.has p hp
    · simp only [Worker.send, keys_append]
      cases bl <;> simp [keys, h.sent]
    · simp only [List.nodup_cons]
      exact ⟨hin, h.nodup⟩
    · intro q hq ht
      rcases h.all q hq ht with h1 | h1
      · exact Or.inl (List.mem_cons_of_mem _ h1)
      · exact Or.inr h1
    · simp only [Worker.send]
      intro p hp
      rw [List.mem_append, List.mem_singleton] at hp
      rcases hp with hp | rfl
      · exact h.kind p hp
      · cases bl with
        | true =>
          simp only [if_true]
          refine ⟨by simp, ?_⟩
          intro i u he
          simp only [Msg.data.injEq] at he
          obtain ⟨rfl, rfl⟩ := he
          exact hb.1 rfl
        | false =>
          simp only [Bool.false_eq_true, if_false]
          refine ⟨?_, by simp⟩
          intro i u he
          simp only [Msg.putData.injEq] at he
          obtain ⟨rfl, rfl⟩ := he
          exact hb.2 rfl

theorem push_fields (w : Worker) (dest id : Nat) (bl : Bool) (v : Val) : (w.push dest id bl v).store = w.store ∧
    (w.push dest id bl v).nbGet = w.nbGet ∧ (w.push dest id bl v).bGet = w.bGet ∧
    ∀ p ∈ w.sent, p ∈ (w.push dest id bl v).sent := by
  simp only [Worker.push]
  split
  · exact ⟨rfl, rfl, rfl, fun p hp => hp⟩
  · exact ⟨rfl, rfl, rfl, fun p hp => List.mem_cons_of_mem _ hp⟩

/-- A data request. -/
theorem serve_get {w : Worker} (h : Serve s0 t ids H w) (src id : Nat) (bl : Bool) :
    Serve s0 t ids (H ++ [(id, src, bl)]) (w.getRequest src id bl) := by
  have h' : ∀ {w : Worker}, Serve s0 t ids H w → (id, src) ∈ w.sent ∨ (bl = false ∧ (id, src) ∈ w.nbGet) ∨
      (bl = true ∧ (id, src) ∈ w.bGet) → Serve s0 t ids (H ++ [(id, src, bl)]) w := by
    intro w h hq
    refine ⟨fun p hp => ⟨(h.nb p hp).1, by simp [(h.nb p hp).2]⟩, fun p hp => ⟨(h.b p hp).1, by simp [(h.b p hp).2]⟩,
      h.sent, h.nodup, ?_, ?_, h.has⟩
    · intro q hmem ht
      rw [List.mem_append, List.mem_singleton] at hmem
      rcases hmem with hmem | rfl
      · exact h.all q hmem ht
      · exact hq
    · intro p hp
      obtain ⟨a, b⟩ := h.kind p hp
      refine ⟨fun i v he => ⟨(a i v he).1, by simp [(a i v he).2]⟩, fun i v he => ?_⟩
      rcases b i v he with hb | ⟨h0, hb⟩
      · exact Or.inl (by simp [hb])
      · exact Or.inr ⟨h0, by simp [hb]⟩
  simp only [Worker.getRequest]
  split
  · rename_i v hv
    -- the data is present: sent now, or earlier
    by_cases hin : (id, src) ∈ w.sent
    · have : w.push src id (decide (src = 0) || bl) v = w := by simp [Worker.push, hin]
      rw [this]
      exact h' h (Or.inl hin)
    · have hH : Serve s0 t ids (H ++ [(id, src, bl)]) { w.push src id (decide (src = 0) || bl) v with
          sent := (w.push src id (decide (src = 0) || bl) v).sent } := by
        simp only [Worker.push, if_neg hin]
        refine ⟨fun p hp => ⟨(h.nb p hp).1, by simp [(h.nb p hp).2]⟩, fun p hp => ⟨(h.b p hp).1, by simp [(h.b p hp).2]⟩,
          ?_, ?_, ?_, ?_, ?has⟩
        case has =>
          simp only [List.mem_cons]
          rintro p (rfl | hp)
          · simp only [Worker.send]; rw [hv]; simp
          · exact h.has p hp
        · simp only [Worker.send, keys_append]
          split <;> simp [keys, h.sent]
        · simp only [List.nodup_cons]
          exact ⟨hin, h.nodup⟩
        · intro q hq ht
          rw [List.mem_append, List.mem_singleton] at hq
          rcases hq with hq | rfl
          · rcases h.all q hq ht with h1 | h1
            · exact Or.inl (List.mem_cons_of_mem _ h1)
            · exact Or.inr h1
          · exact Or.inl (by simp)
        · simp only [Worker.send]
          intro p hp
          rw [List.mem_append, List.mem_singleton] at hp
          rcases hp with hp | rfl
          · obtain ⟨a, b⟩ := h.kind p hp
            refine ⟨fun i v he => ⟨(a i v he).1, by simp [(a i v he).2]⟩, fun i v he => ?_⟩
            rcases b i v he with hb | ⟨h0, hb⟩
            · exact Or.inl (by simp [hb])
            · exact Or.inr ⟨h0, by simp [hb]⟩
          · by_cases hs : src = 0
            · subst hs
              simp only [decide_true, Bool.true_or, if_true]
              refine ⟨by simp, ?_⟩
              intro i u he
              simp only [Msg.data.injEq] at he
              obtain ⟨rfl, rfl⟩ := he
              cases bl
              · exact Or.inr ⟨by trivial, by simp⟩
              · exact Or.inl (by simp)
            · simp only [hs, decide_false, Bool.false_or]
              cases bl with
              | true =>
                simp only [if_true]
                refine ⟨by simp, ?_⟩
                intro i u he
                simp only [Msg.data.injEq] at he
                obtain ⟨rfl, rfl⟩ := he
                exact Or.inl (by simp)
              | false =>
                simp only [Bool.false_eq_true, if_false]
                refine ⟨?_, by simp⟩
                intro i u he
                simp only [Msg.putData.injEq] at he
                obtain ⟨rfl, rfl⟩ := he
                exact ⟨hs, by simp⟩
      exact hH
  · rename_i hn
    have hadd : ∀ (l : List (Nat × Nat)) (p q : Nat × Nat), p ∈ addReq l q ↔ p ∈ l ∨ p = q := by
      intro l p q
      simp only [addReq]
      split
      · rename_i hq
        constructor
        · exact Or.inl
        · rintro (h | rfl)
          · exact h
          · exact hq
      · simp
    have hk : ∀ p ∈ w.outbox, (∀ i v, p.2 = .putData i v → p.1 ≠ 0 ∧ (i, p.1, false) ∈ H ++ [(id, src, bl)]) ∧
        ∀ i v, p.2 = .data i v → (i, p.1, true) ∈ H ++ [(id, src, bl)] ∨
          (p.1 = 0 ∧ (i, 0, false) ∈ H ++ [(id, src, bl)]) := by
      intro p hp
      obtain ⟨a, b⟩ := h.kind p hp
      refine ⟨fun i v he => ⟨(a i v he).1, by simp [(a i v he).2]⟩, fun i v he => ?_⟩
      rcases b i v he with hb | ⟨h0, hb⟩
      · exact Or.inl (by simp [hb])
      · exact Or.inr ⟨h0, by simp [hb]⟩
    cases bl with
    | true =>
      simp only [if_true]
      refine ⟨fun p hp => ⟨(h.nb p hp).1, by simp [(h.nb p hp).2]⟩, ?_, h.sent, h.nodup, ?_, hk, h.has⟩
      · intro p hp
        rw [hadd] at hp
        rcases hp with hp | rfl
        · exact ⟨(h.b p hp).1, by simp [(h.b p hp).2]⟩
        · exact ⟨Or.inr hn, by simp⟩
      · intro q hq ht
        rw [List.mem_append, List.mem_singleton] at hq
        rcases hq with hq | rfl
        · rcases h.all q hq ht with h1 | h1 | ⟨h1, h2⟩
          · exact Or.inl h1
          · exact Or.inr (Or.inl h1)
          · exact Or.inr (Or.inr ⟨h1, by rw [hadd]; exact Or.inl h2⟩)
        · exact Or.inr (Or.inr ⟨by trivial, by rw [hadd]; exact Or.inr rfl⟩)
    | false =>
      simp only [Bool.false_eq_true, if_false]
      refine ⟨?_, fun p hp => ⟨(h.b p hp).1, by simp [(h.b p hp).2]⟩, h.sent, h.nodup, ?_, hk, h.has⟩
      · intro p hp
        rw [hadd] at hp
        rcases hp with hp | rfl
        · exact ⟨(h.nb p hp).1, by simp [(h.nb p hp).2]⟩
        · exact ⟨Or.inr hn, by simp⟩
      · intro q hq ht
        rw [List.mem_append, List.mem_singleton] at hq
        rcases hq with hq | rfl
        · rcases h.all q hq ht with h1 | ⟨h1, h2⟩ | h1
          · exact Or.inl h1
          · exact Or.inr (Or.inl ⟨h1, by rw [hadd]; exact Or.inl h2⟩)
          · exact Or.inr (Or.inr h1)
        · exact Or.inr (Or.inl ⟨by trivial, by rw [hadd]; exact Or.inr rfl⟩)


/-- The requests served one after the other when the data is present. -/
theorem serve_fold (id : Nat) (bl : Bool) : ∀ (l : List (Nat × Nat)) (w : Worker), Serve s0 t ids H w → w.store id ≠ none →
    (∀ p ∈ l, (id, p.2, bl) ∈ H) →
    Serve s0 t ids H (l.foldl (fun w x => w.getRequest x.2 id bl) w) ∧
    (l.foldl (fun w x => w.getRequest x.2 id bl) w).nbGet = w.nbGet ∧
    (l.foldl (fun w x => w.getRequest x.2 id bl) w).bGet = w.bGet ∧
    (∀ p ∈ w.sent, p ∈ (l.foldl (fun w x => w.getRequest x.2 id bl) w).sent) ∧
    ∀ p ∈ l, (id, p.2) ∈ (l.foldl (fun w x => w.getRequest x.2 id bl) w).sent
  | [], w, h, _, _ => ⟨h, rfl, rfl, fun p hp => hp, by simp⟩
  | x :: l, w, h, hs, hl => by
    obtain ⟨v, hv⟩ := Option.ne_none_iff_exists'.1 hs
    have he : w.getRequest x.2 id bl = w.push x.2 id (decide (x.2 = 0) || bl) v := by simp [Worker.getRequest, hv]
    have hx := hl x (by simp)
    have hp := serve_push h (dest := x.2) (id := id) (bl := decide (x.2 = 0) || bl) (v := v) (by
      cases bl with
      | true => exact ⟨fun _ => Or.inl hx, by simp⟩
      | false =>
        simp only [Bool.or_false, decide_eq_true_eq, decide_eq_false_iff_not]
        exact ⟨fun h0 => Or.inr ⟨h0, by rw [h0] at hx; exact hx⟩, fun h0 => ⟨h0, hx⟩⟩) hs
    obtain ⟨f1, f2, f3, f4⟩ := push_fields w x.2 id (decide (x.2 = 0) || bl) v
    simp only [List.foldl_cons]
    rw [he]
    obtain ⟨i1, i2, i3, i4, i5⟩ := serve_fold id bl l (w.push x.2 id (decide (x.2 = 0) || bl) v) hp.1 (by rw [f1]; exact hs)
      (fun p hp => hl p (List.mem_cons_of_mem _ hp))
    refine ⟨i1, i2.trans f2, i3.trans f3, fun p hp => i4 p (f4 p hp), ?_⟩
    intro p hpl
    rw [List.mem_cons] at hpl
    rcases hpl with rfl | hpl
    · exact i4 _ hp.2
    · exact i5 p hpl

/-- The requests processed one after the other when the data is absent: they are in the lists already. -/
theorem keep_fold (id : Nat) (bl : Bool) : ∀ (l : List (Nat × Nat)) (w : Worker), w.store id = none →
    (∀ p ∈ l, p.1 = id ∧ p ∈ (if bl then w.bGet else w.nbGet)) → l.foldl (fun w x => w.getRequest x.2 id bl) w = w
  | [], w, _, _ => rfl
  | x :: l, w, hs, hl => by
    have he : w.getRequest x.2 id bl = w := by
      obtain ⟨h1, h2⟩ := hl x (by simp)
      have hx : (id, x.2) = x := by rw [← h1]
      simp only [Worker.getRequest, hs, hx, addReq]
      cases bl with
      | true => simp only [if_true] at h2 ⊢; rw [if_pos h2]
      | false => simp only [Bool.false_eq_true, if_false] at h2 ⊢; rw [if_pos h2]
    simp only [List.foldl_cons]
    rw [he]
    exact keep_fold id bl l w hs (fun p hp => hl p (List.mem_cons_of_mem _ hp))

theorem serve_checkGet {w : Worker} (h : Serve s0 t ids H w) (i : Nat) (ht : i = t → w.store i ≠ none) :
    Serve s0 t (ids.filter (· ≠ i)) H (w.checkGet i) := by
  have hmem : ∀ x, x ∈ ids ∧ x ≠ i → x ∈ ids.filter (· ≠ i) := by
    intro x hx; simpa using hx
  cases hs : w.store i with
  | none =>
    have e1 := keep_fold i false (w.nbGet.filter (·.1 = i)) w hs (by
      intro p hp
      rw [List.mem_filter] at hp
      exact ⟨by simpa using hp.2, hp.1⟩)
    have e2 := keep_fold i true (w.bGet.filter (·.1 = i)) { w with nbGet := w.nbGet.filter (·.1 ≠ i) } hs (by
      intro p hp
      rw [List.mem_filter] at hp
      exact ⟨by simpa using hp.2, hp.1⟩)
    simp only [Worker.checkGet]
    rw [e1, e2]
    have hti : t ≠ i := fun hc => ht hc.symm hs
    refine ⟨?_, ?_, h.sent, h.nodup, ?_, h.kind, h.has⟩
    · intro p hp
      simp only [List.mem_filter, decide_eq_true_eq] at hp
      obtain ⟨a, b⟩ := h.nb p hp.1
      exact ⟨a.imp (fun ha => hmem _ ⟨ha, hp.2⟩) id, b⟩
    · intro p hp
      simp only [List.mem_filter, decide_eq_true_eq] at hp
      obtain ⟨a, b⟩ := h.b p hp.1
      exact ⟨a.imp (fun ha => hmem _ ⟨ha, hp.2⟩) id, b⟩
    · intro q hq hqt
      rcases h.all q hq hqt with h1 | ⟨h1, h2⟩ | ⟨h1, h2⟩
      · exact Or.inl h1
      · exact Or.inr (Or.inl ⟨h1, List.mem_filter.2 ⟨h2, by simp [hqt, hti]⟩⟩)
      · exact Or.inr (Or.inr ⟨h1, List.mem_filter.2 ⟨h2, by simp [hqt, hti]⟩⟩)
  | some v =>
    obtain ⟨a1, a2, a3, a4, a5⟩ := serve_fold i false (w.nbGet.filter (·.1 = i)) w h (by rw [hs]; simp) (by
      intro p hp
      rw [List.mem_filter] at hp
      have := (h.nb p hp.1).2
      have he : p.1 = i := by simpa using hp.2
      rw [he] at this; exact this)
    have ast := (grow_fold i false (w.nbGet.filter (·.1 = i)) w).1
    simp only [Worker.checkGet]
    generalize (w.nbGet.filter (·.1 = i)).foldl (fun w x => w.getRequest x.2 i false) w = w1 at a1 a2 a3 a4 a5 ast ⊢
    -- forget the non-blocking requests
    have b1 : Serve s0 t ids H { w1 with nbGet := w1.nbGet.filter (·.1 ≠ i) } := by
      refine ⟨fun p hp => a1.nb p (List.mem_filter.1 hp).1, a1.b, a1.sent, a1.nodup, ?_, a1.kind, a1.has⟩
      intro q hq hqt
      rcases a1.all q hq hqt with h1 | ⟨h1, h2⟩ | h1
      · exact Or.inl h1
      · by_cases he : q.1 = i
        · refine Or.inl ?_
          have := a5 (q.1, q.2.1) (by rw [List.mem_filter, ← a2]; exact ⟨h2, by simpa using he⟩)
          rw [he]; exact this
        · exact Or.inr (Or.inl ⟨h1, by simp [h2, he]⟩)
      · exact Or.inr (Or.inr h1)
    obtain ⟨c1, c2, c3, c4, c5⟩ := serve_fold i true (w1.bGet.filter (·.1 = i)) { w1 with nbGet := w1.nbGet.filter (·.1 ≠ i) } b1
      (by simp only; rw [ast, hs]; simp) (by
      intro p hp
      rw [List.mem_filter] at hp
      have := (a1.b p hp.1).2
      have he : p.1 = i := by simpa using hp.2
      rw [he] at this; exact this)
    generalize (w1.bGet.filter (·.1 = i)).foldl (fun w x => w.getRequest x.2 i true)
      { w1 with nbGet := w1.nbGet.filter (·.1 ≠ i) } = w2 at c1 c2 c3 c4 c5 ⊢
    refine ⟨?_, ?_, c1.sent, c1.nodup, ?_, c1.kind, c1.has⟩
    · intro p hp
      obtain ⟨a, b⟩ := c1.nb p hp
      rw [c2] at hp
      simp only [List.mem_filter, decide_eq_true_eq] at hp
      exact ⟨a.imp (fun ha => hmem _ ⟨ha, hp.2⟩) id, b⟩
    · intro p hp
      simp only [List.mem_filter, decide_eq_true_eq] at hp
      obtain ⟨a, b⟩ := c1.b p hp.1
      exact ⟨a.imp (fun ha => hmem _ ⟨ha, hp.2⟩) id, b⟩
    · intro q hq hqt
      rcases c1.all q hq hqt with h1 | h1 | ⟨h1, h2⟩
      · exact Or.inl h1
      · exact Or.inr (Or.inl h1)
      · by_cases he : q.1 = i
        · refine Or.inl ?_
          have := c5 (q.1, q.2.1) (by
            simp only at c3
            rw [List.mem_filter, ← c3]; exact ⟨h2, by simpa using he⟩)
          rw [he]; exact this
        · exact Or.inr (Or.inr ⟨h1, by simp [h2, he]⟩)

theorem serve_weaken {a b : List Nat} (hab : ∀ i ∈ a, i ∈ b) {w : Worker} (h : Serve s0 t a H w) : Serve s0 t b H w :=
  ⟨fun p hp => ⟨(h.nb p hp).1.imp (hab _) id, (h.nb p hp).2⟩, fun p hp => ⟨(h.b p hp).1.imp (hab _) id, (h.b p hp).2⟩,
    h.sent, h.nodup, h.all, h.kind, h.has⟩

theorem serve_checkGets : ∀ (outs : List Nat) {w : Worker}, Serve s0 t outs H w → (t ∈ outs → w.store t ≠ none) →
    Serve s0 t [] H (w.checkGets outs)
  | [], w, h, _ => h
  | i :: outs, w, h, ht => by
    have h1 := serve_checkGet h i (by rintro rfl; exact ht (by simp))
    have h2 := serve_weaken (b := outs) (by
      intro j hj
      simp only [List.mem_filter, List.mem_cons, decide_eq_true_eq] at hj
      rcases hj.1 with rfl | hj1
      · exact absurd rfl hj.2
      · exact hj1) h1
    have := serve_checkGets outs h2 (by
      intro hm
      rw [(checkGet_static w i).1]
      exact ht (List.mem_cons_of_mem _ hm))
    simpa [Worker.checkGets] using this

theorem putAll_fields : ∀ (l : List (Nat × Val)) (w : Worker), (w.putAll l).nbGet = w.nbGet ∧ (w.putAll l).bGet = w.bGet ∧
    (w.putAll l).sent = w.sent ∧ (w.putAll l).outbox = w.outbox ∧
    (∀ i, i ∉ l.map (·.1) → (w.putAll l).store i = w.store i) ∧ ∀ i ∈ l.map (·.1), (w.putAll l).store i ≠ none
  | [], w => ⟨rfl, rfl, rfl, rfl, fun _ _ => rfl, by simp⟩
  | p :: l, w => by
    obtain ⟨a1, a2, a3, a4, a5, a6⟩ := putAll_fields l (w.put p.1 p.2)
    have he : w.putAll (p :: l) = (w.put p.1 p.2).putAll l := rfl
    rw [he]
    refine ⟨a1, a2, a3, a4, ?_, ?_⟩
    · intro i hi
      simp only [List.map_cons, List.mem_cons, not_or] at hi
      rw [a5 i hi.2]
      simp [Worker.put, upd, hi.1]
    · intro i hi
      simp only [List.map_cons, List.mem_cons] at hi
      by_cases hl : i ∈ l.map (·.1)
      · exact a6 i hl
      · rcases hi with hi | hi
        · rw [a5 i hl, hi]
          simp [Worker.put, upd]
        · exact absurd hi hl

/-- The function results give a value to output `t`. -/
def Full (t : Nat) (outs : List Nat) (r : Ret) : Prop := t ∈ outs → 2 ≤ outs.length → ∀ vs, r = .ret (.list vs) →
  outs.length ≤ vs.length

theorem outputs_full {outs : List Nat} {r : Ret} {l : List (Nat × Val)} {k : List (Option Nat)} (hf : Full t outs r)
    (h : outputs outs r = .ok (l, k)) : (∀ i ∈ l.map (·.1), i ∈ outs) ∧ (t ∈ outs → t ∈ l.map (·.1)) := by
  have hl := outputs_eq h
  refine ⟨fun i hi => by rw [hl] at hi; exact (outputValues_fst outs r).subset hi, ?_⟩
  intro ht
  rw [hl]
  cases r with
  | raise e => simpa [outputValues, Function.comp_def] using ht
  | ret v =>
    match outs, v with
    | [o], v => simpa [outputValues] using ht
    | a :: b :: s, .list vs =>
      have := hf ht (by simp) vs rfl
      simp only [outputValues]
      rw [List.map_fst_zip this]
      exact ht
    | a :: b :: s, .data _ => simp [outputs] at h
    | a :: b :: s, .exc _ => simp [outputs] at h
    | a :: b :: s, .code _ => simp [outputs] at h
    | a :: b :: s, .ref _ => simp [outputs] at h

theorem serve_stored {w : Worker} (h : Serve s0 t [] H w) {outs : List Nat} {r : Ret} {l : List (Nat × Val)}
    {k : List (Option Nat)} (f2 : t ∈ outs → t ∈ l.map (·.1)) (ho : outputs outs r = .ok (l, k)) :
    Serve s0 t [] H ((w.putAll l).checkGets outs) := by
  obtain ⟨a1, a2, a3, a4, a5, a6⟩ := putAll_fields l w
  have f1 : ∀ i ∈ l.map (·.1), i ∈ outs := fun i hi => by
    rw [outputs_eq ho] at hi; exact (outputValues_fst outs r).subset hi
  refine serve_checkGets outs ⟨?_, ?_, by rw [a3, a4]; exact h.sent, by rw [a3]; exact h.nodup,
    by rw [a1, a2, a3]; exact h.all, by rw [a4]; exact h.kind, by rw [a3]; exact fun p hp => (grow_putAll l w).store _ (h.has p hp)⟩ (fun ht => a6 t (f2 ht))
  · rw [a1]
    intro p hp
    obtain ⟨b1, b2⟩ := h.nb p hp
    refine ⟨?_, b2⟩
    by_cases hin : p.1 ∈ l.map (·.1)
    · exact Or.inl (f1 _ hin)
    · refine Or.inr ?_
      rw [a5 _ hin]
      simpa using b1
  · rw [a2]
    intro p hp
    obtain ⟨b1, b2⟩ := h.b p hp
    refine ⟨?_, b2⟩
    by_cases hin : p.1 ∈ l.map (·.1)
    · exact Or.inl (f1 _ hin)
    · refine Or.inr ?_
      rw [a5 _ hin]
      simpa using b1

theorem serve_outputs {w : Worker} (h : Serve s0 t [] H w) {outs : List Nat} {r : Ret} {l : List (Nat × Val)}
    {k : List (Option Nat)} (hf : Full t outs r) (ho : outputs outs r = .ok (l, k)) :
    Serve s0 t [] H ((w.putAll l).checkGets outs) := serve_stored h (outputs_full hf ho).2 ho

/-- Every result that user code can give is full for the outputs, and the tracked output is not made by a coroutine.
`K f c` says that reference `f` may hold the code `c`; anything may be an output. -/
def FullReq (W : World) (K : Nat → Nat → Prop) (t : Nat) (r : Request) : Prop :=
  (∀ o ∈ r.outs, ∀ c, K o c) ∧
  match r.task with
  | .fn f => (∀ c, K f c → ∀ args, Full t r.outs (W.call c args)) ∧ (t ∈ r.outs → ∀ c, K f c → W.isAsync c = false)
  | .method _ c => (∀ s args, Full t r.outs (W.method c s args).2) ∧ (t ∈ r.outs → W.isAsync c = false)

/-- Only allowed code is stored. -/
def Codes (K : Nat → Nat → Prop) (w : Worker) : Prop := ∀ f c, w.store f = some (.code c) → K f c

theorem codes_put {K : Nat → Nat → Prop} {w : Worker} (h : Codes K w) {id : Nat} {v : Val} (hv : ∀ c, v = .code c → K id c) :
    Codes K (w.put id v) := by
  intro f c hf
  simp only [Worker.put, upd] at hf
  split at hf
  · rename_i he
    subst he
    simp only [Option.some.injEq] at hf
    exact hv c hf
  · exact h f c hf

theorem codes_putAll {K : Nat → Nat → Prop} : ∀ (l : List (Nat × Val)) {w : Worker}, Codes K w →
    (∀ i ∈ l.map (·.1), ∀ c, K i c) → Codes K (w.putAll l)
  | [], _, h, _ => h
  | x :: l, w, h, hl => codes_putAll l (w := w.put x.1 x.2) (codes_put h (fun c _ => hl _ (by simp) c))
      (fun i hi => hl i (by simp [hi]))

variable {K : Nat → Nat → Prop}

theorem fullReq_congr {W : World} {q r : Request} (h1 : q.outs = r.outs) (h2 : q.task = r.task) (h : FullReq W K t r) :
    FullReq W K t q := by
  unfold FullReq at h ⊢
  rw [h1, h2]; exact h

/-- The invariant of a worker that has received the data requests `H`. -/
structure Served (W : World) (K : Nat → Nat → Prop) (s0 : List (Nat × Nat)) (t : Nat) (H : List Req) (w : Worker) : Prop where
  serve : Serve s0 t [] H w
  pend : ∀ r ∈ w.pending, FullReq W K t r
  actor : ∀ r ∈ w.pendingActor, FullReq W K t r
  run : ∀ k ∈ w.running, Full t k.outs k.result ∧ ∀ o ∈ k.outs, ∀ c, K o c
  codes : Codes K w

theorem evaluate_fields (W : World) (w : Worker) (k : Task) (args : List Val) :
    (w.evaluate W k args).2 = { w with actors := (w.evaluate W k args).2.actors } := by
  simp only [Worker.evaluate]
  split
  · rfl
  · split
    · split <;> rfl
    · split
      · split <;> rfl
      · rfl

theorem evaluate_full {W : World} {r : Request} (h : FullReq W K t r) (w : Worker) (hK : Codes K w) (args : List Val) :
    Full t r.outs (w.evaluate W r.task args).1 := by
  have hr : ∀ e, Full t r.outs (.raise e) := fun e _ _ vs hv => by simp at hv
  simp only [Worker.evaluate]
  split
  · exact hr _
  · split
    · rename_i f ht
      rw [FullReq, ht] at h
      split
      · rename_i hc
        exact h.2.1 _ (hK _ _ hc) _
      · exact hr _
    · rename_i k c ht
      rw [FullReq, ht] at h
      split
      · split
        · exact h.2.1 _ _
        · exact h.2.1 _ _
      · exact hr _

theorem taskAsync_plain {W : World} {r : Request} (h : FullReq W K t r) (w : Worker) (hK : Codes K w) (ha : w.taskAsync W r.task = true) :
    t ∉ r.outs := by
  intro ht
  rw [FullReq] at h
  replace h := h.2
  simp only [Worker.taskAsync] at ha
  split at h
  · rename_i f hk
    simp only [hk] at ha
    split at ha
    · rename_i hc
      rw [h.2 ht _ (hK _ _ hc)] at ha
      simp at ha
    · simp at ha
  · rename_i k c hk
    have := h.2 ht
    simp_all

theorem served_execute {W : World} {w w' : Worker} (h : Served W K s0 t H w) {r : Request} (hr : FullReq W K t r)
    {args : List Val} (he : w.execute W r args = .ok w') :
    Served W K s0 t H w' ∧ w'.pending = w.pending ∧ w'.pendingActor = w.pendingActor ∧ (t ∈ r.outs → w'.store t ≠ none) := by
  simp only [Worker.execute] at he
  have hev := evaluate_fields W { w with log := w.log ++ [{ r with args := args }] } r.task args
  have hfu := evaluate_full hr { w with log := w.log ++ [{ r with args := args }] } h.codes args
  generalize Worker.evaluate W { w with log := w.log ++ [{ r with args := args }] } r.task args = e at he hev hfu
  obtain ⟨res, w1⟩ := e
  simp only at he hev hfu
  have h1 : Serve s0 t [] H w1 := serve_congr h.serve (by rw [hev]) (by rw [hev]) (by rw [hev]) (by rw [hev]) (l := []) (by rw [hev]; simp) (by simp)
  have e1 : w1.pending = w.pending := by rw [hev]
  have e2 : w1.pendingActor = w.pendingActor := by rw [hev]
  have e3 : w1.running = w.running := by rw [hev]
  have e4 : Codes K w1 := by rw [hev]; exact h.codes
  split at he
  · rename_i hasync
    simp only [Except.ok.injEq] at he
    subst he
    refine ⟨⟨serve_congr h1 rfl rfl rfl rfl (l := []) (by simp) (by simp), by simp only; rw [e1]; exact h.pend,
      by simp only; rw [e2]; exact h.actor, ?_, e4⟩, e1, e2, fun ht => absurd ht (taskAsync_plain hr w h.codes hasync)⟩
    simp only
    intro k hk
    rw [e3, List.mem_append, List.mem_singleton] at hk
    rcases hk with hk | rfl
    · exact h.run k hk
    · exact ⟨hfu, hr.1⟩
  · simp only [Worker.finish] at he
    split at he
    · simp at he
    · rename_i l k ho
      simp only [Except.ok.injEq] at he
      subst he
      have h2 := serve_outputs h1 hfu ho
      have hc := core_ext ((checkGets_core r.outs (w1.putAll l)).trans (putAll_core l w1))
      have e5 : Codes K ((w1.putAll l).checkGets r.outs) := by
        intro f c hf
        rw [(checkGets_static r.outs _).1] at hf
        exact codes_putAll l e4 (fun i hi => hr.1 i ((outputs_full hfu ho).1 i hi)) f c hf
      refine ⟨⟨serve_congr h2 rfl rfl rfl rfl (l := [(w1.monitor, .taskDone k)]) rfl (by simp), ?_, ?_, ?_, e5⟩, ?_, ?_, ?_⟩
      rotate_right
      · intro ht
        simp only [Worker.send]
        rw [(checkGets_static r.outs _).1]
        exact (putAll_fields l w1).2.2.2.2.2 t ((outputs_full hfu ho).2 ht)
      all_goals simp only [Worker.send, hc, e1, e2, e3]
      · exact h.pend
      · exact h.actor
      · exact h.run

theorem served_quiet {W : World} {w w' : Worker} (h : Served W K s0 t H w) (hq : Quiet w w') :
    Served W K s0 t H w' ∧ w'.pending = w.pending ∧ w'.pendingActor = w.pendingActor := by
  have hs := hq.same
  refine ⟨⟨serve_quiet h.serve hq, by rw [hs]; exact h.pend, by rw [hs]; exact h.actor, by rw [hs]; exact h.run,
      by intro f c hf; rw [hs] at hf; exact h.codes f c hf⟩,
    by rw [hs], by rw [hs]⟩

theorem served_process {W : World} {w w' : Worker} (h : Served W K s0 t H w) {r : Request} (hr : FullReq W K t r)
    {o : Option Request} (hp : w.process W r = .ok (o, w')) :
    Served W K s0 t H w' ∧ w'.pending = w.pending ∧ w'.pendingActor = w.pendingActor ∧ ∀ q ∈ o, q.outs = r.outs ∧ q.task = r.task := by
  simp only [Worker.process] at hp
  split at hp
  · split at hp
    · simp at hp
    · rename_i hm
      simp only [Except.ok.injEq, Prod.mk.injEq] at hp
      obtain ⟨rfl, rfl⟩ := hp
      obtain ⟨a, b, c⟩ := served_quiet h (materializeList_quiet _ hm)
      refine ⟨a, b, c, ?_⟩
      simp
    · rename_i hm
      split at hp
      · rename_i w2 he
        simp only [Except.ok.injEq, Prod.mk.injEq] at hp
        obtain ⟨rfl, rfl⟩ := hp
        obtain ⟨a, b, c⟩ := served_quiet h (materializeList_quiet _ hm)
        obtain ⟨a', b', c', d'⟩ := served_execute a hr he
        have hc := core_ext (checkGets_core r.outs w2)
        refine ⟨⟨serve_checkGets r.outs (serve_weaken (by simp) a'.serve) d', ?_, ?_, ?_,
          by intro f c hf; rw [(checkGets_static r.outs w2).1] at hf; exact a'.codes f c hf⟩, ?_, ?_, by simp⟩
        all_goals simp only [hc]
        · exact a'.pend
        · exact a'.actor
        · exact a'.run
        · exact b'.trans b
        · exact c'.trans c
      · simp at hp
  · simp at hp

theorem served_processAll {W : World} : ∀ (rs : List Request) {w w' : Worker} {l : List Request}, Served W K s0 t H w →
    (∀ r ∈ rs, FullReq W K t r) → w.processAll W rs = .ok (l, w') →
    Served W K s0 t H w' ∧ w'.pending = w.pending ∧ w'.pendingActor = w.pendingActor ∧ ∀ r ∈ l, FullReq W K t r
  | [], w, w', l, h, _, hp => by
    simp only [Worker.processAll, Except.ok.injEq, Prod.mk.injEq] at hp
    obtain ⟨rfl, rfl⟩ := hp
    exact ⟨h, rfl, rfl, by simp⟩
  | r :: rs, w, w', l, h, hr, hp => by
    simp only [Worker.processAll] at hp
    split at hp
    · simp at hp
    · rename_i o w1 h1
      split at hp
      · simp at hp
      · rename_i l2 w2 h2
        simp only [Except.ok.injEq, Prod.mk.injEq] at hp
        obtain ⟨rfl, rfl⟩ := hp
        obtain ⟨a, b, c, d⟩ := served_process h (hr r (by simp)) h1
        obtain ⟨a', b', c', d'⟩ := served_processAll rs a (fun q hq => hr q (List.mem_cons_of_mem _ hq)) h2
        refine ⟨a', b'.trans b, c'.trans c, ?_⟩
        intro q hq
        rw [List.mem_append] at hq
        rcases hq with hq | hq
        · obtain ⟨d1, d2⟩ := d q (by simpa using hq)
          exact fullReq_congr d1 d2 (hr r (by simp))
        · exact d' q hq

theorem served_checkTasks {W : World} {w w' : Worker} (h : Served W K s0 t H w) (hp : w.checkTasks W = .ok w') :
    Served W K s0 t H w' := by
  simp only [Worker.checkTasks] at hp
  split at hp
  · simp at hp
  · rename_i l w1 h1
    simp only [Except.ok.injEq] at hp
    subst hp
    obtain ⟨a, b, c, d⟩ := served_processAll _ h h.pend h1
    exact ⟨serve_congr a.serve rfl rfl rfl rfl (l := []) (by simp) (by simp), d, a.actor, a.run, a.codes⟩

theorem served_checkActorTasks {W : World} {w w' : Worker} (h : Served W K s0 t H w) (hp : w.checkActorTasks W = .ok w') :
    Served W K s0 t H w' := by
  simp only [Worker.checkActorTasks] at hp
  split at hp
  · simp at hp
  · rename_i l w1 h1
    simp only [Except.ok.injEq] at hp
    subst hp
    obtain ⟨a, b, c, d⟩ := served_processAll _ h h.actor h1
    exact ⟨serve_congr a.serve rfl rfl rfl rfl (l := []) (by simp) (by simp), a.pend, d, a.run, a.codes⟩

/-- The data request made by an event. -/
def reqOf : Event → List Req
  | .op (.get src id b) => [(id, src, b)]
  | _ => []

/-- Events for which the invariant is kept: data that comes from elsewhere is not requested here, and tasks return enough
values for the tracked reference. -/
def Fine (W : World) (K : Nat → Nat → Prop) (t : Nat) (R : Nat → Prop) : Event → Prop
  | .op (.execute r) => FullReq W K t r
  | .op (.actorExecute r k name) => FullReq W K t { r with task := .method k name }
  | .op (.putData id v) => ¬ R id ∧ ∀ c, v = .code c → K id c
  | .op (.get _ id _) => R id
  | _ => True

/-- The condition on a message in a state. -/
def FineAt (W : World) (K : Nat → Nat → Prop) (t : Nat) (R : Nat → Prop) (w : Worker) : Msg → Prop
  | .execute r => FullReq W K t r
  | .actorExecute r k name => FullReq W K t { r with task := .method k name }
  | .putData id v => (R id → w.store id ≠ none) ∧ ∀ c, v = .code c → K id c
  | .get _ id _ => R id
  | _ => True

theorem Fine.at {W : World} {R : Nat → Prop} {w : Worker} {m : Msg} (h : Fine W K t R (.op m)) : FineAt W K t R w m := by
  cases m <;> first | exact h | trivial | exact ⟨fun hr => absurd hr h.1, h.2⟩

theorem served_handle {W : World} {R : Nat → Prop} {w w' : Worker} (h : Served W K s0 t H w) (hR : ∀ q ∈ H, R q.1) {m : Msg}
    (hf : FineAt W K t R w m) (hh : w.handle W m = .ok w') : Served W K s0 t (H ++ reqOf (.op m)) w' := by
  cases m with
  | execute r =>
    simp only [reqOf, List.append_nil]
    simp only [Worker.handle] at hh
    split at hh
    · simp at hh
    · rename_i r' w1 h1
      simp only [Except.ok.injEq] at hh
      subst hh
      obtain ⟨a, b, c, d⟩ := served_process h hf h1
      refine ⟨serve_congr a.serve rfl rfl rfl rfl (l := []) (by simp) (by simp), ?_, a.actor, a.run, a.codes⟩
      intro q hq
      simp only [List.mem_append, List.mem_singleton] at hq
      rcases hq with hq | rfl
      · exact a.pend q hq
      · exact fullReq_congr (d _ rfl).1 (d _ rfl).2 hf
    · rename_i w1 h1
      obtain ⟨a, b, c, d⟩ := served_process h hf h1
      exact served_checkTasks a hh
  | get src id bl =>
    simp only [Worker.handle, Except.ok.injEq] at hh
    subst hh
    have hc := core_ext (getRequest_core w src id bl)
    refine ⟨serve_get h.serve src id bl, by rw [hc.2.2.2.2.1]; exact h.pend, by rw [hc.2.2.2.2.2.1]; exact h.actor, by simp only [hc]; exact h.run,
      by intro f c hfc; rw [(grow_getRequest w src id bl).1] at hfc; exact h.codes f c hfc⟩
  | putData id v =>
    simp only [reqOf, List.append_nil]
    simp only [Worker.handle] at hh
    have h0 : Served W K s0 t H { w.put id v with requested := w.requested.filter (· ≠ id) } := by
      have hk : ∀ i, R i → w.store i = none → (w.put id v).store i = none := by
        intro i hi hn
        simp only [Worker.put, upd]
        rw [if_neg]
        · exact hn
        · rintro rfl
          exact hf.1 hi hn
      refine ⟨⟨?_, ?_, h.serve.sent, h.serve.nodup, h.serve.all, h.serve.kind, ?has⟩, h.pend, h.actor, h.run, codes_put h.codes hf.2⟩
      case has =>
        intro p hp
        simp only [Worker.put, upd]
        split
        · simp
        · exact h.serve.has p hp
      · intro p hp
        obtain ⟨a, b⟩ := h.serve.nb p hp
        exact ⟨a.imp_right (hk _ (hR _ b)), b⟩
      · intro p hp
        obtain ⟨a, b⟩ := h.serve.b p hp
        exact ⟨a.imp_right (hk _ (hR _ b)), b⟩
    split at hh
    · simp at hh
    · rename_i w1 h1
      exact served_checkActorTasks (served_checkTasks h0 h1) hh
  | putOwner id o =>
    simp only [reqOf, List.append_nil]
    simp only [Worker.handle, Except.ok.injEq] at hh
    subst hh
    exact ⟨serve_congr h.serve rfl rfl rfl rfl (l := []) (by simp) (by simp), h.pend, h.actor, h.run, h.codes⟩
  | actorCreate k s =>
    simp only [reqOf, List.append_nil]
    simp only [Worker.handle, Except.ok.injEq] at hh
    subst hh
    exact ⟨serve_congr h.serve rfl rfl rfl rfl (l := []) (by simp) (by simp), h.pend, h.actor, h.run, h.codes⟩
  | actorExecute r k name =>
    simp only [reqOf, List.append_nil]
    simp only [Worker.handle] at hh
    split at hh
    · simp at hh
    · split at hh
      · simp at hh
      · rename_i r' w1 h1
        simp only [Except.ok.injEq] at hh
        subst hh
        obtain ⟨a, b, c, d⟩ := served_process h (r := { r with task := .method k name }) hf h1
        refine ⟨serve_congr a.serve rfl rfl rfl rfl (l := []) (by simp) (by simp), a.pend, ?_, a.run, a.codes⟩
        intro q hq
        simp only [List.mem_append, List.mem_singleton] at hq
        rcases hq with hq | rfl
        · exact a.actor q hq
        · exact fullReq_congr (d _ rfl).1 (d _ rfl).2 hf
      · rename_i w1 h1
        obtain ⟨a, b, c, d⟩ := served_process h (r := { r with task := .method k name }) hf h1
        exact served_checkActorTasks a hh
  | data id v =>
    simp only [reqOf, List.append_nil]
    simp only [Worker.handle, Except.ok.injEq] at hh
    subst hh
    exact h
  | taskDone l =>
    simp only [reqOf, List.append_nil]
    simp only [Worker.handle, Except.ok.injEq] at hh
    subst hh
    exact h

theorem served_complete {W : World} {w : Worker} (h : Served W K s0 t H w) (i : Nat) : Served W K s0 t H (w.complete i) := by
  simp only [Worker.complete]
  split
  · exact h
  · rename_i k hk
    obtain ⟨hkf, hko⟩ := h.run k (List.mem_of_getElem? hk)
    have h1 : Serve s0 t [] H { w with running := w.running.eraseIdx i } :=
      serve_congr h.serve rfl rfl rfl rfl (l := []) (by simp) (by simp)
    have hrun : ∀ q ∈ w.running.eraseIdx i, Full t q.outs q.result ∧ ∀ o ∈ q.outs, ∀ c, K o c := fun q hq => h.run q (List.mem_of_mem_eraseIdx hq)
    simp only [Worker.finishAsync]
    split
    · exact ⟨h1, h.pend, h.actor, hrun, h.codes⟩
    · rename_i l c ho
      have h2 := serve_outputs h1 hkf ho
      have hc := core_ext ((checkGets_core k.outs (Worker.putAll { w with running := w.running.eraseIdx i } l)).trans
        (putAll_core l { w with running := w.running.eraseIdx i }))
      have hcodes : Codes K (Worker.checkGets (Worker.putAll { w with running := w.running.eraseIdx i } l) k.outs) := by
        intro f c hf
        rw [(checkGets_static k.outs _).1] at hf
        exact codes_putAll l (w := { w with running := w.running.eraseIdx i }) h.codes
          (fun j hj => hko j ((outputs_full hkf ho).1 j hj)) f c hf
      split
      · refine ⟨serve_congr h2 rfl rfl rfl rfl (l := [(_, .taskDone c)]) rfl (by simp), ?_, ?_, ?_, hcodes⟩
        all_goals simp only [Worker.send, hc]
        · exact h.pend
        · exact h.actor
        · exact hrun
      · refine ⟨h2, ?_, ?_, ?_, hcodes⟩
        all_goals simp only [hc]
        · exact h.pend
        · exact h.actor
        · exact hrun

theorem served_run {W : World} {R : Nat → Prop} : ∀ (es : List Event) {H : List Req} {w w' : Worker}, Served W K s0 t H w →
    (∀ q ∈ H, R q.1) → (∀ e ∈ es, Fine W K t R e) → w.run W es = .ok w' → Served W K s0 t (H ++ es.flatMap reqOf) w'
  | [], H, w, w', h, _, _, hr => by
    simp only [Worker.run, Except.ok.injEq] at hr
    subst hr
    simpa using h
  | .op m :: es, H, w, w', h, hR, hf, hr => by
    simp only [Worker.run] at hr
    split at hr
    · simp at hr
    · rename_i w1 h1
      have hf1 := hf (.op m) (by simp)
      have := served_run es (served_handle h hR hf1.at h1) (by
        intro q hq
        rw [List.mem_append] at hq
        rcases hq with hq | hq
        · exact hR q hq
        · cases m with
          | get s i b =>
            simp only [reqOf, List.mem_singleton] at hq
            subst hq
            exact hf1
          | _ => simp [reqOf] at hq) (fun e he => hf e (List.mem_cons_of_mem _ he)) hr
      simpa [List.append_assoc] using this
  | .complete i :: es, H, w, w', h, hR, hf, hr => by
    simp only [Worker.run] at hr
    have := served_run es (served_complete h i) hR (fun e he => hf e (List.mem_cons_of_mem _ he)) hr
    simpa [reqOf] using this

theorem served_init (W : World) (t rank monitor : Nat) : Served W K [] t [] (Worker.init rank monitor) := by
  refine ⟨⟨?_, ?_, ?_, ?_, ?_, ?_, ?_⟩, ?_, ?_, ?_, ?_⟩ <;> simp [Worker.init, keys, Codes]

end Verif.Worker
