import Verif.Lemmas.WorkerStep
import Verif.Spec.Program

/-! Lemmas about sending by the main process and about channels. -/
namespace Verif.Cluster
open Verif.Spec
open Verif.Worker (Val Ret World Request Task Msg Crash Worker upd keys keys_append brings informs Arrives)

theorem sendAll_other (chan : Nat → Nat → List Msg) (src : Nat) (l : List (Nat × Msg)) {s : Nat} (h : s ≠ src) (d : Nat) :
    sendAll chan src l s d = chan s d := by simp [sendAll, h]

theorem sendAll_self (chan : Nat → Nat → List Msg) (src : Nat) (l : List (Nat × Msg)) (d : Nat) :
    sendAll chan src l src d = chan src d ++ (l.filter (·.1 = d)).map (·.2) := by simp [sendAll]

theorem mem_sendAll {chan : Nat → Nat → List Msg} {src : Nat} {l : List (Nat × Msg)} {s d : Nat} {m : Msg}
    (h : m ∈ sendAll chan src l s d) : m ∈ chan s d ∨ (s = src ∧ (d, m) ∈ l) := by
  simp only [sendAll] at h
  split at h
  · rename_i hs
    simp only [List.mem_append, List.mem_map, List.mem_filter, decide_eq_true_eq] at h
    rcases h with h | ⟨p, ⟨hp, hd⟩, rfl⟩
    · exact Or.inl h
    · right
      subst hd
      exact ⟨hs, hp⟩
  · exact Or.inl h

theorem mem_sendAll_old {chan : Nat → Nat → List Msg} {src : Nat} {l : List (Nat × Msg)} {s d : Nat} {m : Msg}
    (h : m ∈ chan s d) : m ∈ sendAll chan src l s d := by
  simp only [sendAll]
  split
  · exact List.mem_append_left _ h
  · exact h

theorem mem_sendAll_new {chan : Nat → Nat → List Msg} {src : Nat} {l : List (Nat × Msg)} {d : Nat} {m : Msg}
    (h : (d, m) ∈ l) : m ∈ sendAll chan src l src d := by
  rw [sendAll_self]
  apply List.mem_append_right
  rw [List.mem_map]
  exact ⟨(d, m), List.mem_filter.2 ⟨h, by simp⟩, rfl⟩

/-- A list of messages meets a worker that knows `K` and has stored `S`. -/
def okFrom (K S : Nat → Prop) : List Msg → Prop
  | [] => True
  | m :: t => Arrives K S m ∧ okFrom (fun i => K i ∨ i ∈ informs m) (fun i => S i ∨ i ∈ brings m) t

theorem arrives_mono {K S K' S' : Nat → Prop} (hK : ∀ i, K i → K' i) (hS : ∀ i, S i → S' i) {m : Msg}
    (h : Arrives K S m) : Arrives K' S' m := by
  cases m with
  | execute r => exact ⟨fun i hi => hK i (h.1 i hi), fun f hf => hS f (h.2 f hf)⟩
  | _ => trivial

theorem okFrom_mono : ∀ (l : List Msg) {K S K' S' : Nat → Prop}, (∀ i, K i → K' i) → (∀ i, S i → S' i) →
    okFrom K S l → okFrom K' S' l
  | [], _, _, _, _, _, _, _ => trivial
  | _ :: t, _, _, _, _, hK, hS, h => ⟨arrives_mono hK hS h.1,
      okFrom_mono t (fun i hi => hi.elim (fun a => Or.inl (hK i a)) Or.inr) (fun i hi => hi.elim (fun a => Or.inl (hS i a)) Or.inr)
        h.2⟩

theorem okFrom_append : ∀ (a : List Msg) {b : List Msg} {K S : Nat → Prop}, okFrom K S a →
    okFrom (fun i => K i ∨ ∃ m ∈ a, i ∈ informs m) (fun i => S i ∨ ∃ m ∈ a, i ∈ brings m) b → okFrom K S (a ++ b)
  | [], b, K, S, _, h => by
    refine okFrom_mono b ?_ ?_ h
    · rintro i (hi | ⟨m, hm, -⟩)
      · exact hi
      · simp at hm
    · rintro i (hi | ⟨m, hm, -⟩)
      · exact hi
      · simp at hm
  | m :: t, b, K, S, ha, hb => by
    refine ⟨ha.1, okFrom_append t ha.2 (okFrom_mono b ?_ ?_ hb)⟩
    · rintro i (hi | ⟨m', hm', hi⟩)
      · exact Or.inl (Or.inl hi)
      · rw [List.mem_cons] at hm'
        rcases hm' with rfl | hm'
        · exact Or.inl (Or.inr hi)
        · exact Or.inr ⟨m', hm', hi⟩
    · rintro i (hi | ⟨m', hm', hi⟩)
      · exact Or.inl (Or.inl hi)
      · rw [List.mem_cons] at hm'
        rcases hm' with rfl | hm'
        · exact Or.inl (Or.inr hi)
        · exact Or.inr ⟨m', hm', hi⟩

theorem okFrom_plain : ∀ (l : List Msg) {K S : Nat → Prop}, (∀ m ∈ l, ∀ r, m ≠ .execute r) → okFrom K S l
  | [], _, _, _ => trivial
  | m :: t, K, S, h => by
    refine ⟨?_, okFrom_plain t (fun m' hm' => h m' (List.mem_cons_of_mem _ hm'))⟩
    cases m with
    | execute r => exact absurd rfl (h _ (by simp) r)
    | _ => trivial

/-- What sending the arguments of a task does: `ids` are the references in them. -/
structure Pushed (dest : Nat) (ids : List Nat) (r r' : Root) (l : List (Nat × Msg)) : Prop where
  same : r' = { r with sent := r'.sent }
  sent : r'.sent = (keys l).reverse ++ r.sent
  nodup : r.sent.Nodup → r'.sent.Nodup
  msgs : ∀ p ∈ l, p.1 = dest ∧ ((∃ i v, p.2 = .putData i v ∧ r.store i = some v) ∨
    ∃ i o, p.2 = .putOwner i o ∧ r.store i = none ∧ r.owner i = some o)
  known : ∀ i ∈ ids, (r.store i ≠ none ∧ (i, dest) ∈ r'.sent) ∨
    (r.store i = none ∧ ∃ o, r.owner i = some o ∧ (dest, Msg.putOwner i o) ∈ l)

theorem Pushed.nil (dest : Nat) (r : Root) : Pushed dest [] r r [] :=
  ⟨rfl, by simp [keys], id, by simp, by simp⟩

theorem pushRef_spec {r r' : Root} {dest id : Nat} {l : List (Nat × Msg)} (h : r.pushRef dest id = some (r', l)) :
    Pushed dest [id] r r' l := by
  simp only [Root.pushRef] at h
  split at h
  · rename_i v hv
    split at h
    · rename_i hin
      simp only [Option.some.injEq, Prod.mk.injEq] at h
      obtain ⟨rfl, rfl⟩ := h
      refine ⟨rfl, by simp [keys], fun a => a, by simp, ?_⟩
      intro i hi
      simp only [List.mem_singleton] at hi
      subst hi
      exact Or.inl ⟨by simp [hv], hin⟩
    · rename_i hin
      simp only [Option.some.injEq, Prod.mk.injEq] at h
      obtain ⟨rfl, rfl⟩ := h
      refine ⟨rfl, by simp [keys], ?_, ?_, ?_⟩
      · intro hn
        simp only [List.nodup_cons]
        exact ⟨hin, hn⟩
      · intro p hp
        simp only [List.mem_singleton] at hp
        subst hp
        exact ⟨rfl, Or.inl ⟨id, v, rfl, hv⟩⟩
      · intro i hi
        simp only [List.mem_singleton] at hi
        subst hi
        exact Or.inl ⟨by simp [hv], by simp⟩
  · rename_i hv
    split at h
    · rename_i o ho
      simp only [Option.some.injEq, Prod.mk.injEq] at h
      obtain ⟨rfl, rfl⟩ := h
      refine ⟨rfl, by simp [keys], fun a => a, ?_, ?_⟩
      · intro p hp
        simp only [List.mem_singleton] at hp
        subst hp
        exact ⟨rfl, Or.inr ⟨id, o, rfl, hv, ho⟩⟩
      · intro i hi
        simp only [List.mem_singleton] at hi
        subst hi
        exact Or.inr ⟨hv, o, ho, by simp⟩
    · simp at h

theorem Pushed.trans {dest : Nat} {a b : List Nat} {r r1 r2 : Root} {l1 l2 : List (Nat × Msg)} (h1 : Pushed dest a r r1 l1)
    (h2 : Pushed dest b r1 r2 l2) : Pushed dest (a ++ b) r r2 (l1 ++ l2) := by
  have e1 := h1.same
  have hs : r1.store = r.store := by rw [e1]
  have ho : r1.owner = r.owner := by rw [e1]
  refine ⟨?_, ?_, fun hn => h2.nodup (h1.nodup hn), ?_, ?_⟩
  · have e2 := h2.same
    rw [e1] at e2
    exact e2
  · rw [h2.sent, h1.sent, keys_append]; simp
  · intro p hp
    rw [List.mem_append] at hp
    rcases hp with hp | hp
    · exact h1.msgs p hp
    · have := h2.msgs p hp
      rw [hs, ho] at this
      exact this
  · intro i hi
    rw [List.mem_append] at hi
    rcases hi with hi | hi
    · rcases h1.known i hi with ⟨k1, k2⟩ | ⟨k1, o, k2, k3⟩
      · left
        refine ⟨k1, ?_⟩
        rw [h2.sent]
        exact List.mem_append_right _ k2
      · right
        exact ⟨k1, o, k2, List.mem_append_left _ k3⟩
    · have := h2.known i hi
      rw [hs, ho] at this
      rcases this with k | ⟨k1, o, k2, k3⟩
      · exact Or.inl k
      · exact Or.inr ⟨k1, o, k2, List.mem_append_right _ k3⟩

mutual
theorem push_spec : ∀ (v : Val) {r r' : Root} {dest : Nat} {l : List (Nat × Msg)}, r.push dest v = some (r', l) →
    Pushed dest (refs v) r r' l
  | .ref i, r, r', dest, l, h => by
    simp only [Root.push] at h
    exact pushRef_spec h
  | .list vs, r, r', dest, l, h => by
    simp only [Root.push] at h
    exact pushList_spec vs h
  | .data _, r, r', dest, l, h => by
    simp only [Root.push, Option.some.injEq, Prod.mk.injEq] at h
    obtain ⟨rfl, rfl⟩ := h
    exact Pushed.nil dest r
  | .exc _, r, r', dest, l, h => by
    simp only [Root.push, Option.some.injEq, Prod.mk.injEq] at h
    obtain ⟨rfl, rfl⟩ := h
    exact Pushed.nil dest r
  | .code _, r, r', dest, l, h => by
    simp only [Root.push, Option.some.injEq, Prod.mk.injEq] at h
    obtain ⟨rfl, rfl⟩ := h
    exact Pushed.nil dest r
theorem pushList_spec : ∀ (vs : List Val) {r r' : Root} {dest : Nat} {l : List (Nat × Msg)},
    r.pushList dest vs = some (r', l) → Pushed dest (refsList vs) r r' l
  | [], r, r', dest, l, h => by
    simp only [Root.pushList, Option.some.injEq, Prod.mk.injEq] at h
    obtain ⟨rfl, rfl⟩ := h
    exact Pushed.nil dest r
  | v :: vs, r, r', dest, l, h => by
    simp only [Root.pushList] at h
    split at h
    · simp at h
    · rename_i r1 l1 h1
      split at h
      · simp at h
      · rename_i r2 l2 h2
        simp only [Option.some.injEq, Prod.mk.injEq] at h
        obtain ⟨rfl, rfl⟩ := h
        exact (push_spec v h1).trans (pushList_spec vs h2)
end

end Verif.Cluster
