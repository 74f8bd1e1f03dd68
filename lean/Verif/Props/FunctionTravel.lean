import Mathlib.Data.List.Induction
import Verif.Model.FunctionTravel

/-!
# C109 A remote function can be called wherever it arrives
-/
namespace Verif.Props
open Verif.Travel

/-- In every history of definitions, calls, copies and drops, no call of a remote function object raises. -/
def C109_full : Prop := ∀ (os : List Op) (s : State), State.init.run os = some s → s.failed = []

/-- `g` is called by the main process, then a function using `g` is sent to worker 3, which has not executed `g`. -/
def exTravelUsed : List Op := [.define 0, .call 0 0 2, .pass 0 0 3, .call 3 0 2]

/-- The call in worker 3 raises. -/
theorem C109_violated : ¬ C109_full := fun h => absurd (h exTravelUsed _ rfl) (by decide)

/-- Worker 3 has executed `g`; the main process drops `g`, the cleanup follows, worker 2 hands its `g` on to worker 3. -/
def exTravelDropped : List Op := [.define 0, .call 0 0 2, .call 0 0 3, .pass 0 0 2, .drop 0 0, .cleanup, .pass 2 0 3, .call 3 0 2]

/-- The call in worker 3 raises, whereas it would succeed without the cleanup. -/
theorem C109_dropped_violated : ¬ C109_full := fun h => absurd (h exTravelDropped _ rfl) (by decide)

example : (State.init.run (exTravelDropped.filter (· ≠ .cleanup))).map (·.failed) = some [] := by decide

/-! ## Copies of unused functions -/

/-- Every object that holds a reference is at the process that made it, which knows it. -/
structure TravelOwn (s : State) : Prop where
  own : ∀ p id, some id ∈ s.objects p → s.maker id = p ∧ id ∈ s.known p ∧ id < s.next
  failed : s.failed = []

theorem travel_receive {s : State} (h : TravelOwn s) (q id : Nat) : TravelOwn (s.receive q id) := by
  refine ⟨fun p j hj => ?_, h.failed⟩
  obtain ⟨h1, h2, h3⟩ := h.own p j hj
  refine ⟨h1, ?_, h3⟩
  simp only [State.receive, setAt]
  split
  · rename_i e; subst e; simp [h2]
  · exact h2

theorem travel_make {s : State} (h : TravelOwn s) (p k : Nat) : TravelOwn (s.make p k) := by
  refine ⟨fun q id hid => ?_, h.failed⟩
  simp only [State.make, setAt] at hid ⊢
  by_cases e : q = p
  · subst e
    rw [if_pos rfl] at hid
    rcases List.mem_or_eq_of_mem_set hid with hid | hid
    · obtain ⟨h1, h2, h3⟩ := h.own q id hid
      have : id ≠ s.next := by omega
      simp [this, h1, h2]; omega
    · simp only [Option.some.injEq] at hid
      subst hid; simp
  · rw [if_neg e] at hid
    obtain ⟨h1, h2, h3⟩ := h.own q id hid
    have : id ≠ s.next := by omega
    simp [this, h1, h2, e]; omega

theorem travel_step {s t : State} (h : TravelOwn s) {o : Op} (hp : ∀ p k q, o = .pass p k q → (s.objects p)[k]? = some none)
    (hs : s.step o = some t) : TravelOwn t := by
  cases o with
  | define p =>
    simp only [State.step, Option.some.injEq] at hs; subst hs
    refine ⟨fun q id hid => h.own q id ?_, h.failed⟩
    simp only [setAt] at hid
    split at hid
    · rename_i e; subst e; simpa using hid
    · exact hid
  | call p k dst =>
    simp only [State.step] at hs
    split at hs
    · simp at hs
    · simp only [Option.some.injEq] at hs; subst hs
      exact travel_receive (travel_make h p k) dst _
    · rename_i id hk
      have := h.own p id (List.mem_of_getElem? hk)
      rw [if_pos this.2.1] at hs
      simp only [Option.some.injEq] at hs; subst hs
      exact travel_receive h dst id
  | pass p k q =>
    have hk := hp p k q rfl
    simp only [State.step, hk, Option.some.injEq] at hs; subst hs
    refine ⟨fun r id hid => h.own r id ?_, h.failed⟩
    simp only [setAt] at hid
    split at hid
    · rename_i e; subst e; simpa using hid
    · exact hid
  | drop p k =>
    have hsub : ∀ {r id}, some id ∈ setAt s.objects p ((s.objects p).eraseIdx k) r → some id ∈ s.objects r := by
      intro r id hid
      simp only [setAt] at hid
      split at hid
      · rename_i e; subst e; exact List.mem_of_mem_eraseIdx hid
      · exact hid
    simp only [State.step] at hs
    split at hs
    · simp at hs
    · simp only [Option.some.injEq] at hs; subst hs
      exact ⟨fun r id hid => h.own r id (hsub hid), h.failed⟩
    · rename_i id hk
      split at hs
      · simp only [Option.some.injEq] at hs; subst hs
        exact ⟨fun r id hid => h.own r id (hsub hid), h.failed⟩
      · rename_i hno
        simp only [Option.some.injEq] at hs; subst hs
        refine ⟨fun r j hj => ?_, h.failed⟩
        obtain ⟨h1, h2, h3⟩ := h.own r j (hsub hj)
        refine ⟨h1, ?_, h3⟩
        simp only [setAt] at hj ⊢
        split
        · rename_i e; subst e
          rw [if_pos rfl] at hj
          simp only [List.mem_filter, h2, true_and, decide_eq_true_eq]
          intro e; subst e
          exact hno (Or.inl hj)
        · exact h2
  | cleanup =>
    simp only [State.step, Option.some.injEq] at hs; subst hs
    refine ⟨fun p id hid => ?_, h.failed⟩
    obtain ⟨h1, h2, h3⟩ := h.own p id hid
    exact ⟨h1, by simp [h1, h2], h3⟩

theorem travel_run : ∀ (os : List Op) (s t : State), TravelOwn s →
    (∀ pre p k q post u, os = pre ++ .pass p k q :: post → s.run pre = some u → (u.objects p)[k]? = some none) →
    s.run os = some t → TravelOwn t
  | [], s, t, h, _, hr => by simp only [State.run, Option.some.injEq] at hr; rw [← hr]; exact h
  | o :: os, s, t, h, hp, hr => by
    simp only [State.run] at hr
    split at hr
    · rename_i s1 h1
      refine travel_run os s1 t (travel_step h (fun p k q e => hp [] p k q os s (by simp [e]) rfl) h1) ?_ hr
      intro pre p k q post u e hu
      refine hp (o :: pre) p k q post u (by rw [e]; rfl) ?_
      simp only [State.run, h1, hu]
    · simp at hr

/-- If copies are made of objects only that have not been called yet, no call fails, whatever is dropped and cleaned up.
Missing: copies of objects that have been called (`C109_violated`). -/
theorem C109_unused_partial (os : List Op) (s : State) (h : State.init.run os = some s)
    (hp : ∀ pre p k q post u, os = pre ++ .pass p k q :: post → State.init.run pre = some u → (u.objects p)[k]? = some none) :
    s.failed = [] :=
  (travel_run os _ s ⟨by simp [State.init], rfl⟩ hp h).failed

/-- The function that uses `g` is sent before `g` is called. -/
example : (State.init.run [.define 0, .pass 0 0 3, .call 0 0 2, .call 3 0 2, .drop 0 0, .cleanup, .call 3 0 4]).map
    (fun s => (s.failed, s.objects 3, s.known 2)) = some ([], [some 1], [1]) := by decide

/-! ## Histories in which no process drops a function that it was the first to call: which calls fail -/

/-- An earlier call of the reference `id` that did not raise was sent to process `q`. -/
def TravelSent (os : List Op) (q id : Nat) : Prop :=
  ∃ pre p k post v w, os = pre ++ .call p k q :: post ∧ State.init.run pre = some v ∧ v.step (.call p k q) = some w ∧
    (w.objects p)[k]? = some (some id) ∧ w.failed = v.failed

theorem travel_append : ∀ (a b : List Op) (s : State), s.run (a ++ b) = (s.run a).bind (·.run b)
  | [], _, _ => rfl
  | o :: a, b, s => by
    simp only [List.cons_append, State.run]
    split
    · exact travel_append a b _
    · rfl

theorem travel_sent_snoc (os : List Op) (o : Op) (s t : State) (hr : State.init.run os = some s) (ht : s.step o = some t) (q id : Nat) :
    TravelSent (os ++ [o]) q id ↔ TravelSent os q id ∨
      ∃ p k, o = .call p k q ∧ (t.objects p)[k]? = some (some id) ∧ t.failed = s.failed := by
  constructor
  · rintro ⟨pre, p, k, post, v, w, e, hv, hw, h1, h2⟩
    rcases List.eq_nil_or_concat post with hn | ⟨post', x, hn⟩
    · subst hn
      have e' := List.append_inj' e rfl
      obtain ⟨e1, e2⟩ := e'
      subst e1
      simp only [List.cons.injEq, and_true] at e2
      rw [hr] at hv
      cases hv
      subst e2
      rw [ht] at hw
      cases hw
      exact Or.inr ⟨p, k, rfl, h1, h2⟩
    · subst hn
      rw [List.concat_eq_append, ← List.cons_append, ← List.append_assoc] at e
      obtain ⟨e1, _⟩ := List.append_inj' e rfl
      exact Or.inl ⟨pre, p, k, post', v, w, e1, hv, hw, h1, h2⟩
  · rintro (⟨pre, p, k, post, v, w, e, hv, hw, h1, h2⟩ | ⟨p, k, e, h1, h2⟩)
    · exact ⟨pre, p, k, post ++ [o], v, w, by simp [e], hv, hw, h1, h2⟩
    · subst e
      exact ⟨os, p, k, [], s, t, rfl, hr, ht, h1, h2⟩

/-- If makers drop nothing, a process knows exactly the references that it made and those that were sent to it. -/
structure TravelKnown (os : List Op) (s : State) : Prop where
  known : ∀ q id, id ∈ s.known q ↔ (id < s.next ∧ s.maker id = q) ∨ TravelSent os q id
  objects : ∀ p id, some id ∈ s.objects p → id < s.next
  sent : ∀ q id, TravelSent os q id → id < s.next
  dropped : s.dropped = []
  strong : ∀ q id, id ∈ s.known q → s.maker id ≠ q → id ∈ s.strong q

theorem travel_strong_receive {s : State} (h : ∀ q id, id ∈ s.known q → s.maker id ≠ q → id ∈ s.strong q) (dst j : Nat) :
    ∀ q id, id ∈ (s.receive dst j).known q → (s.receive dst j).maker id ≠ q → id ∈ (s.receive dst j).strong q := by
  intro q id hid hm
  have hm' : s.maker id ≠ q := hm
  simp only [State.receive, setAt] at hid ⊢
  by_cases e : q = dst
  · subst e
    rw [if_pos rfl, List.mem_cons] at hid
    rcases hid with rfl | hid
    · simp [hm', setAt]
    · split
      · exact h q id hid hm'
      · simp [setAt, h q id hid hm']
  · rw [if_neg e] at hid
    split
    · exact h q id hid hm'
    · simpa [setAt, e] using h q id hid hm'

theorem travel_strong_make {s : State} (h : ∀ q id, id ∈ s.known q → s.maker id ≠ q → id ∈ s.strong q)
    (hlt : ∀ q id, id ∈ s.known q → id < s.next) (p k : Nat) :
    ∀ q id, id ∈ (s.make p k).known q → (s.make p k).maker id ≠ q → id ∈ (s.make p k).strong q := by
  intro q id hid hm
  simp only [State.make, setAt] at hid hm ⊢
  by_cases e : id = s.next
  · subst e
    rw [if_pos rfl] at hm
    rw [if_neg (Ne.symm hm)] at hid
    exact absurd (hlt q _ hid) (Nat.lt_irrefl _)
  · rw [if_neg e] at hm
    refine h q id ?_ hm
    split at hid
    · rename_i e2
      subst e2
      simpa [e] using hid
    · exact hid

theorem travel_known_step {os : List Op} {s t : State} {o : Op} (hr : State.init.run os = some s) (h : TravelKnown os s)
    (hd : ∀ p k id, o = .drop p k → (s.objects p)[k]? = some (some id) → s.maker id ≠ p) (ht : s.step o = some t) : TravelKnown (os ++ [o]) t := by
  have sn := travel_sent_snoc os o s t hr ht
  cases o with
  | define p =>
    simp only [State.step, Option.some.injEq] at ht; subst ht
    simp only [reduceCtorEq, false_and, exists_false, or_false] at sn
    refine ⟨fun q id => by rw [sn]; exact h.known q id, fun q id hid => ?_, fun q id => by rw [sn]; exact h.sent q id, h.dropped, h.strong⟩
    simp only [setAt] at hid
    split at hid
    · rename_i e; subst e; exact h.objects q id (by simpa using hid)
    · exact h.objects q id hid
  | call p k dst =>
    simp only [State.step] at ht
    split at ht
    · simp at ht
    · rename_i hk
      simp only [Option.some.injEq] at ht; subst ht
      have hlt : k < (s.objects p).length := (List.getElem?_eq_some_iff.1 hk).1
      have sn' : ∀ q id, TravelSent (os ++ [.call p k dst]) q id ↔ TravelSent os q id ∨ (q = dst ∧ id = s.next) := by
        intro q id
        rw [sn]
        constructor
        · rintro (h1 | ⟨p', k', e, h1, -⟩)
          · exact Or.inl h1
          · simp only [Op.call.injEq] at e
            obtain ⟨rfl, rfl, rfl⟩ := e
            simp [State.receive, State.make, setAt, hlt] at h1
            exact Or.inr ⟨rfl, h1.symm⟩
        · rintro (h1 | ⟨rfl, rfl⟩)
          · exact Or.inl h1
          · exact Or.inr ⟨p, k, rfl, by simp [State.receive, State.make, setAt, hlt], rfl⟩
      refine ⟨fun q id => ?_, fun q id hid => ?_, fun q id hid => ?_, h.dropped, fun q id hid hm => ?_⟩
      · rw [sn']
        have hk1 := h.known q id
        have hs1 := h.sent q id
        by_cases e1 : id = s.next
        · subst e1
          have hn : s.next ∉ s.known q := by
            intro hc
            rcases hk1.1 hc with h1 | h1
            · omega
            · have := hs1 h1; omega
          have hn2 : ¬ TravelSent os q s.next := fun hc => by have := hs1 hc; omega
          by_cases e2 : q = dst <;> by_cases e3 : q = p <;> simp [State.receive, State.make, setAt, e2, e3] <;> grind
        · by_cases e2 : q = dst <;> by_cases e3 : q = p <;> simp [State.receive, State.make, setAt, e2, e3, e1] <;> grind
      · simp only [State.receive, State.make, setAt] at hid ⊢
        by_cases e : q = p
        · subst e
          rw [if_pos rfl] at hid
          rcases List.mem_or_eq_of_mem_set hid with hid | hid
          · have := h.objects q id hid; omega
          · simp only [Option.some.injEq] at hid; omega
        · rw [if_neg e] at hid
          have := h.objects q id hid; omega
      · show id < s.next + 1
        rcases (sn' q id).1 hid with h1 | ⟨-, h1⟩
        · have := h.sent q id h1; omega
        · omega
      · refine travel_strong_receive (travel_strong_make h.strong (fun q id hc => ?_) p k) dst s.next q id hid hm
        rcases (h.known q id).1 hc with h1 | h1
        · exact h1.1
        · exact h.sent q id h1
    · rename_i id hk
      have hid := h.objects p id (List.mem_of_getElem? hk)
      split at ht
      · simp only [Option.some.injEq] at ht; subst ht
        have sn' : ∀ q j, TravelSent (os ++ [.call p k dst]) q j ↔ TravelSent os q j ∨ (q = dst ∧ j = id) := by
          intro q j
          rw [sn]
          constructor
          · rintro (h1 | ⟨p', k', e, h1, -⟩)
            · exact Or.inl h1
            · simp only [Op.call.injEq] at e
              obtain ⟨rfl, rfl, rfl⟩ := e
              simp only [State.receive, hk, Option.some.injEq] at h1
              exact Or.inr ⟨rfl, h1.symm⟩
          · rintro (h1 | ⟨rfl, rfl⟩)
            · exact Or.inl h1
            · exact Or.inr ⟨p, k, rfl, hk, rfl⟩
        refine ⟨fun q j => ?_, h.objects, fun q j hj => ?_, h.dropped, fun q j hj hm => ?_⟩
        · rw [sn']
          have hk1 := h.known q j
          by_cases e2 : q = dst <;> simp [State.receive, setAt, e2] <;> grind
        · show j < s.next
          rcases (sn' q j).1 hj with h1 | ⟨-, h1⟩
          · exact h.sent q j h1
          · omega
        · exact travel_strong_receive h.strong dst id q j hj hm
      · simp only [Option.some.injEq] at ht; subst ht
        have sn' : ∀ q j, TravelSent (os ++ [.call p k dst]) q j ↔ TravelSent os q j := by
          intro q j
          rw [sn]
          constructor
          · rintro (h1 | ⟨p', k', e, -, h1⟩)
            · exact h1
            · simp at h1
          · exact Or.inl
        exact ⟨fun q j => by rw [sn']; exact h.known q j, h.objects, fun q j => by rw [sn']; exact h.sent q j, h.dropped, h.strong⟩
  | pass p k q =>
    simp only [reduceCtorEq, false_and, exists_false, or_false] at sn
    simp only [State.step] at ht
    split at ht
    · simp at ht
    · rename_i o' hk
      simp only [Option.some.injEq] at ht; subst ht
      refine ⟨fun r id => by rw [sn]; exact h.known r id, fun r id hid => ?_, fun r id => by rw [sn]; exact h.sent r id, h.dropped, h.strong⟩
      simp only [setAt] at hid
      split at hid
      · rename_i e; subst e
        simp only [List.mem_append, List.mem_singleton] at hid
        rcases hid with hid | hid
        · exact h.objects r id hid
        · exact h.objects p id (by rw [hid]; exact List.mem_of_getElem? hk)
      · exact h.objects r id hid
  | drop p k =>
    simp only [reduceCtorEq, false_and, exists_false, or_false] at sn
    have hob : ∀ q id, some id ∈ setAt s.objects p ((s.objects p).eraseIdx k) q → id < s.next := by
      intro q id hid
      simp only [setAt] at hid
      split at hid
      · rename_i e; subst e; exact h.objects q id (List.mem_of_mem_eraseIdx hid)
      · exact h.objects q id hid
    simp only [State.step] at ht
    split at ht
    · simp at ht
    · simp only [Option.some.injEq] at ht; subst ht
      exact ⟨fun q id => by rw [sn]; exact h.known q id, hob, fun q id => by rw [sn]; exact h.sent q id, h.dropped, h.strong⟩
    · rename_i id hk
      have hm := hd p k id rfl hk
      split at ht
      · simp only [Option.some.injEq] at ht; subst ht
        exact ⟨fun q id => by rw [sn]; exact h.known q id, hob, fun q id => by rw [sn]; exact h.sent q id, h.dropped, h.strong⟩
      · rename_i hc
        have hnk : id ∉ s.known p := fun hx => hc (Or.inr (h.strong p id hx hm))
        have hkn : setAt s.known p ((s.known p).filter (· ≠ id)) = s.known := by
          funext q
          simp only [setAt]
          split
          · rename_i e; subst e
            exact List.filter_eq_self.2 fun x hx => by simpa using fun e : x = id => hnk (e ▸ hx)
          · rfl
        simp only [hkn, Option.some.injEq] at ht; subst ht
        exact ⟨fun q id => by rw [sn]; exact h.known q id, hob, fun q id => by rw [sn]; exact h.sent q id, h.dropped, h.strong⟩
  | cleanup =>
    simp only [reduceCtorEq, false_and, exists_false, or_false] at sn
    simp only [State.step, Option.some.injEq] at ht; subst ht
    exact ⟨fun q id => by rw [sn]; simp [h.dropped]; exact h.known q id, h.objects, fun q id => by rw [sn]; exact h.sent q id, rfl,
      fun q id hid hm => by simp [h.dropped] at hid ⊢; exact h.strong q id hid hm⟩

theorem travel_known_run (os : List Op) : ∀ (s : State), (∀ pre p k post u id, os = pre ++ .drop p k :: post → State.init.run pre = some u →
    (u.objects p)[k]? = some (some id) → u.maker id ≠ p) → State.init.run os = some s → TravelKnown os s := by
  induction os using List.reverseRecOn with
  | nil =>
    intro s _ hr
    simp only [State.run, Option.some.injEq] at hr; subst hr
    have hn : ∀ q id, ¬ TravelSent [] q id := by
      rintro q id ⟨pre, p, k, post, v, w, e, -⟩
      simp at e
    exact ⟨fun q id => by simp [State.init, hn], by simp [State.init], fun q id hc => absurd hc (hn q id), rfl, by simp [State.init]⟩
  | append_singleton os o ih =>
    intro t hd hr
    rw [travel_append] at hr
    obtain ⟨s, hs, ht⟩ := Option.bind_eq_some_iff.1 hr
    simp only [State.run] at ht
    split at ht
    · rename_i t' h1
      simp only [Option.some.injEq] at ht; subst ht
      exact travel_known_step hs (ih s (fun pre p k post u id e => hd pre p k (post ++ [o]) u id (by simp [e])) hs)
        (fun p k id e => hd os p k [] s id (by simp [e]) hs) h1
    · simp at ht

/-- As long as no process drops an object whose reference it made, a call in process `q` of an object that holds a reference raises
exactly if `q` did not make the reference and no earlier call of it was sent to `q`, whatever other processes drop and however often cleanups
run. Missing: drops by makers (`C109_dropped_violated`). -/
theorem C109_when_partial (os : List Op) (s t : State) (q k dst id : Nat) (hd : ∀ pre p k post u id, os = pre ++ .drop p k :: post →
      State.init.run pre = some u → (u.objects p)[k]? = some (some id) → u.maker id ≠ p)
    (hr : State.init.run os = some s) (hk : (s.objects q)[k]? = some (some id)) (ht : s.step (.call q k dst) = some t) :
    (t.failed = s.failed ↔ s.maker id = q ∨ TravelSent os q id) ∧ (t.failed ≠ s.failed → t.failed = s.failed ++ [(q, id)]) := by
  have h := travel_known_run os s hd hr
  have hid := h.objects q id (List.mem_of_getElem? hk)
  have hkn := h.known q id
  simp only [State.step, hk] at ht
  split at ht
  · rename_i hc
    simp only [Option.some.injEq] at ht; subst ht
    have := hkn.1 hc
    simp only [State.receive, true_iff, ne_eq, not_true_eq_false, false_imp_iff, and_true]
    rcases this with h1 | h1
    · exact Or.inl h1.2
    · exact Or.inr h1
  · rename_i hc
    simp only [Option.some.injEq] at ht; subst ht
    refine ⟨?_, fun _ => rfl⟩
    simp only [List.append_right_eq_self, List.cons_ne_nil, false_iff]
    rintro (h1 | h1)
    · exact hc (hkn.2 (Or.inl ⟨hid, h1⟩))
    · exact hc (hkn.2 (Or.inr h1))

/-- Worker 3 executes `g`, drops its copy, which is cleaned up nowhere, gets another one and can call it. -/
example : (State.init.run [.define 0, .call 0 0 3, .pass 0 0 3, .drop 3 0, .cleanup, .pass 0 0 3, .call 3 0 2]).map
    (fun s => (s.failed, s.known 3, s.dropped)) = some ([], [0], []) := by decide

/-- After a second call of `g` goes to worker 3, its copy works. -/
example : (State.init.run [.define 0, .call 0 0 2, .pass 0 0 3, .call 3 0 2, .call 0 0 3, .call 3 0 2]).map (·.failed) = some [(3, 0)] := by decide

/-! ## A process that holds on to its object -/

theorem travel_held_step {s t : State} {o : Op} {q id : Nat} (hk : id ∈ s.known q) (hs : s.step o = some t) (ho : some id ∈ t.objects q) :
    id ∈ t.known q ∧ t.failed.count (q, id) = s.failed.count (q, id) := by
  cases o with
  | define p => simp only [State.step, Option.some.injEq] at hs; subst hs; exact ⟨hk, rfl⟩
  | call p k dst =>
    simp only [State.step] at hs
    split at hs
    · simp at hs
    · simp only [Option.some.injEq] at hs; subst hs
      refine ⟨?_, rfl⟩
      by_cases e1 : q = dst <;> by_cases e2 : q = p <;> simp [State.receive, State.make, setAt, e1, e2] <;> grind
    · rename_i j hj
      split at hs
      · simp only [Option.some.injEq] at hs; subst hs
        refine ⟨?_, rfl⟩
        by_cases e1 : q = dst <;> simp [State.receive, setAt, e1] <;> grind
      · rename_i hn
        simp only [Option.some.injEq] at hs; subst hs
        refine ⟨hk, ?_⟩
        have : (p, j) ≠ (q, id) := by rintro e; cases e; exact hn hk
        simp [List.count_append, List.count_singleton, this]
  | pass p k r =>
    simp only [State.step] at hs
    split at hs
    · simp at hs
    · simp only [Option.some.injEq] at hs; subst hs; exact ⟨hk, rfl⟩
  | drop p k =>
    simp only [State.step] at hs
    split at hs
    · simp at hs
    · simp only [Option.some.injEq] at hs; subst hs; exact ⟨hk, rfl⟩
    · rename_i j hj
      split at hs
      · simp only [Option.some.injEq] at hs; subst hs; exact ⟨hk, rfl⟩
      · rename_i hn
        simp only [Option.some.injEq] at hs; subst hs
        refine ⟨?_, rfl⟩
        simp only [setAt] at ho ⊢
        split
        · rename_i e; subst e
          rw [if_pos rfl] at ho
          have : id ≠ j := fun e => hn (Or.inl (e ▸ ho))
          simp [hk, this]
        · exact hk
  | cleanup =>
    simp only [State.step, Option.some.injEq] at hs; subst hs
    exact ⟨by simp [hk]; exact Or.inr (Or.inr ho), rfl⟩

theorem travel_held_run {q id : Nat} : ∀ (os : List Op) (s t : State), id ∈ s.known q →
    (∀ pre u, pre <+: os → s.run pre = some u → some id ∈ u.objects q) → s.run os = some t →
    t.failed.count (q, id) = s.failed.count (q, id)
  | [], s, t, _, _, hr => by simp only [State.run, Option.some.injEq] at hr; rw [hr]
  | o :: os, s, t, hk, ho, hr => by
    simp only [State.run] at hr
    split at hr
    · rename_i s1 h1
      obtain ⟨h2, h3⟩ := travel_held_step hk h1 (ho [o] s1 (by simp) (by simp [State.run, h1]))
      rw [← h3]
      refine travel_held_run os s1 t h2 (fun pre u hp hu => ho (o :: pre) u ?_ (by simp [State.run, h1, hu])) hr
      simpa using hp
    · simp at hr

/-- A call that did not raise was made by process `q` or sent to it. From then on `q` always holds an object with this reference.
Then no later call of it by `q` raises, whatever the others drop and however often is cleaned up. Missing: objects that arrive in a
process to which no call was sent (`C109_violated`), or after all others were dropped (`C109_dropped_violated`). -/
theorem C109_held_partial (pre later : List Op) (p k dst q id : Nat) (v s t : State) (h1 : State.init.run pre = some v)
    (h2 : v.step (.call p k dst) = some s) (hok : s.failed = v.failed) (hid : (s.objects p)[k]? = some (some id)) (hq : q = p ∨ q = dst)
    (held : ∀ first u, first <+: later → s.run first = some u → some id ∈ u.objects q) (h3 : s.run later = some t) :
    t.failed.count (q, id) = s.failed.count (q, id) := by
  refine travel_held_run later s t ?_ held h3
  simp only [State.step] at h2
  split at h2
  · simp at h2
  · rename_i hk
    simp only [Option.some.injEq] at h2; subst h2
    have hl : k < (v.objects p).length := (List.getElem?_eq_some_iff.1 hk).1
    simp [State.receive, State.make, setAt, hl] at hid
    subst hid
    rcases hq with rfl | rfl
    · by_cases e : q = dst <;> simp [State.receive, State.make, setAt, e]
    · simp [State.receive, State.make, setAt]
  · rename_i j hk
    split at h2
    · rename_i hn
      simp only [Option.some.injEq] at h2; subst h2
      simp only [State.receive] at hid
      rw [hk] at hid
      simp only [Option.some.injEq] at hid; subst hid
      rcases hq with rfl | rfl
      · by_cases e : q = dst <;> simp [State.receive, setAt, e, hn]
      · simp [State.receive, setAt]
    · simp only [Option.some.injEq] at h2; subst h2
      simp at hok

/-- Worker 2 has a copy of `g` when a call of `g` is sent to it: it can call `g` after the main process has dropped it. -/
example : (State.init.run [.define 0, .call 0 0 3, .pass 0 0 2, .call 0 0 2, .drop 0 0, .cleanup, .call 2 0 3, .cleanup, .call 2 0 4]).map
    (fun s => (s.failed, s.known 2, s.known 0)) = some ([], [0], []) := by decide

end Verif.Props
