import Verif.Model.InterruptReply
import Verif.Lemmas.Wait
import Mathlib.Data.List.Induction

/-! Replies of the monitor with and without interrupted calls. -/
namespace Verif.InterruptReply
open Verif.Wait (Monitor)

variable {place : List (Nat × Nat × Nat) → Nat → Nat}

theorem run_append (as bs : List Act) (s : State) : run place s (as ++ bs) = (run place s as).bind fun t => run place t bs := by
  induction as generalizing s with
  | nil => rfl
  | cons a as ih =>
    simp only [List.cons_append, run]
    cases step place s a with
    | none => rfl
    | some t => exact ih t

theorem run_concat {as : List Act} {a : Act} {s s' : State} (h : run place s (as ++ [a]) = some s') :
    ∃ t, run place s as = some t ∧ step place t a = some s' := by
  rw [run_append, Option.bind_eq_some_iff] at h
  obtain ⟨t, ht, h⟩ := h
  simp only [run, Option.bind_eq_some_iff] at h
  obtain ⟨u, hu, h⟩ := h
  cases h
  exact ⟨t, ht, hu⟩

/-- What a call of the given kind expects. -/
inductive Fits : Request → Reply → Prop
  | count (n : Nat) : Fits .count (.count n)
  | range (id size first size' : Nat) (b : Bool) : Fits (.reserve id size) (.range id first size' b)
  | partition (ids : List Nat) (num : Int) (ready notReady : List Nat) (h : (ready ++ notReady).Perm ids) (hn : (ready.length : Int) = num) :
    Fits (.wait ids num) (.partition ready notReady)
  | shutdown : Fits .shutdown .shutdown

theorem taskDone_idle {m : Monitor} (h : m.awaited = []) (ids : List (Option Nat)) :
    (m.taskDone ids).2 = [] ∧ (m.taskDone ids).1.awaited = [] ∧ (m.taskDone ids).1.ready = m.ready := by
  simp [Monitor.taskDone, Monitor.process, h]

/-- The handler of a call under way after the wait request was processed. -/
theorem partitions_spec {m : Monitor} {k : Nat} {ids : List Nat} (hp : (m.ready ++ m.awaited).Perm ids) :
    (partitions k m.process.2 = [] ∧ (m.process.1.ready ++ m.process.1.awaited).Perm ids ∧ m.process.1.num = m.num) ∨
    ∃ a, partitions k m.process.2 = [(k, a)] ∧ Fits (.wait ids m.num) a ∧ m.process.1.ready = [] ∧ m.process.1.awaited = [] := by
  rcases Wait.process_spec m with h | ⟨r, a, h1, h2, h3, h4, h5⟩
  · exact .inl ⟨by simp [partitions, h.1], h.2.2.2.1.trans hp, h.2.2.1⟩
  · exact .inr ⟨.partition r a, by simp [partitions, h1], .partition _ _ _ _ (h3.trans hp) h2, by simp [h5], by simp [h5]⟩

/-- What is under way for the call `n` with request `r`. -/
inductive Under (s : State) (n : Nat) (r : Request) : Prop
  | sent (h1 : s.requests = [(n, r)]) (h2 : s.replies = []) (h3 : s.mon.handler.ready = []) (h4 : s.mon.handler.awaited = [])
  | waiting (h1 : s.requests = []) (h2 : s.replies = []) (ids : List Nat) (num : Int) (h3 : r = .wait ids num) (h4 : s.mon.waiter = n)
    (h5 : (s.mon.handler.ready ++ s.mon.handler.awaited).Perm ids) (h6 : s.mon.handler.num = num)
  | replied (h1 : s.requests = []) (a : Reply) (h2 : s.replies = [(n, a)]) (h5 : Fits r a) (h3 : s.mon.handler.ready = [])
    (h4 : s.mon.handler.awaited = [])

/-- Invariant without signals before a reply. -/
structure Inv (s : State) : Prop where
  idle : s.call = none → s.requests = [] ∧ s.replies = [] ∧ s.mon.handler.ready = [] ∧ s.mon.handler.awaited = []
  call : ∀ n r, s.call = some (n, r) → Under s n r
  log : ∀ e ∈ s.log, e.answers = e.call ∧ Fits e.request e.reply

theorem inv_init : Inv .init := ⟨by simp [State.init, Monitor.init], by simp [State.init], by simp [State.init]⟩

theorem inv_step {s s' : State} {a : Act} (h : Inv s) (ha : a ≠ .signal) (hs : step place s a = some s') : Inv s' := by
  cases a with
  | call r =>
    simp only [step] at hs
    split at hs
    · cases hs
    · rename_i hc
      have hc : s.call = none := by simpa using hc
      cases hs
      obtain ⟨h1, h2, h3, h4⟩ := h.idle hc
      refine ⟨by simp, fun n r' e => ?_, h.log⟩
      cases e
      exact .sent (by simp [h1]) h2 h3 h4
  | request =>
    simp only [step] at hs
    split at hs
    · rename_i k r rest hend hreq
      cases hs
      cases hcall : s.call with
      | none => have := (h.idle hcall).1; rw [hreq] at this; simp at this
      | some c =>
        obtain ⟨n, r'⟩ := c
        refine ⟨by simp [hcall], fun n' r'' e => ?_, h.log⟩
        have e' : some (n, r') = some (n', r'') := e
        cases e'
        cases h.call n r' hcall with
        | sent h1 h2 h3 h4 =>
          rw [hreq] at h1
          simp only [List.cons.injEq, Prod.mk.injEq] at h1
          obtain ⟨⟨rfl, rfl⟩, rfl⟩ := h1
          cases r with
          | count => exact .replied rfl (.count s.mon.tasks) (by simp [h2, Mon.handle]) (.count _) h3 h4
          | reserve id size =>
            simp only [Mon.handle]
            split
            · rename_i e _
              exact .replied rfl (.range id e.2.1 e.2.2 false) (by simp [h2]) (.range _ _ _ _ _) h3 h4
            · exact .replied rfl (.range id (place s.mon.table size) size true) (by simp [h2]) (.range _ _ _ _ _) h3 h4
          | wait ids num =>
            have hsp := partitions_spec (m := { s.mon.handler with awaited := ids, num := num }) (k := k) (ids := ids) (by simp [h3])
            rcases hsp with ⟨g1, g2, g3⟩ | ⟨a, g1, g2, g3, g4⟩
            · exact .waiting rfl (by simp only [Mon.handle, Monitor.waitRequest, h2, g1, List.append_nil]) ids num rfl rfl g2 g3
            · exact .replied rfl a (by simp only [Mon.handle, Monitor.waitRequest, h2, g1, List.nil_append]) g2 g3 g4
          | shutdown => exact .replied rfl .shutdown (by simp [h2, Mon.handle]) .shutdown h3 h4
        | waiting h1 => rw [hreq] at h1; simp at h1
        | replied h1 => rw [hreq] at h1; simp at h1
    · cases hs
  | report ids =>
    simp only [step] at hs
    split at hs
    · cases hs
    · cases hs
      refine ⟨fun hc => ?_, fun n r e => ?_, h.log⟩
      · obtain ⟨h1, h2, h3, h4⟩ := h.idle hc
        obtain ⟨g1, g2, g3⟩ := taskDone_idle h4 ids
        exact ⟨h1, by simp [h2, g1, partitions], by simpa [g3] using h3, g2⟩
      · cases h.call n r e with
        | sent h1 h2 h3 h4 =>
          obtain ⟨g1, g2, g3⟩ := taskDone_idle h4 ids
          exact .sent h1 (by simp [h2, g1, partitions]) (by simpa [g3] using h3) g2
        | waiting h1 h2 ids' num h3 h4 h5 h6 =>
          have hsp := partitions_spec (m := { s.mon.handler with completed := ids.filterMap id ++ s.mon.handler.completed }) (k := n) (ids := ids') h5
          rcases hsp with ⟨g1, g2, g3⟩ | ⟨a, g1, g2, g3, g4⟩
          · exact .waiting h1 (by simp only [Monitor.taskDone, h2, h4, g1, List.append_nil]) ids' num h3 h4 g2 (g3.trans h6)
          · exact .replied h1 a (by simp only [Monitor.taskDone, h2, h4, g1, List.nil_append]) (by rw [h3, ← h6]; exact g2) g3 g4
        | replied h1 a h2 h5 h3 h4 =>
          obtain ⟨g1, g2, g3⟩ := taskDone_idle h4 ids
          exact .replied h1 a (by simp [h2, g1, partitions]) h5 (by simpa [g3] using h3) g2
  | reply =>
    simp only [step] at hs
    split at hs
    · rename_i n r k a rest hcall hrep
      cases hs
      cases h.call n r hcall with
      | sent h1 h2 => rw [hrep] at h2; simp at h2
      | waiting h1 h2 => rw [hrep] at h2; simp at h2
      | replied h1 a' h2 h5 h3 h4 =>
        rw [hrep] at h2
        simp only [List.cons.injEq, Prod.mk.injEq] at h2
        obtain ⟨⟨rfl, rfl⟩, rfl⟩ := h2
        refine ⟨fun _ => ⟨h1, rfl, h3, h4⟩, by simp, fun e he => ?_⟩
        rcases List.mem_append.1 he with he | he
        · exact h.log e he
        · simp only [List.mem_singleton] at he
          subst he
          exact ⟨rfl, h5⟩
    · cases hs
  | signal => exact absurd rfl ha
  | late =>
    simp only [step] at hs
    split at hs
    · rename_i c x rest hcall hrep
      cases hs
      cases h.call c.1 c.2 hcall with
      | sent h1 h2 => rw [hrep] at h2; simp at h2
      | waiting h1 h2 => rw [hrep] at h2; simp at h2
      | replied h1 a' h2 h5 h3 h4 =>
        rw [hrep] at h2
        simp only [List.cons.injEq] at h2
        exact ⟨fun _ => ⟨h1, h2.2, h3, h4⟩, by simp, h.log⟩
    · cases hs

theorem inv_run : ∀ (acts : List Act) {s s' : State}, Inv s → .signal ∉ acts → run place s acts = some s' → Inv s'
  | [], s, s', h, _, hr => by cases hr; exact h
  | a :: as, s, s', h, hn, hr => by
    simp only [run, Option.bind_eq_some_iff] at hr
    obtain ⟨t, ht, hr⟩ := hr
    exact inv_run as (inv_step h (fun e => hn (by simp [e])) ht) (fun e => hn (by simp [e])) hr

/-- The requests of a history, in the order of the calls. -/
def requestOf : Act → Option Request
  | .call r => some r
  | _ => none

/-- The requests of a history, in the order of the calls. -/
def calls (acts : List Act) : List Request := acts.filterMap requestOf

theorem calls_append (as bs : List Act) : calls (as ++ bs) = calls as ++ calls bs := List.filterMap_append

/-- Whether a request is a `wait`. -/
def Request.isWait : Request → Bool
  | .wait _ _ => true
  | _ => false

/-- Invariant of histories without `wait`: the outstanding requests and replies are numbered in order. -/
structure Ord (acts : List Act) (s : State) : Prop where
  next : s.next = (calls acts).length
  order : ∃ d, s.replies.map (·.1) ++ s.requests.map (·.1) = List.range' d (acts.count .signal + if s.call.isSome then 1 else 0) ∧
    d + (acts.count .signal + if s.call.isSome then 1 else 0) = s.next
  call : ∀ n r, s.call = some (n, r) → n + 1 = s.next ∧ (calls acts)[n]? = some r
  reqs : ∀ k r, (k, r) ∈ s.requests → (calls acts)[k]? = some r
  reps : ∀ k a, (k, a) ∈ s.replies → ∃ r, (calls acts)[k]? = some r ∧ Fits r a
  awaited : s.mon.handler.awaited = []

theorem ord_init : Ord [] .init :=
  ⟨rfl, ⟨0, by simp [State.init]⟩, by simp [State.init], by simp [State.init], by simp [State.init], rfl⟩

theorem getElem?_append_some {α : Type} {l : List α} {k : Nat} {x : α} (m : List α) (h : l[k]? = some x) : (l ++ m)[k]? = some x := by
  rw [List.getElem?_append_left (List.getElem?_eq_some_iff.1 h).1]; exact h

theorem ord_step {acts : List Act} {s s' : State} {a : Act} (h : Ord acts s) (hw : ∀ r, a = .call r → r.isWait = false)
    (hnw : ∀ r ∈ calls acts, r.isWait = false) (hs : step place s a = some s') : Ord (acts ++ [a]) s' := by
  obtain ⟨d, hd, hn⟩ := h.order
  cases a with
  | call r =>
    have hcalls : calls (acts ++ [.call r]) = calls acts ++ [r] := by rw [calls_append]; rfl
    have hcount : (acts ++ [Act.call r]).count Act.signal = acts.count .signal := by simp [List.count_append]
    simp only [step] at hs
    split at hs
    · cases hs
    · rename_i hc
      have hc : s.call = none := by simpa using hc
      cases hs
      rw [hc] at hd hn
      simp only [Option.isSome_none, Bool.false_eq_true, if_false, Nat.add_zero] at hd hn
      refine ⟨?_, ⟨d, ?_, ?_⟩, fun n r' e => ?_, fun k r' hm => ?_, fun k a hm => ?_, h.awaited⟩
      · rw [hcalls]; simp [h.next]
      · simp only [hcount, Option.isSome_some, if_true, List.map_append, List.map_cons, List.map_nil, ← List.append_assoc, hd]
        rw [List.range'_concat, ← hn]; simp
      · simp only [hcount, Option.isSome_some, if_true]; omega
      · simp only [Option.some.injEq, Prod.mk.injEq] at e
        obtain ⟨rfl, rfl⟩ := e
        exact ⟨rfl, by rw [hcalls, h.next]; simp⟩
      · rcases List.mem_append.1 hm with hm | hm
        · rw [hcalls]; exact getElem?_append_some _ (h.reqs k r' hm)
        · simp only [List.mem_singleton, Prod.mk.injEq] at hm
          obtain ⟨rfl, rfl⟩ := hm
          rw [hcalls, h.next]; simp
      · obtain ⟨r', h1, h2⟩ := h.reps k a hm
        exact ⟨r', by rw [hcalls]; exact getElem?_append_some _ h1, h2⟩
  | request =>
    have hcalls : calls (acts ++ [.request]) = calls acts := by rw [calls_append]; simp [calls, requestOf]
    have hcount : (acts ++ [Act.request]).count Act.signal = acts.count .signal := by simp [List.count_append]
    simp only [step] at hs
    split at hs
    · rename_i k r rest hend hreq
      cases hs
      have hrw := h.reqs k r (by rw [hreq]; simp)
      have hnow := hnw r (List.mem_of_getElem? hrw)
      have hx : ∃ a, (s.mon.handle place k r).2 = [(k, a)] ∧ Fits r a ∧ (s.mon.handle place k r).1.handler.awaited = [] := by
        cases r with
        | count => exact ⟨_, rfl, .count _, h.awaited⟩
        | reserve id size =>
          simp only [Mon.handle]
          split
          · exact ⟨_, rfl, .range _ _ _ _ _, h.awaited⟩
          · exact ⟨_, rfl, .range _ _ _ _ _, h.awaited⟩
        | wait ids num => simp [Request.isWait] at hnow
        | shutdown => exact ⟨_, rfl, .shutdown, h.awaited⟩
      obtain ⟨a, ha, hf, haw⟩ := hx
      refine ⟨by rw [hcalls]; exact h.next, ⟨d, ?_, ?_⟩, fun n r' e => ?_, fun k' r' hm => ?_, fun k' a' hm => ?_, haw⟩
      · simp only [hcount, ha]
        rw [← hd, hreq]; simp
      · simp only [hcount]; exact hn
      · rw [hcalls]; exact h.call n r' e
      · rw [hcalls]; exact h.reqs k' r' (by rw [hreq]; exact List.mem_cons_of_mem _ hm)
      · rw [hcalls]
        simp only [ha] at hm
        rcases List.mem_append.1 hm with hm | hm
        · exact h.reps k' a' hm
        · simp only [List.mem_singleton, Prod.mk.injEq] at hm
          obtain ⟨rfl, rfl⟩ := hm
          exact ⟨r, hrw, hf⟩
    · cases hs
  | report ids =>
    have hcalls : calls (acts ++ [.report ids]) = calls acts := by rw [calls_append]; simp [calls, requestOf]
    have hcount : (acts ++ [Act.report ids]).count Act.signal = acts.count .signal := by simp [List.count_append]
    simp only [step] at hs
    split at hs
    · cases hs
    · cases hs
      obtain ⟨g1, g2, g3⟩ := taskDone_idle h.awaited ids
      refine ⟨by rw [hcalls]; exact h.next, ⟨d, ?_, ?_⟩, fun n r' e => ?_, fun k' r' hm => ?_, fun k' a' hm => ?_, g2⟩
      · simp only [hcount, g1, partitions, List.map_nil, List.append_nil]; exact hd
      · simp only [hcount]; exact hn
      · rw [hcalls]; exact h.call n r' e
      · rw [hcalls]; exact h.reqs k' r' hm
      · rw [hcalls]
        simp only [g1, partitions, List.map_nil, List.append_nil] at hm
        exact h.reps k' a' hm
  | reply =>
    have hcalls : calls (acts ++ [.reply]) = calls acts := by rw [calls_append]; simp [calls, requestOf]
    have hcount : (acts ++ [Act.reply]).count Act.signal = acts.count .signal := by simp [List.count_append]
    simp only [step] at hs
    split at hs
    · rename_i n r k a rest hcall hrep
      cases hs
      rw [hcall, hrep] at hd
      rw [hcall] at hn
      simp only [Option.isSome_some, if_true, List.map_cons, List.cons_append, List.range'_succ, List.cons.injEq] at hd hn
      refine ⟨by rw [hcalls]; exact h.next, ⟨d + 1, ?_, ?_⟩, by simp, fun k' r' hm => ?_, fun k' a' hm => ?_, h.awaited⟩
      · simp only [hcount, Option.isSome_none, Bool.false_eq_true, if_false, Nat.add_zero]; exact hd.2
      · simp only [hcount, Option.isSome_none, Bool.false_eq_true, if_false]; omega
      · rw [hcalls]; exact h.reqs k' r' hm
      · rw [hcalls]; exact h.reps k' a' (by rw [hrep]; exact List.mem_cons_of_mem _ hm)
    · cases hs
  | signal =>
    have hcalls : calls (acts ++ [.signal]) = calls acts := by rw [calls_append]; simp [calls, requestOf]
    have hcount : (acts ++ [Act.signal]).count Act.signal = acts.count .signal + 1 := by simp [List.count_append]
    simp only [step] at hs
    split at hs
    · rename_i hcall
      cases hs
      rw [if_pos hcall] at hd hn
      refine ⟨by rw [hcalls]; exact h.next, ⟨d, ?_, ?_⟩, by simp, fun k' r' hm => ?_, fun k' a' hm => ?_, h.awaited⟩
      · simp only [hcount, Option.isSome_none, Bool.false_eq_true, if_false, Nat.add_zero]; exact hd
      · simp only [hcount, Option.isSome_none, Bool.false_eq_true, if_false]; omega
      · rw [hcalls]; exact h.reqs k' r' hm
      · rw [hcalls]; exact h.reps k' a' hm
    · cases hs
  | late =>
    have hcalls : calls (acts ++ [.late]) = calls acts := by rw [calls_append]; simp [calls, requestOf]
    have hcount : (acts ++ [Act.late]).count Act.signal = acts.count .signal := by simp [List.count_append]
    simp only [step] at hs
    split at hs
    · rename_i c x rest hcall hrep
      cases hs
      rw [hcall, hrep] at hd
      rw [hcall] at hn
      simp only [Option.isSome_some, if_true, List.map_cons, List.cons_append, List.range'_succ, List.cons.injEq] at hd hn
      refine ⟨by rw [hcalls]; exact h.next, ⟨d + 1, ?_, ?_⟩, by simp, fun k' r' hm => ?_, fun k' a' hm => ?_, h.awaited⟩
      · simp only [hcount, Option.isSome_none, Bool.false_eq_true, if_false, Nat.add_zero]; exact hd.2
      · simp only [hcount, Option.isSome_none, Bool.false_eq_true, if_false]; omega
      · rw [hcalls]; exact h.reqs k' r' hm
      · rw [hcalls]; exact h.reps k' a' (by rw [hrep]; exact List.mem_cons_of_mem _ hm)
    · cases hs

theorem ord_run (acts : List Act) {s : State} (hw : ∀ r ∈ calls acts, r.isWait = false) (hr : run place .init acts = some s) :
    Ord acts s := by
  induction acts using List.reverseRecOn generalizing s with
  | nil => cases hr; exact ord_init
  | append_singleton as a ih =>
    obtain ⟨t, ht, hs⟩ := run_concat hr
    rw [calls_append] at hw
    refine ord_step (ih (fun r hr => hw r (List.mem_append_left _ hr)) ht) (fun r e => hw r ?_) (fun r hr => hw r (List.mem_append_left _ hr)) hs
    subst e
    simp [calls, requestOf]

/-- Nothing is under way and the monitor waits for nothing. -/
structure Stuck (s : State) (c : Nat × Request) : Prop where
  call : s.call = some c
  requests : s.requests = []
  replies : s.replies = []
  awaited : s.mon.handler.awaited = []

theorem stuck_step {s s' : State} {c : Nat × Request} {a : Act} (h : Stuck s c) (ha : a ≠ .signal) (hs : step place s a = some s') :
    Stuck s' c ∧ s'.log = s.log := by
  cases a with
  | call r => simp [step, h.call] at hs
  | request => simp [step, h.requests] at hs
  | report ids =>
    simp only [step] at hs
    split at hs
    · cases hs
    · cases hs
      obtain ⟨g1, g2, g3⟩ := taskDone_idle h.awaited ids
      exact ⟨⟨h.call, h.requests, by simp [h.replies, g1, partitions], g2⟩, rfl⟩
  | reply => simp [step, h.replies] at hs
  | signal => exact absurd rfl ha
  | late => simp [step, h.replies] at hs

theorem stuck_run : ∀ (acts : List Act) {s s' : State} {c : Nat × Request}, Stuck s c → .signal ∉ acts → run place s acts = some s' →
    Stuck s' c ∧ s'.log = s.log
  | [], s, s', _, h, _, hr => by cases hr; exact ⟨h, rfl⟩
  | a :: as, s, s', _, h, hn, hr => by
    simp only [run, Option.bind_eq_some_iff] at hr
    obtain ⟨t, ht, hr⟩ := hr
    obtain ⟨h1, h2⟩ := stuck_step h (fun e => hn (by simp [e])) ht
    obtain ⟨h3, h4⟩ := stuck_run as h1 (fun e => hn (by simp [e])) hr
    exact ⟨h3, h4.trans h2⟩

end Verif.InterruptReply
