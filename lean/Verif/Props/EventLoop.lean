import Verif.Lemmas.EventLoop

/-! Order of the methods of an actor when some of them are coroutines. -/
namespace Verif.Props
open Verif.EventLoop

/-! ## C114 -/

/-- The calls of a run in the order of arrival. -/
def loopCalls (ops : List Op) : List Call := ops.filterMap fun | .call c => some c | _ => none

/-- Numbers and results of the calls are what a program can have: calls are numbered in the order of arrival, each has its own
result, and a call only has references to results of earlier calls. -/
structure LoopProgram (ops : List Op) : Prop where
  ids : (loopCalls ops).Pairwise fun a b => a.id < b.id
  outs : (loopCalls ops).Pairwise fun a b => a.out ≠ b.out
  before : ∀ a ∈ loopCalls ops, ∀ b ∈ loopCalls ops, a.id ≤ b.id → b.out ∉ a.needs

/-- The first part of call `a` ran before that of `b`. -/
def startsBefore (s : Loop) (a b : Call) : Prop := List.Sublist [(a.id, 0), (b.id, 0)] s.log

/-- The full claim: of two calls with the same references the earlier one starts first. -/
def C114_full : Prop :=
  ∀ (store : List Nat) (ops : List Op) (s : Loop), LoopProgram ops → (Loop.init store).run ops = some s →
    ∀ a ∈ loopCalls ops, ∀ b ∈ loopCalls ops, a.id < b.id → a.needs = b.needs → (b.id, 0) ∈ s.log → startsBefore s a b

/-- A run of a longer list. -/
theorem loop_run_append (s : Loop) (l m : List Op) : s.run (l ++ m) = (s.run l).bind fun s => s.run m := by
  induction l generalizing s with
  | nil => simp [Loop.run]
  | cons op l ih =>
    simp only [List.cons_append, Loop.run]
    cases s.step op with
    | none => simp
    | some s => simp only; exact ih s

/-- A run with one more operation. -/
theorem loop_run_snoc {s s' : Loop} {l : List Op} {op : Op} (h : s.run (l ++ [op]) = some s') :
    ∃ s1, s.run l = some s1 ∧ s1.step op = some s' := by
  rw [loop_run_append] at h
  cases h1 : s.run l with
  | none => rw [h1] at h; simp at h
  | some s1 =>
    rw [h1] at h
    simp only [Option.bind_some, Loop.run] at h
    refine ⟨s1, rfl, ?_⟩
    cases h2 : s1.step op with
    | none => rw [h2] at h; simp at h
    | some s2 => rw [h2] at h; simpa using h

/-- Two waiting calls, a coroutine and a regular method, when their argument arrives. -/
def exBatch : List Op := [.call ⟨1, true, [5], 11, 0⟩, .call ⟨2, false, [5], 12, 0⟩, .data 5, .turn]

/-- A call waits for the result of a coroutine method of the same actor. -/
def exOwnResult : List Op :=
  [.call ⟨1, true, [], 11, 1⟩, .turn, .call ⟨2, false, [11], 12, 0⟩, .wake 0, .turn, .call ⟨3, false, [11], 13, 0⟩]

/-- Violation: when the argument that both calls wait for arrives, the regular method runs before the coroutine method that was
called first. -/
theorem C114_batch_violated : ¬ C114_full := by
  intro h
  obtain ⟨s, hr, hs⟩ := Option.map_eq_some_iff.1 (show ((Loop.init []).run exBatch).map (·.log) = some [(2, 0), (1, 0)] by decide)
  have := h [] exBatch s ⟨by decide, by decide, by decide⟩ hr ⟨1, true, [5], 11, 0⟩ (by decide) ⟨2, false, [5], 12, 0⟩ (by decide)
    (by decide) rfl (by rw [hs]; decide)
  rw [startsBefore, hs] at this
  exact absurd this (by decide)

/-- Violation: the end of a coroutine does not continue the calls that wait for its result; a later call with the same argument
runs before them. -/
theorem C114_result_violated : ¬ C114_full := by
  intro h
  obtain ⟨s, hr, hs⟩ := Option.map_eq_some_iff.1
    (show ((Loop.init []).run exOwnResult).map (·.log) = some [(1, 0), (1, 1), (3, 0), (2, 0)] by decide)
  have := h [] exOwnResult s ⟨by decide, by decide, by decide⟩ hr ⟨2, false, [11], 12, 0⟩ (by decide) ⟨3, false, [11], 13, 0⟩
    (by decide) (by decide) rfl (by rw [hs]; decide)
  rw [startsBefore, hs] at this
  exact absurd this (by decide)

/-! ### Calls whose arguments are there -/

/-- The calls of a run with one more operation. -/
theorem loopCalls_snoc (l : List Op) (op : Op) :
    loopCalls (l ++ [op]) = loopCalls l ++ (match op with | .call c => [c] | _ => []) := by
  cases op <;> simp [loopCalls]

/-- Partial: if the arguments of every call have values when it arrives, then all calls, coroutines or not, start in the order of
arrival: those that have started, followed by the coroutines that the event loop will start next, are exactly the calls. Missing:
calls that have to wait. -/
theorem C114_start_partial (store : List Nat) (ops : List Op) (s : Loop) (hr : (Loop.init store).run ops = some s)
    (h : ∀ pre c post s1, ops = pre ++ .call c :: post → (Loop.init store).run pre = some s1 → ∀ x ∈ c.needs, x ∈ s1.store) :
    (s.log.filter (·.2 == 0)).map (·.1) ++ (s.ready.filter (·.2 == 0)).map (·.1.id) = (loopCalls ops).map (·.id) := by
  have key : ∀ (n : Nat) (ops : List Op) (s : Loop), ops.length = n → (Loop.init store).run ops = some s →
      (∀ pre c post s1, ops = pre ++ .call c :: post → (Loop.init store).run pre = some s1 → ∀ x ∈ c.needs, x ∈ s1.store) →
      s.pending = [] ∧ (∀ r ∈ s.sleeping, r.2 ≠ 0) ∧
      (s.log.filter (·.2 == 0)).map (·.1) ++ (s.ready.filter (·.2 == 0)).map (·.1.id) = (loopCalls ops).map (·.id) := by
    intro n
    induction n with
    | zero =>
      intro ops s hl hr _
      obtain rfl := List.eq_nil_of_length_eq_zero hl
      simp only [Loop.run, Option.some.injEq] at hr
      subst hr
      simp [Loop.init, loopCalls]
    | succ n ih =>
      intro ops s hl hr h
      obtain ⟨l, op, rfl⟩ : ∃ l op, ops = l ++ [op] := by
        rcases List.eq_nil_or_concat ops with rfl | ⟨l, op, rfl⟩
        · simp at hl
        · exact ⟨l, op, by simp⟩
      obtain ⟨s1, h1, h2⟩ := loop_run_snoc hr
      obtain ⟨hp, hsl, hlog⟩ := ih l s1 (by simpa using hl) h1 fun pre c post s2 he =>
        h pre c (post ++ [op]) s2 (by rw [he]; simp)
      rw [loopCalls_snoc, List.map_append, ← hlog]
      have hfree : s1.free = true → s1.ready.filter (·.2 == 0) = [] := by
        intro hf
        rw [List.filter_eq_nil_iff]
        intro r hr0 hc
        rw [Loop.free, Bool.not_eq_true', List.any_eq_false] at hf
        exact hf r hr0 hc
      cases op with
      | call c =>
        have hav : s1.available c = true := by
          rw [Loop.available, List.all_eq_true]
          intro x hx
          simpa using h l c [] s1 (by simp) h1 x hx
        simp only [Loop.step, hav, if_true] at h2
        split at h2
        · rename_i hf
          rw [Option.some.injEq] at h2
          subst h2
          by_cases hc : c.coroutine = true
          · simp [Loop.exec, hc, Loop.check, Loop.checkList, hp, hfree hf]
            exact fun a k hk => hsl _ hk
          · simp [Loop.exec, hc, Loop.check, Loop.checkList, hp, hfree hf]
            exact fun a k hk => hsl _ hk
        · simp at h2
      | data x =>
        simp only [Loop.step] at h2
        split at h2
        · simp only [Option.some.injEq] at h2
          subst h2
          simp [Loop.check, Loop.checkList, hp]
          exact fun a k hk => hsl _ hk
        · simp at h2
      | turn =>
        simp only [Loop.step] at h2
        split at h2
        · simp at h2
        · rename_i c k rest hre
          split at h2 <;>
          · simp only [Option.some.injEq] at h2
            subst h2
            rw [hre]
            refine ⟨hp, ?_, ?_⟩
            · intro r hr0
              first
                | exact hsl r hr0
                | (rcases List.mem_append.1 hr0 with hr0 | hr0
                   · exact hsl r hr0
                   · simp at hr0; subst hr0; simp)
            · by_cases hk : k = 0
              · subst hk; simp
              · simp [hk]
      | wake i =>
        simp only [Loop.step] at h2
        split at h2
        · simp at h2
        · rename_i r hri
          simp only [Option.some.injEq] at h2
          subst h2
          have hm := List.mem_of_getElem? hri
          have hr0 := hsl r hm
          refine ⟨hp, fun r' hr' => hsl r' (List.mem_of_mem_eraseIdx hr'), ?_⟩
          simp [hr0]
  exact (key ops.length ops s rfl hr h).2.2

example : ∃ s, (Loop.init [5]).run [.call ⟨1, true, [5], 11, 1⟩, .turn, .call ⟨2, false, [5], 12, 0⟩, .call ⟨3, true, [12], 13, 0⟩,
      .wake 0, .turn, .turn] = some s ∧ s.log = [(1, 0), (2, 0), (3, 0), (1, 1)] := ⟨_, rfl, rfl⟩

/-! ### Regular methods -/

/-- A shorter run of the same program. -/
theorem LoopProgram.prefix {l : List Op} {op : Op} (h : LoopProgram (l ++ [op])) : LoopProgram l := by
  have hs : (loopCalls l).Sublist (loopCalls (l ++ [op])) := by
    rw [loopCalls_snoc]; exact List.sublist_append_left _ _
  exact ⟨h.ids.sublist hs, h.outs.sublist hs, fun a ha b hb => h.before a (hs.subset ha) b (hs.subset hb)⟩

/-- The state of a worker whose actor has regular methods only. -/
theorem loop_regular (store : List Nat) (ops : List Op) (s : Loop) (hp : LoopProgram ops)
    (hreg : ∀ c ∈ loopCalls ops, c.coroutine = false) (hr : (Loop.init store).run ops = some s) :
    Regular (loopCalls ops) s.pending [] s := by
  have key : ∀ (n : Nat) (ops : List Op) (s : Loop), ops.length = n → LoopProgram ops →
      (∀ c ∈ loopCalls ops, c.coroutine = false) → (Loop.init store).run ops = some s →
      Regular (loopCalls ops) s.pending [] s := by
    intro n
    induction n with
    | zero =>
      intro ops s hl _ _ hr
      obtain rfl := List.eq_nil_of_length_eq_zero hl
      simp only [Loop.run, Option.some.injEq] at hr
      subst hr
      exact ⟨rfl, rfl, by simp [Loop.init], by simp [loopCalls], by simp [Loop.init], by simp [Ordered, loopCalls],
        by simp [Loop.init]⟩
    | succ n ih =>
      intro ops s hl hp hreg hr
      obtain ⟨l, op, rfl⟩ : ∃ l op, ops = l ++ [op] := by
        rcases List.eq_nil_or_concat ops with rfl | ⟨l, op, rfl⟩
        · simp at hl
        · exact ⟨l, op, by simp⟩
      obtain ⟨s1, h1, h2⟩ := loop_run_snoc hr
      have hcalls : Calls (loopCalls (l ++ [op])) := ⟨hp.ids, hp.before⟩
      have inv := ih l s1 (by simpa using hl) hp.prefix (fun c hc => hreg c (by
        rw [loopCalls_snoc]; exact List.mem_append_left _ hc)) h1
      cases op with
      | call c =>
        have ecalls : loopCalls (l ++ [.call c]) = loopCalls l ++ [c] := loopCalls_snoc l _
        rw [ecalls] at hcalls hreg ⊢
        have hlast : ∀ a ∈ loopCalls l, a.id < c.id := fun a ha => (List.pairwise_append.1 hcalls.ids).2.2 a ha c (by simp)
        have hsub : s1.pending.Sublist (loopCalls l) := by simpa using inv.sub
        have hnew : (c.id, 0) ∉ s1.log := by
          intro hin
          obtain ⟨a, ha, hae⟩ := List.mem_map.1 (inv.logged _ hin)
          have := hlast a ha
          simp only at hae
          omega
        have hord : Ordered (loopCalls l ++ [c]) s1.log := by
          intro a ha b hb hlt hn hbin
          rcases List.mem_append.1 hb with hb' | hb'
          · rcases List.mem_append.1 ha with ha' | ha'
            · exact inv.ordered a ha' b hb' hlt hn hbin
            · simp at ha'; subst ha'; have := hlast b hb'; omega
          · simp at hb'; subst hb'; exact absurd hbin hnew
        have hlog : ∀ e ∈ s1.log, e.1 ∈ (loopCalls l ++ [c]).map (·.id) := by
          intro e he
          rw [List.map_append]
          exact List.mem_append_left _ (inv.logged e he)
        have hall : ∀ a ∈ loopCalls l, a ∈ s1.pending ∨ (a.id, 0) ∈ s1.log := by simpa using inv.all
        simp only [Loop.step] at h2
        split at h2
        · by_cases ha : s1.available c = true
          · rw [if_pos ha, Option.some.injEq] at h2
            subst h2
            have hex : s1.exec c = { s1 with log := s1.log ++ [(c.id, 0)], store := c.out :: s1.store } := by
              rw [Loop.exec, if_neg (by rw [hreg c (by simp)]; simp)]
            rw [hex]
            refine Regular.check hcalls hreg ⟨inv.ready, inv.sleeping, ?_, ?_, by simp, ?_, ?_⟩
            · simpa using hsub.trans (List.sublist_append_left _ [c])
            · intro a ha'
              rcases List.mem_append.1 ha' with ha' | ha'
              · rcases hall a ha' with h | h
                · exact .inl (by simpa using h)
                · exact .inr (List.mem_append_left _ h)
              · simp at ha'; subst ha'; exact .inr (by simp)
            · refine hord.run hcalls (by simp) fun a ha' hlt hn => ?_
              rcases List.mem_append.1 ha' with ha' | ha'
              · rcases hall a ha' with h | h
                · have hw := inv.waits a h
                  rw [← Bool.not_eq_true, available_iff] at hw
                  exact absurd (fun x hx => (available_iff s1 c).1 ha x (hn x hx)) hw
                · exact h
              · simp at ha'; subst ha'; omega
            · intro e he
              rcases List.mem_append.1 he with he | he
              · exact hlog e he
              · simp at he; subst he; simp
          · rw [if_neg ha, Option.some.injEq] at h2
            subst h2
            refine ⟨inv.ready, inv.sleeping, ?_, ?_, ?_, hord, hlog⟩
            · simpa using hsub.append (List.Sublist.refl [c])
            · intro a ha'
              rcases List.mem_append.1 ha' with ha' | ha'
              · rcases hall a ha' with h | h
                · exact .inl (by simp [h])
                · exact .inr h
              · simp at ha'; subst ha'; exact .inl (by simp)
            · intro k hk
              rcases List.mem_append.1 hk with hk | hk
              · exact inv.waits k hk
              · simp at hk; subst hk; exact Bool.eq_false_iff.2 ha
        · simp at h2
      | data x =>
        have ecalls : loopCalls (l ++ [.data x]) = loopCalls l := by rw [loopCalls_snoc]; simp
        rw [ecalls] at hcalls hreg ⊢
        simp only [Loop.step] at h2
        split at h2
        · simp only [Option.some.injEq] at h2
          subst h2
          refine Regular.check hcalls hreg ⟨inv.ready, inv.sleeping, by simpa using inv.sub, ?_, by simp, inv.ordered, inv.logged⟩
          simpa using inv.all
        · simp at h2
      | turn =>
        simp [Loop.step, inv.ready] at h2
      | wake i =>
        simp [Loop.step, inv.sleeping] at h2
  exact key ops.length ops s rfl hp hreg hr

/-- Partial: actors with regular methods only. Of two calls the earlier one runs first if every reference of the earlier one is
also a reference of the later one, whenever the values arrive. Missing: coroutine methods. -/
theorem C114_regular_partial (store : List Nat) (ops : List Op) (s : Loop) (hp : LoopProgram ops)
    (hreg : ∀ c ∈ loopCalls ops, c.coroutine = false) (hr : (Loop.init store).run ops = some s) (a b : Call)
    (ha : a ∈ loopCalls ops) (hb : b ∈ loopCalls ops) (hlt : a.id < b.id) (hn : ∀ x ∈ a.needs, x ∈ b.needs)
    (hin : (b.id, 0) ∈ s.log) : startsBefore s a b :=
  (loop_regular store ops s hp hreg hr).ordered a ha b hb hlt hn hin

/-- Partial: with regular methods only, a call that has not run after the handling of a request still lacks a value. Missing:
coroutine methods. -/
theorem C114_none_left_partial (store : List Nat) (ops : List Op) (s : Loop) (hp : LoopProgram ops)
    (hreg : ∀ c ∈ loopCalls ops, c.coroutine = false) (hr : (Loop.init store).run ops = some s) (c : Call)
    (hc : c ∈ loopCalls ops) (hn : (c.id, 0) ∉ s.log) : ∃ x ∈ c.needs, x ∉ s.store := by
  have inv := loop_regular store ops s hp hreg hr
  have hw := inv.waits c (by simpa using (inv.all c hc).resolve_right hn)
  rw [← Bool.not_eq_true, available_iff] at hw
  exact Classical.byContradiction fun h => hw fun x hx => Classical.byContradiction fun hx' => h ⟨x, hx, hx'⟩

/-- Violation: with a coroutine method a call can be left waiting although all its values are there and nothing else is going on
in the worker. -/
theorem C114_left_violated : ¬ ∀ (store : List Nat) (ops : List Op) (s : Loop), LoopProgram ops →
    (Loop.init store).run ops = some s → s.ready = [] → s.sleeping = [] → ∀ c ∈ loopCalls ops, (c.id, 0) ∉ s.log →
    ∃ x ∈ c.needs, x ∉ s.store := by
  intro h
  obtain ⟨s, hr, hs⟩ := Option.map_eq_some_iff.1 (show ((Loop.init []).run (exOwnResult.take 5)).map
    (fun s => (s.ready, s.sleeping, s.log, s.store)) = some ([], [], [(1, 0), (1, 1)], [11]) by decide)
  simp only [Prod.mk.injEq] at hs
  obtain ⟨x, hx, hn⟩ := h [] _ s ⟨by decide, by decide, by decide⟩ hr hs.1 hs.2.1 ⟨2, false, [11], 12, 0⟩ (by decide)
    (by rw [hs.2.2.1]; decide)
  rw [hs.2.2.2] at hn
  simp at hx hn
  exact hn hx

example : ∃ s, (Loop.init []).run [.call ⟨1, false, [5], 11, 0⟩, .call ⟨2, false, [6], 12, 0⟩, .call ⟨3, false, [5, 12], 13, 0⟩,
      .data 6, .data 5] = some s ∧ s.log = [(2, 0), (1, 0), (3, 0)] := ⟨_, rfl, rfl⟩

/-! ### Parts -/

/-- An element and the list without it. -/
theorem perm_eraseIdx {α : Type} : ∀ {l : List α} {i : Nat} {a : α}, l[i]? = some a → l.Perm (a :: l.eraseIdx i)
  | [], i, a, h => by simp at h
  | b :: l, 0, a, h => by simp at h; subst h; simp
  | b :: l, i + 1, a, h => by
    rw [List.getElem?_cons_succ] at h
    rw [List.eraseIdx_cons_succ]
    exact ((perm_eraseIdx h).cons b).trans (List.Perm.swap a b _)

/-- The calls of a worker and their parts. -/
theorem loop_live (store : List Nat) (init : List Nat) (hs : ∀ x ∈ store, x ∈ init) : ∀ (n : Nat) (ops : List Op) (s : Loop),
    ops.length = n → LoopProgram ops → (∀ x, Op.data x ∈ ops → x ∈ init) → (∀ c ∈ loopCalls ops, c.out ∉ init) →
    (Loop.init store).run ops = some s →
    Live (loopCalls ops) init (liveOf s.pending s) s.log s.store ∧ ∀ r ∈ s.ready ++ s.sleeping, r.1.coroutine = true := by
  intro n
  induction n with
  | zero =>
    intro ops s hl _ _ _ hr
    obtain rfl := List.eq_nil_of_length_eq_zero hl
    simp only [Loop.run, Option.some.injEq] at hr
    subst hr
    refine ⟨⟨by simp [liveOf, Loop.init], by simp [loopCalls], by simp [liveOf, Loop.init], by simp [Loop.init], ?_⟩,
      by simp [Loop.init]⟩
    exact fun x hx => .inl (hs x hx)
  | succ n ih =>
    intro ops s hl hp hd ho hr
    obtain ⟨l, op, rfl⟩ : ∃ l op, ops = l ++ [op] := by
      rcases List.eq_nil_or_concat ops with rfl | ⟨l, op, rfl⟩
      · simp at hl
      · exact ⟨l, op, by simp⟩
    obtain ⟨s1, h1, h2⟩ := loop_run_snoc hr
    obtain ⟨inv, hco⟩ := ih l s1 (by simpa using hl) hp.prefix (fun x hx => hd x (List.mem_append_left _ hx))
      (fun c hc => ho c (by rw [loopCalls_snoc]; exact List.mem_append_left _ hc)) h1
    have hexec : ∀ (s : Loop) (c : Call), (∀ r ∈ s.ready ++ s.sleeping, r.1.coroutine = true) →
        ∀ r ∈ (s.exec c).ready ++ (s.exec c).sleeping, r.1.coroutine = true := by
      intro s c h r hr
      rw [Loop.exec] at hr
      split at hr
      · rename_i hc
        simp only [List.mem_append, List.mem_singleton] at hr
        rcases hr with (hr | rfl) | hr
        · exact h r (List.mem_append_left _ hr)
        · exact hc
        · exact h r (List.mem_append_right _ hr)
      · exact h r hr
    have hcheckList : ∀ (cs : List Call) (s : Loop), (∀ r ∈ s.ready ++ s.sleeping, r.1.coroutine = true) →
        ∀ r ∈ (s.checkList cs).1.ready ++ (s.checkList cs).1.sleeping, r.1.coroutine = true := by
      intro cs
      induction cs with
      | nil => intro s h; exact h
      | cons c cs ihc =>
        intro s h
        rw [Loop.checkList]
        split
        · exact ihc _ (hexec s c h)
        · exact ihc s h
    have hcheck : ∀ s : Loop, (∀ r ∈ s.ready ++ s.sleeping, r.1.coroutine = true) →
        ∀ r ∈ s.check.ready ++ s.check.sleeping, r.1.coroutine = true := fun s h => hcheckList s.pending s h
    cases op with
    | call c =>
      have ecalls : loopCalls (l ++ [.call c]) = loopCalls l ++ [c] := loopCalls_snoc l _
      have hids := hp.ids
      have houts := hp.outs
      rw [ecalls] at hids houts ho ⊢
      have hadd := Live.add hids houts (ho c (by simp)) inv
      simp only [Loop.step] at h2
      split at h2
      · by_cases ha : s1.available c = true
        · rw [if_pos ha, Option.some.injEq] at h2
          subst h2
          have hp' : (s1.exec c).pending = s1.pending := by
            rw [Loop.exec]; split <;> rfl
          refine ⟨Live.check hids houts ?_, hcheck _ (hexec s1 c hco)⟩
          rw [hp']
          exact Live.exec hids houts hadd
        · rw [if_neg ha, Option.some.injEq] at h2
          subst h2
          refine ⟨hadd.perm ?_, hco⟩
          rw [List.perm_iff_count]
          intro r
          simp only [liveOf, List.map_append, List.map_cons, List.map_nil, List.count_cons, List.count_append, List.count_nil]
          omega
      · simp at h2
    | data x =>
      have ecalls : loopCalls (l ++ [.data x]) = loopCalls l := by rw [loopCalls_snoc]; simp
      have hids := hp.ids
      have houts := hp.outs
      rw [ecalls] at hids houts ho ⊢
      simp only [Loop.step] at h2
      split at h2
      · simp only [Option.some.injEq] at h2
        subst h2
        refine ⟨Live.check hids houts ?_, hcheck _ hco⟩
        have hx := hd x (by simp)
        exact inv.data hx fun c hc he => ho c hc (he ▸ hx)
      · simp at h2
    | turn =>
      have ecalls : loopCalls (l ++ [.turn]) = loopCalls l := by rw [loopCalls_snoc]; simp
      have hids := hp.ids
      have houts := hp.outs
      rw [ecalls] at hids houts ho ⊢
      simp only [Loop.step] at h2
      split at h2
      · simp at h2
      · rename_i c k rest hre
        have hc : c.coroutine = true := hco (c, k) (by rw [hre]; simp)
        have hperm : (liveOf s1.pending s1).Perm ((c, k) :: (s1.pending.map (·, 0) ++ (rest ++ s1.sleeping))) := by
          rw [List.perm_iff_count]
          intro r
          simp only [liveOf, hre, List.count_cons, List.count_append]
          omega
        have inv' := inv.perm hperm
        have hlt := (inv'.now (c, k) (by simp)).2.2.1
        simp only [partsOf, hc, if_true] at hlt
        have hco' : ∀ r ∈ rest ++ s1.sleeping, r.1.coroutine = true := by
          intro r hr0
          refine hco r ?_
          rw [hre]
          exact List.mem_cons_of_mem _ hr0
        split at h2
        · rename_i hk
          simp only [Option.some.injEq] at h2
          subst h2
          refine ⟨(inv'.next (by simp only [partsOf, hc, if_true]; omega)).perm ?_, ?_⟩
          · rw [List.perm_iff_count]
            intro r
            simp only [liveOf, List.count_cons, List.count_append, List.count_nil]
            omega
          · intro r hr0
            simp only [List.mem_append, List.mem_singleton] at hr0
            rcases hr0 with hr0 | hr0 | rfl
            · exact hco' r (List.mem_append_left _ hr0)
            · exact hco' r (List.mem_append_right _ hr0)
            · exact hc
        · rename_i hk
          simp only [Option.some.injEq] at h2
          subst h2
          exact ⟨inv'.finish hids houts (by simp only [partsOf, hc, if_true]; omega), hco'⟩
    | wake i =>
      have ecalls : loopCalls (l ++ [.wake i]) = loopCalls l := by rw [loopCalls_snoc]; simp
      rw [ecalls] at ho ⊢
      simp only [Loop.step] at h2
      split at h2
      · simp at h2
      · rename_i r hri
        simp only [Option.some.injEq] at h2
        subst h2
        have hpe : s1.sleeping.Perm (r :: s1.sleeping.eraseIdx i) := perm_eraseIdx hri
        refine ⟨inv.perm ?_, ?_⟩
        · rw [List.perm_iff_count]
          intro q
          have := hpe.count_eq q
          simp only [liveOf, List.count_append, List.count_cons, List.count_nil] at this ⊢
          omega
        · intro q hq
          refine hco q ?_
          simp only [List.mem_append, List.mem_singleton] at hq ⊢
          rcases hq with (hq | rfl) | hq
          · exact .inl hq
          · exact .inr (List.mem_of_getElem? hri)
          · exact .inr (List.mem_of_mem_eraseIdx hq)

/-- The parts of every call run in order and each at most once, whatever else runs between them, and its result is there exactly
when all of them have run. -/
theorem C114_parts (store : List Nat) (ops : List Op) (s : Loop) (hp : LoopProgram ops)
    (ho : ∀ c ∈ loopCalls ops, c.out ∉ store ∧ Op.data c.out ∉ ops) (hr : (Loop.init store).run ops = some s) (c : Call)
    (hc : c ∈ loopCalls ops) :
    ∃ m, m ≤ (if c.coroutine then c.awaits + 1 else 1) ∧ (s.log.filter (·.1 == c.id)).map (·.2) = List.range m ∧
      (c.out ∈ s.store ↔ m = if c.coroutine then c.awaits + 1 else 1) := by
  obtain ⟨inv, -⟩ := loop_live store (store ++ ops.filterMap fun | .data x => some x | _ => none)
    (fun x hx => List.mem_append_left _ hx) ops.length ops s rfl hp
    (fun x hx => List.mem_append_right _ (List.mem_filterMap.2 ⟨_, hx, rfl⟩)) (by
      intro c hc hm
      rcases List.mem_append.1 hm with hm | hm
      · exact (ho c hc).1 hm
      · obtain ⟨op, h1, h2⟩ := List.mem_filterMap.1 hm
        cases op <;> simp at h2
        subst h2
        exact (ho c hc).2 h1) hr
  by_cases hl : c.id ∈ (liveOf s.pending s).map (·.1.id)
  · obtain ⟨r, hrm, hre⟩ := List.mem_map.1 hl
    obtain ⟨h1, h2, h3, h4⟩ := inv.now r hrm
    obtain rfl := Calls.inj hp.ids h1 hc hre
    rw [partsOf] at h3
    exact ⟨r.2, by omega, h2, fun h => absurd h h4, fun h => by omega⟩
  · obtain ⟨h1, h2⟩ := inv.done c hc hl
    exact ⟨partsOf c, Nat.le_refl _, h1, fun _ => rfl, fun _ => h2⟩

/-- Two coroutines and a regular method take turns; the first coroutine ends last. -/
example : ∃ s, (Loop.init []).run [.call ⟨1, true, [], 11, 2⟩, .turn, .call ⟨2, true, [], 12, 1⟩, .wake 0, .turn, .turn,
      .call ⟨3, false, [], 13, 0⟩, .wake 1, .turn, .wake 0, .turn] = some s ∧
    s.log = [(1, 0), (2, 0), (1, 1), (3, 0), (1, 2), (2, 1)] ∧ s.store = [12, 11, 13] := ⟨_, rfl, rfl, rfl⟩

end Verif.Props
