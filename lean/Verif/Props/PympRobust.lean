import Verif.Model.PympRobust
/-!
# C110: no task ends a worker of the multiprocessing backend
-/
namespace Verif.Props
open Verif.PympRobust
open Verif.Robust (Value Result)

/-- Full statement of C110: whatever the functions and methods of a program do, a worker works off its queue. -/
def C110_full : Prop := ∀ ts : List Task, (loop ts).2 = false

/-- A function returns something that `pickle` cannot serialize, like a lambda. -/
theorem C110_result_violated : ¬ C110_full := fun h => absurd (h [⟨true, false, .returns (.one false), outsFor 1 0⟩]) (by decide)

/-- A function raises an exception that cannot be serialized. -/
theorem C110_exception_violated : ¬ C110_full := fun h => absurd (h [⟨true, false, .raises false, outsFor 1 0⟩]) (by decide)

/-- A function without results raises an exception that cannot be serialized. -/
theorem C110_no_returns_violated : ¬ C110_full := fun h => absurd (h [⟨true, false, .raises false, outsFor 0 0⟩]) (by decide)

/-- A function calls `sys.exit()`. -/
theorem C110_exit_violated : ¬ C110_full := fun h => absurd (h [⟨true, false, .exits, outsFor 1 0⟩]) (by decide)

/-- A method called with `num_returns=2` returns a number. -/
theorem C110_not_iterable_violated : ¬ C110_full := fun h => absurd (h [⟨true, true, .returns (.one true), outsFor 2 0⟩]) (by decide)

/-- The worker cannot restore the task. -/
theorem C110_loads_violated : ¬ C110_full := fun h => absurd (h [⟨false, false, .returns (.one true), outsFor 1 0⟩]) (by decide)

/-- What a call must do to leave the worker alive: a function does not exit, raises only what can be serialized, and each value that is stored
can be serialized; several results are something to iterate over. A method must only do the latter, or raise or return something
that cannot be serialized. -/
def PympFine (t : Task) : Prop :=
  t.loads = true ∧
  (t.method = false →
    t.result ≠ .exits ∧ t.result ≠ .raises false ∧
    (t.outs.length = 1 → ∀ v, t.result = .returns v → v = .one true ∨ ∃ items, v = .seq items ∧ ∀ x ∈ items, x = true) ∧
    (2 ≤ t.outs.length → ∀ v, t.result = .returns v → ∃ items, v = .seq items ∧ ∀ x ∈ items.take t.outs.length, x = true)) ∧
  (t.method = true → 2 ≤ t.outs.length → t.result ≠ .returns (.one true))

theorem storeItems_ends : ∀ (os : List Nat) (items : List Bool),
    ((storeItems os items).2 = false ↔ ∀ x ∈ items.take os.length, x = true)
  | [], items => by cases items <;> simp [storeItems]
  | o :: os, [] => by simp [storeItems]
  | o :: os, true :: items => by simp [storeItems, storeItems_ends os items]
  | o :: os, false :: items => by simp [storeItems]

theorem storeItems_filled : ∀ (os : List Nat) (items : List Bool), (storeItems os items).2 = false → (storeItems os items).1 = os.take items.length
  | [], items => by cases items <;> simp [storeItems]
  | o :: os, [] => by simp [storeItems]
  | o :: os, true :: items => by
    intro h
    simp only [storeItems] at h ⊢
    simp [storeItems_filled os items h]
  | o :: os, false :: items => by simp [storeItems]

theorem pymp_value_ok (v : Value) : v.ok = true ↔ v = .one true ∨ ∃ items, v = .seq items ∧ ∀ x ∈ items, x = true := by
  cases v <;> simp [Value.ok]

/-- One turn leaves the worker alive exactly if the call behaves. -/
theorem turn_fine (t : Task) : t.turn.2 = false ↔ PympFine t := by
  obtain ⟨lo, me, res, outs⟩ := t
  cases lo with
  | false => simp [Task.turn, PympFine]
  | true =>
    have seqv : ∀ v : Value, v.ok = true → ∀ items, v = .seq items → ∀ n, ∀ x ∈ items.take n, x = true := by
      intro v hv items e n x hx
      subst e
      rw [Value.ok, List.all_eq_true] at hv
      exact hv x (List.mem_of_mem_take hx)
    cases me with
    | false =>
      simp only [Task.turn, if_true, Task.store, Task.outcome, PympFine, Bool.false_eq_true, if_false, true_and, false_imp_iff,
        and_true, true_imp_iff]
      cases res with
      | exits => simp
      | raises ok => cases ok <;> simp
      | returns v =>
        match outs with
        | [] => simp
        | [o] =>
          have := pymp_value_ok v
          dsimp only
          by_cases hv : v.ok = true
          · rw [if_pos hv]
            exact ⟨fun _ => ⟨by simp, by simp, fun _ w e => by cases e; exact this.1 hv, by simp⟩, fun _ => rfl⟩
          · rw [if_neg hv]
            exact ⟨by simp, fun hc => absurd (this.2 (hc.2.2.1 rfl v rfl)) hv⟩
        | o :: o' :: os =>
          cases v with
          | one ok => simp
          | seq items =>
            have := storeItems_ends (o :: o' :: os) items
            simp only [this]
            simp
    | true =>
      simp only [Task.turn, if_true, Task.store, Task.outcome, PympFine, true_and, true_imp_iff, Bool.true_eq_false, false_imp_iff]
      cases res with
      | exits => simp
      | raises ok => simp
      | returns v =>
        cases hv : v.ok with
        | false =>
          have : v ≠ .one true := fun e => by rw [e] at hv; exact absurd hv (by decide)
          simp [hv, this]
        | true =>
          simp only [hv, if_true]
          match outs with
          | [] => simp
          | [o] => simp
          | o :: o' :: os =>
            cases v with
            | one ok =>
              have : ok = true := hv
              simp [this]
            | seq items =>
              have := (storeItems_ends (o :: o' :: os) items).2 (seqv _ hv items rfl _)
              simp [this]

/-- C110, the exact condition: a worker works off its queue if and only if every call in it behaves. Missing: calls that do not (violated). -/
theorem C110_exact_partial (ts : List Task) : (loop ts).2 = false ↔ ∀ t ∈ ts, PympFine t := by
  induction ts with
  | nil => simp [loop]
  | cons t ts ih =>
    rw [List.forall_mem_cons, ← ih, ← turn_fine]
    simp only [loop]
    split
    · rename_i h; simp [h]
    · rename_i h; simp [h]

/-- What a call that behaves fills: all its names, unless it returns too few values. -/
def pympFills (t : Task) : List Nat :=
  match t.method, t.result with
  | false, .returns (.seq items) => if 2 ≤ t.outs.length then t.outs.take items.length else t.outs
  | true, .returns (.seq items) => if 2 ≤ t.outs.length ∧ ∀ x ∈ items, x = true then t.outs.take items.length else t.outs
  | _, _ => t.outs

theorem turn_fills (t : Task) (h : PympFine t) : t.turn = (pympFills t, false) := by
  have h2 := (turn_fine t).2 h
  refine Prod.ext ?_ h2
  obtain ⟨lo, me, res, outs⟩ := t
  have hl : lo = true := h.1
  subst hl
  simp only [Task.turn, if_true] at h2 ⊢
  cases me with
  | false =>
    simp only [Task.store, Task.outcome, Bool.false_eq_true, if_false] at h2 ⊢
    cases res with
    | exits => simp at h2
    | raises ok => cases ok <;> simp [pympFills] at h2 ⊢
    | returns v =>
      match outs with
      | [] => cases v <;> simp [pympFills]
      | [o] =>
        dsimp only at h2 ⊢
        by_cases hv : v.ok = true
        · rw [if_pos hv]; cases v <;> simp [pympFills]
        · simp [hv] at h2
      | o :: o' :: os =>
        cases v with
        | one ok => simp at h2
        | seq items =>
          simp only at h2 ⊢
          rw [storeItems_filled _ _ h2]
          simp [pympFills]
  | true =>
    simp only [Task.store, Task.outcome, if_true] at h2 ⊢
    cases res with
    | exits => simp [pympFills]
    | raises ok => simp [pympFills]
    | returns v =>
      dsimp only at h2 ⊢
      cases hv : v.ok with
      | false =>
        cases v with
        | one ok => simp [pympFills]
        | seq items =>
          have : ¬ ∀ x ∈ items, x = true := by
            intro hc
            have : (Value.seq items).ok = true := by rw [Value.ok, List.all_eq_true]; exact hc
            rw [this] at hv; cases hv
          simp only [Bool.false_eq_true, if_false, pympFills, this, and_false, if_true]
      | true =>
        simp only [hv, if_true] at h2 ⊢
        match outs with
        | [] => cases v <;> simp [pympFills]
        | [o] => cases v <;> simp [pympFills]
        | o :: o' :: os =>
          cases v with
          | one ok => simp at h2
          | seq items =>
            have : ∀ x ∈ items, x = true := by
              rw [Value.ok, List.all_eq_true] at hv; exact hv
            simp only at h2 ⊢
            rw [storeItems_filled _ _ h2]
            simp only [pympFills, List.length_cons]
            rw [if_pos ⟨by omega, this⟩]

/-- C110, what a queue yields: the calls before the first one that does not behave fill their names, it may fill some of its own, and no name of a
later call in the queue is ever filled. -/
theorem C110_queue_partial (pre : List Task) (hp : ∀ t ∈ pre, PympFine t) :
    loop pre = ((pre.map pympFills).flatten, false) ∧
    ∀ (t : Task) (post : List Task), ¬ PympFine t →
      ∃ some_, (loop (pre ++ t :: post)) = ((pre.map pympFills).flatten ++ some_, true) ∧ ∀ i ∈ some_, i ∈ t.outs := by
  induction pre with
  | nil =>
    refine ⟨rfl, fun t post hn => ?_⟩
    have h1 : t.turn.2 = true := by
      rw [← turn_fine] at hn
      simpa using hn
    refine ⟨t.turn.1, ?_, ?_⟩
    · have : t.turn = (t.turn.1, true) := Prod.ext rfl h1
      simp only [List.nil_append, loop]
      rw [this]
      simp
    · have hsub : ∀ (os : List Nat) (items : List Bool), ∀ i ∈ (storeItems os items).1, i ∈ os := by
        intro os
        induction os with
        | nil => intro items i hi; cases items <;> simp [storeItems] at hi
        | cons o os ih =>
          intro items i hi
          cases items with
          | nil => simp [storeItems] at hi
          | cons b items =>
            cases b with
            | false => simp [storeItems] at hi
            | true =>
              simp only [storeItems, List.mem_cons] at hi ⊢
              exact hi.imp_right (ih items i)
      intro i hi
      simp only [Task.turn] at hi
      split at hi
      · simp only [Task.store] at hi
        split at hi
        · cases hi
        · split at hi
          · exact hi
          · cases hi
        · split at hi
          · cases hi
          · rename_i he
            split at hi
            · rw [he]; exact hi
            · cases hi
          · rename_i outs _ _
            split at hi
            · cases hi
            · exact hsub _ _ i hi
      · cases hi
  | cons a pre ih =>
    obtain ⟨h1, h2⟩ := ih fun t ht => hp t (List.mem_cons_of_mem _ ht)
    have ha := turn_fills a (hp a List.mem_cons_self)
    refine ⟨by simp [loop, ha, h1], fun t post hn => ?_⟩
    obtain ⟨some_, h3, h4⟩ := h2 t post hn
    exact ⟨some_, by simp [loop, ha, h3], h4⟩

/-- C110 for methods: a method with at most one result never ends the worker, whatever it does, and its name is filled. -/
theorem C110_methods_partial (r : Result) (outs : List Nat) (h : outs.length ≤ 1) : loop [⟨true, true, r, outs⟩] = (outs, false) := by
  have hf : PympFine ⟨true, true, r, outs⟩ := ⟨rfl, by simp, fun _ h2 => absurd h2 (by simp only; omega)⟩
  have := (C110_queue_partial [⟨true, true, r, outs⟩] (by simpa using hf)).1
  rw [this]
  have : pympFills ⟨true, true, r, outs⟩ = outs := by
    cases r with
    | exits => rfl
    | raises ok => rfl
    | returns v =>
      cases v with
      | one ok => rfl
      | seq items =>
        simp only [pympFills]
        rw [if_neg (by omega)]
  simp [this]

/-- The third task returns a lambda; the fourth, in the same queue, never runs. -/
example : loop [⟨true, false, .returns (.one true), outsFor 1 0⟩, ⟨true, true, .exits, outsFor 1 1⟩,
    ⟨true, false, .returns (.seq [true, false]), outsFor 2 2⟩, ⟨true, false, .returns (.one true), outsFor 1 4⟩] = ([0, 1, 2], true) := by decide

example : PympFine ⟨true, false, .returns (.seq [true, true, false]), outsFor 2 0⟩ := (turn_fine _).1 (by decide)

/-- C110 for the number of results asked for, whatever integer it is: a function that returns leaves the worker alive and fills nothing
for 0; for 1 and for negative numbers it fills one name if its value can be serialized and ends the worker otherwise; from 2 on
each item of a sequence that can be serialized gets a name, in order, as long as there are names and items. -/
theorem C110_returns_partial (k : Int) (c : Nat) (v : Value) :
    (k = 0 → loop [⟨true, false, .returns v, outsFor k c⟩] = ([], false)) ∧
    (k ≠ 0 → k ≤ 1 → loop [⟨true, false, .returns v, outsFor k c⟩] = if v.ok then ([c], false) else ([], true)) ∧
    (2 ≤ k → ∀ items, v = .seq items → (∀ x ∈ items, x = true) →
      loop [⟨true, false, .returns v, outsFor k c⟩] = ((List.range (min items.length k.toNat)).map (c + ·), false)) := by
  refine ⟨fun h => by subst h; rfl, fun h0 h1 => ?_, fun h2 items hv hi => ?_⟩
  · have : outsFor k c = [c] := by simp only [outsFor]; rw [if_neg h0, if_neg (by omega)]
    rw [this]
    simp only [loop, Task.turn, Task.store, Task.outcome]
    cases hv : v.ok <;> simp [hv]
  · subst hv
    have ho : outsFor k c = (List.range k.toNat).map (c + ·) := by simp only [outsFor]; rw [if_neg (by omega), if_pos (by omega)]
    have hf : PympFine ⟨true, false, .returns (.seq items), outsFor k c⟩ :=
      ⟨rfl, fun _ => ⟨by simp, by simp, fun _ v hv => by cases hv; exact Or.inr ⟨items, rfl, hi⟩,
        fun _ v hv => by cases hv; exact ⟨items, rfl, fun x hx => hi x (List.mem_of_mem_take hx)⟩⟩, by simp⟩
    rw [(C110_queue_partial [⟨true, false, .returns (.seq items), outsFor k c⟩] (by simpa using hf)).1]
    have hl : (outsFor k c).length = k.toNat := by simp [ho]
    simp only [List.map_cons, List.map_nil, List.flatten_cons, List.flatten_nil, pympFills, List.append_nil, Prod.mk.injEq, and_true]
    rw [if_pos (by simp only [hl]; omega), ho, ← List.map_take, List.take_range]

example : loop [⟨true, false, .returns (.one true), outsFor (-3) 5⟩] = ([5], false) ∧
    loop [⟨true, false, .returns (.seq [true, true]), outsFor 3 5⟩] = ([5, 6], false) := by decide

end Verif.Props
