import Verif.Lemmas.NestedDepth
import Verif.Lemmas.NestedChain
import Verif.Lemmas.Decide

/-! Properties C87 and C88: tasks that submit tasks. -/
namespace Verif.Props
open Verif.Nested Verif.Spec

/-- C87: whatever the placement and the order of events, a program of nested remote calls ends with the value or the exception
that it ends with when every `f.remote(..)` is a direct call, provided that it does not tell a raised exception from a
returned one when it calls `get` again for the same reference (see C35). -/
theorem C87_nested_calls_are_direct_calls (W : World) (as : List Act) (s : Nested.State) (v : Val)
    (hm : Careful [] W.main) (hb : ∀ fn ns, Careful [] (W.body fn ns))
    (hr : (State.init W).runAll W as = some s) (hd : s.done = some v) :
    ∃ m, evalProg W.body false m W.main [] = some v := by
  obtain ⟨ths, mk, hi⟩ := inv_run as (inv_init W) hr
  obtain ⟨m, h⟩ := hi.fin v hd
  exact ⟨m, by rw [← h]; exact ((careful_eval hb m).2.2 W.main [] [] [] hm ⟨rfl, fun _ _ => rfl⟩).symm⟩

/-- C87 for all programs: the direct calls where the first `get` of a failed call raises and every later one returns the
exception. -/
theorem C87_any_program (W : World) (as : List Act) (s : Nested.State) (v : Val)
    (hr : (State.init W).runAll W as = some s) (hd : s.done = some v) :
    ∃ m, evalProg W.body true m W.main [] = some v := by
  obtain ⟨ths, mk, hi⟩ := inv_run as (inv_init W) hr
  exact hi.fin v hd

/-- C87: the number of workers, the placement and the order of events do not matter, for any program. -/
theorem C87_nested_schedule_independent (body : Nat → List Nat → Prog) (main : Prog) (ws ws' : List Nat) (as as' : List Act)
    (s s' : Nested.State) (v v' : Val) (h : (State.init ⟨body, ws, main⟩).runAll ⟨body, ws, main⟩ as = some s)
    (h' : (State.init ⟨body, ws', main⟩).runAll ⟨body, ws', main⟩ as' = some s') (hd : s.done = some v)
    (hd' : s'.done = some v') : v = v' := by
  obtain ⟨m, hm⟩ := C87_any_program _ as s v h hd
  obtain ⟨m', hm'⟩ := C87_any_program _ as' s' v' h' hd'
  have h1 := evalProg_mono (Nat.le_max_left m m') hm
  have h2 := evalProg_mono (Nat.le_max_right m m') hm'
  exact Option.some.inj (h1.symm.trans h2)

/-- C87: two processes never hold different values for one reference. -/
theorem C87_copies_agree (W : World) (as : List Act) (s : Nested.State) (r r' p : Nat) (v v' : Val)
    (hr : (State.init W).runAll W as = some s) (h : s.store r p = some v) (h' : s.store r' p = some v') : v = v' := by
  obtain ⟨ths, mk, hi⟩ := inv_run as (inv_init W) hr
  obtain ⟨t, f, h1, h2⟩ := hi.val r p v h
  obtain ⟨t', f', h3, h4⟩ := hi.val r' p v' h'
  rw [h1] at h3
  injection h3 with h3
  subst h3
  exact force_unique h2 h4

/-- Function 0 adds its arguments, function 1 is `get(add(get(add(x, 1)), x))`. -/
def exAddBody (fn : Nat) (vs : List Nat) : Prog :=
  if fn = 0 then .ret (.ok vs.sum)
  else .call 0 [.lit (.ok (vs.headD 0)), .lit (.ok 1)] (.call 0 [.var 0, .lit (.ok (vs.headD 0))] (.get 1 back))

/-- A main program that calls function 1 and passes its result on. -/
def exAddMain : Prog := .call 1 [.lit (.ok 5)] (.call 0 [.var 0, .lit (.ok 100)] (.get 1 back))

/-- Two placements, one with two and one with three workers; the nested call is evaluated in different orders. -/
example : ((State.init ⟨exAddBody, [1, 2], exAddMain⟩).runAll ⟨exAddBody, [1, 2], exAddMain⟩
      [.exec 0 1, .exec 0 1, .start 1 0, .exec 1 2, .exec 1 2, .start 2 0, .exec 2 0, .start 2 0, .exec 2 0, .fetch 1 3,
        .exec 1 0, .start 1 0, .exec 1 0, .fetch 0 1, .exec 0 0]).map (·.done) = some (some (.ok 111)) ∧
    ((State.init ⟨exAddBody, [1, 2, 3], exAddMain⟩).runAll ⟨exAddBody, [1, 2, 3], exAddMain⟩
      [.exec 0 1, .exec 0 3, .start 1 0, .exec 1 2, .exec 1 3, .start 2 0, .exec 2 0, .fetch 3 2, .start 3 1, .exec 3 0,
        .fetch 1 3, .exec 1 0, .fetch 3 0, .start 3 0, .exec 3 0, .fetch 0 1, .exec 0 0]).map (·.done) =
      some (some (.ok 111)) ∧ evalProg exAddBody false 20 exAddMain [] = some (.ok 111) := by
  refine ⟨?_, ?_, ?_⟩ <;> decide +kernel

/-- Function 0 adds its arguments, function 1 raises the exception named by its argument. -/
def exFailBody (fn : Nat) (vs : List Nat) : Prog :=
  if fn = 0 then .ret (.ok vs.sum) else .ret (.exc (vs.headD 0))

/-- A main program that puts a value, passes it and the output of a failing call on, and catches the exception. -/
def exFailMain : Prog :=
  .put (.ok 3) (.call 1 [.var 0] (.call 0 [.var 0, .var 1] (.get 2 fun
    | .raised e => .call 0 [.var 0, .lit (.ok (10 * e))] (.get 3 back)
    | .value _ => .ret (.ok 0))))

example : ((State.init ⟨exFailBody, [1, 2], exFailMain⟩).runAll ⟨exFailBody, [1, 2], exFailMain⟩
      [.exec 0 0, .exec 0 1, .exec 0 2, .start 1 0, .exec 1 0, .fetch 2 1, .start 2 0, .exec 2 0, .fetch 0 2, .exec 0 1,
        .start 1 0, .exec 1 0, .fetch 0 3, .exec 0 0]).map (fun s => (s.done, s.store 2 2)) =
      some (some (.ok 33), some (.exc 3)) ∧
    evalProg exFailBody false 20 exFailMain [] = some (.ok 33) ∧ Careful [] exFailMain ∧
    ∀ fn vs, Careful [] (exFailBody fn vs) := by
  refine ⟨by decide +kernel, by decide +kernel, ?_, ?_⟩
  · simp only [exFailMain, Careful]
    refine ⟨by simp, fun g => ?_⟩
    cases g <;> simp [Careful]
    intro g
    cases g <;> simp [back, Careful]
  · intro fn vs
    rw [exFailBody]
    split <;> simp [Careful]

/-- A program that calls `get` twice for a failed call and looks at how the second one ends. -/
def exTwiceMain : Prog :=
  .call 1 [.lit (.ok 7)] (.get 0 fun _ => .get 0 fun
    | .raised _ => .ret (.ok 1)
    | .value _ => .ret (.ok 2))

/-- The condition is needed: with direct calls the second `get` raises, here it returns the exception. -/
theorem C87_second_get_tells (W : World) (hW : W.body = exFailBody) (hM : W.main = exTwiceMain) (as : List Act)
    (s : Nested.State) (v : Val) (hr : (State.init W).runAll W as = some s) (hd : s.done = some v) :
    v = .ok 2 ∧ evalProg W.body false 9 W.main [] = some (.ok 1) := by
  obtain ⟨m, hm⟩ := C87_any_program W as s v hr hd
  have h9 : evalProg W.body true 9 W.main [] = some (.ok 2) := by rw [hW, hM]; decide +kernel
  refine ⟨?_, by rw [hW, hM]; decide +kernel⟩
  exact Option.some.inj ((evalProg_mono (Nat.le_max_left m 9) hm).symm.trans (evalProg_mono (Nat.le_max_right m 9) h9))

example : ((State.init ⟨exFailBody, [1], exTwiceMain⟩).runAll ⟨exFailBody, [1], exTwiceMain⟩
    [.exec 0 1, .start 1 0, .exec 1 0, .fetch 0 0, .exec 0 0, .exec 0 0]).map (·.done) = some (some (.ok 2)) := by
  decide +kernel

/-- C88 in full: with at least two workers, a program of nested calls that has a value can finish. -/
def C88_full : Prop :=
  ∀ W : World, 0 ∉ W.workers → (∃ a ∈ W.workers, ∃ b ∈ W.workers, a ≠ b) → Scoped 0 W.main →
    (∀ fn vs, Scoped 0 (W.body fn vs)) → (∃ m v, evalProg W.body false m W.main [] = some v) →
    ∃ as s v, (State.init W).runAll W as = some s ∧ s.done = some v

/-- A recursion `f(d) = get(f.remote(d - 1))` that is at least as deep as there are workers never finishes, whatever the
placement and the order of events: every worker ends up waiting inside a task, and the last task waits for a worker. -/
theorem C88_recursion_deadlocks (ws : List Nat) (n : Nat) (h0 : 0 ∉ ws) (hn : ws.length ≤ n) (as : List Act) (s : Nested.State)
    (hr : (State.init (chainWorld ws n)).runAll (chainWorld ws n) as = some s) : s.done = none :=
  (chain_run as h0 hn (chain_init ws n) hr).done

/-- The code violates C88: two workers and a recursion of depth two. -/
theorem C88_nested_get_violated : ¬ C88_full := by
  intro h
  obtain ⟨as, s, v, hr, hd⟩ := h (chainWorld [1, 2] 2) (by decide) ⟨1, by decide, 2, by decide, by decide⟩
    (by simp [chainWorld, Scoped, scoped_back]) (by
      intro fn vs
      simp only [chainWorld, chainBody]
      split <;> simp [Scoped, scoped_back])
    ⟨12, .ok 0, by decide +kernel⟩
  have := C88_recursion_deadlocks [1, 2] 2 (by decide) (by decide) as s hr
  rw [this] at hd
  cases hd

/-- The recursion of depth two on two workers: both workers run a task that waits, the third task is with worker 1. -/
example : ((State.init (chainWorld [1, 2] 2)).runAll (chainWorld [1, 2] 2)
      [.exec 0 1, .start 1 0, .exec 1 2, .start 2 0, .exec 2 1]).map
      (fun s => ((s.run 1).map (·.env), (s.run 2).map (·.env), s.inbox 1)) =
      some (some [1], some [2], [⟨2, 0, []⟩]) ∧
    ((State.init (chainWorld [1, 2] 1)).runAll (chainWorld [1, 2] 1)
      [.exec 0 1, .start 1 0, .exec 1 2, .start 2 0, .exec 2 0, .fetch 1 1, .exec 1 0, .fetch 0 0,
        .exec 0 0]).map (·.done) = some (some (.ok 0)) := by
  constructor <;> decide +kernel

/-- The second half of C88 in full: as long as a program has not finished, some process can go on. -/
def C88_progress_full : Prop :=
  ∀ W : World, 0 ∉ W.workers → (∃ a ∈ W.workers, ∃ b ∈ W.workers, a ≠ b) → Scoped 0 W.main →
    (∀ fn vs, Scoped 0 (W.body fn vs)) → ∀ as s, (State.init W).runAll W as = some s → s.done = none →
    ∃ a, (s.step W a).isSome

/-- Function 0 returns its argument, function 1 is `get(f0.remote(x))`. -/
def exPairBody (fn : Nat) (vs : List Nat) : Prog :=
  if fn = 0 then .ret (.ok (vs.headD 0)) else .call 0 [.lit (.ok (vs.headD 0))] (.get 0 back)

/-- Two workers; the main program calls function 1 twice before it waits. -/
def exPair : World := ⟨exPairBody, [1, 2], .call 1 [.lit (.ok 5)] (.call 1 [.lit (.ok 6)] (.get 1 back))⟩

/-- Each worker runs a call of function 1 and has submitted the inner call to the other one. -/
def exPairActs : List Act := [.exec 0 1, .exec 0 2, .start 1 0, .start 2 0, .exec 1 2, .exec 2 1]

/-- A deadlock as it is: two workers wait for each other. -/
theorem exPair_cycle : ∃ s, (State.init exPair).runAll exPair exPairActs = some s ∧ s.done = none ∧
    WaitCycle exPair s 2 (fun i => if i % 2 = 0 then 1 else 2) ∧ ∀ a, s.step exPair a = none := by
  refine ⟨_, rfl, rfl, ⟨by omega, rfl, ?_⟩, ?_⟩
  case refine_2 =>
    intro a
    match a with
    | .exec 0 _ => rfl
    | .exec 1 _ => rfl
    | .exec 2 _ => rfl
    | .exec (_ + 3) _ => rfl
    | .start 0 _ => rfl
    | .start 1 _ => rfl
    | .start 2 _ => rfl
    | .start (_ + 3) _ => rfl
    | .fetch _ 0 => rfl
    | .fetch _ 1 => rfl
    | .fetch _ 2 => rfl
    | .fetch _ 3 => rfl
    | .fetch _ (_ + 4) => rfl
  intro i hi
  match i, hi with
  | 0, _ => exact ⟨by decide, by decide, 2, ⟨_, 0, _, [2], rfl, rfl, rfl⟩, .owner 2 3 ⟨_, 0, _, [3], rfl, rfl, rfl⟩⟩
  | 1, _ => exact ⟨by decide, by decide, 3, ⟨_, 0, _, [3], rfl, rfl, rfl⟩, .owner 3 2 ⟨_, 0, _, [2], rfl, rfl, rfl⟩⟩

/-- Workers that wait for each other in a circle wait for ever, whatever happens afterwards. -/
theorem C88_cycle_lasts (W : World) (h0 : 0 ∉ W.workers) (hm : Scoped 0 W.main) (hb : ∀ fn vs, Scoped 0 (W.body fn vs))
    (as bs : List Act) (s s' : Nested.State) (hr : (State.init W).runAll W as = some s) (n : Nat) (c : Nat → Nat)
    (hc : WaitCycle W s n c) (hr' : s.runAll W bs = some s') : WaitCycle W s' n c := by
  obtain ⟨hp, hi⟩ := own_run closed_true as h0 (fun fn vs => ⟨hb fn vs, trivial⟩) (place_init hm) (own_init W) hr
  exact cycle_run closed_true bs h0 (fun fn vs => ⟨hb fn vs, trivial⟩) hp hi hc hr'

/-- C88 as far as it holds, for all programs: a state before the end in which nothing can happen is one in which workers wait
for each other in a circle. Missing: that there is no such circle. -/
theorem C88_deadlock_is_cycle_partial (W : World) (h0 : 0 ∉ W.workers) (h2 : ∃ a ∈ W.workers, ∃ b ∈ W.workers, a ≠ b)
    (hm : Scoped 0 W.main) (hb : ∀ fn vs, Scoped 0 (W.body fn vs)) (as : List Act) (s : Nested.State)
    (hr : (State.init W).runAll W as = some s) (hd : s.done = none) (hs : ∀ a, s.step W a = none) :
    ∃ n c, WaitCycle W s n c := by
  obtain ⟨hp, hi⟩ := own_run closed_true as h0 (fun fn vs => ⟨hb fn vs, trivial⟩) (place_init hm) (own_init W) hr
  exact stuck_cycle h2 hp hi hs hd

/-- The same program finishes if the outer calls run one after the other, and in the deadlock no worker is free. -/
example : ((State.init exPair).runAll exPair
      [.exec 0 1, .exec 0 2, .start 1 0, .exec 1 2, .start 2 1, .exec 2 0, .fetch 1 2, .exec 1 0, .start 2 0, .exec 2 1, .start 1 0,
        .exec 1 0, .fetch 2 3, .exec 2 0, .fetch 0 1, .exec 0 0]).map (·.done) = some (some (.ok 6)) ∧
    ∃ s, (State.init exPair).runAll exPair exPairActs = some s ∧ (∃ n c, WaitCycle exPair s n c) ∧
      ∀ bs s', s.runAll exPair bs = some s' → ∃ p, WaitsFor s' 1 p := by
  refine ⟨by decide +kernel, ?_⟩
  obtain ⟨s, hr, hd, hc, hs⟩ := exPair_cycle
  refine ⟨s, hr, ⟨_, _, hc⟩, fun bs s' h => ?_⟩
  have := C88_cycle_lasts exPair (by decide) (by simp [exPair, Scoped, scoped_back]) (by
    intro fn vs
    simp only [exPair, exPairBody]
    split <;> simp [Scoped, scoped_back]) exPairActs bs s s' hr _ _ hc h
  obtain ⟨_, _, p, hw, _⟩ := this.2.2 0 (by omega)
  exact ⟨p, hw⟩

/-- C88: some process can go on as long as no two workers are inside `get` at the same time. Missing: several tasks that wait. -/
theorem C88_one_waiting_task_partial (W : World) (h0 : 0 ∉ W.workers) (h2 : ∃ a ∈ W.workers, ∃ b ∈ W.workers, a ≠ b)
    (hm : Scoped 0 W.main) (hb : ∀ fn vs, Scoped 0 (W.body fn vs)) (as : List Act) (s : Nested.State)
    (hr : (State.init W).runAll W as = some s) (hd : s.done = none)
    (hone : ∀ r r' p p', r ∈ W.workers → r' ∈ W.workers → WaitsFor s r p → WaitsFor s r' p' → r = r') :
    ∃ a, (s.step W a).isSome := by
  apply Classical.byContradiction
  intro hn
  have hs : ∀ a, s.step W a = none := by
    intro a
    cases h : s.step W a with
    | none => rfl
    | some s' => exact absurd ⟨a, by simp [h]⟩ hn
  obtain ⟨n, c, hn2, hc0, hc⟩ := C88_deadlock_is_cycle_partial W h0 h2 hm hb as s hr hd hs
  obtain ⟨a1, a2, p, a3, _⟩ := hc 0 (by omega)
  obtain ⟨b1, _, q, b3, _⟩ := hc 1 (by omega)
  exact a2 (hone _ _ p q a1 b1 a3 b3)

/-- The code violates the second half of C88: two calls of a function that waits for an inner call, on two workers. -/
theorem C88_progress_violated : ¬ C88_progress_full := by
  intro h
  obtain ⟨s, hr, hd, _, hs⟩ := exPair_cycle
  obtain ⟨a, ha⟩ := h exPair (by decide) ⟨1, by decide, 2, by decide, by decide⟩ (by simp [exPair, Scoped, scoped_back]) (by
    intro fn vs
    simp only [exPair, exPairBody]
    split <;> simp [Scoped, scoped_back]) exPairActs s hr hd
  rw [hs a] at ha
  cases ha

/-- C88 as far as it holds: if tasks submit tasks but only the main program calls `get`, and there are two workers, then some
step is possible in every reachable state until the main program has finished. Missing: tasks that call `get`. -/
theorem C88_no_deadlock_without_nested_get_partial (W : World) (h0 : 0 ∉ W.workers)
    (h2 : ∃ a ∈ W.workers, ∃ b ∈ W.workers, a ≠ b) (hm : Scoped 0 W.main)
    (hb : ∀ fn vs, Scoped 0 (W.body fn vs) ∧ NoGet (W.body fn vs)) (as : List Act) (s : Nested.State)
    (hr : (State.init W).runAll W as = some s) (hd : s.done = none) : ∃ a, (s.step W a).isSome := by
  refine C88_one_waiting_task_partial W h0 h2 hm (fun fn vs => (hb fn vs).1) as s hr hd ?_
  intro r r' p p' h1 _ ⟨_, _, _, _, hw, _⟩ _
  have hp := place_run closed_noGet as h0 hb (place_init hm) hr
  exact absurd ((hp.frame r _ hw).2.2 fun hc => h0 (hc ▸ h1)).1 (by simp [NoGet])

/-- C88 as far as it holds: if only the main program calls `get`, every reachable state can be continued to the end of the main
program, which ends with the value of the direct calls. Missing: tasks that call `get`. -/
theorem C88_can_finish_without_nested_get_partial (W : World) (h0 : 0 ∉ W.workers)
    (h2 : ∃ a ∈ W.workers, ∃ b ∈ W.workers, a ≠ b) (hm : Scoped 0 W.main)
    (hb : ∀ fn vs, Scoped 0 (W.body fn vs) ∧ NoGet (W.body fn vs)) (as : List Act) (s : Nested.State)
    (hr : (State.init W).runAll W as = some s) :
    ∃ bs s' v m, s.runAll W bs = some s' ∧ s'.done = some v ∧ evalProg W.body true m W.main [] = some v := by
  have hp := place_run closed_noGet as h0 hb (place_init hm) hr
  have hfin : ∃ bs s' v, s.runAll W bs = some s' ∧ s'.done = some v := by
    cases hm0 : s.run 0 with
    | none =>
      obtain ⟨v, hv⟩ := Option.isSome_iff_exists.1 (hp.main hm0)
      exact ⟨[], s, v, rfl, hv⟩
    | some f => exact finish ⟨h0, h2, hb⟩ f.prog s f.out f.env hp hm0
  obtain ⟨bs, s', v, h1, h3⟩ := hfin
  obtain ⟨m, hmv⟩ := C87_any_program W _ s' v (runAll_trans hr h1) h3
  exact ⟨bs, s', v, m, h1, h3, hmv⟩

/-- C88 as far as it holds: a program whose calls wait for each other at most as deep as there are workers can finish, with the
value of the direct calls. Missing: deeper programs, which may never finish (`C88_recursion_deadlocks`). -/
theorem C88_can_finish_within_workers_partial (W : World) (h0 : 0 ∉ W.workers) (hnd : W.workers.Nodup) (h2 : 2 ≤ W.workers.length)
    (d m : Nat) (v : Val) (hd : d ≤ W.workers.length) (hv : evalWithin W.body m d W.main [] = some v) :
    (∃ as s, (State.init W).runAll W as = some s ∧ s.done = some v) ∧ evalProg W.body true m W.main [] = some v :=
  ⟨depth_finish h0 hnd h2 hd hv, (within_eval m).2.2 _ _ _ _ hv⟩

/-- C88 as far as it holds: every program that has a value can finish if there are enough workers. Missing: that two are enough. -/
theorem C88_can_finish_with_enough_workers_partial (body : Nat → List Nat → Prog) (main : Prog) (m : Nat) (v : Val)
    (hv : evalProg body true m main [] = some v) : ∃ d, ∀ ws : List Nat, 0 ∉ ws → ws.Nodup → d ≤ ws.length →
      ∃ as s, (State.init ⟨body, ws, main⟩).runAll ⟨body, ws, main⟩ as = some s ∧ s.done = some v := by
  refine ⟨max m 2, fun ws h0 hnd hd => ?_⟩
  exact depth_finish (W := ⟨body, ws, main⟩) (D := m) (n := m) h0 hnd (by simp only; omega) (by simp only; omega)
    ((eval_within m).2.2 _ _ _ _ (Nat.le_refl _) hv)

theorem chain_within (n : Nat) : ∀ d f, n ≤ d → 3 * n + 2 ≤ f → forceWithin chainBody f d (.call n []) = some (.ok 0) := by
  induction n with
  | zero =>
    intro d f _ hf
    obtain ⟨f, rfl⟩ : ∃ g, f = g + 2 := ⟨f - 2, by omega⟩
    simp [forceWithin, forceAllWithin, failedOne, numbers, chainBody, evalWithin]
  | succ n ih =>
    intro d f hd hf
    obtain ⟨f, rfl⟩ : ∃ g, f = g + 3 := ⟨f - 3, by omega⟩
    obtain ⟨d, rfl⟩ : ∃ g, d = g + 1 := ⟨d - 1, by omega⟩
    obtain ⟨g, rfl⟩ : ∃ g, f = g + 1 := ⟨f - 1, by omega⟩
    have := ih d (g + 1) (by omega) (by omega)
    have e : evalWithin chainBody (g + 3) (d + 1) (chainBody (n + 1) []) [] = some (.ok 0) := by
      rw [show chainBody (n + 1) [] = .call n [] (.get 0 back) by simp [chainBody], evalWithin]
      simp only [thunkArgs]
      rw [evalWithin]
      simp only [List.nil_append, List.getElem?_cons_zero, this]
      rfl
    rw [forceWithin, forceAllWithin]
    exact e

/-- The bound is exact: the recursion of depth `n` can finish if and only if there are more than `n` workers. -/
theorem C88_recursion_finishes_iff (ws : List Nat) (n : Nat) (h0 : 0 ∉ ws) (hnd : ws.Nodup) (h2 : 2 ≤ ws.length) :
    (∃ as s v, (State.init (chainWorld ws n)).runAll (chainWorld ws n) as = some s ∧ s.done = some v) ↔ n < ws.length := by
  constructor
  · rintro ⟨as, s, v, hr, hd⟩
    apply Classical.byContradiction
    intro hn
    rw [C88_recursion_deadlocks ws n h0 (by omega) as s hr] at hd
    cases hd
  · intro hn
    have hv : evalWithin (chainWorld ws n).body (3 * n + 4) (n + 1) (chainWorld ws n).main [] = some (.ok 0) := by
      have := chain_within n n (3 * n + 2) (Nat.le_refl _) (Nat.le_refl _)
      rw [chainWorld, evalWithin]
      simp only [thunkArgs]
      rw [evalWithin]
      simp only [List.nil_append, List.getElem?_cons_zero, this]
      rfl
    obtain ⟨as, s, h1, h3⟩ := depth_finish (W := chainWorld ws n) (D := n + 1) h0 hnd h2 hn hv
    exact ⟨as, s, _, h1, h3⟩

/-- The two waiting calls of `exPair` are two deep, function 1 of `exAddBody` in the main program as well; one level is too little. -/
example : evalWithin exPairBody 20 2 exPair.main [] = some (.ok 6) ∧ evalWithin exAddBody 20 2 exAddMain [] = some (.ok 111) ∧
    evalWithin exAddBody 20 1 exAddMain [] = none := by
  refine ⟨?_, ?_, ?_⟩ <;> decide +kernel

/-- Tasks that submit tasks without waiting: function 1 puts a value and starts two calls of function 0. -/
def exForkBody (fn : Nat) (vs : List Nat) : Prog :=
  if fn = 0 then .ret (.ok vs.sum) else .put (.ok 1) (.call 0 [.var 0] (.call 0 [.var 1] (.ret (.ok (vs.headD 0)))))

example : (∀ fn vs, Scoped 0 (exForkBody fn vs) ∧ NoGet (exForkBody fn vs)) ∧
    ((State.init ⟨exForkBody, [1, 2], .put (.ok 7) (.call 1 [.var 0] (.get 1 back))⟩).runAll
      ⟨exForkBody, [1, 2], .put (.ok 7) (.call 1 [.var 0] (.get 1 back))⟩
      [.exec 0 0, .exec 0 1, .start 1 0, .exec 1 0, .exec 1 2, .exec 1 2, .exec 1 0, .fetch 0 1, .exec 0 0]).map
      (fun s => (s.done, s.inbox 2, s.store 2 2)) = some (some (.ok 7), [⟨3, 0, [.ref 2]⟩, ⟨4, 0, [.ref 3]⟩], some (.ok 1)) := by
  constructor
  · intro fn vs
    simp only [exForkBody]
    split <;> simp [Scoped, NoGet]
  · decide +kernel

end Verif.Props
