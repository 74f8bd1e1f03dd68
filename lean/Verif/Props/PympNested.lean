import Verif.Lemmas.PympNested

namespace Verif.Props
open Verif.PympNested

/-- Nothing can go on without a further call of the main process. -/
def PnStill (s : State) : Prop := ∀ w, s.step (.work w) = none

/-- A worker executes a method that waits for a call which is behind it in the queue of the same worker. -/
def PnSelf (s : State) (w id : Nat) : Prop :=
  ∃ a body j rest, s.queues w = (id, .method a body (some j)) :: rest ∧ (j, .plain) ∈ rest

/-- C145: calls inside remote functions and methods are like other calls: nothing fails because of them, and everything is executed. -/
def C145_full : Prop :=
  ∀ (n : Nat) (as : List Act) (s : State), (State.init n).run as = some s →
    (∀ x ∈ s.done, x.2 = true) ∧ (PnStill s → ∀ w, s.queues w = [])

/-- C145 (part): a call, of the main process or of a method, fails exactly if it is one of a function with a remote call inside. -/
theorem C145_result_exactly_partial (n : Nat) (pre post : List Act) (act : Act) (u v s : State) (hu : (State.init n).run pre = some u)
    (hv : u.step act = some v) (hn : v.next = u.next + 1) (hs : v.run post = some s) (ok : Bool) (hd : (u.next, ok) ∈ s.done) :
    ok = false ↔ act = .call true := by
  have hi := run_inv (Inv.init n) hu
  have hk := run_kind (step_inv hi hv) (step_fresh (run_uniq (Uniq.init n) hu) hv hn) hs
  have := hk.done _ hd rfl
  simp only at this
  rw [this]
  by_cases h : act = .call true <;> simp [h]

/-- C145 (part): a call inside a method is accepted, by one of the workers; never by that of an actor made before its own. -/
theorem C145_placed_partial (n : Nat) (as : List Act) (s : State) (h : (State.init n).run as = some s) (w id a : Nat) (g : Bool) (body : List Bool)
    (hq : (s.queues w).head? = some (id, .method a (g :: body) none)) :
    ∃ s' i, s.step (.work w) = some s' ∧ (s.next, .plain) ∈ s'.queues i ∧ i < n ∧ ∀ b y, s.actors[b]? = some y → y.1 = i → a ≤ b := by
  have hi := run_inv (Inv.init n) h
  have hdom := run_dom (Dom.init n) h
  cases hl : s.queues w with
  | nil => rw [hl] at hq; simp at hq
  | cons z l =>
    rw [hl] at hq
    simp only [List.head?_cons, Option.some.injEq] at hq
    subst hq
    obtain ⟨x, hx, _⟩ := hi.place w _ (by rw [hl]; exact List.mem_cons_self) a _ _ rfl
    have hm := List.mem_iff_getElem?.2 ⟨a, hx⟩
    have hown := hi.own x hm
    obtain ⟨r, hr⟩ := submit_some hown.1 hown.2
    refine ⟨_, r.1, by simp only [State.step, hl, hx, hr]; rfl, ?_, ?_, hi.later hx hr⟩
    · exact mem_add.2 (.inr ⟨rfl, rfl⟩)
    · have := (List.getElem?_eq_some_iff.1 (submit_free hr).1).1
      rw [(hdom.actors x hm).2] at this; exact this

/-- C145 (part): the workers come to a stop when the main process makes no further calls. -/
theorem C145_ends_partial (n : Nat) (as : List Act) (s : State) (h : (State.init n).run as = some s) :
    ∃ k, ∀ (ws : List Nat) (s' : State), s.run (ws.map .work) = some s' → ws.length ≤ k :=
  ⟨total s n, fun ws _ hr => works_le ws (run_dom (Dom.init n) h) hr⟩

/-- C145 (part): when nothing can go on, either everything was executed, or a method waits for a call on its own worker. -/
theorem C145_stuck_exactly_partial (n : Nat) (as : List Act) (s : State) (h : (State.init n).run as = some s) (hs : PnStill s) :
    (∃ w, s.queues w ≠ []) ↔ ∃ w id, PnSelf s w id := by
  have hi := run_inv (Inv.init n) h
  constructor
  · rintro ⟨w, hw⟩
    obtain ⟨id, a, body, j, rest, hq, hj⟩ := blocked hi (hs w) hw
    obtain ⟨w', id', a', body', j', rest', h1, h2, _⟩ := stuck hi hs _ a w id body j rest (Nat.le_refl _) hq hj
    exact ⟨w', id', a', body', j', rest', h1, h2⟩
  · rintro ⟨w, id, a, body, j, rest, hq, _⟩
    exact ⟨w, by rw [hq]; simp⟩

/-- C145 (part): a method that waits for a call on its own worker waits for ever, and nothing behind it is executed. -/
theorem C145_self_partial (n : Nat) (as bs : List Act) (s s' : State) (h : (State.init n).run as = some s) (w id : Nat) (hw : PnSelf s w id)
    (h' : s.run bs = some s') : PnSelf s' w id ∧ s'.step (.work w) = none ∧ ∀ j ∈ (s.queues w).map (·.1), j ∉ s'.done.map (·.1) := by
  have hu := run_uniq (Uniq.init n) h
  obtain ⟨a, body, j, rest, hq, hj⟩ := hw
  have hjm : j ∈ ids s w := by simp only [ids, hq]; exact List.mem_cons_of_mem _ (List.mem_map.2 ⟨_, hj, rfl⟩)
  have hown : Own s w id a body j :=
    ⟨by rw [hq]; rfl, hu.done w j hjm, fun v hv hh => hv (hu.one v w j hh hjm), hu.lt w j hjm⟩
  have hown' := run_own hown h'
  have hu' := run_uniq hu h'
  obtain ⟨l, hl⟩ := run_own_prefix hown h'
  have hq' : s'.queues w = (id, .method a body (some j)) :: (rest ++ l) := by rw [hl, hq]; rfl
  refine ⟨⟨a, body, j, rest ++ l, hq', List.mem_append_left _ hj⟩, ?_, fun k hk => ?_⟩
  · simp only [State.step, hq', if_neg hown'.done]
  · apply hu'.done w
    simp only [ids, hl, List.map_append]; exact List.mem_append_left _ hk

/-- C145 (part): if no method gets the result of a call, everything is executed. -/
theorem C145_noget_partial (n : Nat) (as : List Act) (s : State) (h : (State.init n).run as = some s)
    (hg : ∀ a body, .method a body ∈ as → true ∉ body) (hs : PnStill s) (w : Nat) : s.queues w = [] := by
  have hng : NoGet s := run_noGet (by intro w it hit; simp [State.init] at hit) hg h
  apply Classical.byContradiction
  intro hw
  obtain ⟨id, a, body, j, rest, hq, _⟩ := blocked (run_inv (Inv.init n) h) (hs w) hw
  have := (hng w _ (by rw [hq]; exact List.mem_cons_self) a body (some j) rfl).2
  cases this

/-- C145 is violated: with any number of workers the first method of the first actor that gets the result of a call waits for ever. -/
theorem C145_first_violated (n : Nat) (hn : 0 < n) : ∃ s, (State.init n).run [.create, .method 0 [true], .work 0] = some s ∧ PnStill s ∧ PnSelf s 0 0 := by
  obtain ⟨m, rfl⟩ : ∃ m, n = m + 1 := ⟨n - 1, by omega⟩
  have hstep : ∃ s, (State.init (m + 1)).run [.create, .method 0 [true], .work 0] = some s ∧
      s.queues = (fun v => if v = 0 then [(0, .method 0 [] (some 1)), (1, .plain)] else []) ∧ s.done = [] := by
    simp only [State.run, State.step, State.init, Pool.grab, List.replicate_succ, List.mem_cons, true_or, if_true, List.idxOf_cons_self,
      Option.bind_some, List.nil_append, List.getElem?_cons_zero, State.add, Pool.submit, seek, List.length_cons, Option.map_some, State.head]
    refine ⟨_, rfl, ?_, rfl⟩
    funext v
    by_cases hv : v = 0 <;> simp [hv]
  obtain ⟨s, h1, h2, h3⟩ := hstep
  refine ⟨s, h1, fun w => ?_, ⟨0, [], 1, [(1, .plain)], by rw [h2]; rfl, by simp⟩⟩
  by_cases hw : w = 0
  · subst hw; simp [State.step, h2, h3]
  · simp [State.step, h2, hw]

/-- C145 is violated: functions with a remote call inside fail. -/
theorem C145_function_violated (n : Nat) (hn : 0 < n) : ∃ s, (State.init n).run [.call true, .work 0] = some s ∧ s.done = [(0, false)] := by
  obtain ⟨m, rfl⟩ : ∃ m, n = m + 1 := ⟨n - 1, by omega⟩
  simp [State.run, State.step, State.init, Pool.submit, seek, List.replicate_succ, State.add, State.finish]

/-- C145 is violated: a call inside a method is placed on the worker of another actor, although a worker is free, and waits for its method. -/
theorem C145_foreign_violated : ∃ s, (State.init 3).run [.create, .create, .method 0 [false, false], .method 1 [true], .work 0, .work 0, .work 1] = some s ∧
    s.actors.map (·.1) = [0, 1] ∧ s.queues 2 = [] ∧ PnSelf s 1 1 ∧ (3, .plain) ∈ s.queues 1 := by
  refine ⟨_, rfl, by decide, rfl, ⟨0 + 1, [], 4, _, rfl, by decide⟩, by decide⟩

/-- C145 is violated. -/
theorem C145_violated : ¬ C145_full := by
  intro h
  obtain ⟨s, h1, h2⟩ := C145_function_violated 1 (by omega)
  have := (h 1 _ s h1).1 (0, false) (by rw [h2]; simp)
  simp at this

example : ((State.init 2).run [.create, .call false, .method 0 [false], .work 0, .work 0, .work 0, .work 1]).map (fun s => (s.queues 0, s.queues 1, s.done)) =
    some ([], [], [(1, true), (2, true), (0, true)]) := by decide +kernel

example : ((State.init 2).run [.call false, .create, .method 0 [true], .work 0, .work 0, .work 1, .work 0, .work 0]).map (fun s => (s.queues 0, s.queues 1, s.done)) =
    some ([], [], [(0, true), (2, true), (1, true)]) := by decide +kernel

end Verif.Props
