import Verif.Lemmas.PympTreeOnce

/-! C148: methods that make actors and use them on the multiprocessing backend. -/
namespace Verif.Props
open Verif.PympTree
open Verif.PympPlaces (Place)

/-- No worker can go on. -/
def PtStill (s : State) : Prop := ∀ w, s.step (.work w) = none

/-- The method `id` at the head of queue `w` waits for a call further back in the same queue. -/
def PtSelf (s : State) (w id : Nat) : Prop :=
  ∃ a b j rest, s.queues w = (id, .method a b (some j)) :: rest ∧ j ∈ rest.map (·.1)

/-- C148: when no worker can go on, everything was executed. -/
def C148_full : Prop :=
  ∀ (n : Nat) (as : List Act) (s : State), (State.init n).run as = some s → PtStill s → ∀ w, s.queues w = []

/-- C148 (disagreement): a method that gets the result of a method of the first actor of its process waits for a call behind itself, in every history. -/
theorem C148_first_violated (n : Nat) (as : List Act) (s : State) (h : (State.init n).run as = some s) (w id a : Nat) (b r : Body) (rest : List (Nat × Job))
    (hq : s.queues w = (id, .method a (.method 0 b true r) none) :: rest) (hk : ∃ y ∈ s.tree.actors, y.maker = a + 1) :
    ∃ s', s.step (.work w) = some s' ∧ PtSelf s' w id := by
  have hg := run_good as (Good.init False n) h
  obtain ⟨⟨x, hx, hxw⟩, -⟩ := hg.fine w (id, .method a (.method 0 b true r) none) (by rw [hq]; exact List.mem_cons_self)
  have hsorted : (s.kids (a + 1)).Pairwise (· < ·) := List.Pairwise.filter _ List.pairwise_lt_range
  have hmem : ∀ d (z : Place), s.tree.actors[d]? = some z → z.maker = a + 1 → d ∈ s.kids (a + 1) := by
    intro d z hz hm
    simp only [State.kids, List.mem_filter, List.mem_range]
    exact ⟨(List.getElem?_eq_some_iff.1 hz).1, by rw [hz]; simp [hm]⟩
  obtain ⟨y, hy, hym⟩ := hk
  obtain ⟨d, hd⟩ := List.mem_iff_getElem?.1 hy
  have hdk := hmem d y hd hym
  have h0 : 0 < (s.kids (a + 1)).length := List.length_pos_of_mem hdk
  have hc : (s.kids (a + 1))[0]? = some (s.kids (a + 1))[0] := List.getElem?_eq_getElem h0
  have hcm := List.getElem_mem h0
  generalize (s.kids (a + 1))[0] = c at hc hcm
  simp only [State.kids, List.mem_filter, List.mem_range] at hcm
  obtain ⟨hcl, hcm⟩ := hcm
  have hz := List.getElem?_eq_getElem hcl
  rw [hz] at hcm
  generalize s.tree.actors[c] = z at hz hcm
  have hzm : z.maker = a + 1 := by simpa using hcm
  have hzw := hg.base.first a c x z hx hz hzm (fun e u he hu hum => by
    obtain ⟨m, hm, hme⟩ := List.getElem_of_mem (hmem e u hu hum)
    have hc0 := (List.getElem?_eq_some_iff.1 hc).2
    rcases Nat.eq_zero_or_pos m with rfl | hp
    · omega
    · have := List.pairwise_iff_getElem.1 hsorted 0 m h0 hm hp
      omega)
  refine ⟨s.does w id a (.method 0 b) true r, by simp only [State.step, hq], a, r, s.next, rest ++ [(s.next, .method c b none)], ?_, by simp⟩
  simp [State.does, State.issue, hc, hz, State.head, State.add, hzw, hxw, hq]

/-- C148 (disagreement): with any number of workers the shortest program of this kind hangs. -/
theorem C148_hangs_violated (n : Nat) (hn : 0 < n) :
    ∃ s, (State.init n).run [.main .create, .main (.method 0 (.create (.method 0 .ret true .ret))), .work 0, .work 0] = some s ∧ PtStill s ∧ PtSelf s 0 0 := by
  obtain ⟨m, rfl⟩ : ∃ m, n = m + 1 := ⟨n - 1, by omega⟩
  have hstep : ∃ s, (State.init (m + 1)).run [.main .create, .main (.method 0 (.create (.method 0 .ret true .ret))), .work 0, .work 0] = some s ∧
      s.queues = (fun v => if v = 0 then [(0, .method 0 .ret (some 1)), (1, .method 1 .ret none)] else []) ∧ s.done = [] := by
    simp only [State.run, State.step, State.init, State.issue, PympPlaces.State.init, PympNested.Pool.grab, List.replicate_succ, List.mem_cons, true_or, if_true,
      List.idxOf_cons_self, Option.bind_some, List.nil_append, List.getElem?_cons_zero, State.add, State.head, State.does, State.kids, Option.getD_some,
      List.set_cons_zero, List.cons_append, List.length_cons, List.length_nil]
    refine ⟨_, rfl, ?_, by simp [List.range_succ]⟩
    funext v
    by_cases hv : v = 0 <;> simp [hv, List.range_succ]
  obtain ⟨s, h1, h2, h3⟩ := hstep
  refine ⟨s, h1, fun w => ?_, ⟨0, .ret, 1, [(1, .method 1 .ret none)], by rw [h2]; rfl, by simp⟩⟩
  by_cases hw : w = 0
  · subst hw; simp [State.step, h2, h3]
  · simp [State.step, h2, hw]

/-- C148 (disagreement). -/
theorem C148_violated : ¬ C148_full := by
  intro h
  obtain ⟨s, h1, h2, a, b, j, rest, h3, -⟩ := C148_hangs_violated 1 (by decide)
  have := h 1 _ s h1 h2 0
  rw [h3] at this
  cases this

/-- C148 (part), exactly: when no worker can go on, something is left if and only if a method waits for a call on its own worker. Workers never wait for each other
in a circle, however deep actors are nested. -/
theorem C148_stuck_exactly_partial (n : Nat) (as : List Act) (s : State) (h : (State.init n).run as = some s) (hs : PtStill s) :
    (∃ w, s.queues w ≠ []) ↔ ∃ w id, PtSelf s w id := by
  constructor
  · intro hne
    obtain ⟨-, w, id, a, b, j, rest, h1, h2⟩ := stuck (run_good as (Good.init False n) h) hs hne
    exact ⟨w, id, a, b, j, rest, h1, h2⟩
  · rintro ⟨w, id, a, b, j, rest, h1, -⟩
    exact ⟨w, by rw [h1]; simp⟩

/-- C148 (part): such a method waits for ever, whatever the others do, and nothing in its queue is executed. -/
theorem C148_self_partial (n : Nat) (as bs : List Act) (s s' : State) (h : (State.init n).run as = some s) (w id : Nat) (hw : PtSelf s w id)
    (h' : s.run bs = some s') : PtSelf s' w id ∧ s'.step (.work w) = none ∧ ∀ j ∈ (s.queues w).map (·.1), j ∉ s'.done.map (·.1) := by
  have hg := run_good as (Good.init False n) h
  have hg' := run_good bs hg h'
  obtain ⟨a, b, j, rest, hq, hj⟩ := hw
  obtain ⟨l, hl⟩ := run_self bs hg hq hj h'
  have hq' : s'.queues w = (id, .method a b (some j)) :: (rest ++ l) := by rw [hl, hq]; rfl
  have hdone : ∀ j ∈ (s.queues w).map (·.1), j ∉ s'.done.map (·.1) := fun k hk => hg'.uniq.done w k (by
    simp only [ids, hl, List.map_append]; exact List.mem_append_left _ hk)
  refine ⟨⟨a, b, j, rest ++ l, hq', by rw [List.map_append]; exact List.mem_append_left _ hj⟩, ?_, hdone⟩
  have hjn := hdone j (by rw [hq]; exact List.mem_cons_of_mem _ hj)
  have : s'.done.lookup j = none := List.lookup_eq_none_iff.2 fun x hx => by
    simp only [beq_eq_false_iff_ne, ne_eq, bne_iff_ne]
    rintro rfl
    exact hjn (List.mem_map.2 ⟨x, hx, rfl⟩)
  simp only [State.step, hq', this]

/-- C148 (part): the workers come to a stop when the main process makes no further calls. -/
theorem C148_ends_partial (n : Nat) (as : List Act) (s : State) (h : (State.init n).run as = some s) :
    ∃ k, ∀ (ws : List Nat) (s' : State), s.run (ws.map .work) = some s' → ws.length ≤ k :=
  ⟨total s n, fun ws _ hr => works_le ws (run_good as (Good.init False n) h) hr⟩

/-- C148 (part): everything is executed if methods get results of functions only after they have made an actor, and results of methods only of actors other than
the first one that their process has made. -/
theorem C148_careful_partial (n : Nat) (as : List Act) (s : State) (h : (State.init n).run as = some s)
    (hc : ∀ k b, .main (.method k b) ∈ as → Careful false b) (hs : PtStill s) (w : Nat) : s.queues w = [] := by
  obtain ⟨hg, -⟩ := run_care as (Good.init True n) (by intro w it hit; simp [State.init] at hit) hc h
  apply Classical.byContradiction
  intro hw
  exact (stuck hg hs ⟨w, hw⟩).1 trivial

/-- C148 (part): in every history each call made so far has exactly one result, or none and then it is in exactly one queue. -/
theorem C148_once_partial (n : Nat) (as : List Act) (s : State) (h : (State.init n).run as = some s) (i : Nat) (hi : i < s.next) :
    ((∃ r, (i, r) ∈ s.done ∧ ∀ q, (i, q) ∈ s.done → q = r) ∧ (s.done.map (·.1)).count i = 1 ∧ ∀ w, i ∉ (s.queues w).map (·.1)) ∨
    ((∀ r, (i, r) ∉ s.done) ∧ ∃ w, ((s.queues w).map (·.1)).count i = 1 ∧ ∀ v, v ≠ w → i ∉ (s.queues v).map (·.1)) := by
  have hg := run_good as (Good.init False n) h
  have ho := run_once as (Once.init n) (Good.init False n) h
  rcases ho.all i hi with hd | ⟨w, hw⟩
  · left
    obtain ⟨⟨i', r⟩, hm, rfl⟩ := List.mem_map.1 hd
    refine ⟨⟨r, hm, fun q hq => ?_⟩, ho.nd.count.trans (if_pos hd), fun w hw => hg.uniq.done w _ hw hd⟩
    have h1 := lookup_of_mem _ ho.nd hm
    have h2 := lookup_of_mem _ ho.nd hq
    rw [h1] at h2
    exact (Option.some.inj h2).symm
  · right
    refine ⟨fun r hr => hg.uniq.done w i hw (List.mem_map.2 ⟨_, hr, rfl⟩), w, (hg.uniq.nodup w).count.trans (if_pos hw), ?_⟩
    intro v hv hm
    exact hv (hg.uniq.one v w i hm hw)

/-- C148 (part): under the conditions of `C148_careful_partial`, when no worker can go on, each call made has exactly one result. -/
theorem C148_results_partial (n : Nat) (as : List Act) (s : State) (h : (State.init n).run as = some s)
    (hc : ∀ k b, .main (.method k b) ∈ as → Careful false b) (hs : PtStill s) (i : Nat) (hi : i < s.next) :
    (s.done.map (·.1)).count i = 1 := by
  rcases C148_once_partial n as s h i hi with h1 | ⟨-, w, hw, -⟩
  · exact h1.2.1
  · rw [C148_careful_partial n as s h hc hs w] at hw
    simp at hw

/-- C148 (part): a method that gets the result of a call goes on if the call has succeeded, and fails if it has failed. -/
theorem C148_fails_partial (n : Nat) (as : List Act) (s : State) (h : (State.init n).run as = some s) (w id a j : Nat) (b : Body) (rest : List (Nat × Job))
    (hq : s.queues w = (id, .method a b (some j)) :: rest) :
    ((j, false) ∈ s.done → ∃ s', s.step (.work w) = some s' ∧ s'.queues w = rest ∧ s'.done = s.done ++ [(id, false)]) ∧
    ((j, true) ∈ s.done → ∃ s', s.step (.work w) = some s' ∧ s'.queues w = (id, .method a b none) :: rest ∧ s'.done = s.done) := by
  have ho := run_once as (Once.init n) (Good.init False n) h
  constructor
  · intro hj
    refine ⟨s.finish w id false, ?_, by simp [State.finish, hq], rfl⟩
    simp only [State.step, hq, lookup_of_mem _ ho.nd hj]
  · intro hj
    refine ⟨s.head w (id, .method a b none), ?_, by simp [State.head, hq], rfl⟩
    simp only [State.step, hq, lookup_of_mem _ ho.nd hj]

/-- C148 (part): a method that makes an actor when its process has no free worker left fails. -/
theorem C148_no_worker_partial (s : State) (w id a : Nat) (b : Body) (rest : List (Nat × Job)) (q : PympNested.Pool)
    (hq : s.queues w = (id, .method a (.create b) none) :: rest) (hp : s.tree.pools[a + 1]? = some q) (hg : q.grab = none) :
    ∃ s', s.step (.work w) = some s' ∧ s'.queues w = rest ∧ s'.done = s.done ++ [(id, false)] ∧ s'.tree = s.tree := by
  refine ⟨s.finish w id false, ?_, by simp [State.finish, hq], rfl, rfl⟩
  simp only [State.step, hq, State.does, State.issue, hp, hg]

/-- A method that makes two actors, and gets results of a function and of the second one. -/
def exTree : Body := .create (.create (.call true (.method 1 .ret true .ret)))

example : Careful false exTree := by simp [exTree, Careful]

set_option synthInstance.maxSize 1000 in
example : ((State.init 3).run [.main .create, .main (.method 0 exTree), .work 0, .work 0, .work 0, .work 2, .work 0, .work 0, .work 1, .work 0, .work 0]).map
    (fun s => (s.queues 0, s.queues 1, s.queues 2, s.done)) = some ([], [], [], [(1, true), (2, true), (0, true)]) := by
  decide +kernel

/-- The second actor needs a second worker: otherwise the method fails. -/
example : ((State.init 1).run [.main .create, .main (.method 0 exTree), .work 0, .work 0]).map (fun s => (s.queues 0, s.done)) = some ([], [(0, false)]) := by
  decide +kernel

/-- `C148_first_violated`: the call behind the method is in the same queue. -/
example : ((State.init 4).run [.main .create, .main (.method 0 (.create (.method 0 .ret true .ret))), .main .create, .work 0, .work 0]).map
    (fun s => (s.queues 0, s.tree.actors.map (·.worker))) = some ([(0, .method 0 .ret (some 1)), (1, .method 2 .ret none)], [0, 1, 0]) := by
  decide +kernel

/-- Without `get` the same method ends, and the call behind it is executed. -/
example : ((State.init 4).run [.main .create, .main (.method 0 (.create (.method 0 .ret false .ret))), .work 0, .work 0, .work 0, .work 0]).map
    (fun s => (s.queues 0, s.done)) = some ([], [(0, true), (1, true)]) := by
  decide +kernel

/-- `C148_fails_partial`: a method gets the result of a method that fails because its process has no worker for a second actor. -/
def exTreeFail : List Act :=
  [.main .create, .main (.method 0 (.create (.create (.method 1 (.create (.create .ret)) true .ret)))), .work 0, .work 0, .work 0, .work 1, .work 1]

set_option synthInstance.maxSize 1000 in
example : ((State.init 2).run exTreeFail).map (fun s => (s.queues 0, s.queues 1, s.done)) = some ([(0, .method 0 .ret (some 1))], [], [(1, false)]) := by
  decide +kernel

set_option synthInstance.maxSize 1000 in
example : ((State.init 2).run (exTreeFail ++ [.work 0])).map (fun s => (s.queues 0, s.queues 1, s.done)) = some ([], [], [(1, false), (0, false)]) := by
  decide +kernel

end Verif.Props
