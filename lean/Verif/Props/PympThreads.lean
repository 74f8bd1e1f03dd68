import Verif.Lemmas.PympThreads

/-! C147: calls from several threads on the multiprocessing backend. -/
namespace Verif.Props
open Verif.PympThreads

/-- C147: no call ends with `IndexError`; actors are of the class that they were made of and have workers of their own; a call is refused only if every worker is
kept by an actor, and no task is about to be given to a worker that is kept by an actor. -/
def C147_full : Prop :=
  ∀ (n : Nat) (job : Nat → Job) (as : List Nat), 0 < n →
    let s := (State.init n).run job as
    (∀ c, s.pc c ≠ .done .indexError) ∧
    (∀ c cls k w, job c = .actor cls → s.pc c = .done (.made k w) → k = cls) ∧
    (∀ c d k l w w', s.pc c = .done (.made k w) → s.pc d = .done (.made l w') → c ≠ d → w ≠ w') ∧
    (∀ c, s.pc c = .done .refused → ∀ w < n, s.flags[w]? = some true) ∧
    ∀ c w, s.pc c = .adding w → s.flags[w]? = some false

/-- C147 (disagreement): with any number of workers, two overlapping calls of functions can move the counter beyond the workers; after that every call of a
function ends with `IndexError`, for ever. -/
theorem C147_index_violated (n : Nat) (hn : 0 < n) : ∃ as : List Nat, (∀ c ∈ as, c ≤ n) ∧
    (∀ c < n, ((State.init n).run (fun _ => .call) as).pc c = .done (.placed c)) ∧
    ((State.init n).run (fun _ => .call) as).pc n = .done .indexError ∧
    ∀ (more : List Nat) (c : Nat) (r : Res), n < c → ((State.init n).run (fun _ => .call) (as ++ more)).pc c = .done r → r = .indexError := by
  obtain ⟨as, h1, h2, h3⟩ := calls_run (job := fun _ => .call) (fun _ => rfl) n (n - 1) (by omega)
  have hmem : ∀ c ∈ as, c < n - 1 := by
    intro c hc
    rcases Nat.lt_or_ge c (n - 1) with h | h
    · exact h
    · have := h3 c
      rw [if_neg (by omega), idle_iff] at this
      exact absurd hc this
  let bs : List Nat := [n - 1, n - 1, n - 1, n - 1, n, n, n, n, n, n, n - 1, n - 1, n - 1]
  have hpcA : ((State.init n).run (fun _ => .call) as).pc (n - 1) = .idle := by rw [h3, if_neg (by omega)]
  have hpcB : ((State.init n).run (fun _ => .call) as).pc n = .idle := by rw [h3, if_neg (by omega)]
  have hrun : (State.init n).run (fun _ => .call) (as ++ bs) =
      ({ (State.init n).run (fun _ => .call) as with counter := n + 1 }.at n (.done .indexError)).at (n - 1) (.done (.placed (n - 1))) := by
    rw [run_append]
    generalize (State.init n).run (fun _ => .call) as = s at *
    have hne : n - 1 ≠ n := by omega
    have hne' : n ≠ n - 1 := by omega
    have hsub : n - 1 + 1 = n := by omega
    have hl : s.flags.length = n := by rw [h2]; simp
    have hg : s.flags[n - 1]? = some false := by rw [h2, List.getElem?_replicate, if_pos (by omega)]
    have hg' : s.flags[n]? = none := List.getElem?_eq_none (by omega)
    simp only [bs, State.run, State.step, hpcA, hpcB, at_pc, at_flags, at_counter, if_true, hl, hn, h1, hne, hne', if_false, hsub, hg, hg',
      show ¬ (n + 1 = n) by omega]
    simp only [State.at, State.mk.injEq, true_and]
    funext d
    by_cases hd : d = n - 1
    · simp [hd]
    · by_cases hd' : d = n
      · simp [hd', hne']
      · simp [hd, hd']
  refine ⟨as ++ bs, fun c hc => ?_, fun c hc => ?_, ?_, fun more c r hc hr => ?_⟩
  · rcases List.mem_append.1 hc with hc | hc
    · have := hmem c hc; omega
    · simp only [bs, List.mem_cons, List.not_mem_nil, or_false] at hc; omega
  · rw [hrun]
    simp only [at_pc]
    split
    · rename_i e; rw [e]
    · rw [if_neg (by omega)]
      show ((State.init n).run (fun _ => .call) as).pc c = _
      rw [h3, if_pos (by omega)]
  · rw [hrun]
    simp only [at_pc]
    rw [if_neg (by omega), if_pos trivial]
  · rw [run_append, hrun] at hr
    have := lost_run (n := n) (job := fun _ => .call) hn (fun _ => rfl) (fun c => n < c) more
      (s := ({ (State.init n).run (fun _ => .call) as with counter := n + 1 }.at n (.done .indexError)).at (n - 1) (.done (.placed (n - 1))))
      (by simp [h2]) (by simp) (fun d hd => ?_) (fun d hd => ?_) c hc
    · rw [hr] at this
      cases r <;> first | rfl | exact this.elim
    · simp only [at_pc]
      rw [if_neg (by omega), if_neg (by omega)]
      show Lost _ _ (((State.init n).run (fun _ => .call) as).pc d)
      rw [h3, if_neg (by omega)]
      trivial
    · simp only [at_pc]
      split
      · exact ⟨_, rfl⟩
      · split
        · exact ⟨_, rfl⟩
        · refine ⟨.placed d, ?_⟩
          show ((State.init n).run (fun _ => .call) as).pc d = _
          rw [h3, if_pos (by omega)]

/-- Two creations, of the classes `a` and `b`. -/
def exTwo (a b : Nat) (c : Nat) : Job := if c = 0 then .actor a else .actor b

/-- C147 (disagreement): the actor made of class `a` is an object of class `b`, if another thread makes an actor of class `b` between `register` and the fork. -/
theorem C147_class_violated (n a b : Nat) (hn : 0 < n) : ((State.init n).run (exTwo a b) [0, 1, 0, 0, 0]).pc 0 = .done (.made b 0) := by
  cases n with
  | zero => omega
  | succ n => simp [State.run, State.step, State.init, exTwo, List.replicate_succ]

/-- C147 (disagreement): two actors are on the same worker, whatever the number of workers. -/
theorem C147_worker_violated (n a b : Nat) (hn : 0 < n) :
    let s := (State.init n).run (exTwo a b) [0, 0, 1, 1, 0, 1, 0, 1]
    s.pc 0 = .done (.made a 0) ∧ s.pc 1 = .done (.made b 0) := by
  cases n with
  | zero => omega
  | succ n => simp [State.run, State.step, State.init, exTwo, List.replicate_succ]

/-- An actor and two calls of functions. -/
def exMixed (c : Nat) : Job := if c = 0 then .actor 7 else .call

/-- C147 (disagreement): a call is refused although a worker is free: both times its turn is that of the worker kept by the actor. The calls do not overlap in
`_next`. -/
theorem C147_refused_violated :
    let s := (State.init 2).run exMixed [0, 0, 0, 0, 1, 1, 1, 1, 1, 1, 2, 2, 2, 2, 2, 2, 1, 1, 1, 1, 1, 1]
    s.pc 1 = .done .refused ∧ s.flags[1]? = some false := by
  decide +kernel

/-- C147 (disagreement): a task is given to a worker that an actor has grabbed since the test of its flag. -/
theorem C147_grabbed_violated :
    let s := (State.init 2).run exMixed [1, 1, 1, 1, 1, 1, 0, 0, 0, 0]
    s.pc 1 = .adding 0 ∧ s.pc 0 = .done (.made 7 0) ∧ s.flags[0]? = some true := by
  decide +kernel

/-- C147 (disagreement). -/
theorem C147_violated : ¬ C147_full := by
  intro h
  obtain ⟨as, -, -, h1, -⟩ := C147_index_violated 1 (by decide)
  exact (h 1 _ as (by decide)).1 _ h1

/-- C147 (part): if the counter is never read while another call is between its increment and the end of `_next`, no call ends with `IndexError`, and tasks go to
existing workers only. -/
theorem C147_index_partial (n : Nat) (job : Nat → Job) (as : List Nat)
    (h : ∀ pre c post, as = pre ++ c :: post → (∃ k, ((State.init n).run job pre).pc c = .top k) ∨ (∃ k i, ((State.init n).run job pre).pc c = .read k i) →
      ∀ d k i, ((State.init n).run job pre).pc d ≠ .stored k i ∧ ((State.init n).run job pre).pc d ≠ .wrap k i) (c : Nat) :
    ((State.init n).run job as).pc c ≠ .done .indexError ∧ ∀ w, ((State.init n).run job as).pc c = .done (.placed w) → w < n := by
  have hg := (good_run (n := n) (job := job) as fun pre c post e hr d hb => by
    have := h pre c post e hr d
    cases hpc : ((State.init n).run job pre).pc d <;> rw [hpc] at hb <;> first | exact hb | skip
    · exact (this _ _).1 hpc
    · exact (this _ _).2 hpc).fine c
  refine ⟨fun e => ?_, fun w e => ?_⟩
  · rw [e] at hg; exact hg
  · rw [e] at hg; exact hg

/-- C147 (part): without actors, under the same condition, every call that ends has given its task to a worker. -/
theorem C147_functions_partial (n : Nat) (hn : 0 < n) (as : List Nat)
    (h : ∀ pre c post, as = pre ++ c :: post →
      (∃ k, ((State.init n).run (fun _ => .call) pre).pc c = .top k) ∨ (∃ k i, ((State.init n).run (fun _ => .call) pre).pc c = .read k i) →
      ∀ d k i, ((State.init n).run (fun _ => .call) pre).pc d ≠ .stored k i ∧ ((State.init n).run (fun _ => .call) pre).pc d ≠ .wrap k i)
    (c : Nat) (r : Res) (hr : ((State.init n).run (fun _ => .call) as).pc c = .done r) : ∃ w, w < n ∧ r = .placed w := by
  have h1 := C147_index_partial n _ as h c
  have h2 := (plain_run (n := n) (job := fun _ => .call) hn (fun _ => rfl) as).2 c
  rw [hr] at h1 h2
  cases r with
  | placed w => exact ⟨w, h1.2 w rfl, rfl⟩
  | made k w => exact h2.elim
  | refused => exact h2.elim
  | indexError => exact absurd rfl h1.1

/-- C147 (part), exactly: an actor is an object of the class of the creation that was begun last before its process is forked. -/
theorem C147_class_exactly_partial (n : Nat) (job : Nat → Job) (p1 p2 post : List Nat) (c d kd : Nat) (hd : d ∉ p1) (hj : job d = .actor kd)
    (h2 : ∀ e ∈ p2, (∃ cls, job e = .actor cls) → e ∈ p1 ∨ e = d) (hc : ((State.init n).run job (p1 ++ d :: p2)).pc c = .registered) (k w : Nat)
    (hm : ((State.init n).run job (p1 ++ d :: p2 ++ c :: post)).pc c = .done (.made k w)) : k = kd := by
  have hreg := registry_run (n := n) p1 p2 d kd hd hj h2
  rw [run_append] at hm
  generalize (State.init n).run job (p1 ++ d :: p2) = s at *
  have : Has kd ((s.step job c).pc c) := by
    simp only [State.step, hc, at_pc, if_true]
    exact hreg
  have := has_run (job := job) post this
  simp only [State.run] at hm
  rw [hm] at this
  exact this

/-- C147 (part): if no flag is looked at while another creation is about to set one, all actors have different workers. -/
theorem C147_worker_partial (n : Nat) (job : Nat → Job) (as : List Nat)
    (h : ∀ pre c post, as = pre ++ c :: post → (∃ k i, ((State.init n).run job pre).pc c = .looking k i) →
      ∀ d k i, ((State.init n).run job pre).pc d ≠ .marking k i) (c d k l w w' : Nat)
    (hc : ((State.init n).run job as).pc c = .done (.made k w)) (hd : ((State.init n).run job as).pc d = .done (.made l w')) (hcd : c ≠ d) : w ≠ w' :=
  (apart_run as h).made c d k l w w' hc hd hcd

/-- C147 (part): in every interleaving the creation of an actor is refused only if all workers are grabbed. -/
theorem C147_room_partial (n : Nat) (job : Nat → Job) (as : List Nat) (c cls : Nat) (hj : job c = .actor cls)
    (hc : ((State.init n).run job as).pc c = .done .refused) (w : Nat) (hw : w < n) : ((State.init n).run job as).flags[w]? = some true := by
  have := told_run (n := n) (job := job) as c
  rw [hc, hj] at this
  exact this w hw

/-- C147 (part): a call of a function that is not interrupted goes to the next free worker in the order of the turns, or is refused if all are kept by actors. -/
theorem C147_alone_partial (job : Nat → Job) (s : State) (c : Nat) (hpc : s.pc c = .idle) (hj : job c = .call) (hlt : s.counter < s.flags.length) :
    ∃ t, (s.run job (List.replicate t c)).flags = s.flags ∧ (s.run job (List.replicate t c)).counter < s.flags.length ∧
      (∀ d, d ≠ c → (s.run job (List.replicate t c)).pc d = s.pc d) ∧
      ((∃ i, (s.run job (List.replicate t c)).pc c = .done (.placed ((s.counter + i) % s.flags.length)) ∧
          s.flags[(s.counter + i) % s.flags.length]? = some false ∧ (s.run job (List.replicate t c)).counter = (s.counter + i + 1) % s.flags.length ∧
          ∀ i' < i, s.flags[(s.counter + i') % s.flags.length]? = some true) ∨
        ((s.run job (List.replicate t c)).pc c = .done .refused ∧ ∀ w < s.flags.length, s.flags[w]? = some true)) := by
  have h0 : s.step job c = s.at c (.top 0) := by simp only [State.step, hpc, hj]
  obtain ⟨t, u, hu, h1, h2, h3, h4⟩ := alone (job := job) s.flags.length (s := s.at c (.top 0)) (c := c) (k := 0) (by simp) (by simp) hlt
  refine ⟨t + 1, ?_⟩
  have hr : s.run job (List.replicate (t + 1) c) = u := by rw [List.replicate_succ, State.run, h0]; exact hu
  rw [hr]
  refine ⟨h1, h2, fun d hd => by rw [h3 d hd]; simp [hd], ?_⟩
  rcases h4 with ⟨i, -, g1, g2, g3, g4⟩ | ⟨g1, g2⟩
  · exact .inl ⟨i, g1, g2, g3, g4⟩
  · refine .inr ⟨g1, fun w hw => ?_⟩
    simp only [at_flags, at_counter] at g2
    have := g2 ((w + s.flags.length - s.counter) % s.flags.length) (Nat.mod_lt _ (by omega))
    rw [Nat.add_mod_mod, show s.counter + (w + s.flags.length - s.counter) = w + s.flags.length by omega, Nat.add_mod_right, Nat.mod_eq_of_lt hw] at this
    exact this

/-- `C147_index_violated` with one worker: the third call ends with `IndexError`, too. -/
example : let s := (State.init 1).run (fun _ => .call) [0, 0, 0, 0, 1, 1, 1, 1, 1, 1, 0, 0, 0, 2, 2, 2, 2, 2, 2]
    s.pc 0 = .done (.placed 0) ∧ s.pc 1 = .done .indexError ∧ s.pc 2 = .done .indexError ∧ s.counter = 3 := by
  decide +kernel

/-- Two overlapping calls with two workers that read the counter before either has written it: both tasks go to worker 0, and nothing fails. -/
example : let s := (State.init 2).run (fun _ => .call) [0, 0, 1, 1, 0, 1, 0, 1, 0, 1, 0, 1, 0, 1]
    s.pc 0 = .done (.placed 0) ∧ s.pc 1 = .done (.placed 0) ∧ s.counter = 1 := by
  decide +kernel

/-- Three actors of two classes made one after the other with two workers. -/
example : let s := (State.init 2).run (exTwo 4 5) [0, 0, 0, 0, 1, 1, 1, 1, 1, 2, 2, 2, 2, 2]
    s.pc 0 = .done (.made 4 0) ∧ s.pc 1 = .done (.made 5 1) ∧ s.pc 2 = .done .refused := by
  decide +kernel

/-- `C147_class_exactly_partial`: `register` of call 1 is the last before the process of call 0 is forked. -/
example : ((State.init 2).run (exTwo 4 5) [0, 1]).pc 0 = .registered ∧ ((State.init 2).run (exTwo 4 5) [0, 1, 0, 0, 0]).pc 0 = .done (.made 5 0) := by
  decide +kernel

/-- `C147_alone_partial` with worker 0 kept by an actor. -/
example : let s := (State.init 3).run exMixed ([0, 0, 0, 0] ++ List.replicate 12 1 ++ List.replicate 8 2)
    s.pc 1 = .done (.placed 1) ∧ s.pc 2 = .done (.placed 2) ∧ s.counter = 0 := by
  decide +kernel

end Verif.Props
