import Verif.Lemmas.PympDead
import Verif.Lemmas.PympWait

/-! Properties of the multiprocessing backend (C65–C70). -/
namespace Verif.Props
open Verif.Pymp Verif.Spec.Pymp

/-- User code for the examples: functions returning a byte string, an exception object, a number, a sequence of one element, a pair,
raising, and otherwise the sum of numbers; methods return the number of earlier calls. -/
def pympWorld : World where
  call f args :=
    match f with
    | 0 => .ok (.bytes 5) none
    | 1 => .ok (.exc 9) none
    | 2 => .ok (.data 1) none
    | 3 => .ok (.data 2) (some [.data 1])
    | 4 => .ok (.data 2) (some [.data 1, .data 3])
    | 5 => .raise 3
    | _ => .ok (.data (args.foldl (fun n v => match v with | .data m => n + m | _ => n) f)) none
  method _ hist m _ := .ok (.data (10 * m + hist.length)) none
  loads b := if 100 ≤ b then .ok (.callable (b - 100)) else .error 77
  dumps c := c + 100

/-- Functions that return what they are given, as a number, and a list of two byte strings; pickles start at 100. -/
def exBytesWorld : World where
  call f vs := match f, vs with
    | 0, [.callable c] => .ok (.data c) none
    | 1, _ => .ok (.data 0) (some [.bytes 103, .bytes 5])
    | _, _ => .ok (.data 0) none
  method _ _ _ _ := .raise 0
  loads b := if 100 ≤ b then .ok (.callable (b - 100)) else .error 77
  dumps c := c + 100

/-! ## C65 -/

/-- **C65** as stated: whatever the interleaving, a reference gives what sequential evaluation gives. The only assumption is that
unpickling a pickled callable gives it back. -/
def C65_full : Prop :=
  ∀ (W : World) (n : Nat) (acts : List Act) (s : State), (∀ c, W.loads (W.dumps c) = .ok (.callable c)) →
    run W (State.init n) acts = some s → ∀ id,
      (∀ v, getOne W s id = some (.ok v) → (meaning W s.items).val id = some (.value v)) ∧
      (∀ e, getOne W s id = some (.error e) → (meaning W s.items).val id = some (.raised e))

/-- **C65** does not hold: a function that returns a byte string; `get` unpickles it, which raises. -/
theorem C65_bytes_violated : ¬ C65_full := by
  intro h
  obtain ⟨s, hr, hs⟩ := Option.map_eq_some_iff.1 (show (run pympWorld (State.init 1)
    [.submit 0 [] 1, .take 0, .fetch 0, .finish 0, .write 0, .write 0]).map
      (fun s => (decide ((getOne pympWorld s 0).map (fun r => r.toOption) = some none), decide ((meaning pympWorld s.items).val 0 = some (.value (.bytes 5))))) =
      some (true, true) by decide +kernel)
  simp only [Prod.mk.injEq, decide_eq_true_eq] at hs
  obtain ⟨r, h1, h2⟩ := Option.map_eq_some_iff.1 hs.1
  cases r with
  | ok v => cases h2
  | error e =>
    have := (h pympWorld 1 _ s (by simp [pympWorld]) hr 0).2 e h1
    rw [hs.2] at this
    cases this

/-- **C65** does not hold: a function that returns an exception object; `get` raises it. -/
theorem C65_exception_violated : ¬ C65_full := by
  intro h
  obtain ⟨s, hr, hs⟩ := Option.map_eq_some_iff.1 (show (run pympWorld (State.init 1)
    [.submit 1 [] 1, .take 0, .fetch 0, .finish 0, .write 0, .write 0]).map
      (fun s => (decide ((getOne pympWorld s 0).map (fun r => r.toOption) = some none), decide ((meaning pympWorld s.items).val 0 = some (.value (.exc 9))))) =
      some (true, true) by decide +kernel)
  simp only [Prod.mk.injEq, decide_eq_true_eq] at hs
  obtain ⟨r, h1, h2⟩ := Option.map_eq_some_iff.1 hs.1
  cases r with
  | ok v => cases h2
  | error e =>
    have := (h pympWorld 1 _ s (by simp [pympWorld]) hr 0).2 e h1
    rw [hs.2] at this
    cases this

/-- **C65** for all programs, with byte strings and exception objects: for every number of workers and every interleaving every reference gives what
sequential evaluation gives if reading a reference unpickles byte strings and raises exception objects. Missing: evaluation without that
(`C65_bytes_violated`, `C65_exception_violated`). -/
theorem C65_read_partial (W : World) (n : Nat) (acts : List Act) (s : State) (h : run W (State.init n) acts = some s) (id : Nat) :
    (∀ v, getOne W s id = some (.ok v) → (seen W s.items).val id = some (.value v)) ∧
    (∀ e, getOne W s id = some (.error e) → (seen W s.items).val id = some (.raised e)) := by
  have hv := reach_vals (shape_init n) (todoOk_init n) (vals_init W n) h
  constructor
  · intro v hg
    simp only [getOne] at hg
    split at hg
    · rename_i u hu
      rw [hv.store id u hu]
      simp only [Option.some.injEq] at hg
      rw [readBack_eq, hg]
    · cases hg
  · intro v hg
    simp only [getOne] at hg
    split at hg
    · rename_i u hu
      rw [hv.store id u hu]
      simp only [Option.some.injEq] at hg
      rw [readBack_eq, hg]
    · cases hg

/-- A byte string is unpickled for the reader, also as an argument: 103 is a pickled callable, 5 is not a pickle; a list of both gives a callable and an
error. -/
example : ((seen exBytesWorld [.put 0 (.bytes 103), .put 1 (.bytes 5), .task ⟨2, .fn 0, [.ref 0], [2]⟩, .task ⟨3, .fn 0, [.ref 1], [3]⟩, .task ⟨4, .fn 1, [], [4, 5]⟩]).val <$>
      [0, 1, 2, 3, 4, 5]) =
    [some (.value (.callable 3)), some (.raised 77), some (.value (.data 3)), some (.raised 77), some (.value (.callable 3)), some (.raised 77)] := by
  decide +kernel

/-- **C65**, for all programs: two runs in which the main process made the same calls agree on every reference that both have computed, whatever the numbers of
workers and the interleavings. Missing: that it is the value the function returned. -/
theorem C65_same_program_partial (W : World) (n m : Nat) (acts acts' : List Act) (s s' : State) (h : run W (State.init n) acts = some s)
    (h' : run W (State.init m) acts' = some s') (hi : s.items = s'.items) (id : Nat) (hd : getOne W s id ≠ none) (hd' : getOne W s' id ≠ none) :
    getOne W s id = getOne W s' id := by
  have a := C65_read_partial W n acts s h id
  have b := C65_read_partial W m acts' s' h' id
  rw [← hi] at b
  cases hg : getOne W s id with
  | none => exact absurd hg hd
  | some r =>
    cases hg' : getOne W s' id with
    | none => exact absurd hg' hd'
    | some r' =>
      cases r with
      | ok v =>
        have e := a.1 v hg
        cases r' with
        | ok v' => have e' := b.1 v' hg'; rw [e] at e'; cases e'; rfl
        | error x => have e' := b.2 x hg'; rw [e] at e'; cases e'
      | error x =>
        have e := a.2 x hg
        cases r' with
        | ok v' => have e' := b.1 v' hg'; rw [e] at e'; cases e'
        | error x' => have e' := b.2 x' hg'; rw [e] at e'; cases e'; rfl

/-- A task that fails because its argument is a byte string that is no pickle, with one worker and with two. -/
example : (run pympWorld (State.init 1) [.submit 0 [] 1, .submit 7 [.ref 0] 1, .take 0, .fetch 0, .finish 0, .write 0, .write 0, .take 0, .fetch 0, .write 0]).map
      (fun s => (s.items.length, (getOne pympWorld s 1).map fun r => (r.toOption, match r with | .error e => e | _ => 0))) = some (2, some (none, 77)) ∧
    (run pympWorld (State.init 2) [.submit 0 [] 1, .submit 7 [.ref 0] 1, .take 1, .take 0, .fetch 0, .finish 0, .write 0, .fetch 1, .write 1]).map
      (fun s => (s.items.length, (getOne pympWorld s 1).map fun r => (r.toOption, match r with | .error e => e | _ => 0))) = some (2, some (none, 77)) := by
  decide +kernel

/-- **C65**, the rest: if no function, method or `put` involves byte strings or exception objects, then for every number of workers
and every interleaving every reference gives the value or the error of sequential evaluation. -/
theorem C65_schedule_partial (W : World) (hW : PlainWorld W) (n : Nat) (acts : List Act) (s : State)
    (h : run W (State.init n) acts = some s) (hp : PlainPuts s.items) (id : Nat) :
    (∀ v, getOne W s id = some (.ok v) → (meaning W s.items).val id = some (.value v)) ∧
    (∀ e, getOne W s id = some (.error e) → (meaning W s.items).val id = some (.raised e)) := by
  rw [← seen_plain hW hp]
  exact C65_read_partial W n acts s h id

/-- Two workers and a chain of tasks: the second worker takes the dependent task first and waits. -/
example : ((run pympWorld (State.init 2) [.submit 7 [.lit (.data 1)] 1, .submit 8 [.ref 0, .lit (.data 2)] 1, .take 1, .take 0, .fetch 0, .fetch 0,
    .finish 0, .write 0, .fetch 1, .fetch 1, .fetch 1, .finish 1, .write 1]).map fun s =>
      decide ((getOne pympWorld s 1).map (·.toOption) = some (some (.data 18)))) = some true := by decide +kernel

/-! ## C66 -/

/-- **C66** as stated: from every reachable state the workers alone make only finitely many steps, and when they can make no more,
every reference returned by a call has a value or an error. -/
def C66_full : Prop :=
  ∀ (W : World) (n : Nat) (acts : List Act) (s : State), run W (State.init n) acts = some s →
    ∃ bound, ∀ (more : List Act) (s' : State), (∀ a ∈ more, a.byWorker ≠ none) → run W s more = some s' →
      more.length ≤ bound ∧
      ((∀ a, a.byWorker ≠ none → step W s' a = none) → ∀ x ∈ s'.items, ∀ id ∈ x.refs, getOne W s' id ≠ none)

/-- **C66** does not hold: a task announced with two results returns a number. `zip` raises and ends the worker process; the task
after it in the queue is never executed. -/
theorem C66_worker_dies_violated : ¬ C66_full := by
  intro h
  obtain ⟨s, hr, hs⟩ := Option.map_eq_some_iff.1 (show (run pympWorld (State.init 1)
    [.submit 2 [] 2, .submit 7 [] 1, .take 0, .fetch 0, .finish 0]).map
      (fun s => (s.workers, s.items, (getOne pympWorld s 2).isNone)) =
      some ([⟨[⟨1, .fn 7, [], [2]⟩], none, true⟩], [.task ⟨0, .fn 2, [], [0, 1]⟩, .task ⟨1, .fn 7, [], [2]⟩], true) by decide +kernel)
  simp only [Prod.mk.injEq] at hs
  obtain ⟨hw, hi, hg⟩ := hs
  obtain ⟨bound, hb⟩ := h pympWorld 1 _ s hr
  refine (hb [] s (by simp) rfl).2 ?_ (.task ⟨1, .fn 7, [], [2]⟩) (by rw [hi]; simp) 2 (by simp [Item.refs]) ?_
  · intro a ha
    cases hst : step pympWorld s a with
    | none => rfl
    | some s' =>
      obtain ⟨w, hww⟩ := Option.ne_none_iff_exists'.1 ha
      obtain ⟨x, x', hx, -⟩ := (frame_of_inner (inner_of_step hww hst)).change
      rw [hw] at hx
      have hin := inner_of_step hww hst
      cases w with
      | zero =>
        cases hin <;> rename_i hy <;> simp_all
      | succ w => simp at hx
  · simpa using hg

/-- **C66**, for all programs: from every reachable state the workers alone make only finitely many steps, and when they can make no
more, the references of every call have values or errors if that call and the calls before it give as many values as announced. So
a call whose result is too short harms no call before it, although tasks block their worker while waiting for arguments. -/
theorem C66_upto_partial (W : World) (n : Nat) (acts : List Act) (s : State) (h : run W (State.init n) acts = some s) :
    ∃ bound, ∀ (more : List Act) (s' : State), (∀ a ∈ more, a.byWorker ≠ none) → run W s more = some s' →
      more.length ≤ bound ∧
      ((∀ a, a.byWorker ≠ none → step W s' a = none) → ∀ b, Fits W (s'.items.take b) →
        ∀ x ∈ s'.items.take b, ∀ id ∈ x.refs, getOne W s' id ≠ none) := by
  obtain ⟨hs, ht, hl, -⟩ := reach (shape_init n) (todoOk_init n) (live_init W n) h
  have he := reach_ended (shape_init n) (todoOk_init n) (ended_init W n) h
  refine ⟨work s, ?_⟩
  intro more s' hmore hrun
  obtain ⟨hs', ht', hl', -⟩ := reach hs ht hl hrun
  have he' := reach_ended hs ht he hrun
  refine ⟨by have := run_bound hmore hrun; omega, ?_⟩
  intro hstop b hf x hx id hid
  obtain ⟨i, hi⟩ := List.getElem?_of_mem hx
  rw [List.getElem?_take] at hi
  split at hi
  · rename_i hib
    have hval : Valued s' id := by
      cases x with
      | put j v =>
        simp only [Item.refs, List.mem_singleton] at hid
        subst hid
        exact hl'.puts id v (List.mem_of_getElem? hi)
      | task t =>
        rcases hl'.filled t (List.mem_of_getElem? hi) with ⟨w, y, hy, hty⟩ | hv
        · obtain ⟨a, s2, ha, hst⟩ := progress_upto hs' hl' he' b hf t.idx w y t hy hty rfl
            (by rw [hs'.place i t hi]; exact hib)
          rw [hstop a ha] at hst
          cases hst
        · exact hv id hid (fitsAt_of_fitsT (hf t hx) hid)
    obtain ⟨v, hv⟩ := hval
    simp [getOne, hv]
  · cases hi

/-- **C66**, the rest: if every task gives as many values as announced, then from every reachable state the workers alone make only
finitely many steps, no worker dies, and when they can make no more steps every reference has a value or an error. In particular
some worker can make a step as long as a reference has none, although tasks block their worker while waiting for arguments. -/
theorem C66_progress_partial (W : World) (n : Nat) (acts : List Act) (s : State) (h : run W (State.init n) acts = some s)
    (hf : Fits W s.items) :
    ∃ bound, ∀ (more : List Act) (s' : State), (∀ a ∈ more, a.byWorker ≠ none) → run W s more = some s' →
      more.length ≤ bound ∧ (∀ x ∈ s'.workers, x.dead = false) ∧
      ((∀ a, a.byWorker ≠ none → step W s' a = none) → ∀ x ∈ s'.items, ∀ id ∈ x.refs, getOne W s' id ≠ none) := by
  obtain ⟨bound, hb⟩ := C66_upto_partial W n acts s h
  obtain ⟨hs, ht, hl, -⟩ := reach (shape_init n) (todoOk_init n) (live_init W n) h
  refine ⟨bound, ?_⟩
  intro more s' hmore hrun
  obtain ⟨h1, h2⟩ := hb more s' hmore hrun
  obtain ⟨-, -, hl', -⟩ := reach hs ht hl hrun
  have hitems : s'.items = s.items := by
    clear hl' hl h hf hb h1 h2
    induction more generalizing s with
    | nil => simp only [run, Option.some.injEq] at hrun; rw [hrun]
    | cons a more ih =>
      simp only [run] at hrun
      split at hrun
      · cases hrun
      · rename_i s1 hs1
        obtain ⟨w, hw⟩ := Option.ne_none_iff_exists'.1 (hmore a (by simp))
        obtain ⟨k1, k2⟩ := shape_step hs ht hs1
        rw [ih s1 k1 k2 (fun b hb => hmore b (List.mem_cons_of_mem _ hb)) hrun]
        exact (frame_of_inner (inner_of_step hw hs1)).items
  refine ⟨h1, fun x hx => ?_, fun hstop x hx id hid => ?_⟩
  · obtain ⟨w, hw⟩ := List.getElem?_of_mem hx
    exact hl'.alive (by rw [hitems]; exact hf) w x hw
  · exact h2 hstop s'.items.length (by rw [List.take_length, hitems]; exact hf) x (by rw [List.take_length]; exact hx) id hid

/-- The hypothesis holds for a program with a pair, a failing task and a dependent one, and the workers get it done. -/
example : ((run pympWorld (State.init 1) [.submit 4 [] 2, .submit 5 [] 1, .submit 7 [.ref 1, .ref 2] 1, .take 0, .fetch 0, .finish 0, .write 0, .write 0,
    .write 0, .take 0, .fetch 0, .finish 0, .write 0, .write 0, .take 0, .fetch 0, .fetch 0, .write 0, .write 0]).map fun s =>
      ((List.range 4).map fun id => (getOne pympWorld s id).map (·.toOption)) = [some (some (.data 1)), some (some (.data 3)), some none, some none]) =
    some True := by
  simp only [Option.map_eq_some_iff]
  obtain ⟨s, hr, hs⟩ := Option.map_eq_some_iff.1 (show (run pympWorld (State.init 1) [.submit 4 [] 2, .submit 5 [] 1, .submit 7 [.ref 1, .ref 2] 1,
    .take 0, .fetch 0, .finish 0, .write 0, .write 0,
    .write 0, .take 0, .fetch 0, .finish 0, .write 0, .write 0, .take 0, .fetch 0, .fetch 0, .write 0, .write 0]).map (fun s =>
      ((List.range 4).map fun id => (getOne pympWorld s id).map (·.toOption))) =
      some [some (some (.data 1)), some (some (.data 3)), some none, some none] by decide +kernel)
  exact ⟨s, hr, by simp [hs]⟩

/-- Two workers; the second call is announced with two results and returns a number, which ends worker 1; the fourth call is left in
its queue. The references of the first and of the third call have values. -/
example : ((run pympWorld (State.init 2) [.submit 4 [] 2, .submit 2 [] 2, .submit 7 [.ref 0, .ref 1] 1, .submit 5 [] 1, .take 0,
      .fetch 0, .finish 0, .write 0, .write 0, .write 0, .take 1, .fetch 1, .finish 1, .take 0, .fetch 0, .fetch 0, .fetch 0, .finish 0,
      .write 0, .write 0]).map fun s =>
      ((List.range 6).map fun id => (getOne pympWorld s id).isSome, s.workers.map fun x => (x.dead, x.queue.length))) =
    some ([true, true, false, false, true, false], [(false, 0), (true, 1)]) := by decide +kernel

/-! ## C67 -/

/-- **C67** as stated, for references that all get a value. -/
def C67_full : Prop :=
  ∀ (isReady : Nat → Bool) (final : Nat → Option (Except Nat Val)) (ids : List Nat) (k : Nat), ids.Nodup → k ≤ ids.length →
    (∀ x ∈ ids, ∃ v, final x = some (.ok v)) →
    ∃ ready rest, wait isReady final ids k = .result ready rest ∧ (ready ++ rest).Perm ids ∧ ready.length = k

/-- **C67** does not hold: two references that are both ready, both wanted: `IndexError`. -/
theorem C67_index_violated : ¬ C67_full := by
  intro h
  obtain ⟨ready, rest, h1, -⟩ := h (fun _ => true) (fun _ => some (.ok (.data 0))) [0, 1] 2 (by decide) (by decide) (fun _ _ => ⟨_, rfl⟩)
  have : wait (fun _ => true) (fun _ => some (.ok (.data 0))) [0, 1] 2 = .indexError := by decide
  rw [this] at h1
  cases h1

/-- **C67** does not hold: with `num_returns` 0 and a ready reference. -/
theorem C67_zero_violated : ¬ C67_full := by
  intro h
  obtain ⟨ready, rest, h1, -⟩ := h (fun _ => true) (fun _ => some (.ok (.data 0))) [0] 0 (by decide) (by decide) (fun _ _ => ⟨_, rfl⟩)
  have : wait (fun _ => true) (fun _ => some (.ok (.data 0))) [0] 0 = .indexError := by decide
  rw [this] at h1
  cases h1

/-- **C67**, references reported as ready have a value at that moment. -/
def C67_ready_full : Prop :=
  ∀ (isReady : Nat → Bool) (final : Nat → Option (Except Nat Val)) (ids : List Nat) (k : Nat) (ready rest : List Nat), ids.Nodup →
    (∀ x ∈ ids, isReady x = true → final x ≠ none) → wait isReady final ids k = .result ready rest → ∀ x ∈ ready, final x ≠ none

/-- **C67** does not hold: of three references the first two are ready and two are wanted; the third, which is never computed, is
returned as ready and the second as not ready. -/
theorem C67_wrong_reference_violated : ¬ C67_ready_full := by
  intro h
  exact h (fun x => x != 2) (fun x => if x = 2 then none else some (.ok (.data 0))) [0, 1, 2] 2 [0, 2] [1] (by decide)
    (by decide) (by decide) 2 (by decide) rfl

/-- **C67**, a reference whose task failed: `wait` raises the error instead of returning. -/
theorem C67_failed_violated : wait (fun _ => false) (fun _ => some (.error 3)) [0, 1] 1 = .raised 3 := by decide

/-- **C67**, the rest: if `num_returns` is 1, or at most one reference is ready when `wait` looks, and all get a value, `wait`
returns a partition with the wanted number of ready references. -/
theorem C67_partial (isReady : Nat → Bool) (final : Nat → Option (Except Nat Val)) (ids : List Nat) (k : Nat) (h1 : 1 ≤ k)
    (h2 : k ≤ ids.length) (hf : ∀ x ∈ ids, ∃ v, final x = some (.ok v)) (hr : k = 1 ∨ (ids.filter isReady).length ≤ 1) :
    ∃ ready rest, wait isReady final ids k = .result ready rest ∧ (ready ++ rest).Perm ids ∧ ready.length = k ∧
      (∀ x, ids.find? isReady = some x → x ∈ ready) := by
  cases hfind : ids.find? isReady with
  | none =>
    have hnone : ∀ x ∈ ids, isReady x = false := fun x hx => by simpa using List.find?_eq_none.1 hfind x hx
    simp only [wait, scan_none ids 0 [] ids hnone]
    rw [drain_all ids [] hf (by simp) (by simpa using h2)]
    refine ⟨_, _, rfl, by simp [List.take_append_drop], by simp; omega, by simp⟩
  | some x =>
    obtain ⟨hx, u, c, e, hu⟩ := List.find?_eq_some_iff_append.1 hfind
    subst e
    have hu' : ∀ y ∈ u, isReady y = false := fun y hy => by simpa using hu y hy
    have hget : (u ++ x :: c)[u.length]? = some x := by simp
    have herase : (u ++ x :: c).eraseIdx u.length = u ++ c := by
      rw [List.eraseIdx_append_of_length_le (Nat.le_refl _)]; simp
    have hscan : scan isReady k (u ++ x :: c) 0 [] (u ++ x :: c) = some ([x], u ++ c) := by
      rw [scan_skip h1 u (x :: c) 0 _ hu', Nat.zero_add]
      simp only [scan, hx, if_true, hget, herase, List.nil_append, List.length_singleton]
      split
      · rfl
      · rename_i hne
        refine scan_none c _ _ _ ?_
        rcases hr with rfl | hr
        · exact absurd rfl hne
        · intro y hy
          apply Classical.byContradiction
          intro hc
          simp only [Bool.not_eq_false] at hc
          rw [List.filter_append, List.filter_cons, if_pos hx] at hr
          simp only [List.length_append, List.length_cons] at hr
          have : 0 < (c.filter isReady).length := List.length_pos_of_mem (List.mem_filter.2 ⟨hy, hc⟩)
          omega
    simp only [wait, hscan]
    have hlen : k ≤ 1 + (u ++ c).length := by simp at h2 ⊢; omega
    rw [drain_all (u ++ c) [x] (fun y hy => hf y (by simp at hy ⊢; rcases hy with h | h <;> simp [h])) (by simpa using h1) (by simpa using hlen)]
    refine ⟨_, _, rfl, ?_, ?_, ?_⟩
    · rw [List.append_assoc, List.take_append_drop]
      simp only [List.singleton_append]
      exact List.perm_middle.symm
    · simp only [List.singleton_append, List.length_cons, List.length_take, List.length_nil]
      omega
    · intro y hy
      simp only [Option.some.injEq] at hy
      subst hy
      simp

example : wait (fun x => x == 7) (fun _ => some (.ok (.data 0))) [5, 6, 7, 8] 2 = .result [7, 5] [6, 8] := by decide

/-- **C67**, exactly, for at least one wanted reference and references that all get a value: `wait` returns if and only if no reference
that it looks at and finds ready is so far back that, counted with the ready ones before it, the list is already too short; a result is
then a partition with the wanted number of ready references, and otherwise there is an `IndexError`. -/
theorem C67_exactly_partial (isReady : Nat → Bool) (final : Nat → Option (Except Nat Val)) (ids : List Nat) (k : Nat) (h1 : 1 ≤ k)
    (h2 : k ≤ ids.length) (hf : ∀ x ∈ ids, ∃ v, final x = some (.ok v)) :
    ((∀ i x, ids[i]? = some x → isReady x = true → (ids.take i).countP isReady < k → i + (ids.take i).countP isReady < ids.length) →
      ∃ ready rest, wait isReady final ids k = .result ready rest ∧ (ready ++ rest).Perm ids ∧ ready.length = k) ∧
    (¬ (∀ i x, ids[i]? = some x → isReady x = true → (ids.take i).countP isReady < k → i + (ids.take i).countP isReady < ids.length) →
      wait isReady final ids k = .indexError) := by
  obtain ⟨hs, hr⟩ := scan_exact (isReady := isReady) (k := k) ids 0 [] ids (by simp; omega)
  simp only [List.length_nil, Nat.zero_add, List.nil_append] at hs hr
  rw [← hs]
  constructor
  · intro h
    obtain ⟨⟨r, c⟩, he⟩ := Option.isSome_iff_exists.1 h
    obtain ⟨hp, hl, -⟩ := hr r c he
    have hlen := hp.length_eq
    simp only [List.length_append] at hlen
    simp only [wait, he]
    rw [drain_all c r (fun x hx => hf x (hp.mem_iff.1 (by simp [hx]))) hl (by omega)]
    refine ⟨_, _, rfl, ?_, ?_⟩
    · rw [List.append_assoc, List.take_append_drop]; exact hp
    · simp only [List.length_append, List.length_take]; omega
  · intro h
    simp only [Bool.not_eq_true, Option.isSome_eq_false_iff, Option.isNone_iff_eq_none] at h
    simp only [wait, h]

/-- **C67**, exactly, for no wanted reference: it works if and only if the list is empty or its first reference is not ready. -/
theorem C67_zero_exactly_partial (isReady : Nat → Bool) (final : Nat → Option (Except Nat Val)) (ids : List Nat) :
    (∃ ready rest, wait isReady final ids 0 = .result ready rest ∧ (ready ++ rest).Perm ids ∧ ready.length = 0) ↔
      ∀ x, ids.head? = some x → isReady x = false := by
  cases ids with
  | nil => simp [wait, scan, drain]
  | cons x t =>
    simp only [List.head?_cons, Option.some.injEq, forall_eq']
    cases hx : isReady x with
    | false => exact ⟨fun _ => rfl, fun _ => ⟨[], x :: t, by simp [wait, scan, hx, drain], List.Perm.refl _, rfl⟩⟩
    | true =>
      simp only [Bool.true_eq_false, iff_false]
      rintro ⟨ready, rest, h, hp, hl⟩
      have hd : ∀ (c r : List Nat), r ≠ [] → ∀ a b, drain final 0 r c = .result a b → False := by
        intro c
        induction c with
        | nil =>
          intro r hr a b hh
          simp only [drain, List.length_eq_zero_iff, hr, if_false] at hh
          cases hh
        | cons y c ih =>
          intro r hr a b hh
          simp only [drain, List.length_eq_zero_iff, hr, if_false] at hh
          split at hh
          · cases hh
          · cases hh
          · exact ih _ (by simp) a b hh
      have hsc : ∀ (copy : List Nat) (pos : Nat) (r c : List Nat), r ≠ [] → ∀ a b, scan isReady 0 copy pos r c = some (a, b) → a ≠ [] := by
        intro copy
        induction copy with
        | nil =>
          intro pos r c hr a b hh
          simp only [scan, Option.some.injEq, Prod.mk.injEq] at hh
          rw [← hh.1]; exact hr
        | cons y copy ih =>
          intro pos r c hr a b hh
          simp only [scan] at hh
          split at hh
          · split at hh
            · cases hh
            · rw [if_neg (by simp)] at hh
              exact ih _ _ _ (by simp) a b hh
          · rw [if_neg (by simpa using hr)] at hh
            exact ih _ _ _ hr a b hh
      simp only [wait, scan, hx, if_true, List.getElem?_cons_zero, List.nil_append, List.length_singleton, Nat.succ_ne_self, if_false] at h
      split at h
      · cases h
      · rename_i r c he
        exact hd _ _ (hsc _ _ _ _ (by simp) _ _ he) _ _ h

example : wait (fun x => x == 5 || x == 7) (fun _ => some (.ok (.data 0))) [5, 6, 7, 8] 2 = .result [5, 8] [6, 7] := by decide
example : wait (fun x => x == 5 || x == 8) (fun _ => some (.ok (.data 0))) [5, 6, 7, 8] 2 = .indexError := by decide
example : wait (fun x => x == 6) (fun _ => some (.ok (.data 0))) [5, 6] 0 = .result [] [5, 6] := by decide

/-! ## C68 -/

/-- **C68** as stated: in every reachable state a reference made by `put` gives the object that was put. -/
def C68_full : Prop :=
  ∀ (W : World) (n : Nat) (acts : List Act) (s : State), (∀ c, W.loads (W.dumps c) = .ok (.callable c)) →
    run W (State.init n) acts = some s → ∀ id v, Item.put id v ∈ s.items → getOne W s id = some (.ok v)

/-- **C68** does not hold for byte strings: they are unpickled. -/
theorem C68_bytes_violated : ¬ C68_full := by
  intro h
  have := h pympWorld 1 [.put (.bytes 5)] _ (by simp [pympWorld]) rfl 0 (.bytes 5) (by simp [State.init])
  simp [getOne, State.init, upd, putVal, getVal, pympWorld] at this

/-- **C68** does not hold for exception objects: they are raised. -/
theorem C68_exception_violated : ¬ C68_full := by
  intro h
  have := h pympWorld 1 [.put (.exc 5)] _ (by simp [pympWorld]) rfl 0 (.exc 5) (by simp [State.init])
  simp [getOne, State.init, upd, putVal, getVal] at this

/-- **C68**, the rest: objects other than byte strings and exception objects, among them callables, stay available unchanged, whatever
tasks run. -/
theorem C68_partial (W : World) (hW : ∀ c, W.loads (W.dumps c) = .ok (.callable c)) (n : Nat) (acts : List Act) (s : State)
    (h : run W (State.init n) acts = some s) (id : Nat) (v : Val) (hm : Item.put id v ∈ s.items)
    (hp : ∀ b, v ≠ .bytes b) (hp' : ∀ e, v ≠ .exc e) : getOne W s id = some (.ok v) := by
  have := reach_puts (shape_init n) (todoOk_init n) (by intro id v hm; simp [State.init] at hm) h id v hm
  simp only [getOne, this]
  cases v with
  | data d => rfl
  | callable c => simp [putVal, getVal, hW]
  | bytes b => exact absurd rfl (hp b)
  | exc e => exact absurd rfl (hp' e)

example : ((run pympWorld (State.init 1) [.put (.callable 4), .submit 7 [.ref 0] 1, .take 0, .fetch 0, .fetch 0, .finish 0, .write 0]).map fun s =>
    decide ((getOne pympWorld s 0).map (·.toOption) = some (some (.callable 4)))) = some true := by decide +kernel

/-- **C68**, exactly: what a reference made by `put` gives, whatever tasks run: of a byte string what unpickling it gives, an exception object
is raised, and any other object comes back as it was. -/
theorem C68_exactly_partial (W : World) (hW : ∀ c, W.loads (W.dumps c) = .ok (.callable c)) (n : Nat) (acts : List Act) (s : State)
    (h : run W (State.init n) acts = some s) (id : Nat) (v : Val) (hm : Item.put id v ∈ s.items) :
    getOne W s id = some (match v with | .bytes b => W.loads b | .exc e => .error e | v => .ok v) := by
  have := reach_puts (shape_init n) (todoOk_init n) (by intro id v hm; simp [State.init] at hm) h id v hm
  cases v <;> simp [getOne, this, putVal, getVal, hW]

example : ((run pympWorld (State.init 1) [.put (.data 3), .put (.exc 5)]).map fun s =>
    decide ((getOne pympWorld s 1).map (·.toOption) = some none ∧ (getOne pympWorld s 0).map (·.toOption) = some (some (.data 3)))) =
    some true := by decide +kernel

/-! ## C69 -/

/-- **C69**: whatever the workers do, the events of an actor are beginnings and ends of calls, each call ends before the next
begins (at most the last one is still running), and the numbers of the calls increase, so they run in call order. -/
theorem C69_order (W : World) (n : Nat) (acts : List Act) (s : State) (h : run W (State.init n) acts = some s) (a : Nat) :
    ∃ (calls : List Nat) (last : Option Nat),
      eventsOf a s.log = (calls.flatMap fun k => [(true, k), (false, k)]) ++ last.toList.map (fun k => (true, k)) ∧
      (calls ++ last.toList).Pairwise (· < ·) ∧
      ∀ k ∈ calls ++ last.toList, ∃ t c m, s.items[k]? = some (.task t) ∧ t.target = .method a c m := by
  obtain ⟨hs, -, -, -⟩ := reach (shape_init n) (todoOk_init n) (live_init W n) h
  obtain ⟨ks, last, hlog⟩ := reach_log (W := W) (a := a) (shape_init n) (todoOk_init n) ⟨[], none, logOk_init a n⟩ h
  refine ⟨ks, last, hlog.shape, ?_, ?_⟩
  · cases hl : last with
    | none => simpa using hlog.sorted
    | some k =>
      obtain ⟨w, x, t, vs, hx, hc, hof, e⟩ := hlog.now k hl
      rw [List.pairwise_append]
      refine ⟨hlog.sorted, by simp, ?_⟩
      intro i hi j hj
      simp only [Option.toList_some, List.mem_singleton] at hj
      subst hj
      rw [← e]
      exact hlog.behind w x hx t (by simp [pend, before, hc]) hof i hi
  · intro k hk
    rw [List.mem_append] at hk
    rcases hk with hk | hk
    · obtain ⟨t, ht, c, m, e⟩ := hlog.calls k hk
      exact ⟨t, c, m, ht, e⟩
    · simp only [Option.mem_toList] at hk
      obtain ⟨w, x, t, vs, hx, hc, ⟨c, m, e'⟩, e⟩ := hlog.now k hk
      refine ⟨t, c, m, ?_, e'⟩
      rw [← e]
      exact hs.idx w x hx t (by simp [tasks, held, hc])

/-- **C69**, state: when the workers have nothing left to do, the calls executed by each actor, with their arguments, are those of
sequential evaluation in call order, none missing and none twice; for all programs, where reading a reference unpickles byte strings and raises exception
objects. -/
theorem C69_history_read (W : World) (n : Nat) (acts : List Act) (s : State) (h : run W (State.init n) acts = some s)
    (hidle : ∀ x ∈ s.workers, x.queue = [] ∧ x.cur = none) (a : Nat) (y : Actor)
    (hy : s.actors[a]? = some y) : y.hist = (seen W s.items).hist a := by
  have hv := reach_vals (shape_init n) (todoOk_init n) (vals_init W n) h
  obtain ⟨p, h1, h2, h3, h4⟩ := hv.hist a y hy
  rw [h2]
  have := hist_between (W := W) (a := a) (items := s.items) h1 ?_
  · rw [List.take_length] at this
    exact this.symm
  · intro i t hi _ ht hof
    obtain ⟨x, hx, hm⟩ := h4 i t hi ht hof
    obtain ⟨e1, e2⟩ := hidle x (List.mem_of_getElem? hx)
    simp [pend, e1, e2, before] at hm

/-- **C69**, state, without byte strings and exception objects: as in sequential evaluation of the program. -/
theorem C69_history (W : World) (hW : PlainWorld W) (n : Nat) (acts : List Act) (s : State) (h : run W (State.init n) acts = some s)
    (hp : PlainPuts s.items) (hidle : ∀ x ∈ s.workers, x.queue = [] ∧ x.cur = none) (a : Nat) (y : Actor)
    (hy : s.actors[a]? = some y) : y.hist = (meaning W s.items).hist a := by
  rw [← seen_plain hW hp]
  exact C69_history_read W n acts s h hidle a y hy

/-- Two calls of an actor on worker 0 interleaved with a task on worker 1. -/
example : ((run pympWorld (State.init 2) [.create 0, .method 0 3 [] 1, .submit 7 [] 1, .method 0 4 [] 1, .take 1, .take 0, .fetch 0, .fetch 1, .finish 0,
    .finish 1, .write 0, .write 0, .take 0, .fetch 0]).map fun s => decide (eventsOf 0 s.log = [(true, 0), (false, 0), (true, 2)])) = some true := by
  decide +kernel

/-! ## C70 -/

/-- **C70** as stated: when a task is in no queue and in no worker's hand any more, all its references have a value or an error. -/
def C70_full : Prop :=
  ∀ (W : World) (n : Nat) (acts : List Act) (s : State), run W (State.init n) acts = some s →
    ∀ t, Item.task t ∈ s.items → (∀ x ∈ s.workers, t ∉ x.queue ∧ ∀ ph, x.cur ≠ some (t, ph)) → ∀ id ∈ t.outs, getOne W s id ≠ none

theorem refute_c70 {acts : List Act} {ws : List Worker} {items : List Item} {t : Task} {id : Nat}
    (h : (run pympWorld (State.init 1) acts).map (fun s => (s.workers, s.items, (getOne pympWorld s id).isNone)) = some (ws, items, true))
    (ht : Item.task t ∈ items) (hw : ∀ x ∈ ws, x.queue = [] ∧ x.cur = none) (hid : id ∈ t.outs) : ¬ C70_full := by
  intro hfull
  obtain ⟨s, hr, hs⟩ := Option.map_eq_some_iff.1 h
  simp only [Prod.mk.injEq] at hs
  obtain ⟨h1, h2, h3⟩ := hs
  refine hfull pympWorld 1 acts s hr t (by rw [h2]; exact ht) ?_ id hid (by simpa using h3)
  intro x hx
  rw [h1] at hx
  obtain ⟨e1, e2⟩ := hw x hx
  simp [e1, e2]

/-- **C70** does not hold: a task announced with two results returns a sequence of one; the second reference stays delayed and `get`
spins forever. -/
theorem C70_short_violated : ¬ C70_full :=
  refute_c70 (acts := [.submit 3 [] 2, .take 0, .fetch 0, .finish 0, .write 0, .write 0])
    (ws := [⟨[], none, false⟩]) (items := [.task ⟨0, .fn 3, [], [0, 1]⟩]) (t := ⟨0, .fn 3, [], [0, 1]⟩) (id := 1)
    (by decide +kernel) (by simp) (by simp) (by simp)

/-- **C70** does not hold: a task announced with two results returns a number; the worker process ends and both references stay
delayed. -/
theorem C70_not_iterable_violated : ¬ C70_full :=
  refute_c70 (acts := [.submit 2 [] 2, .take 0, .fetch 0, .finish 0])
    (ws := [⟨[], none, true⟩]) (items := [.task ⟨0, .fn 2, [], [0, 1]⟩]) (t := ⟨0, .fn 2, [], [0, 1]⟩) (id := 0)
    (by decide +kernel) (by simp) (by simp) (by simp)

/-- **C70**, the rest: when a task is in no queue and in no worker's hand any more, the `k`-th of its references has a value or an error if
the task failed, has one result, or gives a sequence of more than `k` elements. So a sequence that is too short leaves only the references
without an element empty. -/
theorem C70_position_partial (W : World) (n : Nat) (acts : List Act) (s : State) (h : run W (State.init n) acts = some s)
    (t : Task) (ht : Item.task t ∈ s.items) (k id : Nat) (hid : t.outs[k]? = some id)
    (hfit : ∀ hist vs v l, apply W hist vs t.target = .ok v l → t.outs.length ≤ 1 ∨ ∃ xs, l = some xs ∧ k < xs.length)
    (hgone : ∀ x ∈ s.workers, t ∉ x.queue ∧ ∀ ph, x.cur ≠ some (t, ph)) : getOne W s id ≠ none := by
  obtain ⟨-, -, hl, -⟩ := reach (shape_init n) (todoOk_init n) (live_init W n) h
  rcases hl.filled t ht with ⟨w, x, hx, hm⟩ | hv
  · obtain ⟨e1, e2⟩ := hgone x (List.mem_of_getElem? hx)
    simp only [tasks, List.mem_append] at hm
    rcases hm with hm | hm
    · cases hc : x.cur with
      | none => rw [hc] at hm; simp [held] at hm
      | some p =>
        obtain ⟨u, ph⟩ := p
        rw [hc] at hm
        simp only [held, List.mem_singleton] at hm
        subst hm
        exact absurd hc (e2 ph)
    · exact absurd hm e1
  · obtain ⟨v, e⟩ := hv id (List.mem_of_getElem? hid) (by
      intro hist vs v l hc
      rcases hfit hist vs v l hc with h | ⟨xs, h1, h2⟩
      · exact Or.inl h
      · refine Or.inr ⟨xs, h1, List.mem_of_getElem? (i := k) ?_⟩
        rw [List.getElem?_take_of_lt h2]; exact hid)
    simp [getOne, e]

/-- The first of two references of a task that returns a sequence of one element has its value, the second has none. -/
example : ((run pympWorld (State.init 1) [.submit 3 [] 2, .take 0, .fetch 0, .finish 0, .write 0, .write 0]).map fun s =>
    [0, 1].map fun id => (getOne pympWorld s id).map (·.toOption)) = some [some (some (.data 1)), none] := by decide +kernel

/-- **C70**, the rest: a task that fails, or that gives as many values as announced, fills all its references, whatever other
tasks do. -/
theorem C70_partial (W : World) (n : Nat) (acts : List Act) (s : State) (h : run W (State.init n) acts = some s)
    (t : Task) (ht : Item.task t ∈ s.items)
    (hfit : ∀ hist vs v l, apply W hist vs t.target = .ok v l → t.outs.length ≤ 1 ∨ ∃ xs, l = some xs ∧ t.outs.length ≤ xs.length)
    (hgone : ∀ x ∈ s.workers, t ∉ x.queue ∧ ∀ ph, x.cur ≠ some (t, ph)) (id : Nat) (hid : id ∈ t.outs) : getOne W s id ≠ none := by
  obtain ⟨k, hk⟩ := List.getElem?_of_mem hid
  refine C70_position_partial W n acts s h t ht k id hk (fun hist vs v l hc => ?_) hgone
  have := (List.getElem?_eq_some_iff.1 hk).1
  exact (hfit hist vs v l hc).imp (fun h => h) fun ⟨xs, h1, h2⟩ => ⟨xs, h1, by omega⟩

/-- A failing task with two references. -/
example : ((run pympWorld (State.init 1) [.submit 5 [] 2, .take 0, .fetch 0, .finish 0, .write 0, .write 0, .write 0]).map fun s =>
    [0, 1].map fun id => (getOne pympWorld s id).map (·.toOption)) = some [some none, some none] := by decide +kernel

private theorem span_ge {lo hi : Nat} {l : List Item} (h : Span lo l hi) {t : Task} (ht : Item.task t ∈ l) : ∀ o ∈ t.outs, lo ≤ o := by
  induction h with
  | nil => simp at ht
  | skip hle _ ih => intro o ho; have := ih ht o ho; omega
  | put _ ih => intro o ho; have := ih (by simpa using ht) o ho; omega
  | task h1 h2 h3 h4 hs ih =>
    rcases List.mem_cons.1 ht with e | ht
    · cases e; exact fun o ho => (h2 o ho).1
    · intro o ho; have := ih ht o ho; omega

private theorem span_same {lo hi : Nat} {l : List Item} (h : Span lo l hi) {t u : Task} (ht : Item.task t ∈ l) (hu : Item.task u ∈ l) {o : Nat}
    (h1 : o ∈ t.outs) (h2 : o ∈ u.outs) : t = u := by
  induction h with
  | nil => simp at ht
  | skip hle _ ih => exact ih ht hu
  | put _ ih => exact ih (by simpa using ht) (by simpa using hu)
  | task k1 k2 k3 k4 hs ih =>
    rcases List.mem_cons.1 ht with e | ht' <;> rcases List.mem_cons.1 hu with e' | hu'
    · cases e; cases e'; rfl
    · cases e; have := (k2 o h1).2; have := span_ge hs hu' o h2; omega
    · cases e'; have := (k2 o h2).2; have := span_ge hs ht' o h1; omega
    · exact ih ht' hu'

/-- The reference exists, has no value, and no task in a queue or in hand writes it. -/
private def Abandoned (s : State) (id : Nat) : Prop :=
  id < s.next ∧ (∀ v, s.store id ≠ some (.val v)) ∧ ∀ (w : Nat) (x : Worker), s.workers[w]? = some x → ∀ t ∈ tasks x, id ∉ t.outs

private theorem abandoned_step {W : World} {n : Nat} {s s' : State} {a : Act} {id : Nat} (hs : Shape n s) (ht : TodoOk s) (h : Abandoned s id)
    (hst : step W s a = some s') : Abandoned s' id := by
  obtain ⟨h1, h2, h3⟩ := h
  cases ha : a.byWorker with
  | some w =>
    have hin := inner_of_step ha hst
    obtain ⟨⟨x, x', hx, hw, hsub⟩, -, hn, -⟩ := frame_of_inner hin
    refine ⟨by rw [hn]; exact h1, ?_, ?_⟩
    · intro v hv
      cases hin with
      | write hh =>
        simp only [upd] at hv
        split at hv
        · rename_i e
          exact h3 w _ hh _ (by simp only [tasks, held]; exact List.mem_append_left _ (List.mem_singleton.2 rfl))
            (by rw [e]; exact ht w _ _ _ _ hh _ List.mem_cons_self)
        · exact h2 v hv
      | _ => exact h2 v hv
    · intro v y hy t hty
      rw [hw, set_getElem hx] at hy
      split at hy
      · simp only [Option.some.injEq] at hy
        subst hy
        exact h3 w x hx t (hsub.subset hty)
      · exact h3 v y hy t hty
  | none =>
    cases outer_of_step hs ha hst with
    | put v =>
      refine ⟨by simp only; omega, ?_, h3⟩
      intro u hu
      simp only [upd] at hu
      rw [if_neg (by omega)] at hu
      exact h2 u hu
    | refuse k pool hp =>
      refine ⟨by simp only; omega, ?_, h3⟩
      intro u hu
      simp only at hu
      rw [delayAll_apply, if_neg (by rw [mem_newIds]; omega)] at hu
      exact h2 u hu
    | task t w k pool hp hw hi ho hargs hg htg =>
      refine ⟨by simp only; omega, ?_, ?_⟩
      · intro u hu
        simp only at hu
        rw [delayAll_apply, if_neg (by rw [mem_newIds]; omega)] at hu
        exact h2 u hu
      · intro v y hy u huy
        simp only at hy
        rw [addTask_getElem] at hy
        obtain ⟨x, hx, rfl⟩ := Option.map_eq_some_iff.1 hy
        by_cases e : w = v
        · simp only [e, if_true] at huy
          rw [tasks_push, List.mem_append, List.mem_singleton] at huy
          rcases huy with huy | rfl
          · exact h3 v x hx u huy
          · rw [ho, mem_newIds]; omega
        · simp only [e, if_false] at huy
          exact h3 v x hx u huy
    | admin pool actors hp k1 k2 => exact ⟨h1, h2, h3⟩

/-- **C70**, how the rest fails: a reference of a task that is in no queue and in no worker's hand any more and that has no value yet never gets
one, whatever the program and the workers do afterwards: `get` of it spins forever. -/
theorem C70_forever_partial (W : World) (n : Nat) (acts more : List Act) (s s' : State) (h : run W (State.init n) acts = some s)
    (t : Task) (ht : Item.task t ∈ s.items) (hgone : ∀ x ∈ s.workers, t ∉ x.queue ∧ ∀ ph, x.cur ≠ some (t, ph)) (id : Nat) (hid : id ∈ t.outs)
    (hnone : getOne W s id = none) (hmore : run W s more = some s') : getOne W s' id = none := by
  obtain ⟨hs, htd, -, -⟩ := reach (shape_init n) (todoOk_init n) (live_init W n) h
  have hab : Abandoned s id := by
    refine ⟨hs.span.outs_lt ht id hid, ?_, ?_⟩
    · intro v hv; simp [getOne, hv] at hnone
    · intro w x hx u hu hidu
      have := span_same hs.span ht (List.mem_of_getElem? (hs.idx w x hx u hu)) hid hidu
      subst this
      obtain ⟨e1, e2⟩ := hgone x (List.mem_of_getElem? hx)
      simp only [tasks, List.mem_append] at hu
      rcases hu with hm | hm
      · cases hc : x.cur with
        | none => rw [hc] at hm; simp [held] at hm
        | some p =>
          obtain ⟨u, ph⟩ := p
          rw [hc] at hm
          simp only [held, List.mem_singleton] at hm
          subst hm
          exact absurd hc (e2 ph)
      · exact absurd hm e1
  clear h ht hgone hnone
  have key : Abandoned s' id := by
    induction more generalizing s with
    | nil => simp only [run, Option.some.injEq] at hmore; rw [← hmore]; exact hab
    | cons a more ih =>
      simp only [run] at hmore
      split at hmore
      · cases hmore
      · rename_i s1 hs1
        obtain ⟨k1, k2⟩ := shape_step hs htd hs1
        exact ih s1 hmore k1 k2 (abandoned_step hs htd hab hs1)
  simp only [getOne]
  split
  · rename_i v hv; exact absurd hv (key.2.1 v)
  · rfl

/-- Other tasks run afterwards; the reference stays without a value. -/
example : ((run pympWorld (State.init 1) [.submit 3 [] 2, .take 0, .fetch 0, .finish 0, .write 0, .write 0, .submit 9 [] 1, .take 0, .fetch 0,
    .finish 0, .write 0, .write 0]).map fun s => [1, 2].map fun id => (getOne pympWorld s id).map (·.toOption)) =
    some [none, some (some (.data 9))] := by decide +kernel

end Verif.Props
