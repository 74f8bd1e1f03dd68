import Verif.Props.Cluster
import Verif.Props.Pyseq

/-! Failed arguments on the MPI, multiprocessing and sequential backends (C72). -/
namespace Verif.Props

/-! ## C72 -/

/-- **C72** for the sequential backend: a submission does not raise the error of an argument. -/
def C72_full : Prop :=
  ∀ (W : Pymp.World) (ops : List Pyseq.Op) (s : Pyseq.State) (os : List Pyseq.Out), Pyseq.run W Pyseq.State.init ops = some (s, os) →
    ∀ e, Pyseq.Out.raised (.user e) ∉ os

/-- **C72** does not hold: on the sequential backend submitting with a reference of a failed task raises its error. -/
theorem C72_sequential_violated : ¬ C72_full := by
  intro h
  obtain ⟨⟨s, os⟩, hr, hs⟩ := Option.map_eq_some_iff.1 (show (Pyseq.run pympWorld Pyseq.State.init [.submit 5 [] 1, .submit 6 [.ref 0] 1]).map
    (·.2) = some [.refs [0], .raised (.user 3)] by decide +kernel)
  simp only at hs
  subst hs
  exact h _ _ _ _ hr 3 (by simp)

private theorem pyseq_materialize_error (s : Pyseq.State) (e : Nat) : ∀ args : List Pymp.Arg, Pyseq.materialize s args = some (.error e) ↔
    ∃ before id after, args = before ++ .ref id :: after ∧ Pyseq.getOne s id = some (.error e) ∧
      ∀ j, Pymp.Arg.ref j ∈ before → ∃ v, Pyseq.getOne s j = some (.ok v) := by
  intro args
  induction args with
  | nil => simp [Pyseq.materialize]
  | cons a args ih =>
    have hcons : (∃ before id after, a :: args = before ++ Pymp.Arg.ref id :: after ∧ Pyseq.getOne s id = some (.error e) ∧
        ∀ j, Pymp.Arg.ref j ∈ before → ∃ v, Pyseq.getOne s j = some (.ok v)) ↔
        (∃ id, a = .ref id ∧ Pyseq.getOne s id = some (.error e)) ∨
        ((∀ j, a = .ref j → ∃ v, Pyseq.getOne s j = some (.ok v)) ∧ ∃ before id after, args = before ++ Pymp.Arg.ref id :: after ∧
          Pyseq.getOne s id = some (.error e) ∧ ∀ j, Pymp.Arg.ref j ∈ before → ∃ v, Pyseq.getOne s j = some (.ok v)) := by
      constructor
      · rintro ⟨before, id, after, h1, h2, h3⟩
        cases before with
        | nil => simp only [List.nil_append, List.cons.injEq] at h1; exact .inl ⟨id, h1.1, h2⟩
        | cons b before =>
          simp only [List.cons_append, List.cons.injEq] at h1
          exact .inr ⟨fun j hj => h3 j (by rw [← h1.1, hj]; exact List.mem_cons_self),
            before, id, after, h1.2, h2, fun j hj => h3 j (List.mem_cons_of_mem _ hj)⟩
      · rintro (⟨id, h1, h2⟩ | ⟨h0, before, id, after, h1, h2, h3⟩)
        · exact ⟨[], id, args, by rw [h1]; rfl, h2, by simp⟩
        · refine ⟨a :: before, id, after, by rw [h1]; rfl, h2, fun j hj => ?_⟩
          rcases List.mem_cons.1 hj with hj | hj
          · exact h0 j hj.symm
          · exact h3 j hj
    rw [hcons, ← ih]
    cases a with
    | lit v =>
      simp only [Pyseq.materialize]
      cases h : Pyseq.materialize s args with
      | none => simp
      | some r => cases r <;> simp
    | ref id =>
      simp only [Pyseq.materialize]
      cases h0 : Pyseq.getOne s id with
      | none => simp [h0]
      | some r =>
        cases r with
        | error e' => simp [h0]
        | ok v =>
          cases h : Pyseq.materialize s args with
          | none => simp [h0]
          | some r => cases r <;> simp [h0]

/-- **C72** on the sequential backend, exactly: a submission raises the error of an argument if and only if getting that argument raises it and getting
those before it does not; nothing is changed then, and the function is not called. -/
theorem C72_sequential_exactly_partial (W : Pymp.World) (s s' : Pyseq.State) (f : Nat) (args : List Pymp.Arg) (n : Nat) (o : Pyseq.Out)
    (h : Pyseq.step W s (.submit f args n) = some (s', o)) (e : Nat) :
    (o = .raised (.user e) ↔ ∃ before id after, args = before ++ .ref id :: after ∧ Pyseq.getOne s id = some (.error e) ∧
      ∀ j, Pymp.Arg.ref j ∈ before → ∃ v, Pyseq.getOne s j = some (.ok v)) ∧ (o = .raised (.user e) → s' = s) := by
  rw [← pyseq_materialize_error]
  simp only [Pyseq.step] at h
  split at h
  · simp only [Pyseq.submit] at h
    split at h
    · simp at h
    · rename_i e' hm
      simp only [Option.some.injEq, Prod.mk.injEq] at h
      obtain ⟨rfl, rfl⟩ := h
      simp [hm]
    · rename_i vs hm
      simp only [Option.some.injEq, Prod.mk.injEq] at h
      obtain ⟨-, rfl⟩ := h
      rw [hm]
      split <;> simp
  · simp at h

example : (Pyseq.run pympWorld Pyseq.State.init [.submit 5 [] 1, .put (.data 4), .submit 6 [.ref 1, .ref 0] 1]).map (·.2) =
    some [.refs [0], .refs [1], .raised (.user 3)] := by decide +kernel

section Multiprocessing
open Verif.Pymp Verif.Spec.Pymp

/-- **C72** on the multiprocessing backend, submission: whatever the arguments are, a submission with references the program has is
accepted with `n` new references if the pool finds a worker. -/
theorem C72_pymp_submit_partial (W : World) (s : State) (f : Nat) (args : List Arg) (n w : Nat)
    (hk : ∀ id, Arg.ref id ∈ args → ∃ x ∈ s.items, id ∈ x.refs) (hw : s.pool.submit.1 = some w) :
    ∃ s' t, step W s (.submit f args n) = some s' ∧ s'.items = s.items ++ [.task t] ∧ t.target = .fn f ∧ t.args = args ∧ t.outs.length = n := by
  have hk' : known s args = true := by
    simp only [known, List.all_eq_true]
    intro a ha
    cases a with
    | lit v => rfl
    | ref id => simpa using hk id ha
  simp only [step, hk', if_true, hw]
  exact ⟨_, _, rfl, rfl, rfl, rfl, by simp [newIds]⟩

private theorem failed_argument (W : World) (n : Nat) (acts : List Act) (s : State)
    (h : run W (State.init n) acts = some s) (t : Task) (ht : Item.task t ∈ s.items) (before after : List Arg)
    (id e : Nat) (hargs : t.args = before ++ .ref id :: after) (hid : (seen W s.items).val id = some (.raised e))
    (hb : ∀ j, Arg.ref j ∈ before → ∃ v, (seen W s.items).val j = some (.value v)) (o : Nat) (ho : o ∈ t.outs) :
    getOne W s o = none ∨ getOne W s o = some (.error e) := by
  have hsh := (reach (shape_init n) (todoOk_init n) (live_init W n) h).1
  obtain ⟨pre, post, hsplit⟩ := List.append_of_mem ht
  have hspan := hsh.span
  rw [hsplit] at hspan
  obtain ⟨q1, q2, -⟩ := seen_task (W := W) hspan
  rw [← hsplit] at q1 q2
  have hbefore : ∃ vs, resolve (seen W s.items).val before = some (.ok vs) := by
    clear hargs
    induction before with
    | nil => exact ⟨[], rfl⟩
    | cons a before ih =>
      obtain ⟨vs, hvs⟩ := ih fun j hj => hb j (List.mem_cons_of_mem _ hj)
      cases a with
      | lit v => exact ⟨v :: vs, by simp [resolve, hvs]⟩
      | ref j =>
        obtain ⟨v, hj⟩ := hb j (by simp)
        exact ⟨v :: vs, by simp [resolve, hvs, hj]⟩
  obtain ⟨vs, hvs⟩ := hbefore
  have hres : resolve (seen W s.items).val t.args = some (.error e) := by
    rw [hargs, resolve_append hvs]
    simp [resolve, hid]
  have hval : (seen W s.items).val o = some (.raised e) := by
    rw [q2 o ho]
    rw [hres] at q1
    simp only [seenEval, ← q1]
    refine add_mem (p := (o, .raised e)) ?_ (List.mem_map.2 ⟨o, ho, rfl⟩)
    simp only [List.map_map, Function.comp_def, List.map_id']
    exact (seen_task (W := W) hspan).2.2
  have hget := C65_read_partial W n acts s h o
  cases hg : getOne W s o with
  | none => exact .inl rfl
  | some r =>
    right
    cases r with
    | ok v => have := hget.1 v hg; rw [hval] at this; cases this
    | error e' =>
      have := hget.2 e' hg
      rw [hval] at this
      simp only [Option.some.injEq, Outcome.raised.injEq] at this
      rw [this]

/-- **C72** on the multiprocessing backend, result, for all programs: if getting an argument of a task raises (and getting those before it does not), getting a
result of the task raises the same error, unless it has not been computed yet. -/
theorem C72_pymp_read_partial (W : World) (n : Nat) (acts : List Act) (s : State)
    (h : run W (State.init n) acts = some s) (t : Task) (ht : Item.task t ∈ s.items) (before after : List Arg)
    (id e : Nat) (hargs : t.args = before ++ .ref id :: after) (hid : getOne W s id = some (.error e))
    (hb : ∀ j, Arg.ref j ∈ before → ∃ v, getOne W s j = some (.ok v)) (o : Nat) (ho : o ∈ t.outs) :
    getOne W s o = none ∨ getOne W s o = some (.error e) :=
  failed_argument W n acts s h t ht before after id e hargs ((C65_read_partial W n acts s h id).2 e hid)
    (fun j hj => (hb j hj).imp fun v hv => (C65_read_partial W n acts s h j).1 v hv) o ho

/-- **C72** on the multiprocessing backend, result: if an argument of a task failed (and none before it), getting a result of the
task raises its error, unless it has not been computed yet. -/
theorem C72_pymp_get_partial (W : World) (hW : PlainWorld W) (n : Nat) (acts : List Act) (s : State)
    (h : run W (State.init n) acts = some s) (hp : PlainPuts s.items) (t : Task) (ht : Item.task t ∈ s.items) (before after : List Arg)
    (id e : Nat) (hargs : t.args = before ++ .ref id :: after) (hid : (meaning W s.items).val id = some (.raised e))
    (hb : ∀ j, Arg.ref j ∈ before → ∃ v, (meaning W s.items).val j = some (.value v)) (o : Nat) (ho : o ∈ t.outs) :
    getOne W s o = none ∨ getOne W s o = some (.error e) := by
  rw [← seen_plain hW hp] at hid hb
  exact failed_argument W n acts s h t ht before after id e hargs hid hb o ho

example : ((run pympWorld (State.init 1) [.submit 5 [] 1, .submit 6 [.lit (.data 2), .ref 0] 1, .take 0, .fetch 0, .finish 0, .write 0,
    .write 0, .take 0, .fetch 0, .fetch 0, .write 0]).map fun s => decide ((meaning pympWorld s.items).val 1 = some (.raised 3))) =
    some true := by decide +kernel

/-- The argument is a byte string that cannot be unpickled: the task fails with that error. -/
example : ((run pympWorld (State.init 1) [.submit 0 [] 1, .submit 7 [.lit (.data 2), .ref 0] 2, .take 0, .fetch 0, .finish 0, .write 0, .write 0, .take 0,
    .fetch 0, .fetch 0, .write 0]).map fun s => [0, 1, 2].map fun o => (getOne pympWorld s o).map fun r => (r.toOption, match r with | .error e => e | _ => 0)) =
    some [some (none, 77), some (none, 77), none] := by decide +kernel
end Multiprocessing

section MPI
open Verif.Spec Verif.Worker Verif.Cluster
variable {W : World} {isW : Nat → Bool} {m : Nat} {acts : List Act} {c : Cluster}

/-- **C72** on the MPI backend: a task with a failed direct argument (and none failed before it) was submitted like any other, and the
first `get` that contains one of its references raises; if no other reference of that `get` failed differently, it raises the error
of the argument. -/
theorem C72_mpi_partial
    (hcode : ∀ f args v, refsList args = [] → W.call f args = .ret v → refs v = [])
    (hput : ∀ v, Act.put v ∈ acts → refs v = []) (h0 : isW 0 = false)
    (hrun : (Cluster.init m).run W isW acts = some c)
    {fn : Nat} {before after : List Val} {outs : List Nat} {i e : Nat}
    (hs : (fn, before ++ .ref i :: after, outs) ∈ submits (callsOf 0 acts))
    (hi : meaning W (callsOf 0 acts) i = some (.exc e))
    (hb : ∀ v ∈ before, ∀ k, subst (meaning W (callsOf 0 acts)) v ≠ .exc k)
    (hall : ∀ j ∈ refsList (before ++ .ref i :: after), meaning W (callsOf 0 acts) j ≠ none)
    (hfn : meaning W (callsOf 0 acts) fn ≠ none)
    {pre post : List (List Nat × GetResult)} {ids : List Nat} {res : GetResult}
    (hres : c.root.results = pre ++ (ids, res) :: post) {o : Nat} (ho : o ∈ outs) (hin : o ∈ ids) (hfirst : ∀ p ∈ pre, o ∉ p.1) :
    ∃ e', res = .raised e' ∧
      ((∀ j ∈ ids, ∀ k, meaning W (callsOf 0 acts) j = some (.exc k) → k = e) → e' = e) := by
  have hmap : ∀ l : List Val, substList (meaning W (callsOf 0 acts)) l = l.map (subst (meaning W (callsOf 0 acts))) := by
    intro l
    induction l with
    | nil => rfl
    | cons a t ih => simp [substList, ih]
  have hf : taskResult W (meaning W (callsOf 0 acts)) fn (before ++ .ref i :: after) = some (.raise e) := by
    rw [taskResult, if_pos]
    · rw [hmap]
      have : firstFailure ((before ++ .ref i :: after).map (subst (meaning W (callsOf 0 acts)))) = some e := by
        rw [List.map_append, List.map_cons]
        simp only [subst, hi, Option.getD_some]
        refine firstFailure_append ?_
        intro v hv k
        rw [List.mem_map] at hv
        obtain ⟨u, hu, rfl⟩ := hv
        exact hb u hu k
      rw [this]
    · exact ⟨fun j hj => Option.isSome_iff_ne_none.2 (hall j hj), Option.isSome_iff_ne_none.2 hfn⟩
  obtain ⟨e', h1, -, h3⟩ := C35_first_partial hcode hput h0 hrun hres hs hf ho hin hfirst
  exact ⟨e', h1, h3⟩

example : ((Cluster.init 1).run exWorld (· == 2) exChain).map (·.root.results) = some [([4], .raised 9)] := by decide +kernel

example : (submits (callsOf 0 exChain)).map (fun q => (q.1, q.2.2)) = [(0, [2]), (1, [3]), (1, [4])] := by decide +kernel
end MPI

end Verif.Props
