import Verif.Lemmas.InterruptLost

/-! C135: `get` after calls that a signal interrupted. -/
namespace Verif.Props

open Verif.InterruptGet

/-- Every call ended well: it returned the values of its references. -/
def CallsRight (value : Nat → List Bytes) (log : List Outcome) : Prop :=
  ∀ o ∈ log, ∃ ids : List Nat, o = .returned ids (ids.map fun i => some (value i))

/-- No signal of the history arrived while the root was receiving the buffers of an object. -/
def SignalsBetweenObjects (value : Nat → List Bytes) (owner : Nat → Nat) (acts : List Act) : Prop :=
  ∀ pre post u, acts = pre ++ .signal :: post → run value owner .init pre = some u → ∃ ids need c, u.root = .waiting ids need c

/-- C135: whatever was interrupted, a later call of `get` that ends returns the values of its references. -/
def C135_full : Prop :=
  ∀ (value : Nat → List Bytes) (owner : Nat → Nat) (acts : List Act) (s : State), (∀ i, value i ≠ []) →
    (∀ ids, .get ids ∈ acts → ids.Nodup) → run value owner .init acts = some s → CallsRight value s.log

/-- C135 (part): without signals every call that ends returns the values of its references. Missing: signals. -/
theorem C135_uninterrupted_partial (value : Nat → List Bytes) (owner : Nat → Nat) (acts : List Act) (s : State) (hv : ∀ i, value i ≠ [])
    (hd : ∀ ids, .get ids ∈ acts → ids.Nodup) (hs : .signal ∉ acts) (h : run value owner .init acts = some s) :
    CallsRight value s.log := by
  have hsig : ∀ pre post u, acts = pre ++ .signal :: post → run value owner .init pre = some u → ∃ ids need c, u.root = .waiting ids need c :=
    fun pre post u e _ => absurd (by simp [e]) hs
  have hi := inv_run hv acts inv_init hd hsig h
  have hc := clean_run hv acts inv_init ⟨by simp [State.init], by simp [State.init]⟩ hd hs h
  intro o ho
  cases o with
  | returned ids vals => exact ⟨ids, by rw [hi.log ids vals ho]⟩
  | raised ids => exact absurd ho (hc.1 ids)

/-- Data of the examples: one byte for each reference. -/
def exOneByte : Nat → List Bytes := fun i => [[UInt8.ofNat i]]

example : (run exOneByte (fun i => i % 2) .init [.get [3, 4], .answer 4, .answer 3, .info 0, .buffer, .info 1, .buffer, .get [4]]).map (·.log) =
    some [.returned [3, 4] [some [[3]], some [[4]]], .returned [4] [some [[4]]]] := by decide

/-- C135 (part): if signals arrive only while the root waits for an object, not while it receives one, then every value that a call returns is
the value of its reference, and so is everything in the store. Missing: signals that arrive between the messages of an object; such calls
can raise. -/
theorem C135_values_partial (value : Nat → List Bytes) (owner : Nat → Nat) (acts : List Act) (s : State) (hv : ∀ i, value i ≠ [])
    (hd : ∀ ids, .get ids ∈ acts → ids.Nodup) (hs : SignalsBetweenObjects value owner acts) (h : run value owner .init acts = some s) :
    (∀ ids vals, .returned ids vals ∈ s.log → vals = ids.map fun i => some (value i)) ∧ ∀ i v, s.store i = some v → v = value i := by
  have hi := inv_run hv acts inv_init hd hs h
  exact ⟨hi.log, fun i v h => (hi.stored i v h).1⟩

example : (run exOneByte (fun _ => 0) .init [.get [3, 4], .answer 4, .signal, .get [4], .info 0, .buffer, .get [4]]).map (·.log) =
    some [.returned [4] [some [[4]]], .returned [4] [some [[4]]]] := by decide

/-- C135 (part): if signals arrive only while the root waits for an object, and if everything that was ever asked for has arrived when a call
begins, then this call does not raise: it returns the values of its references, or it is under way, or a signal interrupted it. Missing:
signals that arrive between the messages of an object; calls with replies for earlier calls outstanding. -/
theorem C135_raises_partial (value : Nat → List Bytes) (owner : Nat → Nat) (pre post : List Act) (ids : List Nat) (u s : State)
    (hv : ∀ i, value i ≠ []) (hd : ∀ ids', .get ids' ∈ pre ++ [.get ids] → ids'.Nodup) (hg : ∀ ids', .get ids' ∉ post)
    (hs : SignalsBetweenObjects value owner (pre ++ .get ids :: post))
    (hu : run value owner .init pre = some u) (hnone : ∀ i ∈ u.asked, u.store i ≠ none)
    (h : run value owner .init (pre ++ .get ids :: post) = some s) :
    s.log = u.log ∨ s.log = u.log ++ [.returned ids (ids.map fun i => some (value i))] := by
  have hi : Inv value owner s := by
    refine inv_run hv _ inv_init (fun ids' hm => ?_) hs h
    simp only [List.mem_append, List.mem_cons] at hm
    rcases hm with hm | hm | hm
    · exact hd _ (by simp [hm])
    · exact hd _ (by simp [hm])
    · exact absurd hm (hg _)
  have hiu : Inv value owner u := by
    refine inv_run hv _ inv_init (fun ids' hm => hd _ (by simp [hm])) (fun p q w e hw => ?_) hu
    exact hs p (q ++ .get ids :: post) w (by rw [e]; simp) hw
  rw [run_append, hu, Option.bind_some] at h
  simp only [run, Option.bind_eq_some_iff] at h
  obtain ⟨t, ht, h⟩ := h
  have hit : Inv value owner t := inv_get (hd ids (by simp)) hiu ht
  have hrun : run value owner .init (pre ++ [.get ids]) = some t := by rw [run_append, hu]; simp [run, ht]
  have hft : ∃ need, Fresh u.log ids need t := by
    simp only [step] at ht
    split at ht
    · rename_i hroot
      split at ht
      · cases ht
        refine ⟨[], ?_⟩
        unfold Fresh
        rw [hroot]
        exact .inr ⟨_, rfl⟩
      · cases ht
        refine ⟨_, rfl, rfl, rfl, fun i hi => ?_⟩
        rcases List.mem_append.1 hi with hi | hi
        · exact .inl (hnone i hi)
        · exact .inr hi
    · cases ht
  obtain ⟨need, hft⟩ := hft
  have hfs := fresh_run hv post hit hft hg (fun p q w e hw => by
    refine hs (pre ++ .get ids :: p) q w (by rw [e]; simp) ?_
    rw [run_append, hu]
    simp only [Option.bind_some, run, ht]
    exact hw) h
  have hend : s.log = u.log ∨ ∃ vals, s.log = u.log ++ [.returned ids vals] := by
    unfold Fresh at hfs
    cases hroot : s.root with
    | idle => rw [hroot] at hfs; exact hfs
    | waiting => rw [hroot] at hfs; exact .inl hfs.2.2.1
    | receiving => rw [hroot] at hfs; exact .inl hfs.2.2.1
  rcases hend with e | ⟨vals, e⟩
  · exact .inl e
  · refine .inr ?_
    rw [e, hi.log ids vals (by rw [e]; simp)]

example : (run exOneByte (fun _ => 0) .init [.get [3], .signal, .get [3], .answer 3, .info 0, .buffer, .get [4], .answer 4, .info 0, .buffer]).map
    (·.log) = some [.returned [3] [some [[3]]], .returned [4] [some [[4]]]] := by decide

/-- C135 is violated: a signal arrives when the root has received the information package of an object but not its data; the data is then
taken for that of the next object of the same owner, and `get` returns the value of another reference. -/
theorem C135_violated : ¬ C135_full := by
  intro h
  have := h exOneByte (fun _ => 0) [.get [3], .answer 3, .info 0, .signal, .get [4], .answer 4, .info 0, .buffer] _ (by simp [exOneByte])
    (by simp) rfl
  obtain ⟨ids, e⟩ := this (.returned [4] [some [[3]]]) (by decide)
  simp only [Outcome.returned.injEq] at e
  obtain ⟨rfl, e⟩ := e
  revert e
  decide

example : (run exOneByte (fun _ => 0) .init [.get [3], .answer 3, .info 0, .signal, .get [4], .answer 4, .info 0, .buffer]).map (·.log) =
    some [.returned [4] [some [[3]]]] := by decide

/-- The history of `C135_forever_violated`: a call of `get` is interrupted before the answer arrives; then `n` calls for other references. -/
def exRaising (n : Nat) : List Act :=
  [.get [0], .signal] ++ (List.range n).flatMap fun i => [.get [i + 1], .answer i, .info 0, .buffer]

/-- C135 is violated: after one interrupted call every later call for a new reference can raise, because it receives the answer to the call
before and leaves its own to the next. -/
theorem C135_forever_violated (b : Nat → Bytes) (n : Nat) :
    ∃ s, run (fun i => [b i]) (fun _ => 0) .init (exRaising n) = some s ∧ s.log = (List.range n).map fun i => .raised [i + 1] := by
  suffices h : ∃ s, run (fun i => [b i]) (fun _ => 0) .init (exRaising n) = some s ∧ s.log = ((List.range n).map fun i => .raised [i + 1]) ∧
      s.root = .idle ∧ (∀ i, n ≤ i → s.store i = none ∧ i ∉ s.sent) ∧ n ∈ s.asked ∧ s.infos 0 = [] ∧ s.buffers 0 = [] by
    obtain ⟨s, h1, h2, _⟩ := h
    exact ⟨s, h1, h2⟩
  induction n with
  | zero => exact ⟨_, rfl, rfl, rfl, fun i _ => ⟨rfl, by simp [State.init]⟩, by simp [State.init], rfl, rfl⟩
  | succ n ih =>
    obtain ⟨s, hr, hlog, hroot, hst, hask, hinf, hbuf⟩ := ih
    have he : exRaising (n + 1) = exRaising n ++ [.get [n + 1], .answer n, .info 0, .buffer] := by
      simp [exRaising, List.range_succ, List.flatMap_append]
    rw [he, run_append, hr, Option.bind_some]
    have h1 := hst n (Nat.le_refl n)
    have h2 := hst (n + 1) (by omega)
    simp only [run, step, hroot, h2.1, List.filter_cons, List.filter_nil, Option.isNone_none, if_true, List.cons_ne_nil, if_false,
      Option.bind_some, List.mem_append, hask, true_or, h1.2, not_false_iff, and_self, upd_eq, hinf, hbuf, List.map_cons, List.map_nil,
      List.nil_append, Nat.lt_irrefl, Nat.sub_self, List.replicate_zero, List.append_nil, reduceCtorEq]
    refine ⟨_, rfl, ?_, ?_, ?_, ?_, ?_, ?_⟩
    · simp [complete, hlog, List.range_succ]
    · simp [complete]
    · intro i hi
      have := hst i (by omega)
      have hn : i ≠ n := by omega
      simp [complete, upd, hn, this.1, this.2]
    · simp [complete]
    · simp [complete, upd]
    · simp [complete, upd]

example : (run exOneByte (fun _ => 0) .init (exRaising 3)).map (·.log) = some [.raised [1], .raised [2], .raised [3]] := by decide

/-- C135 is violated: if a signal arrives while the root receives the buffers of an object, then no call with the reference of this object
ever returns, because its owner sends it once only. -/
theorem C135_lost_violated (value : Nat → List Bytes) (owner : Nat → Nat) (pre post : List Act) (u s : State) (ids need : List Nat)
    (c src id : Nat) (lens : List Nat) (parts : List Bytes) (hu : run value owner .init pre = some u)
    (hroot : u.root = .receiving ids need c src id lens parts) (h : run value owner .init (pre ++ .signal :: post) = some s) :
    s.store id = none ∧ ∀ ids' vals, .returned ids' vals ∈ s.log → id ∉ ids' := by
  have hw := weak_run _ weak_init h
  have hwu := weak_run _ weak_init hu
  have hru := hwu.root
  unfold RootWeak at hru
  rw [hroot] at hru
  rw [run_append, hu, Option.bind_some] at h
  simp only [run, step, hroot, Option.bind_some] at h
  have hl : Lost s id := lost_run post (s := { u with root := .idle }) ⟨hru.2.1, hru.2.2.1, hru.2.2.2, by simp⟩ h
  exact ⟨hl.none, fun ids' vals hm hid => hw.log ids' vals hm id hid hl.none⟩

example : (run exOneByte (fun _ => 0) .init [.get [3], .answer 3, .info 0]).map (·.root) = some (.receiving [3] [3] 0 0 3 [1] []) ∧
    ((run exOneByte (fun _ => 0) .init [.get [3], .answer 3, .info 0, .signal, .get [3]]).map (·.root) = some (.waiting [3] [3] 0)) ∧
    (run exOneByte (fun _ => 0) .init [.get [3], .answer 3, .info 0, .signal, .get [3], .answer 3]).isNone ∧
    (run exOneByte (fun _ => 0) .init [.get [3], .answer 3, .info 0, .signal, .get [3], .info 0]).isNone := by decide

end Verif.Props
