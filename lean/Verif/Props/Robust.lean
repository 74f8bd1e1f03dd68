import Verif.Model.Robust
/-!
# C103: a program cannot end a worker; C104: references given to constructors
-/
namespace Verif.Props
open Verif.Robust

/-! ## C103 -/

/-- Full statement of C103: whatever the user's functions, constructors and methods do and whatever is asked of a worker, no request ends
it. -/
def C103_full : Prop := ∀ reqs : List Req, Worker.init.run reqs ≠ none

/-- C103 is violated: the constructor of an actor raises. -/
theorem C103_constructor_violated : ¬ C103_full := fun h => h [.create 0 ["get"] (.raises true)] (by decide +kernel)

/-- C103 is violated: the program calls a method the actor does not have. -/
theorem C103_missing_method_violated : ¬ C103_full :=
  fun h => h [.create 0 ["get"] (.returns (.one true)), .method 0 "gte" 1 0 (.returns (.one true))] (by decide +kernel)

/-- C103 is violated: a function returns something that cannot be serialized. -/
theorem C103_unserializable_result_violated : ¬ C103_full := fun h => h [.execute 1 0 (.returns (.one false))] (by decide +kernel)

/-- C103 is violated: a function raises an exception that cannot be serialized, and the result is asked for. -/
theorem C103_unserializable_exception_violated : ¬ C103_full := fun h => h [.execute 1 0 (.raises false), .get 0] (by decide +kernel)

/-- C103 is violated: a function calls `sys.exit()`. -/
theorem C103_exit_violated : ¬ C103_full := fun h => h [.execute 1 0 .exits] (by decide +kernel)

/-- C103 is violated: a function is called with `options(num_returns=-1)`. -/
theorem C103_negative_returns_violated : ¬ C103_full := fun h => h [.execute (-1) 0 (.returns (.one true))] (by decide +kernel)

/-- C103 is violated: a function without results raises. -/
theorem C103_no_returns_violated : ¬ C103_full := fun h => h [.execute 0 0 (.raises true)] (by decide +kernel)

/-- What a function called with `num_returns = k` must do: it may raise an exception that can be serialized unless `k = 0`; what it returns
can be serialized, and for `k ≥ 2` it is a sequence. -/
def FineResult (k : Int) (r : Result) : Prop :=
  0 ≤ k ∧ r ≠ .exits ∧ r ≠ .raises false ∧ (k = 0 → r ≠ .raises true) ∧
  (k = 1 → ∀ v, r = .returns v → v = .one true ∨ ∃ items, v = .seq items ∧ ∀ x ∈ items, x = true) ∧
  (2 ≤ k → ∀ v, r = .returns v → ∃ items, v = .seq items ∧ ∀ x ∈ items.take k.toNat, x = true)

/-- A well-behaved list of requests; `made` are the actors that exist with their methods, the latest of a name first. -/
def FineReqs : List (Nat × List String) → List Req → Prop
  | _, [] => True
  | made, .execute k _ r :: rs => FineResult k r ∧ FineReqs made rs
  | made, .create h ms r :: rs => (∃ v, r = .returns v) ∧ FineReqs ((h, ms) :: made) rs
  | made, .method h m k _ r :: rs => (∃ ms, made.lookup h = some ms ∧ m ∈ ms) ∧ FineResult k r ∧ FineReqs made rs
  | made, .get _ :: rs => FineReqs made rs

theorem value_ok_iff (v : Value) : v.ok = true ↔ v = .one true ∨ ∃ items, v = .seq items ∧ ∀ x ∈ items, x = true := by
  cases v <;> simp [Value.ok]

theorem outsFor_nonneg (k : Int) (c : Nat) (hk : 2 ≤ k) : ∃ ids, outsFor k c = .many ids ∧ ids.length = k.toNat ∧ 1 < ids.length := by
  refine ⟨(List.range k.toNat).map (c + ·), ?_, by simp, by simp; omega⟩
  unfold outsFor
  rw [if_neg (by omega), if_neg (by omega)]

theorem zip_take_left (ids : List Nat) (items : List Bool) : ids.zip items = ids.zip (items.take ids.length) := by
  induction ids generalizing items with
  | nil => simp
  | cons a as ih =>
    cases items with
    | nil => simp
    | cons b bs => simp [← ih]

/-- The results of a well-behaved call are all stored, and all of them can be serialized. -/
theorem fine_results (k : Int) (c : Nat) (r : Result) (h : FineResult k r) :
    ∃ new, results (outsFor k c) r = some new ∧ ∀ e ∈ new, e.2 = true := by
  obtain ⟨h0, h1, h2, h3, h4, h5⟩ := h
  rcases Int.lt_or_le k 2 with hk | hk
  · rcases (show k = 0 ∨ k = 1 by omega) with hk0 | hk1
    · subst hk0
      cases r with
      | exits => exact absurd rfl h1
      | raises ok => cases ok with
        | true => exact absurd rfl (h3 rfl)
        | false => exact absurd rfl h2
      | returns v => exact ⟨[], by simp [outsFor, results], by simp⟩
    · subst hk1
      cases r with
      | exits => exact absurd rfl h1
      | raises ok => cases ok with
        | true => exact ⟨[(c, true)], by simp [outsFor, results], by simp⟩
        | false => exact absurd rfl h2
      | returns v =>
        have := (value_ok_iff v).2 (h4 rfl v rfl)
        exact ⟨[(c, true)], by simp [outsFor, results, this], by simp⟩
  · obtain ⟨ids, ho, hl, hlt⟩ := outsFor_nonneg k c hk
    rw [ho]
    cases r with
    | exits => exact absurd rfl h1
    | raises ok => cases ok with
      | true => exact ⟨ids.map fun id => (id, true), by simp [results, hlt], by simp⟩
      | false => exact absurd rfl h2
    | returns v =>
      obtain ⟨items, hv, hi⟩ := h5 hk v rfl
      subst hv
      rw [← hl] at hi
      refine ⟨ids.zip items, ?_, ?_⟩
      · simp only [results, if_pos hlt]
        rw [if_pos]
        rw [List.all_eq_true]
        intro x hx
        simpa using hi x hx
      · intro e he
        have hz := zip_take_left ids items
        rw [hz] at he
        exact hi e.2 (List.of_mem_zip he).2

/-- Everything stored can be serialized. -/
def AllGood (w : Worker) : Prop := ∀ e ∈ w.store, e.2 = true

theorem fine_task (w : Worker) (k : Int) (c : Nat) (r : Result) (hg : AllGood w) (h : FineResult k r) :
    ∃ w', w.task (outsFor k c) r = some w' ∧ AllGood w' ∧ w'.actors = w.actors := by
  obtain ⟨new, hn, ha⟩ := fine_results k c r h
  unfold Worker.task
  rw [hn]
  simp only [answerAll]
  rw [if_neg]
  · refine ⟨_, rfl, ?_, rfl⟩
    intro e he
    simp only [List.mem_append] at he
    rcases he with he | he
    · exact ha e he
    · exact hg e he
  · rw [List.any_eq_true]
    rintro ⟨e, he, hc⟩
    rw [ha e he] at hc
    simp at hc

theorem find_lookup (l : List (Nat × List String)) (h : Nat) (ms : List String) (hl : l.lookup h = some ms) :
    ∃ x, l.find? (fun e => e.1 == h) = some (x, ms) := by
  induction l with
  | nil => exact absurd hl (by simp)
  | cons e l ih =>
    obtain ⟨a, b⟩ := e
    by_cases hh : h = a
    · subst hh
      simp at hl
      exact ⟨h, by simp [hl]⟩
    · rw [List.lookup_cons] at hl
      have : (h == a) = false := by simp [hh]
      rw [this] at hl
      obtain ⟨x, hx⟩ := ih hl
      refine ⟨x, ?_⟩
      rw [List.find?_cons]
      have : (a == h) = false := by simp [Ne.symm hh]
      simp only [this]
      exact hx

theorem fine_run (reqs : List Req) (w : Worker) (hg : AllGood w) (h : FineReqs w.actors reqs) : ∃ w', w.run reqs = some w' ∧ AllGood w' := by
  induction reqs generalizing w with
  | nil => exact ⟨w, rfl, hg⟩
  | cons r rs ih =>
    cases r with
    | execute k c r =>
      obtain ⟨w', h1, h2, h3⟩ := fine_task w k c r hg h.1
      obtain ⟨w'', h4⟩ := ih w' h2 (by rw [h3]; exact h.2)
      exact ⟨w'', by simp [Worker.run, Worker.step, h1, h4.1], h4.2⟩
    | create hd ms r =>
      obtain ⟨⟨v, hv⟩, h2⟩ := h
      subst hv
      obtain ⟨w'', h4⟩ := ih { w with actors := (hd, ms) :: w.actors } hg h2
      exact ⟨w'', by simp [Worker.run, Worker.step, h4.1], h4.2⟩
    | method hd m k c r =>
      obtain ⟨⟨ms, hl, hm⟩, hf, h2⟩ := h
      obtain ⟨x, hx⟩ := find_lookup _ _ _ hl
      obtain ⟨w', h1, h2', h3⟩ := fine_task w k c r hg hf
      obtain ⟨w'', h4⟩ := ih w' h2' (by rw [h3]; exact h2)
      exact ⟨w'', by simp [Worker.run, Worker.step, hx, hm, h1, h4.1], h4.2⟩
    | get id =>
      have hs : ∃ w', w.step (.get id) = some w' ∧ AllGood w' ∧ w'.actors = w.actors := by
        simp only [Worker.step, answer]
        split
        · exact ⟨w, rfl, hg, rfl⟩
        · rename_i x hx
          exact absurd (hg _ (List.mem_of_find?_eq_some hx)) (by simp)
        · exact ⟨_, rfl, hg, rfl⟩
      obtain ⟨w', h1, h2, h3⟩ := hs
      obtain ⟨w'', h4⟩ := ih w' h2 (by rw [h3]; exact h)
      exact ⟨w'', by simp [Worker.run, h1, h4.1], h4.2⟩

/-- C103 as far as it holds: the worker survives every list of requests in which constructors do not raise, methods that are called exist,
results can be serialized, `num_returns` is not negative, functions with several results return a sequence, functions without results do not
raise, and nothing but exceptions that can be serialized is raised. Missing: each of these conditions (violated). -/
theorem C103_well_behaved_partial (reqs : List Req) (h : FineReqs [] reqs) : Worker.init.run reqs ≠ none := by
  obtain ⟨w, hw, _⟩ := fine_run reqs Worker.init (by intro e he; exact absurd he (by simp [Worker.init])) h
  rw [hw]
  simp

/-- C103, the conditions are the right ones: a single call of a function by a fresh worker ends it exactly if the function exits, if
`num_returns` is negative, if there are no results and it raises, if its only result cannot be serialized, or if of several results one
cannot be serialized or there is nothing to iterate over. -/
theorem C103_exact_partial (k : Int) (c : Nat) (r : Result) :
    Worker.init.run [.execute k c r] = none ↔
      r = .exits ∨ k < 0 ∨ (k = 0 ∧ ∃ ok, r = .raises ok) ∨
      (k = 1 ∧ (r = .returns (.one false) ∨ ∃ items, r = .returns (.seq items) ∧ false ∈ items)) ∨
      (2 ≤ k ∧ ((∃ ok, r = .returns (.one ok)) ∨ ∃ items, r = .returns (.seq items) ∧ false ∈ items.take k.toNat)) := by
  have hrun : Worker.init.run [.execute k c r] = none ↔ results (outsFor k c) r = none := by
    simp only [Worker.run, Worker.step, Worker.task]
    cases results (outsFor k c) r with
    | none => simp
    | some new => simp [answerAll, Worker.init]
  rw [hrun]
  have hall : ∀ l : List Bool, l.all id = false ↔ false ∈ l := by
    intro l
    induction l with
    | nil => simp
    | cons a l ih => cases a <;> simp_all
  cases r with
  | exits => simp [results]
  | raises ok =>
    simp only [reduceCtorEq, false_or, Result.raises.injEq, exists_eq', and_true, false_and, exists_const, and_false, or_false]
    rcases (show k < 0 ∨ k = 0 ∨ k = 1 ∨ 2 ≤ k by omega) with hk | hk | hk | hk
    · have : outsFor k c = .many [] := by
        unfold outsFor
        rw [if_neg (by omega), if_neg (by omega), show k.toNat = 0 by omega]
        rfl
      simp [this, results, hk]
    · subst hk; simp [outsFor, results]
    · subst hk; simp [outsFor, results]
    · obtain ⟨ids, ho, hl, hlt⟩ := outsFor_nonneg k c hk
      rw [ho]
      simp only [results, if_pos hlt, reduceCtorEq, false_iff]
      omega
  | returns v =>
    simp only [reduceCtorEq, false_or, Result.returns.injEq, exists_const, and_false]
    rcases (show k < 0 ∨ k = 0 ∨ k = 1 ∨ 2 ≤ k by omega) with hk | hk | hk | hk
    · have : outsFor k c = .many [] := by
        unfold outsFor
        rw [if_neg (by omega), if_neg (by omega), show k.toNat = 0 by omega]
        rfl
      simp [this, results, hk]
    · subst hk; simp [outsFor, results]
    · subst hk
      cases v with
      | one ok => cases ok <;> simp [outsFor, results, Value.ok]
      | seq items =>
        have := hall items
        cases hb : items.all id with
        | false => simp [outsFor, results, Value.ok, hb, this.1 hb]
        | true =>
          have hn : false ∉ items := fun hm => by rw [this.2 hm] at hb; exact absurd hb (by simp)
          simp [outsFor, results, Value.ok, hb, hn]
    · obtain ⟨ids, ho, hl, hlt⟩ := outsFor_nonneg k c hk
      rw [ho]
      have hk0 : ¬ k < 0 := by omega
      have hk1 : k ≠ 1 := by omega
      simp only [results, if_pos hlt, hk0, hk1, hk, false_or, false_and, true_and]
      cases v with
      | one ok => simp
      | seq items =>
        have := hall (items.take ids.length)
        rw [hl] at this ⊢
        cases hb : (items.take k.toNat).all id with
        | false => simp [this.1 hb]
        | true =>
          have hn : false ∉ items.take k.toNat := fun hm => by rw [this.2 hm] at hb; exact absurd hb (by simp)
          simp [hn]

/-- A program that makes an actor, calls its method, runs a failing task and asks for the results. -/
def exFine : List Req :=
  [.create 0 ["add", "get"] (.returns (.one true)), .method 0 "add" 1 1 (.returns (.one true)), .execute 2 2 (.returns (.seq [true, true, false])),
   .execute 1 4 (.raises true), .get 1, .get 4, .get 9]

example : Worker.init.run exFine = some ⟨[(4, true), (2, true), (3, true), (1, true)], [9], [(0, ["add", "get"])]⟩ := by decide +kernel

example : FineReqs [] exFine := by
  refine ⟨⟨_, rfl⟩, ⟨⟨_, rfl, by simp⟩, ⟨by decide, by decide, by decide, by decide, ?_, by omega⟩, ?_⟩⟩
  · intro _ v hv
    cases hv
    exact .inl rfl
  · refine ⟨⟨by decide, by decide, by decide, by decide, by omega, ?_⟩, ⟨by decide, by decide, by decide, by decide, ?_, by omega⟩, trivial⟩
    · intro _ v hv
      cases hv
      exact ⟨_, rfl, by decide⟩
    · intro _ v hv; exact absurd hv (by simp)

/-! ## C104 -/

/-- A direct argument that is a reference. -/
def IsReference (o : Args.Obj) : Prop := (∃ id, o = .wrap id) ∨ ∃ id, o = .ref id

/-- Full statement of C104: the constructor of an actor gets the values of the references it is given, like a function or a method, and if
it is given references it can use them. -/
def C104_full : Prop :=
  (∀ (val : Nat → Args.Obj) (args : List Args.Obj), constructorGets args = Args.directOnly val args) ∧
  ∀ calls : List Call, knownRun [] calls ≠ none

/-- C104 is violated: the constructor gets the reference itself. -/
theorem C104_values_violated : ¬ C104_full := fun h => by
  have := h.1 (fun _ => .other 5) [.wrap 0]
  simp [constructorGets, Args.directOnly, Args.filterArguments, Args.filterArg] at this

/-- C104 is violated on MPI: a constructor that gets the value of the reference it was given ends its worker, because nobody told the worker
where the value is. -/
theorem C104_unknown_owner_violated : ¬ C104_full := fun h => h.2 [.construct [0]] (by decide)

/-- C104 as far as it holds, values: constructors get what functions and methods get exactly if no direct argument is a reference. -/
theorem C104_values_partial (args : List Args.Obj) :
    (∀ val, constructorGets args = Args.directOnly val args) ↔ ∀ o ∈ args, ¬ IsReference o := by
  constructor
  · intro h o ho hr
    have : ∀ (val : Nat → Args.Obj) (l : List Args.Obj), l = Args.directOnly val l → ∀ o ∈ l, o = (fun
        | .ref id => val id
        | o => o : Args.Obj → Args.Obj) (Args.filterArg o) := by
      intro val l
      induction l with
      | nil => intro _ o ho; exact absurd ho (by simp)
      | cons a l ih =>
        intro hl o ho
        simp only [Args.directOnly, Args.filterArguments, List.map_cons, List.cons.injEq] at hl ih
        rcases List.mem_cons.1 ho with ho | ho
        · subst ho; exact hl.1
        · exact ih hl.2 o ho
    have := this (fun _ => .other 0) args (h _) o ho
    rcases hr with ⟨id, rfl⟩ | ⟨id, rfl⟩ <;> simp [Args.filterArg] at this
  · intro h val
    unfold constructorGets Args.directOnly Args.filterArguments
    induction args with
    | nil => rfl
    | cons a l ih =>
      rw [List.map_cons, List.map_cons, ← ih fun o ho => h o (List.mem_cons_of_mem _ ho)]
      have ha := h a (by simp)
      cases a with
      | wrap id => exact absurd (.inl ⟨id, rfl⟩) ha
      | ref id => exact absurd (.inr ⟨id, rfl⟩) ha
      | other n => rfl
      | box b xs => rfl

/-- C104 as far as it holds, use on MPI: the worker survives exactly if each reference a constructor asks for was given before to a function
or method that ran on the same worker. -/
theorem C104_known_references_partial (known : List Nat) (calls : List Call) :
    knownRun known calls ≠ none ↔
      ∀ before refs after, calls = before ++ .construct refs :: after → ∀ i ∈ refs, i ∈ known ∨ ∃ rs, Call.call rs ∈ before ∧ i ∈ rs := by
  induction calls generalizing known with
  | nil => simp [knownRun]
  | cons c cs ih =>
    cases c with
    | call rs =>
      simp only [knownRun]
      rw [ih]
      constructor
      · intro h before refs after he i hi
        cases before with
        | nil => simp at he
        | cons b bs =>
          simp only [List.cons_append, List.cons.injEq] at he
          obtain ⟨rfl, he⟩ := he
          rcases h bs refs after he i hi with h | ⟨rs', h1, h2⟩
          · rcases List.mem_append.1 h with h | h
            · exact .inr ⟨rs, by simp, h⟩
            · exact .inl h
          · exact .inr ⟨rs', by simp [h1], h2⟩
      · intro h before refs after he i hi
        rcases h (.call rs :: before) refs after (by simp [he]) i hi with h | ⟨rs', h1, h2⟩
        · exact .inl (List.mem_append_right _ h)
        · rcases List.mem_cons.1 h1 with h1 | h1
          · cases h1; exact .inl (List.mem_append_left _ h2)
          · exact .inr ⟨rs', h1, h2⟩
    | construct rs =>
      simp only [knownRun]
      by_cases ha : rs.all known.contains = true
      · rw [if_pos ha, ih]
        rw [List.all_eq_true] at ha
        constructor
        · intro h before refs after he i hi
          cases before with
          | nil =>
            simp only [List.nil_append, List.cons.injEq, Call.construct.injEq] at he
            rw [← he.1] at hi
            exact .inl (List.contains_iff_mem.1 (ha i hi))
          | cons b bs =>
            simp only [List.cons_append, List.cons.injEq] at he
            obtain ⟨rfl, he⟩ := he
            rcases h bs refs after he i hi with h | ⟨rs', h1, h2⟩
            · exact .inl h
            · exact .inr ⟨rs', by simp [h1], h2⟩
        · intro h before refs after he i hi
          rcases h (.construct rs :: before) refs after (by simp [he]) i hi with h | ⟨rs', h1, h2⟩
          · exact .inl h
          · rcases List.mem_cons.1 h1 with h1 | h1
            · exact absurd h1 (by simp)
            · exact .inr ⟨rs', h1, h2⟩
      · rw [if_neg ha]
        simp only [ne_eq, not_true_eq_false, false_iff]
        intro h
        apply ha
        rw [List.all_eq_true]
        intro i hi
        rcases h [] rs cs rfl i hi with h | ⟨rs', h1, _⟩
        · exact List.contains_iff_mem.2 h
        · exact absurd h1 (by simp)

example : constructorGets [.other 3, .box .list [.other 4, .wrap 0]] = Args.directOnly (fun _ => .other 9) [.other 3, .box .list [.other 4, .wrap 0]] := rfl
example : knownRun [] [.call [0, 1], .construct [1]] = some [0, 1] := by decide
example : knownRun [] [.call [0], .construct [1]] = none := by decide

end Verif.Props
