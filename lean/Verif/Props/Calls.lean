import Verif.Model.Calls

/-! Properties of the user-facing call layer. -/
namespace Verif.Props
open Verif.Calls

/-! ## C60 -/

/-- The value of a keyword argument; without it `None`. -/
def Given (kw : List (String × PyObj)) (name : String) (v : PyObj) : Prop :=
  (name, v) ∈ kw ∨ (v = .none ∧ ∀ p ∈ kw, p.1 ≠ name)

/-- `kwargs.get` finds the given value. -/
theorem lookup_given {kw : List (String × PyObj)} {name : String} {v : PyObj} (hk : (kw.map (·.1)).Nodup) (h : Given kw name v) :
    lookup kw name = v := by
  rcases h with h | ⟨rfl, h⟩
  · induction kw with
    | nil => simp at h
    | cons p kw ih =>
      simp only [List.map_cons, List.nodup_cons] at hk
      rcases List.mem_cons.1 h with rfl | h
      · simp [lookup]
      · have hp : p.1 ≠ name := fun e => hk.1 (e ▸ List.mem_map.2 ⟨_, h, rfl⟩)
        have := ih hk.2 h
        simpa [lookup, List.find?_cons, hp] using this
  · have : kw.find? (fun p => p.1 == name) = none := by
      rw [List.find?_eq_none]
      intro p hp
      simpa using h p hp
    simp [lookup, this]

/-- A function is accepted exactly with no `num_returns` or a non-negative integer (booleans are integers in Python), and what was
given is what the remote function gets; otherwise there is a `ValueError`. -/
theorem C60_function (kw : List (String × PyObj)) (hne : kw ≠ []) (hk : (kw.map (·.1)).Nodup) (cpus given resources : PyObj)
    (hc : Given kw "num_cpus" cpus) (hg : Given kw "num_returns" given) (hr : Given kw "resources" resources) :
    (given = .none ∨ (∃ n : Nat, given = .int n) ∨ (∃ b, given = .bool b) →
      remote [] kw .function = .ok (.function cpus given resources)) ∧
    (given = .other ∨ (∃ n : Nat, given = .int (-(n + 1))) → remote [] kw .function = .error .valueError) := by
  obtain ⟨k, ks, rfl⟩ := List.exists_cons_of_ne_nil hne
  have e : remote [] (k :: ks) .function = decorate cpus given resources .function := by
    simp only [remote, lookup_given hk hc, lookup_given hk hg, lookup_given hk hr]
  rw [e]
  constructor
  · intro h
    have hn : ¬ (given ≠ .none ∧ (isInt given = false ∨ isNegative given = true)) := by
      rintro ⟨h1, h2⟩
      rcases h with h | ⟨n, h⟩ | ⟨b, h⟩
      · exact h1 h
      · rw [h] at h2; simp [isInt, isNegative] at h2; omega
      · rw [h] at h2; simp [isInt, isNegative] at h2
    exact if_neg hn
  · intro h
    have hp : given ≠ .none ∧ (isInt given = false ∨ isNegative given = true) := by
      rcases h with h | ⟨n, h⟩
      · rw [h]; simp [isInt]
      · rw [h]; simp [isNegative]
    exact if_pos hp

/-- Every value is covered by the two cases of `C60_function`. -/
theorem C60_cases (x : PyObj) :
    (x = .none ∨ (∃ n : Nat, x = .int n) ∨ (∃ b, x = .bool b)) ≠ (x = .other ∨ ∃ n : Nat, x = .int (-(n + 1))) := by
  cases x with
  | none => simp
  | bool b => simp
  | other => simp
  | int z =>
    rcases (by omega : z < 0 ∨ 0 ≤ z) with h | h
    · have h1 : ∃ n : Nat, z = -(n + 1) := ⟨(-z - 1).toNat, by omega⟩
      have h2 : ¬ ∃ n : Nat, z = n := by rintro ⟨n, hn⟩; omega
      simp only [reduceCtorEq, PyObj.int.injEq, exists_false, or_false, false_or, h1, h2, ne_eq]
      simp
    · have h1 : ∃ n : Nat, z = n := ⟨z.toNat, by omega⟩
      have h2 : ¬ ∃ n : Nat, z = -(n + 1) := by rintro ⟨n, hn⟩; omega
      simp only [reduceCtorEq, PyObj.int.injEq, exists_false, or_false, false_or, h1, h2, ne_eq]
      simp

/-- A class is accepted exactly without `num_returns`; with it there is a `TypeError`. -/
theorem C60_class (kw : List (String × PyObj)) (hne : kw ≠ []) (hk : (kw.map (·.1)).Nodup) (cpus given resources : PyObj)
    (hc : Given kw "num_cpus" cpus) (hg : Given kw "num_returns" given) (hr : Given kw "resources" resources) :
    (given = .none → remote [] kw .cls = .ok (.actor cpus resources)) ∧ (given ≠ .none → remote [] kw .cls = .error .typeError) := by
  obtain ⟨k, ks, rfl⟩ := List.exists_cons_of_ne_nil hne
  have e : remote [] (k :: ks) .cls = decorate cpus given resources .cls := by
    simp only [remote, lookup_given hk hc, lookup_given hk hg, lookup_given hk hr]
  rw [e]
  exact ⟨fun h => if_neg fun h' => h' h, fun h => if_pos h⟩

/-- Nothing else can be decorated. -/
theorem C60_other (k : String × PyObj) (ks : List (String × PyObj)) (t : Thing) (h1 : t ≠ .function) (h2 : t ≠ .cls) :
    remote [] (k :: ks) t = .error .typeError := by
  cases t <;> first | exact absurd rfl h1 | exact absurd rfl h2 | rfl

/-- The bare decorator takes one function or class; every other form that is not keywords only fails. -/
theorem C60_bare (args : List Thing) (kw : List (String × PyObj)) (target : Thing) (made : Made) (h : args ≠ [] ∨ kw = [])
    (hm : remote args kw target = .ok made) :
    kw = [] ∧ ((args = [.function] ∧ made = .function .none .none .none) ∨ (args = [.cls] ∧ made = .actor .none .none)) := by
  match args, kw with
  | [], [] => simp [remote] at hm
  | [], _ :: _ => simp at h
  | [t], [] =>
    cases t <;> simp [remote, decorate, isCallable] at hm ⊢ <;> exact hm.symm
  | [_], _ :: _ => simp [remote] at hm
  | _ :: _ :: _, _ => simp [remote] at hm

/-- The bare decorator on something that is neither a function nor a class: a `TypeError` if it can be called, otherwise an `AssertionError`. -/
theorem C60_bare_errors (target : Thing) :
    remote [.callable] [] target = .error .typeError ∧ remote [.plain] [] target = .error .assertionError := ⟨rfl, rfl⟩

example : remote [] [("num_returns", .int 3)] .function = .ok (.function .none (.int 3) .none) ∧
    remote [] [("num_returns", .int (-1))] .function = .error .valueError ∧
    remote [] [("num_cpus", .int 2), ("num_returns", .int 1)] .cls = .error .typeError ∧
    remote [.function] [] .plain = .ok (.function .none .none .none) ∧
    remote [.function] [("num_returns", .int 2)] .function = .error .assertionError := ⟨rfl, rfl, rfl, rfl, rfl⟩

/-! ## C61 -/

/-- A call with or without options (then with this number of results). -/
def callBy (b : Backend) (c : Callee) (opts : Option Val) (args : List Val) (kw : Kw) : Sent :=
  match opts with
  | none => callDirect b c args kw
  | some r => callOptions b c r args kw

/-- The number of results asked for: constructors have none. -/
def askedFor (c : Callee) (opts : Option Val) : Val :=
  match c with
  | .create => .none
  | _ => opts.getD .none

/-- The full claim: whatever the keyword names are, the user's code gets the arguments. -/
def C61_full : Prop :=
  ∀ (b : Backend) (c : Callee) (opts : Option Val) (args : List Val) (kw : Kw), (kw.map (·.1)).Nodup →
    callBy b c opts args kw = .delivered args kw (askedFor c opts)

/-- Names that do not reach the user's code. -/
def reserved : Backend → Callee → List String
  | .mpi, .function => ["self", "num_cpus", "num_returns", "resources", "task"]
  | .pymp, .function => ["self", "num_cpus", "num_returns", "resources", "func", "data_ids", "obj_store"]
  | .pyseq, .function => ["self", "num_cpus", "num_returns", "resources", "func"]
  | .mpi, .method => ["self", "num_returns"]
  | .pymp, .method => ["self", "num_returns", "func", "data_ids", "obj_store"]
  | .pyseq, .method => ["self", "num_returns", "func"]
  | .mpi, .create => ["self", "num_cpus", "resources", "cls", "owner_rank", "handler_id"]
  | .pymp, .create => ["self", "num_cpus", "resources", "cls"]
  | .pyseq, .create => ["self", "num_cpus", "resources"]

/-- Keywords that no function on the way has a parameter for pass unchanged. -/
theorem enter_free {params only : List String} {kw : Kw} (h : ∀ p ∈ kw, p.1 ∉ params ∧ p.1 ∉ only) :
    enter params only kw = some ([], kw) := by
  have h1 : (kw.any fun p => params.contains p.1) = false := by
    rw [List.any_eq_false]
    intro p hp hc
    exact (h p hp).1 (by simpa using hc)
  have h2 : kw.filter (fun p => only.contains p.1) = [] := by
    rw [List.filter_eq_nil_iff]
    intro p hp hc
    exact (h p hp).2 (by simpa using hc)
  have h3 : kw.filter (fun p => !only.contains p.1) = kw := by
    rw [List.filter_eq_self]
    intro p hp
    simpa using (h p hp).2
  rw [enter, h1, h2, h3]; rfl

/-- The options of a call are taken and the rest passes. -/
theorem enter_taken {params only : List String} {opts kw : Kw} (ho : ∀ p ∈ opts, p.1 ∉ params ∧ p.1 ∈ only)
    (h : ∀ p ∈ kw, p.1 ∉ params ∧ p.1 ∉ only) : enter params only (opts ++ kw) = some (opts, kw) := by
  have h1 : ((opts ++ kw).any fun p => params.contains p.1) = false := by
    rw [List.any_eq_false]
    intro p hp hc
    rcases List.mem_append.1 hp with hp | hp
    · exact (ho p hp).1 (by simpa using hc)
    · exact (h p hp).1 (by simpa using hc)
  have h2 : (opts ++ kw).filter (fun p => only.contains p.1) = opts := by
    rw [List.filter_append, List.filter_eq_self.2, List.filter_eq_nil_iff.2, List.append_nil]
    · intro p hp hc
      exact (h p hp).2 (by simpa using hc)
    · intro p hp
      simpa using (ho p hp).2
  have h3 : (opts ++ kw).filter (fun p => !only.contains p.1) = kw := by
    rw [List.filter_append, List.filter_eq_nil_iff.2, List.filter_eq_self.2, List.nil_append]
    · intro p hp
      simpa using (h p hp).2
    · intro p hp hc
      simp at hc
      exact hc (ho p hp).2
  rw [enter, h1, h2, h3]; rfl

/-- Keywords with other names can be spread into a call. -/
theorem spread_free {names : List String} {kw : Kw} (h : ∀ p ∈ kw, p.1 ∉ names) : spread names kw = some kw := by
  have h1 : (kw.any fun p => names.contains p.1) = false := by
    rw [List.any_eq_false]
    intro p hp hc
    exact h p hp (by simpa using hc)
  rw [spread, h1]; rfl

/-- Partial: keyword names that are not reserved. The arguments arrive unchanged, with and without options, on every modelled
backend. Missing: the reserved names. -/
theorem C61_other_names_partial (b : Backend) (c : Callee) (opts : Option Val) (args : List Val) (kw : Kw)
    (h : ∀ p ∈ kw, p.1 ∉ reserved b c) : callBy b c opts args kw = .delivered args kw (askedFor c opts) := by
  have free : ∀ params only : List String, (∀ x ∈ params, x ∈ reserved b c) → (∀ x ∈ only, x ∈ reserved b c) →
      enter params only kw = some ([], kw) := fun params only hp ho =>
    enter_free fun p hk => ⟨fun hc => h p hk (hp _ hc), fun hc => h p hk (ho _ hc)⟩
  have taken : ∀ (params only : List String) (o : Kw), (∀ x ∈ params, x ∈ reserved b c) → (∀ x ∈ only, x ∈ reserved b c) →
      (∀ p ∈ o, p.1 ∉ params ∧ p.1 ∈ only) → enter params only (o ++ kw) = some (o, kw) := fun params only o hp ho hk =>
    enter_taken hk fun p hk => ⟨fun hc => h p hk (hp _ hc), fun hc => h p hk (ho _ hc)⟩
  have spr : ∀ names : List String, (∀ x ∈ names, x ∈ reserved b c) → spread names kw = some kw := fun names hn =>
    spread_free fun p hk hc => h p hk (hn _ hc)
  cases opts with
  | none =>
    cases c <;> cases b <;> simp only [callBy, callDirect, functionRemote, methodRemote, createRemote, askedFor] <;>
      iterate 4 ((try rw [free _ _ (by simp [reserved]) (by simp [reserved])]); (try simp [takenValue]))
  | some r =>
    cases c with
    | function =>
      have e := taken ["self"] ["num_cpus", "num_returns", "resources"]
        [("num_cpus", .none), ("num_returns", r), ("resources", .none)] (by cases b <;> simp [reserved])
        (by cases b <;> simp [reserved]) (by simp)
      cases b <;>
        (simp only [callBy, callOptions, askedFor]
         rw [free _ _ (by simp [reserved]) (by simp)]
         simp only
         rw [spr _ (by simp [reserved])]
         simp only [functionRemote]
         simp only [List.cons_append, List.nil_append] at e
         rw [e]
         simp only [takenValue]
         iterate 4 ((try rw [free _ _ (by simp [reserved]) (by simp [reserved])]); (try simp [takenValue])))
    | method =>
      have e := taken ["self"] ["num_returns"] [("num_returns", r)] (by cases b <;> simp [reserved])
        (by cases b <;> simp [reserved]) (by simp)
      cases b <;>
        (simp only [callBy, callOptions, askedFor]
         rw [free _ _ (by simp [reserved]) (by simp)]
         simp only
         rw [spr _ (by simp [reserved])]
         simp only [methodRemote]
         simp only [List.cons_append, List.nil_append] at e
         rw [e]
         simp only [takenValue]
         iterate 4 ((try rw [free _ _ (by simp [reserved]) (by simp [reserved])]); (try simp [takenValue])))
    | create =>
      have e := taken ["self"] ["num_cpus", "resources"] [("num_cpus", .none), ("resources", .none)]
        (by cases b <;> simp [reserved]) (by cases b <;> simp [reserved]) (by simp)
      cases b <;>
        (simp only [callBy, callOptions, askedFor]
         rw [free _ _ (by simp [reserved]) (by simp)]
         simp only
         rw [spr _ (by simp [reserved])]
         simp only [createRemote]
         simp only [List.cons_append, List.nil_append] at e
         rw [e]
         simp only [takenValue]
         iterate 4 ((try rw [free _ _ (by simp [reserved]) (by simp [reserved])]); (try simp [takenValue])))

/-- Violation: each of the reserved names is lost or makes the call fail, with and without options. -/
theorem C61_reserved_violated (b : Backend) (c : Callee) (opts : Option Val) (name : String) (h : name ∈ reserved b c)
    (args : List Val) (returns : Val) :
    callBy b c opts args [(name, .obj 7)] ≠ .delivered args [(name, .obj 7)] returns := by
  have key : ∀ name ∈ reserved b c, callBy b c opts args [(name, .obj 7)] ≠ .delivered args [(name, .obj 7)] returns := by
    cases opts <;> cases c <;> cases b <;> simp only [reserved, List.forall_mem_cons] <;>
      simp [callBy, callDirect, callOptions, functionRemote, methodRemote, createRemote, enter, spread, takenValue]
  exact key name h

/-- `num_cpus` and `resources` are never ignored: a value other than `None` makes the call of a function or the creation of an actor fail. -/
theorem C61_resources_refused_partial (b : Backend) (args : List Val) (kw : Kw) (hk : (kw.map (·.1)).Nodup) (hs : ∀ p ∈ kw, p.1 ≠ "self")
    (name : String) (hn : name = "num_cpus" ∨ name = "resources") (n : Nat) (hm : (name, .obj n) ∈ kw) :
    callBy b .function none args kw = .notImplemented ∧ callBy b .create none args kw = .notImplemented := by
  have ent : ∀ only : List String, enter ["self"] only kw =
      some (kw.filter (fun p => only.contains p.1), kw.filter (fun p => !only.contains p.1)) := by
    intro only
    have : (kw.any fun p => ["self"].contains p.1) = false := by
      rw [List.any_eq_false]
      intro p hp hc
      exact hs p hp (by simpa using hc)
    rw [enter, this]; rfl
  have val : ∀ only : List String, name ∈ only → takenValue (kw.filter (fun p => only.contains p.1)) name = .obj n := by
    intro only ho
    clear hs ent
    induction kw with
    | nil => simp at hm
    | cons p kw ih =>
      simp only [List.map_cons, List.nodup_cons] at hk
      rcases List.mem_cons.1 hm with rfl | hm
      · simp [takenValue, List.filter_cons, ho]
      · have hp : p.1 ≠ name := fun e => hk.1 (e ▸ List.mem_map.2 ⟨_, hm, rfl⟩)
        have := ih hk.2 hm
        simp only [takenValue] at this ⊢
        by_cases hpo : only.contains p.1 = true
        · simp only [List.filter_cons, hpo, if_true, List.find?_cons]
          rw [show (p.1 == name) = false by simpa using hp]
          exact this
        · simp only [List.filter_cons, hpo, if_false]
          simpa using this
  have hcreate : createRemote b args kw = .notImplemented := by
    simp only [createRemote, ent]
    rcases hn with rfl | rfl
    · rw [if_pos (by rw [val _ (by simp)]; simp)]
    · split
      · rfl
      · rw [if_pos (by rw [val _ (by simp)]; simp)]
  constructor
  · simp only [callBy, callDirect, functionRemote, ent]
    rcases hn with rfl | rfl
    · rw [if_pos (by rw [val _ (by simp)]; simp)]
    · split
      · rfl
      · rw [if_pos (by rw [val _ (by simp)]; simp)]
  · simp only [callBy, callDirect]
    have : enter ["self"] [] kw = some ([], kw) := enter_free fun p hp => ⟨by simpa using hs p hp, by simp⟩
    rw [this]
    exact hcreate

/-- Violation: the full claim does not hold; a parameter called `task` makes every call with it fail on MPI. -/
theorem C61_full_violated : ¬ C61_full := by
  intro h
  have := h .mpi .function none [] [("task", .obj 7)] (by simp)
  exact C61_reserved_violated .mpi .function none "task" (by simp [reserved]) [] _ this

example : callBy .mpi .function (some (.obj 2)) [.obj 1] [("x", .obj 5), ("y", .none)] =
      .delivered [.obj 1] [("x", .obj 5), ("y", .none)] (.obj 2) ∧
    callBy .pymp .method none [.obj 1] [("task", .obj 5)] = .delivered [.obj 1] [("task", .obj 5)] .none ∧
    callBy .mpi .function none [.obj 1] [("task", .obj 5)] = .typeError ∧
    callBy .pyseq .function none [] [("num_returns", .obj 2)] = .delivered [] [] (.obj 2) ∧
    callBy .mpi .create none [] [("owner_rank", .obj 2)] = .notSent ∧
    callBy .pymp .create none [] [("x", .obj 1), ("num_cpus", .obj 2)] = .notImplemented := by decide

/-! ## C63 -/

/-- The options that apply to the operation after `before`: none for a plain call, those of its own wrapper otherwise. -/
def ownOptions (before : List FnOp) : FnOp → Option Opts
  | .call => some ⟨none, none, none⟩
  | .options _ => none
  | .callWith i => (before.filterMap fun | .options o => some o | _ => none)[i]?

/-- What a call with these options on a function with this decorator gives. -/
def expected (deco own : Opts) : CallResult :=
  if own.cpus = none ∧ deco.cpus = none ∧ own.resources = none ∧ deco.resources = none then
    .submitted (match own.returns, deco.returns with | some n, _ => n | none, some n => n | none, none => 1)
  else .notImplemented

/-- The state of the remote function between operations. -/
theorem fn_run_inv (deco : Opts) (ops : List FnOp) : ∀ (before : List FnOp) (s : FnState),
    s.wrappers = (before.filterMap fun | .options o => some o | _ => none) →
    s.fn = { Fn.init deco with stored := s.fn.stored } → s.puts = s.fn.stored.toNat →
    (fnRun s ops).2 = ops.mapIdx (fun k op => (ownOptions (before ++ ops.take k) op).map (expected deco)) ∧
      (fnRun s ops).1.puts ≤ 1 := by
  induction ops with
  | nil =>
    intro before s _ _ hp
    refine ⟨rfl, ?_⟩
    simp only [fnRun]
    rw [hp]
    cases s.fn.stored <;> simp
  | cons op ops ih =>
    intro before s hw hf hp
    have hrem : ∀ o : Opts, (s.fn.remote o).2.1 = expected deco o ∧
        (s.fn.remote o).1 = { Fn.init deco with stored := (s.fn.remote o).1.stored } ∧
        s.puts + (s.fn.remote o).2.2.toNat = (s.fn.remote o).1.stored.toNat := by
      intro o
      rw [hp]
      generalize s.fn.stored = st at hf hp
      rw [hf]
      obtain ⟨oc, on, ores⟩ := o
      obtain ⟨dc, dn, dres⟩ := deco
      cases oc <;> cases dc <;> cases ores <;> cases dres <;> cases on <;> cases dn <;> cases st <;>
        simp [Fn.remote, Fn.init, expected]
    have hnext : ∃ s', fnStep s op = (s', (ownOptions before op).map (expected deco)) ∧
        s'.wrappers = ((before ++ [op]).filterMap fun | .options o => some o | _ => none) ∧
        s'.fn = { Fn.init deco with stored := s'.fn.stored } ∧ s'.puts = s'.fn.stored.toNat := by
      cases op with
      | call =>
        obtain ⟨h1, h2, h3⟩ := hrem ⟨none, none, none⟩
        refine ⟨⟨(s.fn.remote ⟨none, none, none⟩).1, s.wrappers,
          s.puts + (s.fn.remote ⟨none, none, none⟩).2.2.toNat⟩, ?_, ?_, h2, h3⟩
        · simp [fnStep, ownOptions, h1]
        · simp [hw]
      | options o => exact ⟨_, rfl, by simp [hw], hf, hp⟩
      | callWith i =>
        simp only [fnStep, ownOptions, ← hw]
        cases s.wrappers[i]? with
        | none => exact ⟨s, rfl, by simp [hw], hf, hp⟩
        | some o =>
          obtain ⟨h1, h2, h3⟩ := hrem o
          refine ⟨⟨(s.fn.remote o).1, s.wrappers, s.puts + (s.fn.remote o).2.2.toNat⟩, ?_, ?_, h2, h3⟩
          · simp [h1]
          · simp [hw]
    obtain ⟨s', e, g1, g2, g3⟩ := hnext
    have := ih (before ++ [op]) s' g1 g2 g3
    simp only [fnRun, e, List.mapIdx_cons, List.take_zero, List.append_nil, List.take_succ_cons]
    refine ⟨?_, this.2⟩
    rw [this.1]
    simp

/-- In every sequence of operations each call gives what its own options and the decorator give, independently of the other
calls. -/
theorem C63_own_options (deco : Opts) (ops : List FnOp) :
    (fnRun ⟨Fn.init deco, [], 0⟩ ops).2 =
      ops.mapIdx (fun k op => (ownOptions (ops.take k) op).map (expected deco)) := by
  have := (fn_run_inv deco ops [] ⟨Fn.init deco, [], 0⟩ rfl rfl rfl).1
  simpa using this

/-- The function itself is stored at most once, however many calls there are. -/
theorem C63_stored_once (deco : Opts) (ops : List FnOp) : (fnRun ⟨Fn.init deco, [], 0⟩ ops).1.puts ≤ 1 :=
  (fn_run_inv deco ops [] ⟨Fn.init deco, [], 0⟩ rfl rfl rfl).2

example : (fnRun ⟨Fn.init ⟨none, some 2, none⟩, [], 0⟩
      [.call, .options ⟨none, some 5, none⟩, .callWith 0, .call, .options ⟨some 1, none, none⟩, .callWith 1, .callWith 0]).2 =
    [some (.submitted 2), none, some (.submitted 5), some (.submitted 2), none, some .notImplemented, some (.submitted 5)] := by
  decide

/-! ## C64 -/

/-- The full claim: once a backend has been initialized, every later call uses it. -/
def C64_full : Prop :=
  ∀ (config : Name) (ops : List ApiOp) (i j : Nat) (b b' : Name) (x y : Shown),
    (apiRun (.start config) ops).2[i]? = some x → (apiRun (.start config) ops).2[j]? = some y → i ≤ j →
    x.initialized = some b → y.used = some b' → b' = b

/-- Violation: a function is decorated under the default backend, then another backend is selected and initialized; calls still go
to the first one, which is not initialized. -/
theorem C64_full_violated : ¬ C64_full := by
  intro h
  have := h .mpi [.use, .select .pyseq, .init true, .use] 2 3 .pyseq .mpi ⟨some .pyseq, none, false⟩ ⟨none, some .mpi, false⟩
    (by decide) (by decide) (by decide) rfl rfl
  cases this

/-- Violation: on Dask outside the main thread initialization fails with `UnboundLocalError`. -/
theorem C64_thread_violated : (apiRun (.start .dask) [.init false]).2 = [⟨none, none, true⟩] := by decide

/-- The proxy is fixed once it exists, and every call uses it. -/
theorem api_fixed (b : Name) (ops : List ApiOp) : ∀ p : Proc, p.proxy = some b →
    (apiRun p ops).1.proxy = some b ∧ ∀ x ∈ (apiRun p ops).2, ∀ b', x.used = some b' → b' = b := by
  induction ops with
  | nil => intro p hp; exact ⟨hp, by simp [apiRun]⟩
  | cons op ops ih =>
    intro p hp
    have hstep : (apiStep p op).1.proxy = some b ∧ ∀ b', (apiStep p op).2.used = some b' → b' = b := by
      cases op with
      | select c => exact ⟨hp, by simp [apiStep]⟩
      | init m =>
        simp only [apiStep, Proc.initBackend]
        by_cases hc : p.config = .dask ∧ m = false
        · simp [hc, hp]
        · simp [hc, Proc.instance, hp]
      | use => simp [apiStep, Proc.getProxy, Proc.instance, hp]
      | put m =>
        simp only [apiStep, Proc.getProxy, Proc.instance, hp, Option.getD_some]
        split
        · simp
        · simp only [Proc.initBackend]
          split
          · simp_all
          · rename_i r hr
            by_cases hc : p.config = .dask ∧ m = false
            · simp [hc] at hr
            · simp only [hc, if_false, Option.some.injEq] at hr
              subst hr
              simp [Proc.instance]
    have := ih _ hstep.1
    refine ⟨this.1, ?_⟩
    intro x hx b' hb
    simp only [apiRun, List.mem_cons] at hx
    rcases hx with rfl | hx
    · exact hstep.2 b' hb
    · exact this.2 x hx b' hb

/-- After one call or successful initialization the proxy is the backend that was shown. -/
theorem api_first (p : Proc) (op : ApiOp) (hn : p.proxy = none) (b : Name)
    (h : (apiStep p op).2.used = some b ∨ (apiStep p op).2.initialized = some b) :
    (apiStep p op).1.proxy = some b ∧ b = p.config := by
  cases op with
  | select c => simp [apiStep] at h
  | init m =>
    simp only [apiStep, Proc.initBackend] at h ⊢
    by_cases hc : p.config = .dask ∧ m = false
    · simp [hc] at h
    · simp [hc, Proc.instance, hn] at h ⊢
      exact ⟨h, h.symm⟩
  | use =>
    simp [apiStep, Proc.getProxy, Proc.instance, hn] at h ⊢
    exact ⟨h, h.symm⟩
  | put m =>
    simp only [apiStep, Proc.getProxy, Proc.instance, hn, Option.getD_none, Proc.initBackend] at h ⊢
    by_cases hr : (p.ready.contains p.config) = true
    · simp only [hr, if_true] at h ⊢
      simp at h
      exact ⟨congrArg some h, h.symm⟩
    · by_cases hc : p.config = .dask ∧ m = false
      · rw [if_neg hr, if_pos hc] at h
        simp at h
      · rw [if_neg hr, if_neg hc] at h ⊢
        simp at h ⊢
        exact ⟨h, h.symm⟩

/-- Partial: all calls of a process go to one backend, whatever is selected or initialized in between. Missing: that it is the
one that was initialized. -/
theorem C64_one_partial (config : Name) (ops : List ApiOp) (i j : Nat) (b b' : Name) (x y : Shown)
    (hx : (apiRun (.start config) ops).2[i]? = some x) (hy : (apiRun (.start config) ops).2[j]? = some y)
    (hi : x.used = some b) (hj : y.used = some b') : b' = b := by
  have key : ∀ (ops : List ApiOp) (p : Proc), ∃ b, ∀ x ∈ (apiRun p ops).2, ∀ b', x.used = some b' → b' = b := by
    intro ops
    induction ops with
    | nil => intro p; exact ⟨.mpi, by simp [apiRun]⟩
    | cons op ops ih =>
      intro p
      cases hp : (apiStep p op).1.proxy with
      | some b =>
        refine ⟨b, ?_⟩
        intro x hx b' hb
        simp only [apiRun, List.mem_cons] at hx
        rcases hx with rfl | hx
        · cases hq : p.proxy with
          | some c =>
            have := api_fixed c [op] p hq
            simp only [apiRun] at this
            rw [hp] at this
            have e := this.2 _ (List.mem_singleton.2 rfl) b' hb
            rw [e]; exact (Option.some.inj this.1).symm
          | none =>
            have := (api_first p op hq b' (Or.inl hb)).1
            rw [hp] at this
            exact (Option.some.inj this).symm
        · exact (api_fixed b ops _ hp).2 x hx b' hb
      | none =>
        obtain ⟨b, hb⟩ := ih (apiStep p op).1
        refine ⟨b, ?_⟩
        intro x hx b' hx'
        simp only [apiRun, List.mem_cons] at hx
        rcases hx with rfl | hx
        · cases hq : p.proxy with
          | some c =>
            have := api_fixed c [op] p hq
            simp only [apiRun] at this
            rw [hp] at this
            cases this.1
          | none =>
            have := (api_first p op hq b' (Or.inl hx')).1
            rw [hp] at this
            cases this
        · exact hb x hx b' hx'
  obtain ⟨c, hc⟩ := key ops (.start config)
  rw [hc y (List.mem_of_getElem? hy) b' hj, hc x (List.mem_of_getElem? hx) b hi]

/-- Partial: if initialization is the first thing a program does after selecting backends, every later call uses the backend it
initialized. Missing: programs that decorate or call something before. -/
theorem C64_init_first_partial (config : Name) (selected : List Name) (m : Bool) (rest : List ApiOp) (b : Name)
    (hb : b = selected.getLast?.getD config) (hm : b ≠ .dask ∨ m = true) :
    ∀ y ∈ (apiRun (.start config) (selected.map .select ++ .init m :: rest)).2, ∀ b', y.used = some b' → b' = b := by
  have key : ∀ (selected : List Name) (p : Proc), p.proxy = none → b = selected.getLast?.getD p.config →
      ∀ y ∈ (apiRun p (selected.map .select ++ .init m :: rest)).2, ∀ b', y.used = some b' → b' = b := by
    intro selected
    induction selected with
    | nil =>
      intro p hp hb y hy b' hb'
      simp only [List.map_nil, List.nil_append, apiRun, List.mem_cons] at hy
      have hc : ¬ (p.config = .dask ∧ m = false) := by
        simp at hb
        rw [← hb]
        rintro ⟨h1, h2⟩
        rcases hm with hm | hm
        · exact hm h1
        · rw [h2] at hm; cases hm
      rcases hy with rfl | hy
      · simp only [apiStep, Proc.initBackend, hc, if_false] at hb'
        cases hb'
      · refine (api_fixed b rest _ ?_).2 y hy b' hb'
        simp only [apiStep, Proc.initBackend, hc, if_false, Proc.instance, hp]
        simp at hb
        simp [hb]
    | cons c cs ih =>
      intro p hp hb y hy b' hb'
      simp only [List.map_cons, List.cons_append, apiRun, List.mem_cons] at hy
      rcases hy with rfl | hy
      · simp [apiStep] at hb'
      · refine ih (apiStep p (.select c)).1 hp ?_ y hy b' hb'
        rw [hb]
        cases cs with
        | nil => simp [apiStep]
        | cons d ds =>
          rw [List.getLast?_cons_cons, List.getLast?_eq_some_getLast (l := d :: ds) (by simp)]
          rfl
  exact key selected (.start config) rfl hb

example : (apiRun (.start .mpi) [.select .pymp, .init true, .select .ray, .use, .put true]).2 =
    [⟨none, none, false⟩, ⟨some .pymp, none, false⟩, ⟨none, none, false⟩, ⟨none, some .pymp, false⟩,
      ⟨none, some .pymp, false⟩] := by decide

/-- The backend that is selected when a program first calls something, decorates something, puts something or initializes with
success. -/
def firstSelected (config : Name) : List ApiOp → Name
  | [] => config
  | .select b :: ops => firstSelected b ops
  | .init m :: ops => if config = .dask ∧ m = false then firstSelected config ops else config
  | .use :: _ => config
  | .put _ :: _ => config

/-- Partial, exactly which backend it is: all calls of a process go to the backend that was selected at its first call, decoration,
put or successful initialization. Missing: that it is the one that was initialized. -/
theorem C64_which_partial (config : Name) (ops : List ApiOp) :
    ∀ y ∈ (apiRun (.start config) ops).2, ∀ b, y.used = some b → b = firstSelected config ops := by
  have key : ∀ (ops : List ApiOp) (p : Proc), p.proxy = none →
      ∀ y ∈ (apiRun p ops).2, ∀ b, y.used = some b → b = firstSelected p.config ops := by
    intro ops
    induction ops with
    | nil => intro p _ y hy; simp [apiRun] at hy
    | cons op ops ih =>
      intro p hp y hy b hb
      simp only [apiRun, List.mem_cons] at hy
      cases op with
      | select c =>
        rcases hy with rfl | hy
        · simp [apiStep] at hb
        · exact ih (apiStep p (.select c)).1 hp y hy b hb
      | init m =>
        simp only [firstSelected]
        by_cases hc : p.config = .dask ∧ m = false
        · rw [if_pos hc]
          rcases hy with rfl | hy
          · simp [apiStep, Proc.initBackend, hc] at hb
          · have e : (apiStep p (.init m)).1 = p := by simp [apiStep, Proc.initBackend, hc]
            rw [e] at hy
            exact ih p hp y hy b hb
        · rw [if_neg hc]
          rcases hy with rfl | hy
          · simp [apiStep, Proc.initBackend, hc] at hb
          · refine (api_fixed p.config ops _ ?_).2 y hy b hb
            simp [apiStep, Proc.initBackend, hc, Proc.instance, hp]
      | use =>
        simp only [firstSelected]
        rcases hy with rfl | hy
        · exact (api_first p .use hp b (Or.inl hb)).2
        · refine (api_fixed p.config ops _ ?_).2 y hy b hb
          simp [apiStep, Proc.getProxy, Proc.instance, hp]
      | put m =>
        simp only [firstSelected]
        rcases hy with rfl | hy
        · exact (api_first p (.put m) hp b (Or.inl hb)).2
        · refine (api_fixed p.config ops _ ?_).2 y hy b hb
          simp only [apiStep, Proc.getProxy, Proc.instance, hp, Option.getD_none, Proc.initBackend]
          split
          · rfl
          · split
            · rfl
            · rename_i r hr
              split at hr
              · cases hr
              · simp only [Option.some.injEq] at hr
                subst hr
                rfl
  exact key ops (.start config) rfl

/-- Initialization that fails outside the main thread fixes nothing; a decoration fixes the backend selected then. -/
example : (apiRun (.start .dask) [.init false, .select .pymp, .use, .select .ray, .init true, .use]).2.map (·.used) =
      [none, none, some .pymp, none, none, some .pymp] ∧
    firstSelected .dask [.init false, .select .pymp, .use, .select .ray, .init true, .use] = .pymp := by decide

/-- Partial, nothing goes unnoticed: an initialization or a put either raises, or initializes or uses a backend; calls and
selections never raise. Raising happens only outside the main thread with Dask selected. -/
theorem C64_noticed_partial (p : Proc) (op : ApiOp) :
    (∀ m, op = .init m → ((apiStep p op).2.failed = true ↔ (apiStep p op).2.initialized = none) ∧
      ((apiStep p op).2.failed = true ↔ m = false ∧ p.config = .dask)) ∧
    (∀ m, op = .put m → ((apiStep p op).2.failed = true ↔ (apiStep p op).2.used = none) ∧
      ((apiStep p op).2.failed = true → m = false ∧ p.config = .dask)) ∧
    (op = .use → (apiStep p op).2.failed = false ∧ (apiStep p op).2.used ≠ none) ∧
    (∀ b, op = .select b → (apiStep p op).2.failed = false) := by
  refine ⟨?_, ?_, ?_, ?_⟩
  · rintro m rfl
    simp only [apiStep, Proc.initBackend]
    by_cases h : p.config = .dask ∧ m = false
    · simp [h]
    · rw [if_neg h]; simp; exact fun e1 e2 => h ⟨e2, e1⟩
  · rintro m rfl
    simp only [apiStep]
    by_cases hr : p.getProxy.1.ready.contains p.getProxy.2 = true
    · rw [if_pos hr]; simp
    · rw [if_neg hr]
      have hc : p.getProxy.1.config = p.config := rfl
      by_cases h : p.config = .dask ∧ m = false
      · have hi : p.getProxy.1.initBackend m = none := by rw [Proc.initBackend, hc, if_pos h]
        rw [hi]; simp [h]
      · cases hi : p.getProxy.1.initBackend m with
        | none => rw [Proc.initBackend, hc, if_neg h] at hi; cases hi
        | some q => simp
  · rintro rfl; simp [apiStep]
  · rintro b rfl; rfl

example : (apiRun (.start .dask) [.use, .put false]).2 = [⟨none, some .dask, false⟩, ⟨none, none, true⟩] := by decide

end Verif.Props
