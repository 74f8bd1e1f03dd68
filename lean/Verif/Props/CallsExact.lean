import Verif.Model.CallsLib
import Verif.Props.Calls

/-! Which keyword names arrive, exactly, and the backends that pass the arguments on to a library. -/
namespace Verif.Props
open Verif.Calls

/-! ## C61 -/

/-- What is left after the call of a function has none of its names. -/
theorem enter_out {params only : List String} {kw t kw' : Kw} (h : enter params only kw = some (t, kw')) :
    ∀ p ∈ kw', p ∈ kw ∧ p.1 ∉ params ∧ p.1 ∉ only := by
  unfold enter at h
  split at h
  · simp at h
  · rename_i hn
    simp only [Option.some.injEq, Prod.mk.injEq] at h
    obtain ⟨-, rfl⟩ := h
    intro p hp
    obtain ⟨hp, ho⟩ := List.mem_filter.1 hp
    refine ⟨hp, fun hc => hn ?_, by simpa using ho⟩
    exact List.any_eq_true.2 ⟨p, hp, by simpa using hc⟩

/-- A call expression with other names does not change the keywords. -/
theorem spread_out {names : List String} {kw kw' : Kw} (h : spread names kw = some kw') :
    kw' = kw ∧ ∀ p ∈ kw, p.1 ∉ names := by
  unfold spread at h
  split at h
  · simp at h
  · rename_i hn
    simp only [Option.some.injEq] at h
    refine ⟨h.symm, fun p hp hc => hn (List.any_eq_true.2 ⟨p, hp, by simpa using hc⟩)⟩

/-- Whatever arrives was given and has no reserved name: what is lost is lost for good. -/
theorem call_arrives (b : Backend) (c : Callee) (opts : Option Val) (args got : List Val) (kw kw' : Kw) (returns : Val)
    (h : callBy b c opts args kw = .delivered got kw' returns) : got = args ∧ ∀ p ∈ kw', p ∈ kw ∧ p.1 ∉ reserved b c := by
  cases opts <;> cases c <;> cases b <;>
    simp only [callBy, callDirect, callOptions, functionRemote, methodRemote, createRemote] at h <;>
    (repeat' split at h) <;> try (cases h; done)
  all_goals
    simp only [Sent.delivered.injEq] at h
    obtain ⟨rfl, rfl, -⟩ := h
    refine ⟨rfl, fun p hp => ?_⟩
    grind [→ enter_out, → spread_out, reserved]

/-- Partial: exactly which calls work. The user's code gets the arguments unchanged if and only if no keyword has a reserved name,
for all argument lists, with and without options. Missing: the reserved names. -/
theorem C61_exact_partial (b : Backend) (c : Callee) (opts : Option Val) (args : List Val) (kw : Kw) :
    (∃ returns, callBy b c opts args kw = .delivered args kw returns) ↔ ∀ p ∈ kw, p.1 ∉ reserved b c :=
  ⟨fun ⟨r, h⟩ p hp => ((call_arrives b c opts args args kw kw r h).2 p hp).2,
    fun h => ⟨_, C61_other_names_partial b c opts args kw h⟩⟩

/-- What arrives was given by the user: no argument is invented or renamed, and positional arguments are never touched. -/
theorem C61_nothing_invented (b : Backend) (c : Callee) (opts : Option Val) (args got : List Val) (kw kw' : Kw) (returns : Val)
    (h : callBy b c opts args kw = .delivered got kw' returns) : got = args ∧ ∀ p ∈ kw', p ∈ kw :=
  ⟨(call_arrives b c opts args got kw kw' returns h).1, fun p hp => ((call_arrives b c opts args got kw kw' returns h).2 p hp).1⟩

example : (∃ returns, callBy .pymp .create (some (.obj 2)) [.obj 1] [("task", .obj 5), ("x", .none)] =
      .delivered [.obj 1] [("task", .obj 5), ("x", .none)] returns) ∧
    ¬ ∃ returns, callBy .pymp .create none [.obj 1] [("x", .none), ("cls", .obj 5)] =
      .delivered [.obj 1] [("x", .none), ("cls", .obj 5)] returns := by
  rw [C61_exact_partial, C61_exact_partial]
  decide

/-! ### Dask and Ray -/

/-- A call with or without options on Dask or Ray. -/
def libCallBy (b : LibBackend) (lib : LibCall) (c : Callee) (opts : Option Val) (args : List Val) (kw : Kw) : Sent :=
  match opts with
  | none => libDirect b lib c args kw
  | some r => libOptions b lib c r args kw

/-- Names taken by unidist itself on these backends, whatever the library does. -/
def reservedHere : LibBackend → Callee → List String
  | .dask, .function => ["self", "num_cpus", "num_returns", "resources", "pure"]
  | .dask, .method => ["self", "num_returns", "pure", "actor_cls", "method"]
  | .dask, .create => ["self", "num_cpus", "resources", "actor"]
  | .ray, .function => ["self", "num_cpus", "num_returns", "resources"]
  | .ray, .method => ["self", "num_returns"]
  | .ray, .create => ["self", "num_cpus", "resources"]

/-- Whatever arrives was given and has no name of unidist or of the library. -/
theorem lib_call_arrives (b : LibBackend) (lib : LibCall) (c : Callee) (opts : Option Val) (args got : List Val) (kw kw' : Kw)
    (returns : Val) (h : libCallBy b lib c opts args kw = .delivered got kw' returns) :
    got = args ∧ ∀ p ∈ kw', p ∈ kw ∧ p.1 ∉ reservedHere b c ∧ p.1 ∉ lib.params ∧ p.1 ∉ lib.only := by
  cases opts <;> cases c <;> cases b <;>
    simp only [libCallBy, libDirect, libOptions, libFunction, libMethod, libCreate] at h <;>
    (repeat' split at h) <;> try (cases h; done)
  all_goals
    simp only [Sent.delivered.injEq] at h
    obtain ⟨rfl, rfl, -⟩ := h
    refine ⟨rfl, fun p hp => ?_⟩
    grind [→ enter_out, → spread_out, reservedHere]

/-- Names that neither unidist nor the library takes arrive. -/
theorem lib_call_free (b : LibBackend) (lib : LibCall) (c : Callee) (opts : Option Val) (args : List Val) (kw : Kw)
    (h : ∀ p ∈ kw, p.1 ∉ reservedHere b c ∧ p.1 ∉ lib.params ∧ p.1 ∉ lib.only) :
    libCallBy b lib c opts args kw = .delivered args kw (askedFor c opts) := by
  have free : ∀ params only : List String, (∀ x ∈ params, x ∈ reservedHere b c) → (∀ x ∈ only, x ∈ reservedHere b c) →
      enter params only kw = some ([], kw) := fun params only hp ho =>
    enter_free fun p hk => ⟨fun hc => (h p hk).1 (hp _ hc), fun hc => (h p hk).1 (ho _ hc)⟩
  have flib : enter lib.params lib.only kw = some ([], kw) := enter_free fun p hk => (h p hk).2
  have taken : ∀ (params only : List String) (o : Kw), (∀ x ∈ params, x ∈ reservedHere b c) → (∀ x ∈ only, x ∈ reservedHere b c) →
      (∀ p ∈ o, p.1 ∉ params ∧ p.1 ∈ only) → enter params only (o ++ kw) = some (o, kw) := fun params only o hp ho hk =>
    enter_taken hk fun p hk => ⟨fun hc => (h p hk).1 (hp _ hc), fun hc => (h p hk).1 (ho _ hc)⟩
  have spr : ∀ names : List String, (∀ x ∈ names, x ∈ reservedHere b c) → spread names kw = some kw := fun names hn =>
    spread_free fun p hk hc => (h p hk).1 (hn _ hc)
  have hself := free ["self"] [] (by cases b <;> cases c <;> simp [reservedHere]) (by simp)
  cases c with
  | function =>
    have h1 := free ["self"] ["num_cpus", "num_returns", "resources"] (by cases b <;> simp [reservedHere])
      (by cases b <;> simp [reservedHere])
    have h2 := spr ["num_cpus", "num_returns", "resources"] (by cases b <;> simp [reservedHere])
    have h3 : b = .dask → spread ["pure"] kw = some kw := fun hb => spr _ (by subst hb; simp [reservedHere])
    cases opts with
    | none => cases b <;> simp [libCallBy, libDirect, libFunction, askedFor, h1, flib, takenValue, h3]
    | some r =>
      have e := taken ["self"] ["num_cpus", "num_returns", "resources"]
        [("num_cpus", .none), ("num_returns", r), ("resources", .none)] (by cases b <;> simp [reservedHere])
        (by cases b <;> simp [reservedHere]) (by simp)
      simp only [List.cons_append, List.nil_append] at e
      cases b <;> simp [libCallBy, libOptions, libFunction, askedFor, hself, h2, e, flib, takenValue, h3]
  | method =>
    have h1 := free ["self"] ["num_returns"] (by cases b <;> simp [reservedHere]) (by cases b <;> simp [reservedHere])
    have h2 := spr ["num_returns"] (by cases b <;> simp [reservedHere])
    have h3 : b = .dask → spread ["pure"] kw = some kw := fun hb => spr _ (by subst hb; simp [reservedHere])
    have h4 : b = .dask → enter ["actor_cls", "method"] [] kw = some ([], kw) := fun hb =>
      free _ _ (by subst hb; simp [reservedHere]) (by simp)
    cases opts with
    | none => cases b <;> simp [libCallBy, libDirect, libMethod, askedFor, hself, h1, flib, takenValue, h3, h4]
    | some r =>
      have e := taken ["self"] ["num_returns"] [("num_returns", r)] (by cases b <;> simp [reservedHere])
        (by cases b <;> simp [reservedHere]) (by simp)
      simp only [List.cons_append, List.nil_append] at e
      cases b <;> simp [libCallBy, libOptions, libMethod, askedFor, hself, h2, e, flib, takenValue, h3, h4]
  | create =>
    have h1 := free ["self"] ["num_cpus", "resources"] (by cases b <;> simp [reservedHere]) (by cases b <;> simp [reservedHere])
    have h2 := spr ["num_cpus", "resources"] (by cases b <;> simp [reservedHere])
    have h3 : b = .dask → spread ["actor"] kw = some kw := fun hb => spr _ (by subst hb; simp [reservedHere])
    cases opts with
    | none => cases b <;> simp [libCallBy, libDirect, libCreate, askedFor, hself, h1, flib, takenValue, h3]
    | some r =>
      have e := taken ["self"] ["num_cpus", "resources"] [("num_cpus", .none), ("resources", .none)]
        (by cases b <;> simp [reservedHere]) (by cases b <;> simp [reservedHere]) (by simp)
      simp only [List.cons_append, List.nil_append] at e
      cases b <;> simp [libCallBy, libOptions, libCreate, askedFor, hself, h2, e, flib, takenValue, h3]

/-- Partial: Dask and Ray, whatever names the functions of the library take. The user's code gets the arguments unchanged, and
with the number of results asked for, if and only if no keyword has a name taken by unidist or by the library. Missing: those
names. -/
theorem C61_library_partial (b : LibBackend) (lib : LibCall) (c : Callee) (opts : Option Val) (args : List Val) (kw : Kw) :
    libCallBy b lib c opts args kw = .delivered args kw (askedFor c opts) ↔
      ∀ p ∈ kw, p.1 ∉ reservedHere b c ∧ p.1 ∉ lib.params ∧ p.1 ∉ lib.only :=
  ⟨fun h p hp => ((lib_call_arrives b lib c opts args args kw kw _ h).2 p hp).2, lib_call_free b lib c opts args kw⟩

/-- Violation: on Dask a function with a parameter `pure`, and a method with a parameter `method`, cannot be called with it by
keyword even if the library took no name at all. -/
theorem C61_library_violated : ¬ ∀ (b : LibBackend) (c : Callee) (opts : Option Val) (args : List Val) (kw : Kw),
    (kw.map (·.1)).Nodup → libCallBy b ⟨[], []⟩ c opts args kw = .delivered args kw (askedFor c opts) := fun h =>
  absurd (h .dask .method none [] [("method", .obj 7)] (by simp)) (by decide)

/-- The same name is passed on by one backend and lost on another: a program that works on MPI fails on Dask. -/
example : callBy .mpi .function none [.obj 1] [("pure", .obj 2)] = .delivered [.obj 1] [("pure", .obj 2)] .none ∧
    libCallBy .ray ⟨["self"], []⟩ .function none [.obj 1] [("pure", .obj 2)] = .delivered [.obj 1] [("pure", .obj 2)] .none ∧
    libCallBy .dask ⟨["self", "func"], ["key", "workers", "pure"]⟩ .function none [.obj 1] [("pure", .obj 2)] = .typeError ∧
    libCallBy .dask ⟨["self", "func"], ["key", "workers", "pure"]⟩ .function none [.obj 1] [("key", .obj 2)] =
      .delivered [.obj 1] [] .none ∧
    libCallBy .dask ⟨["self", "func"], ["key", "workers", "pure"]⟩ .method (some (.obj 3)) [.obj 1] [("x", .obj 2)] =
      .delivered [.obj 1] [("x", .obj 2)] (.obj 3) := by decide

/-- Dask does not support `num_cpus` and `resources`: a call that gives one of them a value is refused, it is never run as if the
keyword had not been given. -/
theorem C61_refused_partial (lib : LibCall) (c : Callee) (opts : Option Val) (args : List Val) (kw : Kw) (name : String) (v : Val)
    (hc : c ≠ .method) (hd : (kw.map (·.1)).Nodup) (hn : name = "num_cpus" ∨ name = "resources") (hv : v ≠ .none) (hk : (name, v) ∈ kw) :
    ∀ got kw' returns, libCallBy .dask lib c opts args kw ≠ .delivered got kw' returns := by
  intro got kw' returns h
  have hfind : ∀ only : List String, name ∈ only → takenValue (kw.filter (fun p => only.contains p.1)) name = v := by
    intro only ho
    have hm : (name, v) ∈ kw.filter (fun p => only.contains p.1) := List.mem_filter.2 ⟨hk, by simpa using ho⟩
    have hd' : ((kw.filter (fun p => only.contains p.1)).map (·.1)).Nodup := (List.filter_sublist.map _).nodup hd
    generalize kw.filter (fun p => only.contains p.1) = l at hm hd'
    simp only [takenValue]
    induction l with
    | nil => simp at hm
    | cons q l ih =>
      simp only [List.map_cons, List.nodup_cons] at hd'
      simp only [List.find?_cons]
      by_cases e : q.1 = name
      · rcases List.mem_cons.1 hm with hm | hm
        · simp [← hm]
        · exact absurd (List.mem_map.2 ⟨_, hm, rfl⟩) (e ▸ hd'.1)
      · rcases List.mem_cons.1 hm with hm | hm
        · exact absurd (by rw [← hm]) e
        · simp only [beq_eq_false_iff_ne.2 e]
          exact ih hm hd'.2
  have hspr : ∀ names : List String, name ∈ names → spread names kw = none := by
    intro names hin
    simp only [spread]
    rw [if_pos (List.any_eq_true.2 ⟨_, hk, by simpa using hin⟩)]
  have hself : enter ["self"] [] kw = none ∨ enter ["self"] [] kw = some ([], kw) := by
    simp only [enter]
    split
    · exact Or.inl rfl
    · right; simp
  cases opts with
  | none =>
    cases c with
    | method => exact hc rfl
    | function =>
      have hf := hfind ["num_cpus", "num_returns", "resources"] (by rcases hn with rfl | rfl <;> simp)
      simp only [libCallBy, libDirect, libFunction, enter] at h
      grind
    | create =>
      have hf := hfind ["num_cpus", "resources"] (by rcases hn with rfl | rfl <;> simp)
      simp only [libCallBy, libDirect] at h
      rcases hself with e | e <;> simp only [e] at h
      · cases h
      simp only [libCreate, enter] at h
      grind
  | some r =>
    cases c with
    | method => exact hc rfl
    | function =>
      simp only [libCallBy, libOptions] at h
      rcases hself with e | e <;> simp only [e] at h
      · cases h
      · rw [hspr _ (by rcases hn with rfl | rfl <;> simp)] at h; cases h
    | create =>
      simp only [libCallBy, libOptions] at h
      rcases hself with e | e <;> simp only [e] at h
      · cases h
      · rw [hspr _ (by rcases hn with rfl | rfl <;> simp)] at h; cases h

example : libCallBy .dask ⟨["self", "func"], ["key"]⟩ .create none [] [("x", .obj 1), ("resources", .obj 2)] = .notImplemented ∧
    libCallBy .dask ⟨["self", "func"], ["key"]⟩ .create none [] [("x", .obj 1), ("resources", .none)] =
      .delivered [] [("x", .obj 1)] .none := by decide

end Verif.Props
