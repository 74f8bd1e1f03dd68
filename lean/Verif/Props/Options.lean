import Verif.Model.Options

/-! C143: options are honoured or refused. -/
namespace Verif.Props

open Verif.Options

/-- The effect is what the option says. -/
def OptHonoured (e : Effect) (name : String) (v : Nat) : Prop :=
  (name = "num_cpus" ∧ e.cpus = some v) ∨ (name = "resources" ∧ e.resources = some v) ∨ (name = "num_returns" ∧ e.returns = v)

/-- The keywords of the decorator of a call. -/
def optDeco : Ask → Kws
  | .function deco _ _ => deco
  | .create deco _ _ => deco
  | .method _ _ => []

/-- The keywords of `options` of a call. -/
def optGiven : Ask → Kws
  | .function _ _ opts => opts
  | .create _ _ opts => opts
  | .method _ opts => opts

/-- The positional arguments of `options` of a call. -/
def optPositional : Ask → List Nat
  | .function _ pos _ => pos
  | .create _ pos _ => pos
  | .method pos _ => pos

/-- The options that the signatures of `options` name. -/
def optNamed : Ask → List String
  | .function _ _ _ => ["num_cpus", "num_returns", "resources"]
  | .create _ _ _ => ["num_cpus", "resources"]
  | .method _ _ => ["num_returns"]

/-- The call with other keywords and positional arguments of `options`. -/
def optReplace : Ask → List Nat → Kws → Ask
  | .function deco _ _, pos, opts => .function deco pos opts
  | .create deco _ _, pos, opts => .create deco pos opts
  | .method _ _, pos, opts => .method pos opts

/-- C143: if a call is not refused, everything given by `options` is honoured, and what the decorator says is honoured unless `options` says
otherwise. -/
def C143_full : Prop :=
  ∀ (b : Backend) (a : Ask) (e : Effect), ((optGiven a).map (·.1)).Nodup → ((optDeco a).map (·.1)).Nodup → call b a = .ok e →
    optPositional a = [] ∧ (∀ n v, (n, v) ∈ optGiven a → OptHonoured e n v) ∧
      ∀ n v, (n, v) ∈ optDeco a → n ∉ (optGiven a).map (·.1) → OptHonoured e n v

private theorem value_mem {kw : Kws} {n : String} {v : Nat} (hk : (kw.map (·.1)).Nodup) (h : (n, v) ∈ kw) : value kw n = some v := by
  induction kw with
  | nil => simp at h
  | cons q kw ih =>
    simp only [List.map_cons, List.nodup_cons] at hk
    rcases List.mem_cons.1 h with rfl | h
    · simp [value]
    · have hq : q.1 ≠ n := fun e => hk.1 (e ▸ List.mem_map.2 ⟨_, h, rfl⟩)
      have := ih hk.2 h
      simpa [value, List.find?_cons, hq] using this

private theorem value_none {kw : Kws} {n : String} (h : n ∉ kw.map (·.1)) : value kw n = none := by
  have : kw.find? (fun p => p.1 == n) = none := by
    rw [List.find?_eq_none]
    intro q hq e
    exact h (List.mem_map.2 ⟨q, hq, by simpa using e⟩)
  simp [value, this]

/-- C143 (part): if a call is not refused, the options that the signature of `options` names are honoured, and so are those of the decorator unless
`options` says otherwise. Missing: other names and positional arguments. -/
theorem C143_named_partial (b : Backend) (a : Ask) (e : Effect) (ho : ((optGiven a).map (·.1)).Nodup) (hd : ((optDeco a).map (·.1)).Nodup)
    (h : call b a = .ok e) :
    (∀ n v, n ∈ optNamed a → (n, v) ∈ optGiven a → OptHonoured e n v) ∧
      ∀ n v, n ∈ optNamed a → (n, v) ∈ optDeco a → n ∉ (optGiven a).map (·.1) → OptHonoured e n v := by
  cases a with
  | method pos opts =>
    simp only [call] at h
    cases h
    refine ⟨fun n v hn hm => ?_, fun n v hn hm => ?_⟩
    · simp only [optNamed, List.mem_singleton] at hn
      subst hn
      exact .inr (.inr ⟨rfl, by simp only [optGiven] at ho hm; simp [value_mem ho hm]⟩)
    · simp [optDeco] at hm
  | function deco pos opts =>
    simp only [optGiven, optDeco, optNamed] at *
    refine ⟨fun n v hn hm => ?_, fun n v hn hm hno => ?_⟩
    · have hv := value_mem ho hm
      simp only [List.mem_cons, List.not_mem_nil, or_false] at hn
      rcases hn with rfl | rfl | rfl
      · cases b <;> simp [call, reserve, hv] at h <;> cases h
        exact .inl ⟨rfl, rfl⟩
      · simp only [call, hv] at h
        split at h
        · cases h
        · cases h; exact .inr (.inr ⟨rfl, rfl⟩)
      · cases b <;> simp [call, reserve, hv] at h
        · subst h; exact .inr (.inl ⟨rfl, rfl⟩)
        all_goals (split at h <;> simp_all)
    · have hv := value_mem hd hm
      have hnone := value_none hno
      simp only [List.mem_cons, List.not_mem_nil, or_false] at hn
      rcases hn with rfl | rfl | rfl
      · cases b <;> simp [call, reserve, hv, hnone] at h <;> cases h
        exact .inl ⟨rfl, rfl⟩
      · simp only [call, hv, hnone] at h
        split at h
        · cases h
        · cases h; exact .inr (.inr ⟨rfl, rfl⟩)
      · cases b <;> simp [call, reserve, hv, hnone] at h
        · subst h; exact .inr (.inl ⟨rfl, rfl⟩)
        all_goals (split at h <;> simp_all)
  | create deco pos opts =>
    simp only [optGiven, optDeco, optNamed] at *
    simp only [call] at h
    split at h
    · cases h
    · refine ⟨fun n v hn hm => ?_, fun n v hn hm hno => ?_⟩
      · have hv := value_mem ho hm
        simp only [List.mem_cons, List.not_mem_nil, or_false] at hn
        rcases hn with rfl | rfl
        · cases b <;> simp [reserve, hv] at h <;> cases h
          exact .inl ⟨rfl, rfl⟩
        · cases b <;> simp [reserve, hv] at h
          · subst h; exact .inr (.inl ⟨rfl, rfl⟩)
          all_goals (split at h <;> simp_all)
      · have hv := value_mem hd hm
        have hnone := value_none hno
        simp only [List.mem_cons, List.not_mem_nil, or_false] at hn
        rcases hn with rfl | rfl
        · cases b <;> simp [reserve, hv, hnone] at h <;> cases h
          exact .inl ⟨rfl, rfl⟩
        · cases b <;> simp [reserve, hv, hnone] at h
          · subst h; exact .inr (.inl ⟨rfl, rfl⟩)
          all_goals (split at h <;> simp_all)

example : call .ray (.function [("num_cpus", 2), ("num_returns", 3)] [] [("num_cpus", 5)]) = .ok ⟨some 5, none, 3⟩ ∧
    call .ray (.create [("resources", 2)] [] [("num_cpus", 0)]) = .ok ⟨some 0, some 2, 1⟩ := by
  simp [call, reserve, value]

/-- C143 (part), exactly: a call is refused if and only if it asks for CPUs or resources on another backend than Ray, or the decorator of a class gives a
number of results. -/
theorem C143_refused_exactly_partial (b : Backend) (a : Ask) :
    (∃ err, call b a = .error err) ↔
      (∃ deco pos opts, (a = .function deco pos opts ∨ a = .create deco pos opts) ∧ b ≠ .ray ∧
        ∃ n, (n = "num_cpus" ∨ n = "resources") ∧ (n ∈ deco.map (·.1) ∨ n ∈ opts.map (·.1))) ∨
      ∃ deco pos opts, a = .create deco pos opts ∧ "num_returns" ∈ deco.map (·.1) := by
  have some_iff : ∀ (kw : Kws) (n : String), (value kw n).isSome = true ↔ n ∈ kw.map (·.1) := by
    intro kw n
    constructor
    · intro h
      apply Classical.byContradiction
      intro hno
      rw [value_none hno] at h
      cases h
    · intro h
      obtain ⟨q, hq, rfl⟩ := List.mem_map.1 h
      simp only [value, Option.isSome_map]
      rw [List.find?_isSome]
      exact ⟨q, hq, by simp⟩
  have hres : ∀ deco opts, (∃ err, reserve b deco opts = .error err) ↔ b ≠ .ray ∧
      ∃ n, (n = "num_cpus" ∨ n = "resources") ∧ (n ∈ deco.map (·.1) ∨ n ∈ opts.map (·.1)) := by
    intro deco opts
    have hcond : (∃ n, (n = "num_cpus" ∨ n = "resources") ∧ (n ∈ deco.map (·.1) ∨ n ∈ opts.map (·.1))) ↔
        ((value opts "num_cpus").isSome = true ∨ (value deco "num_cpus").isSome = true) ∨
          ((value opts "resources").isSome = true ∨ (value deco "resources").isSome = true) := by
      simp only [some_iff]
      constructor
      · rintro ⟨n, rfl | rfl, h | h⟩
        · exact .inl (.inr h)
        · exact .inl (.inl h)
        · exact .inr (.inr h)
        · exact .inr (.inl h)
      · rintro ((h | h) | (h | h))
        · exact ⟨_, .inl rfl, .inr h⟩
        · exact ⟨_, .inl rfl, .inl h⟩
        · exact ⟨_, .inr rfl, .inr h⟩
        · exact ⟨_, .inr rfl, .inl h⟩
    rw [hcond]
    cases b <;> simp only [reserve] <;> first
      | (simp; done)
      | (split
         · rename_i h1; simp [h1]
         · rename_i h1
           split
           · rename_i h2; simp [h2]
           · rename_i h2; simp [h1, h2])
  cases a with
  | method pos opts => simp [call]
  | function deco pos opts =>
    have : (∃ err, call b (.function deco pos opts) = .error err) ↔ ∃ err, reserve b deco opts = .error err := by
      simp only [call]
      cases reserve b deco opts <;> simp
    rw [this, hres]
    constructor
    · rintro ⟨h1, h2⟩; exact .inl ⟨deco, pos, opts, .inl rfl, h1, h2⟩
    · rintro (⟨d, q, o, h | h, h1, h2⟩ | ⟨d, q, o, h, _⟩)
      · cases h; exact ⟨h1, h2⟩
      · cases h
      · cases h
  | create deco pos opts =>
    have : (∃ err, call b (.create deco pos opts) = .error err) ↔ (∃ err, reserve b deco opts = .error err) ∨ "num_returns" ∈ deco.map (·.1) := by
      rw [← some_iff]
      simp only [call]
      cases hv : (value deco "num_returns").isSome
      · cases reserve b deco opts <;> simp
      · simp
    rw [this, hres]
    constructor
    · rintro (⟨h1, h2⟩ | h)
      · exact .inl ⟨deco, pos, opts, .inr rfl, h1, h2⟩
      · exact .inr ⟨deco, pos, opts, rfl, h⟩
    · rintro (⟨d, q, o, h | h, h1, h2⟩ | ⟨d, q, o, h, h1⟩)
      · cases h
      · cases h; exact .inl ⟨h1, h2⟩
      · cases h; exact .inr h1

example : call .mpi (.function [("num_cpus", 2)] [] []) = .error .notImplemented ∧ call .mpi (.create [("num_returns", 2)] [] []) = .error .typeError ∧
    call .dask (.create [] [] [("resources", 1)]) = .error .notImplemented := by
  simp [call, reserve, value]

/-- C143 (part): a call that is not refused has no effects that nobody asked for: nothing is reserved, and there is one result. -/
theorem C143_default_partial (b : Backend) (a : Ask) (e : Effect) (h : call b a = .ok e) :
    ("num_cpus" ∉ (optGiven a).map (·.1) → "num_cpus" ∉ (optDeco a).map (·.1) → e.cpus = none) ∧
      ("resources" ∉ (optGiven a).map (·.1) → "resources" ∉ (optDeco a).map (·.1) → e.resources = none) ∧
      ("num_returns" ∉ (optGiven a).map (·.1) → "num_returns" ∉ (optDeco a).map (·.1) → e.returns = 1) := by
  have hres : ∀ deco opts c r, reserve b deco opts = .ok (c, r) →
      ("num_cpus" ∉ opts.map (·.1) → "num_cpus" ∉ deco.map (·.1) → c = none) ∧ ("resources" ∉ opts.map (·.1) → "resources" ∉ deco.map (·.1) → r = none) := by
    intro deco opts c r h
    cases b <;> simp only [reserve] at h <;> first
      | (cases h
         exact ⟨fun h1 h2 => by rw [value_none h1, value_none h2]; rfl, fun h1 h2 => by rw [value_none h1, value_none h2]; rfl⟩)
      | (split at h
         · cases h
         · split at h
           · cases h
           · cases h; exact ⟨fun _ _ => rfl, fun _ _ => rfl⟩)
  cases a with
  | method pos opts =>
    simp only [call] at h
    cases h
    exact ⟨fun _ _ => rfl, fun _ _ => rfl, fun h1 _ => by
      have h1 : "num_returns" ∉ opts.map (·.1) := h1
      simp [value_none h1]⟩
  | function deco pos opts =>
    simp only [call] at h
    split at h
    · cases h
    · rename_i c r hr
      cases h
      exact ⟨(hres deco opts c r hr).1, (hres deco opts c r hr).2, fun h1 h2 => by
        have h1 : "num_returns" ∉ opts.map (·.1) := h1
        have h2 : "num_returns" ∉ deco.map (·.1) := h2
        simp [value_none h1, value_none h2]⟩
  | create deco pos opts =>
    simp only [call] at h
    split at h
    · cases h
    · split at h
      · cases h
      · rename_i c r hr
        cases h
        exact ⟨(hres deco opts c r hr).1, (hres deco opts c r hr).2, fun _ _ => rfl⟩

example : call .pymp (.function [] [] []) = .ok ⟨none, none, 1⟩ ∧ call .ray (.create [] [] [("num_cpus", 4)]) = .ok ⟨some 4, none, 1⟩ := by
  simp [call, reserve, value]

private theorem value_filter (kw : Kws) (n m : String) (h : n ≠ m) : value (kw.filter fun p => p.1 != m) n = value kw n := by
  have : (fun p : String × Nat => decide ((p.1 != m) = true ∧ (p.1 == n) = true)) = fun p => p.1 == n := by
    funext p
    by_cases hp : p.1 = n
    · simp [hp, h]
    · have : (p.1 == n) = false := by simp [hp]
      simp [this]
  unfold value
  rw [List.find?_filter]
  exact congrArg (fun g => (kw.find? g).map (·.2)) this

/-- On every backend, positional arguments of `options` and all names that its signature does not have are dropped without a word: the call does what it
does without them. -/
theorem C143_dropped_violated (b : Backend) (a : Ask) (n : String) (hn : n ∉ optNamed a) :
    call b (optReplace a [] ((optGiven a).filter fun p => p.1 != n)) = call b a := by
  cases a with
  | method pos opts =>
    simp only [optNamed, List.mem_singleton] at hn
    simp only [optReplace, optGiven, call, value_filter opts "num_returns" n (Ne.symm hn)]
  | function deco pos opts =>
    simp only [optNamed, List.mem_cons, List.not_mem_nil, or_false, not_or] at hn
    simp only [optReplace, optGiven, call, reserve, value_filter opts _ n (Ne.symm hn.1), value_filter opts _ n (Ne.symm hn.2.1),
      value_filter opts _ n (Ne.symm hn.2.2)]
  | create deco pos opts =>
    simp only [optNamed, List.mem_cons, List.not_mem_nil, or_false, not_or] at hn
    simp only [optReplace, optGiven, call, reserve, value_filter opts _ n (Ne.symm hn.1), value_filter opts _ n (Ne.symm hn.2)]

example : call .mpi (.function [] [3] [("num_return", 2)]) = .ok ⟨none, none, 1⟩ ∧ call .mpi (.method [] [("num_cpus", 2)]) = .ok ⟨none, none, 1⟩ := by
  simp [call, reserve, value]

/-- The same for unknown names in the decorator. -/
theorem C143_decorator_violated (b : Backend) (deco opts : Kws) (pos : List Nat) (n : String) (h1 : n ≠ "num_cpus") (h2 : n ≠ "num_returns")
    (h3 : n ≠ "resources") :
    call b (.function (deco.filter fun p => p.1 != n) pos opts) = call b (.function deco pos opts) ∧
      call b (.create (deco.filter fun p => p.1 != n) pos opts) = call b (.create deco pos opts) := by
  simp only [call, reserve, value_filter deco _ n h1.symm, value_filter deco _ n h2.symm, value_filter deco _ n h3.symm, and_self]

example : call .ray (.function [("num_gpus", 2)] [] []) = .ok ⟨none, none, 1⟩ ∧ call .mpi (.create [("max_restarts", 2)] [] []) = .ok ⟨none, none, 1⟩ := by
  simp [call, reserve, value]

/-- A method refuses nothing: CPUs and resources that a function refuses are dropped, on every backend. -/
theorem C143_method_violated (b : Backend) (n v : Nat) :
    call b (.method [] [("num_cpus", n), ("resources", v)]) = .ok ⟨none, none, 1⟩ := by
  simp [call, value]

example : call .mpi (.function [] [] [("num_cpus", 2), ("resources", 1)]) = .error .notImplemented := by
  simp [call, reserve, value]

/-- C143 is violated. -/
theorem C143_violated : ¬ C143_full := by
  intro h
  have := (h .mpi (.function [] [] [("num_return", 2)]) ⟨none, none, 1⟩ (by decide) (by decide) (by simp [call, reserve, value])).2.1 "num_return" 2 (by simp [optGiven])
  simp [OptHonoured] at this

example : call .mpi (.function [] [] [("num_return", 2)]) = .ok ⟨none, none, 1⟩ := by
  simp [call, reserve, value]

end Verif.Props
