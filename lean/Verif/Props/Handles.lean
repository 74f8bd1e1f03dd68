import Verif.Model.Handles
import Mathlib.Tactic.Tauto
import Mathlib.Tactic.ByContra
/-!
# C101, C102: handles of actors
-/
namespace Verif.Props
open Verif.Calls (Kw Val Backend enter takenValue)
open Verif.Handles

/-! ## C101: every method can be called through a handle -/

/-- Full statement of C101: on every modelled backend, calling a method the class defines through a handle runs that method. (Names that
begin with two underscores are left out.) -/
def C101_full : Prop :=
  ∀ (b : Backend) (ms : List String) (m : String), (∀ t, m ≠ "__" ++ t) → m ∈ ms → callMethod b ms m = .runs m

/-- C101 is violated on the multiprocessing backend: a method called `submit` is not reached, because the native actor has a method of
that name. -/
theorem C101_submit_violated : ¬ C101_full := fun h => by
  have := h .pymp ["submit"] "submit" (fun t e => by simpa using congrArg (fun s => s.toList.head?) e) (by simp)
  revert this; decide +kernel

/-- C101 is violated on MPI: a method called `actor_methods` is not reached, because the native actor keeps its cache under that name. -/
theorem C101_actor_methods_violated : ¬ C101_full := fun h => by
  have := h .mpi ["actor_methods"] "actor_methods" (fun t e => by simpa using congrArg (fun s => s.toList.head?) e) (by simp)
  revert this; decide +kernel

/-- C101 is violated on the multiprocessing backend for methods whose names begin with an underscore: the caller gets an
`AttributeError`, while the same program runs on MPI and on the sequential backend. -/
theorem C101_private_violated : ¬ C101_full ∧ callMethod .mpi ["_step"] "_step" = .runs "_step" ∧
    callMethod .pyseq ["_step"] "_step" = .runs "_step" := by
  refine ⟨fun h => ?_, by decide +kernel, by decide +kernel⟩
  have := h .pymp ["_step"] "_step" (fun t e => by
    have := congrArg (fun s => s.toList[1]?) e
    simp at this) (by simp)
  revert this; decide +kernel

/-- The names of the handles do not begin with an underscore only for `actor_methods` and `submit`. -/
theorem handle_names_private (b : Backend) (m : String) (hp : m.toList.head? ≠ some '_') :
    frontNames.contains m = false ∧ backendNames.contains m = false ∧
    ((nativeNames b).contains m = true ↔ (b = .mpi ∧ m = "actor_methods") ∨ (b = .pymp ∧ m = "submit")) := by
  refine ⟨?_, ?_, ?_⟩
  · rw [← Bool.not_eq_true, List.contains_iff_mem]
    intro h
    simp only [frontNames, List.mem_cons, List.not_mem_nil, or_false] at h
    rcases h with h | h | h <;> subst h <;> exact hp (by decide +kernel)
  · rw [← Bool.not_eq_true, List.contains_iff_mem]
    intro h
    simp only [backendNames, List.mem_cons, List.not_mem_nil, or_false] at h
    rcases h with h | h | h | h | h | h | h <;> subst h <;> exact hp (by decide +kernel)
  · rw [List.contains_iff_mem]
    cases b <;> simp only [nativeNames, List.mem_cons, List.not_mem_nil, or_false, true_and, false_and, reduceCtorEq, or_false, false_or]
    · constructor
      · intro h
        rcases h with h | h | h | h | h | h | h | h
        all_goals first | exact h | (subst h; exact absurd (by decide +kernel) hp)
      · intro h; simp [h]
    · constructor
      · intro h
        rcases h with h | h | h | h | h
        all_goals first | exact h | (subst h; exact absurd (by decide +kernel) hp)
      · intro h; simp [h]

/-- C101 as far as it holds, for names that do not begin with an underscore: the method runs if and only if the class defines it and it
is not one of the two names taken by a native actor. -/
theorem C101_public_names_partial (b : Backend) (ms : List String) (m : String) (hp : m.toList.head? ≠ some '_') :
    callMethod b ms m = .runs m ↔ m ∈ ms ∧ ¬ (b = .mpi ∧ m = "actor_methods") ∧ ¬ (b = .pymp ∧ m = "submit") := by
  obtain ⟨h1, h2, h3⟩ := handle_names_private b m hp
  have hq : isPrivate m = false := by
    unfold isPrivate
    simpa using hp
  unfold callMethod
  simp only [h1, h2, Bool.false_eq_true, if_false]
  by_cases hn : (nativeNames b).contains m = true
  · rw [if_pos hn]
    have := h3.1 hn
    constructor
    · intro h; exact absurd h (by simp)
    · rintro ⟨_, a, c⟩; rcases this with h | h
      · exact absurd h a
      · exact absurd h c
  · rw [if_neg hn]
    have hno : ¬ (b = .mpi ∧ m = "actor_methods") ∧ ¬ (b = .pymp ∧ m = "submit") :=
      ⟨fun h => hn (h3.2 (.inl h)), fun h => hn (h3.2 (.inr h))⟩
    simp only [hno, not_false_eq_true, and_true]
    cases b <;> simp only [atObject, hq, Bool.not_false, Bool.and_true, List.contains_iff_mem] <;> by_cases hm : m ∈ ms <;> simp [hm]

/-- C101 as far as it holds, for names that begin with one underscore, on MPI and on the sequential backend: the method runs if the class
defines it, unless the name is one of those used inside the handles. -/
theorem C101_private_names_partial (b : Backend) (hb : b ≠ .pymp) (ms : List String) (m : String) (hm : m ∈ ms) (hne : m ≠ "actor_methods")
    (hn : m ∉ ["_actor_cls", "_serialization_helper", "_deserialization_helper", "_cls", "_num_cpus", "_resources", "_actor_handle", "_remote",
      "_args", "_kwargs", "_owner_rank", "_handler_id"]) :
    callMethod b ms m = .runs m := by
  simp only [List.mem_cons, List.not_mem_nil, or_false, not_or] at hn
  unfold callMethod
  cases b <;> simp_all [frontNames, backendNames, nativeNames, atObject]

/-- C101, the other direction: no other method runs than the one that was named, and none that the class does not define. -/
theorem C101_no_other_method (b : Backend) (ms : List String) (m n : String) (h : callMethod b ms m = .runs n) : n = m ∧ m ∈ ms := by
  unfold callMethod at h
  split at h
  · exact absurd h (by simp)
  split at h
  · exact absurd h (by simp)
  split at h
  · exact absurd h (by simp)
  cases b <;> simp only [atObject, Bool.and_eq_true, List.contains_iff_mem] at h <;> split at h <;> simp_all

example : callMethod .mpi ["add", "get"] "get" = .runs "get" := by decide +kernel
example : callMethod .pymp ["add", "get"] "add" = .runs "add" := by decide +kernel
example : callMethod .pymp ["submit"] "submit" = .elsewhere := by decide +kernel

/-- The names that a class cannot use for methods on a backend, written out: those of all handles, and those of the native actor. -/
def TakenName (b : Backend) (m : String) : Prop :=
  m ∈ ["_actor_cls", "_serialization_helper", "_deserialization_helper", "_cls", "_num_cpus", "_resources", "_actor_handle", "_remote"] ∨
  (b = .mpi ∧ m ∈ ["_args", "_kwargs", "_owner_rank", "_handler_id", "actor_methods"]) ∨
  (b = .pymp ∧ (m = "submit" ∨ m.toList.head? = some '_'))

/-- C101, exactly, for all names and backends: the method runs if and only if the class defines it and the name is not taken. -/
theorem C101_exact_partial (b : Backend) (ms : List String) (m : String) :
    callMethod b ms m = .runs m ↔ m ∈ ms ∧ ¬ TakenName b m := by
  unfold callMethod TakenName
  by_cases hp : m.toList.head? = some '_'
  · have hq : isPrivate m = true := by unfold isPrivate; simpa using hp
    cases b
    · simp only [reduceCtorEq, false_and, or_false, true_and]
      split
      · simp_all [frontNames]; tauto
      · split
        · simp_all [backendNames]; tauto
        · split
          · simp_all [nativeNames, backendNames, frontNames]
          · simp only [atObject]
            split <;> simp_all [nativeNames, backendNames, frontNames]
    · simp only [hp, or_true, and_true, not_true, and_false, iff_false]
      split
      · simp
      · split
        · simp
        · split
          · simp
          · simp [atObject, hq]
    · simp only [reduceCtorEq, false_and, or_false]
      split
      · simp_all [frontNames]; tauto
      · split
        · simp_all [backendNames]; tauto
        · simp only [nativeNames, List.contains_nil, Bool.false_eq_true, if_false, atObject]
          split <;> simp_all [backendNames, frontNames]
  · have h := C101_public_names_partial b ms m hp
    unfold callMethod at h
    rw [h]
    have h1 : m ∉ ["_actor_cls", "_serialization_helper", "_deserialization_helper", "_cls", "_num_cpus", "_resources", "_actor_handle",
        "_remote"] := by
      intro hm
      simp only [List.mem_cons, List.not_mem_nil, or_false] at hm
      rcases hm with h | h | h | h | h | h | h | h <;> subst h <;> exact hp (by decide +kernel)
    have h2 : m ∈ ["_args", "_kwargs", "_owner_rank", "_handler_id", "actor_methods"] ↔ m = "actor_methods" := by
      constructor
      · intro hm
        simp only [List.mem_cons, List.not_mem_nil, or_false] at hm
        rcases hm with h | h | h | h | h
        all_goals first | exact h | (subst h; exact absurd (by decide +kernel) hp)
      · rintro rfl; simp
    simp only [h1, h2, hp, false_or, or_false, not_or]

/-- What happens otherwise: with a name of a handle an attribute of the handle is found; a method that the class does not define, or a
private name on multiprocessing, is an `AttributeError` in the caller, on MPI the end of the worker. -/
theorem C101_otherwise_partial (b : Backend) (ms : List String) (m : String) (h : m ∉ ms ∨ TakenName b m) :
    callMethod b ms m = .elsewhere ∧ TakenName b m ∨
    callMethod b ms m = .refused ∧ b ≠ .mpi ∨
    callMethod b ms m = .endsWorker ∧ b = .mpi ∧ m ∉ ms ∧ ¬ TakenName b m := by
  have hx := C101_exact_partial b ms m
  have hnr : callMethod b ms m ≠ .runs m := fun e => by
    have := hx.1 e
    rcases h with h | h
    · exact h this.1
    · exact this.2 h
  by_cases he : callMethod b ms m = .elsewhere
  · left
    refine ⟨he, ?_⟩
    have hy := C101_exact_partial b [m] m
    have : callMethod b [m] m = .elsewhere := by
      revert he
      unfold callMethod
      split
      · simp
      · split
        · simp
        · split
          · simp
          · cases b <;> simp only [atObject] <;> split <;> simp
    rw [this] at hy
    by_contra ht
    exact absurd (hy.2 ⟨by simp, ht⟩) (by simp)
  · have hc : callMethod b ms m = atObject b ms m := by
      revert he
      unfold callMethod
      split
      · simp
      · split
        · simp
        · split <;> simp
    rw [hc] at hnr ⊢
    cases b
    · right; right
      simp only [atObject] at hnr ⊢
      split at hnr
      · exact absurd rfl hnr
      · rename_i hm
        simp only [List.contains_iff_mem] at hm
        refine ⟨by simp [hm], trivial, hm, fun ht => ?_⟩
        have hy := C101_exact_partial .mpi [m] m
        refine (hy.1 ?_).2 ht
        revert he
        unfold callMethod
        split
        · simp
        · split
          · simp
          · split
            · simp
            · simp [atObject]
    all_goals
      right; left
      simp only [atObject] at hnr ⊢
      split at hnr
      · exact absurd rfl hnr
      · rename_i hm
        rw [if_neg hm]
        simp

-- names of the native actor of MPI can be used on the sequential backend
example : callMethod .pyseq ["_args", "actor_methods"] "_args" = .runs "_args" ∧ callMethod .mpi ["_args"] "_args" = .elsewhere := by
  decide +kernel
-- a method that the class does not define
example : callMethod .mpi ["get"] "put" = .endsWorker ∧ callMethod .pymp ["get"] "put" = .refused ∧
    callMethod .pyseq ["get"] "put" = .refused := by decide +kernel

/-! ## C102: a handle refers to one actor -/

/-- Exactly one `ACTOR_CREATE` message of all processes has the name of the actor; it was sent to the worker the handle points to, with the
class and arguments of the handle. -/
def OneActor (s : System) (n : Native) : Prop :=
  ∃ p, ∀ p', (s.proc p').sent.filter (fun c => decide (c.handler = n.handler)) =
    if p' = p then [⟨n.owner, n.cls, n.args, n.kwargs, n.handler⟩] else []

/-- Full statement of C102: on every modelled backend handles can be given to tasks, and on MPI every handle in every process refers to
exactly one actor. -/
def C102_full : Prop :=
  (∀ b, arrives b = true) ∧
  ∀ ops, ∀ q h, (q, h) ∈ (System.init.run ops).handles → ∃ n, h.native = some n ∧ OneActor (System.init.run ops) n

/-- C102 is violated on the multiprocessing backend: a handle cannot be given to a task. -/
theorem C102_multiprocessing_violated : ¬ C102_full := fun h => absurd (h.1 .pymp) (by decide)

/-- A program that gives the constructor of its actor a keyword argument called `owner_rank`. -/
def exOwnerRank : List Op := [.create 0 2 7 [] [("owner_rank", .obj 3)]]

/-- C102 is violated on MPI: if the constructor of the user's class has a keyword argument called `owner_rank`, the handle refers to no
actor. -/
theorem C102_owner_rank_violated : ¬ C102_full := fun h => by
  obtain ⟨n, hn, p, hp⟩ := h.2 exOwnerRank 0 ⟨7, .none, .none, some ⟨7, [], [], .obj 3, .inl (0, 0)⟩⟩ (by decide +kernel)
  have h1 := hp p
  have : ((System.init.run exOwnerRank).proc p).sent = [] := by
    show (if p = 0 then _ else Proc.init p).sent = []
    split <;> rfl
  rw [this] at h1
  simp at h1

/-- A keyword argument called `owner_rank` or `handler_id` with another value than `None`. -/
def GivesName (kw : Kw) : Prop := ∃ e ∈ kw, (e.1 = "owner_rank" ∨ e.1 = "handler_id") ∧ e.2 ≠ .none

/-- What is known of all processes and handles at any time: every handle belongs to a message that was sent, or a keyword argument gave
it a name (`odd`) and no message has its name. -/
structure HandleInv (odd : Prop) (s : System) : Prop where
  rank : ∀ p, (s.proc p).rank = p
  fresh : ∀ p, ∀ c ∈ (s.proc p).sent, ∃ k, c.handler = .inl (p, k) ∧ k < (s.proc p).counter
  nodup : ∀ p, ((s.proc p).sent.map (·.handler)).Nodup
  handle : ∀ e ∈ s.handles, ∃ n, e.2.native = some n ∧
    ((∃ p, ⟨n.owner, n.cls, n.args, n.kwargs, n.handler⟩ ∈ (s.proc p).sent) ∨
      odd ∧ (∀ p, ∀ c ∈ (s.proc p).sent, c.handler ≠ n.handler) ∧ ∀ p k, n.handler = .inl (p, k) → k < (s.proc p).counter) ∧
    (∀ x ∈ n.kwargs, x.1 ∉ ["self", "cls", "owner_rank", "handler_id"]) ∧ n.owner ≠ .none ∧ n.handler ≠ .inr .none ∧
    (n.handler, n.owner) ∈ (s.proc e.1).owners ∧ n.owner ∈ (s.proc e.1).reserved

theorem handleInv_init (odd : Prop) : HandleInv odd System.init := by
  constructor
  · intro p; rfl
  · intro p c h; exact absurd h (by simp [System.init, Proc.init])
  · intro p; simp [System.init, Proc.init]
  · intro e h; exact absurd h (by simp [System.init])

theorem takenValue_given {kw : Kw} {name : String} (h : takenValue kw name ≠ .none) : ∃ e ∈ kw, e.1 = name ∧ e.2 ≠ .none := by
  unfold takenValue at h
  split at h
  · rename_i e he
    exact ⟨e, List.mem_of_find?_eq_some he, by simpa using List.find?_some he, h⟩
  · exact absurd rfl h

theorem takenValue_of {kw : Kw} {e : String × Val} (hn : (kw.map (·.1)).Nodup) (he : e ∈ kw) : takenValue kw e.1 = e.2 := by
  unfold takenValue
  split
  · rename_i x hx
    have h1 := List.mem_of_find?_eq_some hx
    have h2 : x.1 = e.1 := by simpa using List.find?_some hx
    have : x = e := by
      clear hx
      induction kw with
      | nil => exact absurd he (by simp)
      | cons y kw ih =>
        rw [List.map_cons, List.nodup_cons] at hn
        rw [List.mem_cons] at he h1
        rcases he with rfl | he <;> rcases h1 with rfl | h1
        · rfl
        · exact absurd (List.mem_map.2 ⟨x, h1, h2⟩) hn.1
        · exact absurd (List.mem_map.2 ⟨e, he, h2.symm⟩) hn.1
        · exact ih hn.2 he h1
    rw [this]
  · rename_i hx
    rw [List.find?_eq_none] at hx
    exact absurd (by simp) (hx e he)

theorem takenValue_filter (kw : Kw) (a b : List String) (name : String) (ha : name ∉ a) (hb : name ∈ b) :
    takenValue ((kw.filter fun p => !a.contains p.1).filter fun p => b.contains p.1) name = takenValue kw name := by
  unfold takenValue
  rw [List.find?_filter, List.find?_filter]
  congr 1
  congr 1
  funext x
  by_cases hx : x.1 = name
  · simp [hx, ha, hb]
  · simp [hx]

/-- Creating an actor: one new name and one message, unless a keyword argument gives a name; then there is no message. -/
theorem handles_create_some (p : Proc) (rank cls : Nat) (args : List Val) (kw : Kw) (p' : Proc) (h : Handle)
    (hc : create p rank cls args kw = some (p', h)) :
    ∃ n, h = ⟨cls, .none, .none, some n⟩ ∧ n.handler ≠ .inr .none ∧ n.owner ≠ .none ∧ n.cls = cls ∧ n.args = args ∧
      (∀ x ∈ n.kwargs, x.1 ∉ ["self", "cls", "owner_rank", "handler_id"]) ∧
      p'.rank = p.rank ∧ p'.owners = p.owners ++ [(n.handler, n.owner)] ∧ p'.reserved = p.reserved ++ [n.owner] ∧
      ((takenValue kw "owner_rank" = .none ∧ takenValue kw "handler_id" = .none ∧ n.handler = .inl (p.rank, p.counter) ∧ n.owner = .obj rank ∧
          p'.counter = p.counter + 1 ∧ p'.sent = p.sent ++ [⟨n.owner, n.cls, n.args, n.kwargs, n.handler⟩]) ∨
        ((takenValue kw "owner_rank" ≠ .none ∨ takenValue kw "handler_id" ≠ .none) ∧ p'.sent = p.sent ∧ p.counter ≤ p'.counter ∧
          ∀ r k, n.handler = .inl (r, k) → r = p.rank ∧ p.counter ≤ k ∧ k < p'.counter)) := by
  unfold create at hc
  split at hc
  · exact absurd hc (by simp)
  rename_i taken kw1 he
  split at hc
  · exact absurd hc (by simp)
  split at hc
  · exact absurd hc (by simp)
  rw [Option.map_eq_some_iff] at hc
  obtain ⟨⟨p1, n⟩, hn, hh⟩ := hc
  unfold nativeCall at hn
  rw [Option.map_eq_some_iff] at hn
  obtain ⟨⟨t2, kw2⟩, he2, hn⟩ := hn
  unfold enter at he he2
  split at he
  · exact absurd he (by simp)
  split at he2
  · exact absurd he2 (by simp)
  rename_i ha hb
  simp only [Option.some.injEq, Prod.mk.injEq] at he he2 hh
  have hclean : ∀ x ∈ kw2, x.1 ∉ ["self", "cls", "owner_rank", "handler_id"] := by
    intro x hx
    rw [← he2.2] at hx
    obtain ⟨hx1, h1⟩ := List.mem_filter.1 hx
    have h2 : ¬ (["self", "cls"].contains x.1 = true) := fun hc => hb (List.any_eq_true.2 ⟨x, hx1, hc⟩)
    rw [List.contains_iff_mem] at h2
    simp only [Bool.not_eq_true', ← Bool.not_eq_true, List.contains_iff_mem] at h1
    simp only [List.mem_cons, List.not_mem_nil, or_false, not_or] at h1 h2 ⊢
    exact ⟨h2.1, h2.2, h1.1, h1.2⟩
  have ho : takenValue t2 "owner_rank" = takenValue kw "owner_rank" := by
    rw [← he2.1, ← he.2]; exact takenValue_filter _ _ _ _ (by decide +kernel) (by decide +kernel)
  have hd : takenValue t2 "handler_id" = takenValue kw "handler_id" := by
    rw [← he2.1, ← he.2]; exact takenValue_filter _ _ _ _ (by decide +kernel) (by decide +kernel)
  simp only [ho, hd, nativeInit, Prod.mk.injEq] at hn
  obtain ⟨hn1, hn2⟩ := hn
  obtain ⟨hp', hh⟩ := hh
  subst hp' hh hn2
  refine ⟨_, rfl, ?_, ?_, rfl, rfl, hclean, by rw [← hn1], by rw [← hn1], by rw [← hn1], ?_⟩
  · dsimp only
    split
    · simp
    · rename_i hx; exact hx
  · dsimp only
    split
    · simp
    · rename_i hx; exact hx
  · by_cases h1 : takenValue kw "owner_rank" = .none <;> by_cases h2 : takenValue kw "handler_id" = .none
    · left; simp [h1, h2, ← hn1]
    all_goals
      right
      refine ⟨by simp [h1, h2], by simp [h1, h2, ← hn1], by rw [← hn1]; dsimp only; split <;> omega, ?_⟩
      intro r k hk
      simp [h2] at hk
      try (simp [h2, ← hn1]; omega)

/-- Loading a state that belongs to a handle changes nothing in it and sends nothing. -/
theorem handles_load_some (p : Proc) (c : Nat) (a b : Val) (n : Native) (hk : ∀ x ∈ n.kwargs, x.1 ∉ ["self", "cls", "owner_rank", "handler_id"])
    (ho : n.owner ≠ .none) (hn : n.handler ≠ .inr .none) :
    (Handle.state ⟨c, a, b, some n⟩).load p =
      some (⟨p.rank, p.counter, p.owners ++ [(n.handler, n.owner)], p.reserved ++ [n.owner], p.sent⟩, ⟨c, a, b, some n⟩) := by
  have : (n.kwargs.any (fun e => ["self", "cls", "owner_rank", "handler_id"].contains e.1)) = false := by
    rw [List.any_eq_false]
    intro x hx
    rw [List.contains_iff_mem]
    exact hk x hx
  show (NativeState.load p n.state).map _ = _
  unfold NativeState.load
  rw [if_neg (by rw [show n.state.kwargs = n.kwargs from rfl, this]; simp)]
  simp [nativeInit, Native.state, Handle.state, ho, hn]

theorem handleInv_step (odd : Prop) (s : System) (op : Op) (hi : HandleInv odd s)
    (hk : ∀ p rank cls args kw, op = .create p rank cls args kw → GivesName kw → odd) :
    HandleInv odd (s.step op) := by
  cases op with
  | create p rank cls args kw =>
    unfold System.step
    simp only
    split
    · exact hi
    rename_i p' h hc
    obtain ⟨n, hh, hn0, ho, hcls, hargs, hcl, hrk, how, hre, hcase⟩ := handles_create_some _ _ _ _ _ _ _ hc
    have hr := hi.rank p
    rw [hr] at hcase hrk
    have hcnt : (s.proc p).counter ≤ p'.counter := by rcases hcase with h | h <;> omega
    have hold : ∀ c ∈ (s.proc p).sent, c ∈ p'.sent := by
      intro c hm
      rcases hcase with ⟨_, _, _, _, _, h⟩ | ⟨_, h, _⟩
      · rw [h]; simp [hm]
      · rw [h]; exact hm
    have hnew : ∀ c ∈ p'.sent, c ∈ (s.proc p).sent ∨ c.handler = .inl (p, (s.proc p).counter) ∧ (s.proc p).counter < p'.counter := by
      intro c hm
      rcases hcase with ⟨_, _, hd, _, h1, h⟩ | ⟨_, h, _⟩
      · rw [h, List.mem_append, List.mem_singleton] at hm
        rcases hm with hm | hm
        · exact .inl hm
        · right; subst hm; exact ⟨hd, by omega⟩
      · rw [h] at hm; exact .inl hm
    constructor
    · intro q
      by_cases hq : q = p
      · subst hq; simp [hrk]
      · simp [hq, hi.rank q]
    · intro q c hm
      by_cases hq : q = p
      · subst hq
        simp only [if_true] at hm ⊢
        rcases hnew c hm with hm | ⟨h1, h2⟩
        · obtain ⟨k, h1, h2⟩ := hi.fresh _ c hm
          exact ⟨k, h1, by omega⟩
        · exact ⟨_, h1, h2⟩
      · simp only [hq, if_false] at hm ⊢
        exact hi.fresh _ c hm
    · intro q
      by_cases hq : q = p
      · subst hq
        simp only [if_true]
        rcases hcase with ⟨_, _, hd, _, h1, h⟩ | ⟨_, h, _⟩
        · rw [h, List.map_append, List.nodup_append]
          refine ⟨hi.nodup _, by simp, ?_⟩
          intro a ha b hb e
          simp only [List.map_cons, List.map_nil, List.mem_singleton] at hb
          obtain ⟨c, hc1, hc2⟩ := List.mem_map.1 ha
          obtain ⟨k, h1, h2⟩ := hi.fresh _ c hc1
          rw [← hc2, h1, hb, hd] at e
          simp only [Sum.inl.injEq, Prod.mk.injEq, true_and] at e
          omega
        · rw [h]; exact hi.nodup _
      · simp only [hq, if_false]
        exact hi.nodup q
    · intro e he
      rw [List.mem_append, List.mem_singleton] at he
      rcases he with he | he
      · obtain ⟨m, h1, h2, h3, h4, h4', h5, h6⟩ := hi.handle e he
        refine ⟨m, h1, ?_, h3, h4, h4', ?_, ?_⟩
        · rcases h2 with ⟨r, h2⟩ | ⟨hod, hno, hlt⟩
          · left
            refine ⟨r, ?_⟩
            by_cases hq : r = p
            · subst hq; simpa using hold _ h2
            · simp [hq, h2]
          · right
            refine ⟨hod, ?_, ?_⟩
            · intro q c hm
              by_cases hq : q = p
              · subst hq
                simp only [if_true] at hm
                rcases hnew c hm with hm | ⟨g1, g2⟩
                · exact hno _ c hm
                · intro e
                  rw [g1] at e
                  have := hlt _ _ e.symm
                  omega
              · simp only [hq, if_false] at hm
                exact hno _ c hm
            · intro q k hk
              have := hlt q k hk
              by_cases hq : q = p
              · subst hq; simp only [if_true]; omega
              · simp [hq, this]
        · by_cases hq : e.1 = p
          · simp only [hq] at h5; simp [hq, how, h5]
          · simp [hq, h5]
        · by_cases hq : e.1 = p
          · simp only [hq] at h6; simp [hq, hre, h6]
          · simp [hq, h6]
      · subst he
        refine ⟨n, by rw [hh], ?_, hcl, ho, hn0, by simp [how], by simp [hre]⟩
        rcases hcase with ⟨_, _, hd, _, h1, h⟩ | ⟨hg, h, h1, h2⟩
        · left
          exact ⟨p, by simp [h]⟩
        · right
          refine ⟨hk p rank cls args kw rfl ?_, ?_, ?_⟩
          · rcases hg with hg | hg
            · obtain ⟨e, g1, g2, g3⟩ := takenValue_given hg
              exact ⟨e, g1, .inl g2, g3⟩
            · obtain ⟨e, g1, g2, g3⟩ := takenValue_given hg
              exact ⟨e, g1, .inr g2, g3⟩
          · intro q c hm
            have hm' : c ∈ (s.proc q).sent := by
              by_cases hq : q = p
              · subst hq; simp only [if_true, h] at hm; exact hm
              · simpa [hq] using hm
            obtain ⟨k, g1, g2⟩ := hi.fresh _ c hm'
            intro e
            rw [g1] at e
            obtain ⟨rfl, g3, _⟩ := h2 _ _ e.symm
            omega
          · intro q k hk
            obtain ⟨rfl, _, g⟩ := h2 _ _ hk
            simpa using g
  | pass i q =>
    unfold System.step
    simp only
    split
    · exact hi
    rename_i q0 h hh
    obtain ⟨n, h1, h2, h3, h4, h4', h5, h6⟩ := hi.handle _ (List.mem_of_getElem? hh)
    simp only at h1
    have hl := handles_load_some (s.proc q) h.cls h.numCpus h.resources n h3 h4 h4'
    have hheq : h = ⟨h.cls, h.numCpus, h.resources, some n⟩ := by rw [← h1]
    rw [← hheq] at hl
    rw [hl]
    simp only
    have hsent : ∀ r : Nat, (if r = q then (⟨(s.proc q).rank, (s.proc q).counter, (s.proc q).owners ++ [(n.handler, n.owner)],
      (s.proc q).reserved ++ [n.owner], (s.proc q).sent⟩ : Proc) else s.proc r).sent = (s.proc r).sent := by
      intro r; split
      · rename_i e; rw [e]
      · rfl
    have hcnt : ∀ r : Nat, (if r = q then (⟨(s.proc q).rank, (s.proc q).counter, (s.proc q).owners ++ [(n.handler, n.owner)],
      (s.proc q).reserved ++ [n.owner], (s.proc q).sent⟩ : Proc) else s.proc r).counter = (s.proc r).counter := by
      intro r; split
      · rename_i e; rw [e]
      · rfl
    constructor
    · intro r
      simp only
      split
      · rename_i e; rw [e]; exact hi.rank q
      · exact hi.rank r
    · intro r c hm
      simp only [hsent, hcnt] at hm ⊢
      exact hi.fresh r c hm
    · intro r
      simp only [hsent]
      exact hi.nodup r
    · intro e he
      rw [List.mem_append, List.mem_singleton] at he
      simp only [hsent, hcnt]
      rcases he with he | he
      · obtain ⟨m, g1, g2, g3, g4, g4', g5, g6⟩ := hi.handle e he
        refine ⟨m, g1, g2, g3, g4, g4', ?_, ?_⟩
        · by_cases hq : e.1 = q
          · simp only [hq] at g5; simp [hq, g5]
          · simp [hq, g5]
        · by_cases hq : e.1 = q
          · simp only [hq] at g6; simp [hq, g6]
          · simp [hq, g6]
      · subst he
        exact ⟨n, h1, h2, h3, h4, h4', by simp, by simp⟩

theorem handleInv_run (odd : Prop) (ops : List Op) (s : System) (hi : HandleInv odd s)
    (hk : ∀ p rank cls args kw, Op.create p rank cls args kw ∈ ops → GivesName kw → odd) :
    HandleInv odd (s.run ops) := by
  induction ops generalizing s with
  | nil => exact hi
  | cons op ops ih =>
    exact ih _ (handleInv_step odd s op hi fun p r c a kw e => hk p r c a kw (by simp [e]))
      fun p r c a kw h => hk p r c a kw (List.mem_cons_of_mem _ h)

theorem filter_unique {l : List Create} {c : Create} (hn : (l.map (·.handler)).Nodup) (hm : c ∈ l) :
    l.filter (fun x => decide (x.handler = c.handler)) = [c] := by
  induction l with
  | nil => exact absurd hm (by simp)
  | cons x l ih =>
    rw [List.map_cons, List.nodup_cons] at hn
    rw [List.mem_cons] at hm
    rcases hm with hm | hm
    · subst hm
      rw [List.filter_cons_of_pos (by simp)]
      congr 1
      rw [List.filter_eq_nil_iff]
      intro y hy e
      exact hn.1 (List.mem_map.2 ⟨y, hy, by simpa using e⟩)
    · rw [List.filter_cons_of_neg, ih hn.2 hm]
      intro e
      exact hn.1 (List.mem_map.2 ⟨c, hm, by simpa using Eq.symm (by simpa using e)⟩)

/-- No `ACTOR_CREATE` message of any process has the name of the actor. -/
def NoActor (s : System) (n : Native) : Prop := ∀ p, ∀ c ∈ (s.proc p).sent, c.handler ≠ n.handler

/-- C102 on MPI for all histories: every handle in every process, however often it was passed on, refers to exactly one actor, with the
class and the arguments it was created with, or to none at all, and then a constructor was given a keyword argument called `owner_rank` or
`handler_id`. In both cases the process that has the handle keeps its worker reserved. Missing: the second case. -/
theorem C102_all_partial (ops : List Op) (q : Nat) (h : Handle) (hm : (q, h) ∈ (System.init.run ops).handles) :
    ∃ n, h.native = some n ∧
      (OneActor (System.init.run ops) n ∨
        NoActor (System.init.run ops) n ∧ ∃ p rank cls args kw, Op.create p rank cls args kw ∈ ops ∧ GivesName kw) ∧
      (n.handler, n.owner) ∈ ((System.init.run ops).proc q).owners ∧ n.owner ∈ ((System.init.run ops).proc q).reserved := by
  have hi := handleInv_run (∃ p rank cls args kw, Op.create p rank cls args kw ∈ ops ∧ GivesName kw) ops _ (handleInv_init _)
    fun p rank cls args kw h1 h2 => ⟨p, rank, cls, args, kw, h1, h2⟩
  obtain ⟨n, h1, h2, h3, h4, _, h5, h6⟩ := hi.handle _ hm
  refine ⟨n, h1, ?_, h5, h6⟩
  rcases h2 with ⟨p, h2⟩ | ⟨h2, hno, _⟩
  · left
    refine ⟨p, fun p' => ?_⟩
    by_cases hp : p' = p
    · subst hp
      rw [if_pos rfl]
      exact filter_unique (hi.nodup _) h2
    · rw [if_neg hp, List.filter_eq_nil_iff]
      intro c hc e
      obtain ⟨k, hk1, _⟩ := hi.fresh _ _ h2
      obtain ⟨k', hk2, _⟩ := hi.fresh _ _ hc
      simp only [decide_eq_true_eq] at e hk1
      rw [hk1, hk2] at e
      simp only [Sum.inl.injEq, Prod.mk.injEq] at e
      exact hp e.1
  · exact .inr ⟨hno, h2⟩

/-- C102 as far as it holds, on MPI: if no constructor is given a keyword argument called `owner_rank` or `handler_id` with another value
than `None`, then in every history every handle in every process, however often it was passed on, refers to exactly one actor, with the class
and the arguments it was created with, and the process that has the handle knows the worker of the actor and keeps it reserved. Missing: these
two names. -/
theorem C102_one_actor_partial (ops : List Op)
    (hk : ∀ p rank cls args kw, Op.create p rank cls args kw ∈ ops → ¬ GivesName kw)
    (q : Nat) (h : Handle) (hm : (q, h) ∈ (System.init.run ops).handles) :
    ∃ n, h.native = some n ∧ OneActor (System.init.run ops) n ∧
      (n.handler, n.owner) ∈ ((System.init.run ops).proc q).owners ∧ n.owner ∈ ((System.init.run ops).proc q).reserved := by
  obtain ⟨n, h1, h2, h3⟩ := C102_all_partial ops q h hm
  rcases h2 with h2 | ⟨_, p, rank, cls, args, kw, h4, h5⟩
  · exact ⟨n, h1, h2, h3⟩
  · exact absurd h5 (hk _ _ _ _ _ h4)

/-- C102, which actors are not created: after any history the handle that a process gets from the constructor refers to exactly one actor, with
the class and the arguments of the call, if no keyword argument is called `owner_rank` or `handler_id` (or is `None`), and otherwise to
none. (Python's keyword arguments have different names.) -/
theorem C102_creation_partial (ops : List Op) (p rank cls : Nat) (args : List Val) (kw : Kw) (hn : (kw.map (·.1)).Nodup) (p' : Proc) (h : Handle)
    (hc : create ((System.init.run ops).proc p) rank cls args kw = some (p', h)) :
    ∃ n, h.native = some n ∧ n.cls = cls ∧ n.args = args ∧
      (OneActor (System.init.run (ops ++ [.create p rank cls args kw])) n ↔ ¬ GivesName kw) ∧
      (NoActor (System.init.run (ops ++ [.create p rank cls args kw])) n ↔ GivesName kw) := by
  have hi := handleInv_run True ops _ (handleInv_init _) fun _ _ _ _ _ _ _ => trivial
  obtain ⟨n, hh, hn0, ho, hcls, hargs, hcl, hrk, how, hre, hcase⟩ := handles_create_some _ _ _ _ _ _ _ hc
  rw [hi.rank] at hcase hrk
  have hrun : System.init.run (ops ++ [.create p rank cls args kw]) =
      ⟨fun q => if q = p then p' else (System.init.run ops).proc q, (System.init.run ops).handles ++ [(p, h)]⟩ := by
    have : System.init.run (ops ++ [.create p rank cls args kw]) = (System.init.run ops).step (.create p rank cls args kw) := by
      simp [System.run, List.foldl_append]
    rw [this]
    unfold System.step
    simp only [hc]
  have hexcl : ∀ s, OneActor s n → NoActor s n → False := by
    rintro s ⟨r, hr⟩ hno
    have h1 := hr r
    rw [if_pos rfl] at h1
    have : (⟨n.owner, n.cls, n.args, n.kwargs, n.handler⟩ : Create) ∈ (s.proc r).sent :=
      (List.mem_filter.1 (by rw [h1]; simp)).1
    exact hno r _ this rfl
  have hg : GivesName kw ↔ takenValue kw "owner_rank" ≠ .none ∨ takenValue kw "handler_id" ≠ .none := by
    constructor
    · rintro ⟨e, h1, h2 | h2, h3⟩
      · left; rw [← h2, takenValue_of hn h1]; exact h3
      · right; rw [← h2, takenValue_of hn h1]; exact h3
    · rintro (hg | hg)
      · obtain ⟨e, g1, g2, g3⟩ := takenValue_given hg
        exact ⟨e, g1, .inl g2, g3⟩
      · obtain ⟨e, g1, g2, g3⟩ := takenValue_given hg
        exact ⟨e, g1, .inr g2, g3⟩
  refine ⟨n, by rw [hh], hcls, hargs, ?_⟩
  rw [hrun]
  rcases hcase with ⟨c1, c2, hd, _, h1, hs⟩ | ⟨c1, hs, h1, h2⟩
  · have hng : ¬ GivesName kw := by rw [hg]; simp [c1, c2]
    have hone : OneActor ⟨fun q => if q = p then p' else (System.init.run ops).proc q, (System.init.run ops).handles ++ [(p, h)]⟩ n := by
      have hnot : ∀ q, ∀ c ∈ ((System.init.run ops).proc q).sent, c.handler ≠ n.handler := by
        intro q c hm e
        obtain ⟨k, g1, g2⟩ := hi.fresh q c hm
        rw [g1, hd] at e
        simp only [Sum.inl.injEq, Prod.mk.injEq] at e
        obtain ⟨rfl, rfl⟩ := e
        omega
      refine ⟨p, fun q => ?_⟩
      by_cases hq : q = p
      · subst hq
        simp only [if_true, hs, List.filter_append]
        rw [List.filter_eq_nil_iff.2 (by simpa using hnot q)]
        simp
      · simp only [hq, if_false]
        exact List.filter_eq_nil_iff.2 (by simpa using hnot q)
    exact ⟨⟨fun _ => hng, fun _ => hone⟩, ⟨fun hno => absurd hno fun hno => hexcl _ hone hno, fun h => absurd h hng⟩⟩
  · have hgv : GivesName kw := hg.2 c1
    have hno : NoActor ⟨fun q => if q = p then p' else (System.init.run ops).proc q, (System.init.run ops).handles ++ [(p, h)]⟩ n := by
      intro q c hm e
      have hm' : c ∈ ((System.init.run ops).proc q).sent := by
        by_cases hq : q = p
        · subst hq; simp only [if_true, hs] at hm; exact hm
        · simpa [hq] using hm
      obtain ⟨k, g1, g2⟩ := hi.fresh _ c hm'
      rw [g1] at e
      obtain ⟨rfl, g3, _⟩ := h2 _ _ e.symm
      omega
    exact ⟨⟨fun hone => absurd hno fun hno => hexcl _ hone hno, fun h => absurd hgv h⟩, ⟨fun _ => hgv, fun _ => hno⟩⟩

/-- C102 as far as it holds, on MPI, passing: after every history every handle can be passed to every process, and what arrives is the
handle itself. No second actor is created. -/
theorem C102_passing_partial (ops : List Op) (i p q : Nat) (h : Handle) (hm : (System.init.run ops).handles[i]? = some (p, h)) :
    (System.init.run (ops ++ [.pass i q])).handles = (System.init.run ops).handles ++ [(q, h)] ∧
    ∀ r, ((System.init.run (ops ++ [.pass i q])).proc r).sent = ((System.init.run ops).proc r).sent := by
  have hi := handleInv_run True ops _ (handleInv_init _) fun _ _ _ _ _ _ _ => trivial
  obtain ⟨n, h1, h2, h3, h4, h4', h5, h6⟩ := hi.handle _ (List.mem_of_getElem? hm)
  simp only at h1
  have hl := handles_load_some ((System.init.run ops).proc q) h.cls h.numCpus h.resources n h3 h4 h4'
  have hheq : h = ⟨h.cls, h.numCpus, h.resources, some n⟩ := by rw [← h1]
  rw [← hheq] at hl
  have hrun : System.init.run (ops ++ [.pass i q]) = (System.init.run ops).step (.pass i q) := by
    simp [System.run, List.foldl_append]
  rw [hrun]
  unfold System.step
  simp only [hm, hl]
  refine ⟨trivial, fun r => ?_⟩
  split
  · rename_i e; rw [e]
  · rfl

/-- C102 as far as it holds, elsewhere: on MPI and on the sequential backend a handle can be given to a task. -/
theorem C102_arrives_partial (b : Backend) (hb : b ≠ .pymp) : arrives b = true := by
  cases b <;> first | rfl | exact absurd rfl hb

/-- The main process creates two actors, passes the first to process 3, which passes it to process 4. -/
def exPassed : List Op := [.create 0 2 7 [.obj 1] [("size", .obj 5)], .create 0 3 8 [] [], .pass 0 3, .pass 2 4]

example : (System.init.run exPassed).handles.map (fun e => (e.1, e.2.native)) =
    [(0, some ⟨7, [.obj 1], [("size", .obj 5)], .obj 2, .inl (0, 0)⟩), (0, some ⟨8, [], [], .obj 3, .inl (0, 1)⟩),
     (3, some ⟨7, [.obj 1], [("size", .obj 5)], .obj 2, .inl (0, 0)⟩), (4, some ⟨7, [.obj 1], [("size", .obj 5)], .obj 2, .inl (0, 0)⟩)] := by
  decide +kernel

example : OneActor (System.init.run exPassed) ⟨7, [.obj 1], [("size", .obj 5)], .obj 2, .inl (0, 0)⟩ := by
  obtain ⟨n, h1, h2, _⟩ := C102_one_actor_partial exPassed (by
    rintro p r c a kw h ⟨e, he, hx⟩
    simp only [exPassed, List.mem_cons, Op.create.injEq, List.not_mem_nil, or_false, reduceCtorEq] at h
    rcases h with h | h
    · obtain ⟨_, _, _, _, rfl⟩ := h
      simp only [List.mem_singleton] at he
      subst he
      revert hx
      decide +kernel
    · obtain ⟨_, _, _, _, rfl⟩ := h
      exact absurd he (by simp)) 4 ⟨7, .none, .none, some ⟨7, [.obj 1], [("size", .obj 5)], .obj 2, .inl (0, 0)⟩⟩ (by decide +kernel)
  cases h1
  exact h2

-- with `handler_id` the handle has no actor; it can be passed on all the same
example : (System.init.run [.create 0 2 7 [] [("handler_id", .obj 3)], .pass 0 4]).handles.map (fun e => (e.1, e.2.native)) =
    [(0, some ⟨7, [], [], .obj 2, .inr (.obj 3)⟩), (4, some ⟨7, [], [], .obj 2, .inr (.obj 3)⟩)] ∧
    ((System.init.run [.create 0 2 7 [] [("handler_id", .obj 3)], .pass 0 4]).proc 0).sent = [] := by decide +kernel
-- `None` is the same as no argument
example : ((System.init.run [.create 0 2 7 [] [("handler_id", .none)]]).proc 0).sent = [⟨.obj 2, 7, [], [], .inl (0, 0)⟩] := by decide +kernel

end Verif.Props
