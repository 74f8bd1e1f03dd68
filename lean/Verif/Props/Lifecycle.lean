import Verif.Model.Lifecycle

/-!
# C106: `is_initialized` tells whether the backend runs, and `init` can be called at any time
-/
namespace Verif.Props
open Verif.Lifecycle

/-- Whether the backend runs after some calls, seen from the program: started by a call of `init` or `put` that returned, ended by a
call of `shutdown` that returned (docstrings of api.py:82-111, 163-180). -/
def lifeUp (h : List (Op × Outcome)) : Bool :=
  h.foldl (fun up e => match e with
    | (.init, .returned) => true
    | (.put, .returned) => true
    | (.shutdown, .returned) => false
    | _ => up) false

/-- Some call of `init` or `put` among these returned (api.py:82-92, 163-180). -/
def LifeStarted (h : List (Op × Outcome)) : Prop := (Op.init, Outcome.returned) ∈ h ∨ (Op.put, Outcome.returned) ∈ h

/-- Some call of `shutdown` among these returned (api.py:108-111). -/
def LifeStopped (h : List (Op × Outcome)) : Prop := (Op.shutdown, Outcome.returned) ∈ h

/-- What a program can expect of one backend and one list of calls (docstrings of api.py:82-111): no call hangs, `init` returns
every time, and `is_initialized` tells whether the backend runs. -/
def LifeGood (k : Kind) (ops : List Op) : Prop :=
  (∀ e ∈ (run k .start ops).1, e.2 ≠ .hangs) ∧
  (∀ o, (Op.init, o) ∈ (run k .start ops).1 → o = .returned) ∧
  (∀ pre post o, (run k .start ops).1 = pre ++ (Op.isInitialized, o) :: post → o = .told (lifeUp pre))

/-- C106: every backend is good for every list of calls. -/
def C106_full : Prop := ∀ k ops, LifeGood k ops

/-- Each call of a run happens in a state that satisfies any invariant of the calls before it. -/
theorem life_split {k : Kind} {Inv : List (Op × Outcome) → State → Prop}
    (hstep : ∀ h s op, Inv h s → (step k s op).1 ≠ .hangs → Inv (h ++ [(op, (step k s op).1)]) (step k s op).2) :
    ∀ (ops : List Op) (h0 : List (Op × Outcome)) (s : State), Inv h0 s →
      ∀ pre op o post, (run k s ops).1 = pre ++ (op, o) :: post →
        ∃ s', Inv (h0 ++ pre) s' ∧ (step k s' op).1 = o := by
  intro ops
  induction ops with
  | nil => intro h0 s _ pre op o post h; simp [run] at h
  | cons op ops ih =>
    intro h0 s hi pre op' o' post h
    by_cases hh : (step k s op).1 = .hangs
    · have : (run k s (op :: ops)).1 = [(op, .hangs)] := by
        rw [run]; split
        · rfl
        · rename_i o s' hne he; exact absurd (by rw [he] at hh; exact hh) hne
      rw [this] at h
      cases pre with
      | nil => simp at h; exact ⟨s, by simpa using hi, by rw [← h.1.1, ← h.1.2]; exact hh⟩
      | cons a l => simp at h
    · have hr : (run k s (op :: ops)).1 = (op, (step k s op).1) :: (run k (step k s op).2 ops).1 := by
        rw [run]; split
        · rename_i s' he; rw [he] at hh; exact absurd rfl hh
        · rename_i o s' hne he; simp [he]
      rw [hr] at h
      cases pre with
      | nil =>
        simp at h
        exact ⟨s, by simpa using hi, by rw [← h.1.1, ← h.1.2]⟩
      | cons a l =>
        simp only [List.cons_append, List.cons.injEq] at h
        obtain ⟨s', h1, h2⟩ := ih (h0 ++ [(op, (step k s op).1)]) _ (hstep _ _ _ hi hh) l op' o' post h.2
        exact ⟨s', by rw [← h.1]; simpa using h1, h2⟩

/-- The same for the state after a run without a call that hangs. -/
theorem life_end {k : Kind} {Inv : List (Op × Outcome) → State → Prop}
    (hstep : ∀ h s op, Inv h s → (step k s op).1 ≠ .hangs → Inv (h ++ [(op, (step k s op).1)]) (step k s op).2) :
    ∀ (ops : List Op) (h0 : List (Op × Outcome)) (s : State), Inv h0 s →
      (∀ e ∈ (run k s ops).1, e.2 ≠ .hangs) → Inv (h0 ++ (run k s ops).1) (run k s ops).2 := by
  intro ops
  induction ops with
  | nil => intro h0 s hi _; simpa [run] using hi
  | cons op ops ih =>
    intro h0 s hi hn
    by_cases hh : (step k s op).1 = .hangs
    · exfalso
      have : (run k s (op :: ops)).1 = [(op, .hangs)] := by
        rw [run]; split
        · rfl
        · rename_i o s' hne he; exact absurd (by rw [he] at hh; exact hh) hne
      exact hn (op, .hangs) (by rw [this]; simp) rfl
    · have hr : run k s (op :: ops) =
          ((op, (step k s op).1) :: (run k (step k s op).2 ops).1, (run k (step k s op).2 ops).2) := by
        rw [run]; split
        · rename_i s' he; rw [he] at hh; exact absurd rfl hh
        · rename_i o s' hne he; simp [he]
      rw [hr]
      rw [hr] at hn
      have := ih (h0 ++ [(op, (step k s op).1)]) _ (hstep _ _ _ hi hh) (fun e he => hn e (List.mem_cons_of_mem _ he))
      simpa using this

theorem lifeUp_snoc (h : List (Op × Outcome)) (e : Op × Outcome) :
    lifeUp (h ++ [e]) = (match e with
      | (.init, .returned) => true
      | (.put, .returned) => true
      | (.shutdown, .returned) => false
      | _ => lifeUp h) := by
  unfold lifeUp
  rw [List.foldl_append]
  rfl

/-- A call that hangs is the last one, an outcome of `init` or of the query is the one of a state of the run. -/
theorem lifeGood_of {k : Kind} {Inv : List (Op × Outcome) → State → Prop} (h0 : Inv [] .start)
    (hstep : ∀ h s op, Inv h s → (step k s op).1 ≠ .hangs → Inv (h ++ [(op, (step k s op).1)]) (step k s op).2)
    (hn : ∀ h s op, Inv h s → (step k s op).1 ≠ .hangs)
    (hi : ∀ h s, Inv h s → (step k s .init).1 = .returned)
    (hq : ∀ h s, Inv h s → (step k s .isInitialized).1 = .told (lifeUp h)) (ops : List Op) : LifeGood k ops := by
  refine ⟨?_, ?_, ?_⟩
  · intro e he
    obtain ⟨pre, post, h⟩ := List.append_of_mem he
    obtain ⟨s', h1, h2⟩ := life_split hstep ops [] .start h0 pre e.1 e.2 post h
    rw [← h2]; exact hn _ _ _ h1
  · intro o he
    obtain ⟨pre, post, h⟩ := List.append_of_mem he
    obtain ⟨s', h1, h2⟩ := life_split hstep ops [] .start h0 pre _ _ post h
    rw [← h2]; exact hi _ _ h1
  · intro pre post o h
    obtain ⟨s', h1, h2⟩ := life_split hstep ops [] .start h0 pre _ _ post h
    rw [← h2]; simpa using hq _ _ h1

/-- C106, the part that holds: Ray, Dask and multiprocessing are good for every list of calls. (`shutdown` of multiprocessing always
raises, so the backend runs on.) -/
theorem C106_libraries_partial (k : Kind) (hk : k = .ray ∨ k = .dask ∨ k = .pymp) (ops : List Op) : LifeGood k ops := by
  have key : LifeGood k ops := by
    refine lifeGood_of (k := k) (Inv := fun h s => isInitialized k s = lifeUp h) ?_ ?_ ?_ ?_ ?_ ops
    · rcases hk with h | h | h <;> subst h <;> rfl
    · intro h s op hi _
      rw [lifeUp_snoc]
      rcases hk with h | h | h <;> subst h <;> cases op <;>
        simp only [step, initCall, stopCall, isInitialized] at hi ⊢ <;> (try (cases hu : lifeUp h <;> simp_all))
    · intro h s op _
      rcases hk with h | h | h <;> subst h <;> cases op <;> simp only [step, initCall, stopCall] <;> (try split) <;> simp
    · intro h s _
      rcases hk with h | h | h <;> subst h <;> rfl
    · intro h s hi
      simp [step, hi]
  exact key

/-- C106, the part that holds: the sequential backend is good for every list of calls without `shutdown`. -/
theorem C106_sequential_partial (ops : List Op) (hs : Op.shutdown ∉ ops) : LifeGood .pyseq ops := by
  have hrun : ∀ (ops : List Op) (s : State), Op.shutdown ∉ ops → ∀ e ∈ (run .pyseq s ops).1, e.1 ≠ .shutdown := by
    intro ops
    induction ops with
    | nil => intro s _ e he; simp [run] at he
    | cons op ops ih =>
      intro s hs e he
      simp only [List.mem_cons, not_or] at hs
      rw [run] at he
      split at he
      · simp at he; rw [he]; exact fun h => hs.1 h.symm
      · rcases List.mem_cons.1 he with h | h
        · rw [h]; exact fun h => hs.1 h.symm
        · exact ih _ hs.2 e h
  have hstep : ∀ h s op, ((∀ e ∈ h, e.1 ≠ Op.shutdown) → s.pyseqInitialized = lifeUp h) →
      (step .pyseq s op).1 ≠ .hangs →
      ((∀ e ∈ h ++ [(op, (step .pyseq s op).1)], e.1 ≠ Op.shutdown) →
        (step .pyseq s op).2.pyseqInitialized = lifeUp (h ++ [(op, (step .pyseq s op).1)])) := by
    intro h s op hi _ hn
    have hi := hi (fun e he => hn e (by simp [he]))
    have ho : op ≠ .shutdown := hn (op, (step .pyseq s op).1) (by simp)
    rw [lifeUp_snoc]
    cases op <;> simp only [step, initCall, isInitialized] at hi ⊢ <;> (try (cases hu : lifeUp h <;> simp_all))
  have h0 : ((∀ e ∈ ([] : List (Op × Outcome)), e.1 ≠ Op.shutdown) →
      State.start.pyseqInitialized = lifeUp []) := fun _ => rfl
  refine ⟨?_, ?_, ?_⟩
  · intro e he
    obtain ⟨pre, post, h⟩ := List.append_of_mem he
    obtain ⟨s', _, h2⟩ := life_split hstep ops [] .start h0 pre e.1 e.2 post h
    rw [← h2]
    cases e.1 <;> simp only [step, initCall, stopCall] <;> (try split) <;> simp
  · intro o he
    obtain ⟨pre, post, h⟩ := List.append_of_mem he
    obtain ⟨s', _, h2⟩ := life_split hstep ops [] .start h0 pre _ _ post h
    rw [← h2]; rfl
  · intro pre post o h
    obtain ⟨s', h1, h2⟩ := life_split hstep ops [] .start h0 pre _ _ post h
    have := h1 (fun e he => hrun ops .start hs e (by rw [h]; simp at he; simp [he]))
    rw [← h2]
    simp [step, isInitialized, this]

/-- What the main process of the MPI backend remembers, by the calls so far. -/
structure LifeMpi (h : List (Op × Outcome)) (s : State) : Prop where
  started : s.hasState = true ↔ LifeStarted h
  flag : s.mpiInitialized = s.hasState
  stopped : s.mpiShutdown = true ↔ LifeStopped h
  lib : s.lib = .finalized ↔ LifeStopped h
  order : LifeStopped h → LifeStarted h
  up : ¬ LifeStopped h → (lifeUp h = true ↔ LifeStarted h)
  others : s.others = if s.mpiShutdown then .gone else if s.hasState then .looping else .none

theorem lifeMpi_start : LifeMpi [] .start := by
  constructor <;> simp [State.start, LifeStarted, LifeStopped, lifeUp]

theorem lifeMpi_step (h : List (Op × Outcome)) (s : State) (op : Op) (hi : LifeMpi h s)
    (hn : (step .mpi s op).1 ≠ .hangs) : LifeMpi (h ++ [(op, (step .mpi s op).1)]) (step .mpi s op).2 := by
  obtain ⟨a, b, c, d, e, f, g⟩ := hi
  have hs1 : ∀ x, LifeStarted (h ++ [x]) ↔ LifeStarted h ∨ x = (.init, .returned) ∨ x = (.put, .returned) := by
    intro x; simp only [LifeStarted, List.mem_append, List.mem_singleton, @eq_comm _ _ x]; grind
  have hs2 : ∀ x, LifeStopped (h ++ [x]) ↔ LifeStopped h ∨ x = (.shutdown, .returned) := by
    intro x; simp only [LifeStopped, List.mem_append, List.mem_singleton, @eq_comm _ _ x]
  cases op <;> simp only [step, initCall, mpiInit, stopCall, mpiStop, isInitialized] at hn ⊢ <;>
    (constructor <;> (try simp only [hs1, hs2, lifeUp_snoc]) <;> grind)

/-- C106, what holds for MPI: exactly what each call does after the calls before it. The first `init` returns; another one hangs as
long as the backend runs and raises after `shutdown`. `put` never starts the backend twice. `is_initialized` tells whether the backend
was ever started. `shutdown` raises before the start and returns any number of times afterwards. -/
theorem C106_mpi_partial (ops : List Op) (pre post : List (Op × Outcome)) (op : Op) (o : Outcome)
    (h : (run .mpi .start ops).1 = pre ++ (op, o) :: post) :
    (op = .init → ¬ LifeStarted pre → o = .returned) ∧
    (op = .init → LifeStarted pre → ¬ LifeStopped pre → o = .hangs) ∧
    (op = .init → LifeStopped pre → o = .raised) ∧
    (op = .put → o = .returned) ∧
    (op = .isInitialized → ∃ b, o = .told b ∧ (b = true ↔ LifeStarted pre)) ∧
    (op = .shutdown → (o = .returned ↔ LifeStarted pre)) ∧
    (op = .shutdown → (o = .raised ↔ ¬ LifeStarted pre)) := by
  obtain ⟨s, hi, hs⟩ := life_split lifeMpi_step ops [] .start lifeMpi_start pre _ _ post h
  rw [List.nil_append] at hi
  obtain ⟨a, b, c, d, e, f, g⟩ := hi
  subst hs
  refine ⟨?_, ?_, ?_, ?_, ?_, ?_, ?_⟩ <;> rintro rfl
  all_goals simp only [step, initCall, mpiInit, stopCall, mpiStop, isInitialized]
  · grind
  · grind
  · grind
  · grind
  · exact ⟨_, rfl, by rw [b]; exact a⟩
  · grind
  · grind

/-- The calls of a run are a prefix of the list of calls. -/
theorem life_prefix (k : Kind) : ∀ (ops : List Op) (s : State), ∃ rest, ops = (run k s ops).1.map (·.1) ++ rest := by
  intro ops
  induction ops with
  | nil => intro s; exact ⟨[], by simp [run]⟩
  | cons op ops ih =>
    intro s
    rw [run]
    split
    · exact ⟨ops, by simp⟩
    · rename_i o s' _ _
      obtain ⟨r, hr⟩ := ih s'
      exact ⟨r, by simp [← hr]⟩

/-- C106, the part that holds for MPI: if no `init` follows an `init` or `put`, and `is_initialized` is not asked after `shutdown`, all
is good. -/
theorem C106_mpi_once_partial (ops : List Op) (h1 : ∀ pre post, ops = pre ++ Op.init :: post → Op.init ∉ pre ∧ Op.put ∉ pre)
    (h2 : ∀ pre post, ops = pre ++ Op.isInitialized :: post → Op.shutdown ∉ pre) : LifeGood .mpi ops := by
  obtain ⟨rest, hrest⟩ := life_prefix .mpi ops .start
  have split : ∀ pre op o post, (run .mpi .start ops).1 = pre ++ (op, o) :: post →
      ops = pre.map (·.1) ++ op :: (post.map (·.1) ++ rest) := by
    intro pre op o post h
    rw [hrest]
    simp [h]
  have hstart : ∀ pre : List (Op × Outcome), Op.init ∉ pre.map (·.1) → Op.put ∉ pre.map (·.1) → ¬ LifeStarted pre := by
    intro pre a b h
    rcases h with h | h
    · exact a (List.mem_map.2 ⟨_, h, rfl⟩)
    · exact b (List.mem_map.2 ⟨_, h, rfl⟩)
  have hinit : ∀ pre o post, (run .mpi .start ops).1 = pre ++ (Op.init, o) :: post → o = .returned := by
    intro pre o post h
    obtain ⟨a, b⟩ := h1 _ _ (split _ _ _ _ h)
    exact (C106_mpi_partial ops pre post .init o h).1 rfl (hstart _ a b)
  refine ⟨?_, ?_, ?_⟩
  · rintro ⟨op, o⟩ he
    obtain ⟨pre, post, h⟩ := List.append_of_mem he
    obtain ⟨_, _, _, q4, q5, q6, q7⟩ := C106_mpi_partial ops pre post op o h
    cases op with
    | init => simp [hinit _ _ _ h]
    | put => simp [q4 rfl]
    | isInitialized => obtain ⟨b, hb, _⟩ := q5 rfl; simp [hb]
    | shutdown =>
      intro hh
      have hh : o = .hangs := hh
      subst hh
      by_cases hc : LifeStarted pre
      · exact Outcome.noConfusion ((q6 rfl).2 hc)
      · exact Outcome.noConfusion ((q7 rfl).2 hc)
  · intro o he
    obtain ⟨pre, post, h⟩ := List.append_of_mem he
    exact hinit _ _ _ h
  · intro pre post o h
    obtain ⟨s, hi, hs⟩ := life_split lifeMpi_step ops [] .start lifeMpi_start pre _ _ post h
    rw [List.nil_append] at hi
    have hns : ¬ LifeStopped pre := fun hst => h2 _ _ (split _ _ _ _ h) (List.mem_map.2 ⟨_, hst, rfl⟩)
    have : lifeUp pre = s.mpiInitialized := by
      have := hi.up; have := hi.flag; have := hi.started
      cases hu : lifeUp pre <;> cases hm : s.mpiInitialized <;> grind
    rw [← hs, this]
    rfl

/-- C106 for MPI: the other processes are in their loops exactly from the first start to the first `shutdown` that
returns; then they have left. -/
theorem C106_processes (ops : List Op) (h : ∀ e ∈ (run .mpi .start ops).1, e.2 ≠ .hangs) :
    ((run .mpi .start ops).2.others = .looping ↔
      (LifeStarted (run .mpi .start ops).1 ∧ ¬ LifeStopped (run .mpi .start ops).1)) ∧
    ((run .mpi .start ops).2.others = .gone ↔ LifeStopped (run .mpi .start ops).1) := by
  have hi := life_end lifeMpi_step ops [] .start lifeMpi_start h
  rw [List.nil_append] at hi
  obtain ⟨a, b, c, d, e, f, g⟩ := hi
  constructor
  · rw [g]; grind
  · rw [g]; grind

/-- C106 fails for MPI: the second `init` hangs. -/
theorem C106_twice_violated : ¬ LifeGood .mpi [.init, .init] := by
  intro h; exact h.1 (.init, .hangs) (by decide) rfl

/-- C106 fails for MPI: after `shutdown`, `is_initialized` still tells that the backend runs, and `init` raises. -/
theorem C106_again_violated :
    (run .mpi .start [.init, .shutdown, .isInitialized, .init]).1 =
      [(.init, .returned), (.shutdown, .returned), (.isInitialized, .told true), (.init, .raised)] ∧
    lifeUp [(.init, .returned), (.shutdown, .returned)] = false := by decide

/-- C106 fails for MPI: `put` after `shutdown` starts nothing. It goes on although all other processes have left: without
the shared store it keeps the data in the main process and returns (controller/api.py:390-393). -/
theorem C106_put_violated :
    (run .mpi .start [.init, .shutdown, .put]).1 = [(.init, .returned), (.shutdown, .returned), (.put, .returned)] ∧
    lifeUp (run .mpi .start [.init, .shutdown, .put]).1 = true ∧
    (run .mpi .start [.init, .shutdown, .put]).2.others = .gone := by decide

/-- C106 fails for the sequential backend: `shutdown` returns without effect. -/
theorem C106_sequential_violated : ¬ LifeGood .pyseq [.init, .shutdown, .isInitialized] := by
  intro h
  exact absurd (h.2.2 [(.init, .returned), (.shutdown, .returned)] [] (.told true) (by decide)) (by decide)

/-- C106 fails. -/
theorem C106_violated : ¬ C106_full := fun h => C106_twice_violated (h _ _)

/-- Dask, with a restart. -/
example : (run .dask .start [.shutdown, .isInitialized, .put, .isInitialized, .init, .shutdown, .isInitialized, .init]).1 =
    [(.shutdown, .raised), (.isInitialized, .told false), (.put, .returned), (.isInitialized, .told true), (.init, .returned),
      (.shutdown, .returned), (.isInitialized, .told false), (.init, .returned)] := by decide

example : LifeGood .dask [.shutdown, .isInitialized, .put, .isInitialized, .init, .shutdown, .isInitialized, .init] :=
  C106_libraries_partial _ (Or.inr (Or.inl rfl)) _

/-- MPI: `put` starts the backend, a second `put` finds it started, `shutdown` returns twice. -/
example : (run .mpi .start [.isInitialized, .put, .put, .isInitialized, .shutdown, .shutdown]).1 =
    [(.isInitialized, .told false), (.put, .returned), (.put, .returned), (.isInitialized, .told true), (.shutdown, .returned),
      (.shutdown, .returned)] := by decide

end Verif.Props
