/-!
# Worker pool of the multiprocessing backend

Models `ProcessManager` in `/repo/unidist/core/backends/pymp/core/process_manager.py` (73-181) and its use by
`Actor.__init__`/`Actor.__del__` (`pymp/core/actor.py` 99-111, 141-148).
-/
namespace Verif.PympPool

/-- State of `ProcessManager`: `grabbed_workers` (one flag per worker) and the class attribute `_worker_id` (process_manager.py:90-102). -/
structure Pool where
  grabbed : List Bool
  nextId : Nat
deriving DecidableEq, Repr

/-- `ProcessManager.__init__` with `n` workers (process_manager.py:90-102). -/
def Pool.init (n : Nat) : Pool := ⟨List.replicate n false, 0⟩

/-- `_next` (process_manager.py:117-129). -/
def Pool.next (p : Pool) : Nat × Pool :=
  (p.nextId, { p with nextId := if p.nextId + 1 = p.grabbed.length then 0 else p.nextId + 1 })

/-- The loop of `submit` (process_manager.py:171-181) with `fuel` skips left; `none` is the `RuntimeError`. A worker index out of range
would be an `IndexError`; it does not occur (`grabbed[idx]?` is never `none` on reachable states) and is mapped to
failure here. -/
def Pool.submitLoop : Nat → Pool → Option Nat × Pool
  | 0, p => (none, p)
  | fuel + 1, p =>
    let r := p.next
    match p.grabbed[r.1]? with
    | none => (none, r.2)
    | some false => (some r.1, r.2)
    | some true => Pool.submitLoop fuel r.2

/-- `submit` (process_manager.py:162-181): index of the worker whose queue gets the task. -/
def Pool.submit (p : Pool) : Option Nat × Pool := p.submitLoop p.grabbed.length

/-- First free index (process_manager.py:145-148). -/
def firstFree : List Bool → Option Nat
  | [] => none
  | false :: _ => some 0
  | true :: t => (firstFree t).map (· + 1)

/-- `grab_worker` (process_manager.py:131-149). -/
def Pool.grab (p : Pool) : Option Nat × Pool :=
  match firstFree p.grabbed with
  | some i => (some i, { p with grabbed := p.grabbed.set i true })
  | none => (none, p)

/-- `free_worker` (process_manager.py:151-160). -/
def Pool.free (p : Pool) (i : Nat) : Pool := { p with grabbed := p.grabbed.set i false }

/-- Operations of the main process (process_manager.py:131-181). -/
inductive Op
  /-- `submit` of a task (pymp/core/api.py:147). -/
  | submit
  /-- Creation of an actor (pymp/core/actor.py:110). -/
  | create
  /-- Destruction of the `i`-th live actor (pymp/core/actor.py:141-148). -/
  | drop (i : Nat)
deriving DecidableEq, Repr

/-- Outcome of an operation (process_manager.py:131-181). -/
inductive Effect
  | task (worker : Nat)
  | actor (worker : Nat)
  | refused
  | none
deriving DecidableEq, Repr

/-- Pool together with the worker indices of the live actors (process_manager.py:90-102, pymp/core/actor.py:99-110). -/
structure State where
  pool : Pool
  actors : List Nat
deriving DecidableEq, Repr

/-- Start of the pool (process_manager.py:90-102). -/
def State.init (n : Nat) : State := ⟨Pool.init n, []⟩

/-- One operation (pymp/core/api.py:147; pymp/core/actor.py:110, 147-148). -/
def State.step (s : State) : Op → Effect × State
  | .submit =>
    match s.pool.submit with
    | (some i, p) => (.task i, { s with pool := p })
    | (Option.none, p) => (.refused, { s with pool := p })
  | .create =>
    match s.pool.grab with
    | (some i, p) => (.actor i, ⟨p, s.actors ++ [i]⟩)
    | (Option.none, p) => (.refused, { s with pool := p })
  | .drop k =>
    match s.actors[k]? with
    | some i => (.none, ⟨s.pool.free i, s.actors.eraseIdx k⟩)
    | Option.none => (.none, s)

/-- A history: for each operation the workers of the actors live at its start, the operation and the outcome
(process_manager.py:131-181). -/
def State.run : State → List Op → List (List Nat × Op × Effect) × State
  | s, [] => ([], s)
  | s, o :: os =>
    let r := s.step o
    let q := State.run r.2 os
    ((s.actors, o, r.1) :: q.1, q.2)

end Verif.PympPool
