import Verif.Model.PympNested

/-!
# Workers of actors that are made in several processes of the multiprocessing backend

An actor is made by the process that calls `remote`: the main process or, in a method or constructor, the process of another actor. `Actor.__init__`
(`/repo/unidist/core/backends/pymp/core/actor.py` 99-110) first forks the process of the new actor and then grabs a worker from the instance of
`ProcessManager` of its own process. The forked process has a copy of that instance, from before the worker was grabbed; from then on the instances know
nothing of each other. The worker is given back to the instance of the maker when the handle is collected (141-148).

Models the start method `fork`. An actor is dropped when its process has no actors any more; its process makes no calls afterwards. A failed creation leaves no
process behind.
-/
namespace Verif.PympPlaces
open Verif.PympNested (Pool)

/-- An actor: the process that made it, its worker, and whether it was not dropped (pymp/core/actor.py:99-110, 141-148). -/
structure Place where
  maker : Nat
  worker : Nat
  alive : Bool
deriving DecidableEq, Repr

/-- The instances of the processes: that of the main process first, then those of the processes of the actors in the order of their creation; the actors; the
calls of functions, each with the process that made it and the worker (process_manager.py:90-115, pymp/core/actor.py:99-110). -/
structure State where
  pools : List Pool
  actors : List Place
  calls : List (Nat × Nat)
deriving DecidableEq, Repr

/-- `n` free workers (process_manager.py:90-102). -/
def State.init (n : Nat) : State := ⟨[⟨List.replicate n false, 0⟩], [], []⟩

/-- Process `p` creates an actor or calls a function; the handle of actor `a` is collected (pymp/core/actor.py:99-110, 141-148, pymp/core/api.py:112-149). -/
inductive Op
  | create (p : Nat)
  | call (p : Nat)
  | drop (a : Nat)
deriving DecidableEq, Repr

/-- Process `p` exists: the main process, or that of an actor that was not dropped (pymp/core/actor.py:105-107). -/
def State.runs (s : State) : Nat → Bool
  | 0 => true
  | a + 1 => (s.actors[a]?).any (·.alive)

/-- `free_worker` (process_manager.py:151-160). -/
def free (w : Nat) (q : Pool) : Pool := { q with grabbed := q.grabbed.set w false }

/-- One step; `none` if there is no such process or actor. Calls that raise `RuntimeError` because no worker is left change nothing
(process_manager.py:131-181, pymp/core/actor.py:99-110, 141-148). -/
def State.step (s : State) : Op → Option State
  | .create p =>
    if s.runs p then
      match s.pools[p]? with
      | none => none
      | some q =>
        match q.grab with
        | none => some s
        | some (w, q') => some { s with pools := s.pools.set p q' ++ [q], actors := s.actors ++ [⟨p, w, true⟩] }
    else none
  | .call p =>
    if s.runs p then
      match s.pools[p]? with
      | none => none
      | some q =>
        match q.submit with
        | none => some s
        | some (w, q') => some { s with pools := s.pools.set p q', calls := s.calls ++ [(p, w)] }
    else none
  | .drop a =>
    match s.actors[a]? with
    | none => none
    | some x =>
      if x.alive = true ∧ ∀ y ∈ s.actors, y.maker = a + 1 → y.alive = false then
        some { s with pools := s.pools.modify x.maker (free x.worker), actors := s.actors.set a { x with alive := false } }
      else none

/-- A history (pymp/core/actor.py:99-148). -/
def State.run : State → List Op → Option State
  | s, [] => some s
  | s, o :: os => (s.step o).bind fun s' => s'.run os

end Verif.PympPlaces
