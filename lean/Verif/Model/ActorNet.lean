/-!
# Actor handles passed between processes

Models `/repo/unidist/core/backends/mpi/core/controller/actor.py` `Actor.__init__` (91-128: `ACTOR_CREATE` sent once, by the
creating process), `__reduce__` (130-180: a handle that arrives at another process is ready for use) and
`ActorMethod.__call__` (36-64: `ACTOR_EXECUTE` sent to the owner), and the branches `ACTOR_CREATE` and `ACTOR_EXECUTE` of
`/repo/unidist/core/backends/mpi/core/worker/loop.py` (176-201). Messages of one process to another keep their order; messages of
different processes do not. Handles are numbers in the order of creation. Arguments, method names, results and scheduling are
left out; a method sends one message back, which stands for the answer to a `get` of its result.
-/
namespace Verif.ActorNet

/-- A message: `ACTOR_CREATE` (actor.py:113-128), `ACTOR_EXECUTE` (actor.py:45-63), an `EXECUTE` with a handle among its
arguments (api.py:555-572), data that a method produced (controller/common.py:216-227). -/
inductive Msg
  | create (h : Nat)
  | call (h : Nat)
  | task (h : Nat)
  | result (h : Nat)
deriving DecidableEq, Repr

/-- All processes: messages under way by sender and receiver, the keys of `actor_map` (worker/loop.py:39), the handles at
each process, the handles of which a method result has arrived at a process, the processes ended by a `KeyError`, and for each
handle its owner and its creator (actor.py:91-128). -/
structure State where
  chan : Nat → Nat → List Msg
  actors : Nat → List Nat
  knows : Nat → List Nat
  confirmed : Nat → List Nat
  crashed : Nat → Bool
  owner : Nat → Nat
  creator : Nat → Nat
  next : Nat

/-- Start (worker/loop.py:39): nothing created, nothing under way. -/
def State.init : State := ⟨fun _ _ => [], fun _ => [], fun _ => [], fun _ => [], fun _ => false, fun _ => 0, fun _ => 0, 0⟩

/-- What happens: process `p` creates an actor on `dst` (actor.py:91-128); `p` calls a method of a handle that it has
(actor.py:36-64); `p` submits a task with a handle to `q` (api.py:508-580); `q` receives the next message of `p`
(worker/loop.py:103-201). -/
inductive Act
  | new (p dst : Nat)
  | use (p h : Nat)
  | pass (p q h : Nat)
  | deliver (p q : Nat)

/-- Append a message (communication.py:923-990). -/
def State.send (s : State) (p q : Nat) (m : Msg) : State :=
  { s with chan := fun a b => if a = p ∧ b = q then s.chan p q ++ [m] else s.chan a b }

/-- Add an element at one process (worker/loop.py:183). -/
def add (f : Nat → List Nat) (p x : Nat) : Nat → List Nat := fun q => if q = p then x :: f p else f q

/-- Handle a message of `p` at `q` (worker/loop.py:113-122, 176-201). `actor_map[handler]` raises `KeyError` for an unknown
handle (192), which ends the worker. -/
def State.handle (s : State) (p q : Nat) : Msg → State
  | .create h => { s with actors := add s.actors q h }
  | .call h => if h ∈ s.actors q then s.send q p (.result h) else { s with crashed := fun r => r = q || s.crashed r }
  | .task h => { s with knows := add s.knows q h }
  | .result h => { s with confirmed := add s.confirmed q h }

/-- One step; `none` if it is not possible (actor.py:36-128, worker/loop.py:103-201). -/
def State.step (s : State) : Act → Option State
  | .new p dst =>
    if s.crashed p then none
    else some { s.send p dst (.create s.next) with
      owner := fun h => if h = s.next then dst else s.owner h
      creator := fun h => if h = s.next then p else s.creator h
      knows := add s.knows p s.next
      next := s.next + 1 }
  | .use p h => if s.crashed p ∨ h ∉ s.knows p then none else some (s.send p (s.owner h) (.call h))
  | .pass p q h => if s.crashed p ∨ h ∉ s.knows p then none else some (s.send p q (.task h))
  | .deliver p q =>
    match s.chan p q with
    | [] => none
    | m :: l =>
      if s.crashed q then none
      else some ({ s with chan := fun a b => if a = p ∧ b = q then l else s.chan a b }.handle p q m)

/-- A history of steps (worker/loop.py:103-233). -/
def State.run : State → List Act → Option State
  | s, [] => some s
  | s, a :: as =>
    match s.step a with
    | some s' => State.run s' as
    | none => none

end Verif.ActorNet
