/-!
# Remote functions that travel between processes

Models which remote function objects a process can call (`/repo/unidist/core/backends/mpi/remote_function.py` 30-90,
`controller/api.py` 371-397, 508-580, `controller/common.py` 368-415). A remote function object reaches another process as an argument or
because a function that is sent uses it: functions are pickled by value with the objects they use, since the decorator has
replaced the function of this name in its module.

Simplifications: functions, not actors; messages arrive at once; nothing else is stored; a call always sends the function, also if the same
process has sent it there before a cleanup.
-/
namespace Verif.Travel

/-- All processes. The remote function objects of a process: `none` if the object still holds the function, `some id` if it holds the reference
made by the first call (remote_function.py:75-76). The references that a process knows (controller/common.py:397-413) and those that it keeps
until the next cleanup (local_object_store.py:53-71), the process that made a reference (local_object_store.py:182-200), the number of
references made, references dropped by their maker but not cleaned up (garbage_collector.py:81-92), and the process and reference of
every call that raised `ValueError("Unknown DataID!")`. -/
structure State where
  objects : Nat → List (Option Nat)
  known : Nat → List Nat
  strong : Nat → List Nat
  maker : Nat → Nat
  next : Nat
  dropped : List Nat
  failed : List (Nat × Nat)

/-- Start (local_object_store.py:24-38): no remote function. -/
def State.init : State := ⟨fun _ => [], fun _ => [], fun _ => [], fun _ => 0, 0, [], []⟩

/-- What happens: process `p` decorates a function (unidist/api.py:58-63); it calls its `k`-th object, the task goes to `dst`
(remote_function.py:62-90); it sends a copy of the object to `q` (serialization.py:163-177); it drops the object
(mpi/core/common.py:329-334); the dropped references are cleaned up (garbage_collector.py:94-144, worker/loop.py:203-208). -/
inductive Op
  | define (p : Nat)
  | call (p k dst : Nat)
  | pass (p k q : Nat)
  | drop (p k : Nat)
  | cleanup
deriving DecidableEq, Repr

/-- Update of a function at one place (local_object_store.py:73-99). -/
def setAt {α : Type} (f : Nat → α) (k : Nat) (v : α) : Nat → α := fun i => if i = k then v else f i

/-- A process receives the reference with its data (local_object_store.py:67-85): it keeps those made by others. -/
def State.receive (s : State) (q id : Nat) : State :=
  { s with
    known := setAt s.known q (id :: s.known q)
    strong := if s.maker id = q then s.strong else setAt s.strong q (id :: s.strong q) }

/-- A new reference made by `put` (remote_function.py:75-76, controller/api.py:388-393). -/
def State.make (s : State) (p k : Nat) : State :=
  { s with
    objects := setAt s.objects p ((s.objects p).set k (some s.next))
    known := setAt s.known p (s.next :: s.known p)
    maker := setAt s.maker s.next p
    next := s.next + 1 }

/-- One step; `none` if there is no such object. A call of an object that holds a reference does not `put` it again
(remote_function.py:75-76); `push_data` raises for an unknown one (controller/common.py:415). The dictionaries of a store have weak keys
(local_object_store.py:24-38) and a process has only one object for a reference (mpi/core/common.py:287-294), so a process knows
a reference as long as it keeps it or one of its remote function objects holds it; the maker then reports it for cleanup. -/
def State.step (s : State) : Op → Option State
  | .define p => some { s with objects := setAt s.objects p (s.objects p ++ [none]) }
  | .call p k dst =>
    match (s.objects p)[k]? with
    | none => none
    | some none => some ((s.make p k).receive dst s.next)
    | some (some id) =>
      if id ∈ s.known p then some (s.receive dst id)
      else some { s with failed := s.failed ++ [(p, id)] }
  | .pass p k q =>
    match (s.objects p)[k]? with
    | none => none
    | some o => some { s with objects := setAt s.objects q (s.objects q ++ [o]) }
  | .drop p k =>
    match (s.objects p)[k]? with
    | none => none
    | some none => some { s with objects := setAt s.objects p ((s.objects p).eraseIdx k) }
    | some (some id) =>
      let rest := (s.objects p).eraseIdx k
      if some id ∈ rest ∨ id ∈ s.strong p then some { s with objects := setAt s.objects p rest }
      else some { s with
        objects := setAt s.objects p rest
        known := setAt s.known p ((s.known p).filter (· ≠ id))
        dropped := if s.maker id = p then id :: s.dropped else s.dropped }
  | .cleanup => some { s with
      known := fun p => (s.known p).filter fun id => id ∉ s.dropped ∨ s.maker id = p ∨ some id ∈ s.objects p
      strong := fun p => (s.strong p).filter (· ∉ s.dropped)
      dropped := [] }

/-- A history (controller/api.py:371-580). -/
def State.run : State → List Op → Option State
  | s, [] => some s
  | s, o :: os =>
    match s.step o with
    | some t => State.run t os
    | none => none

end Verif.Travel
