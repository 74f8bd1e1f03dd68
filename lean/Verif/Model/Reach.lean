/-!
# Which process can use which reference

Models what the processes know about references: `put`, `submit` and `get` of
`/repo/unidist/core/backends/mpi/core/controller/api.py` (371-433, 508-580), `push_data` and `request_worker_data` of
`controller/common.py` (174-233, 368-415), the maps of `/repo/unidist/core/backends/mpi/core/local_object_store.py` (24-131) and
the resolution of arguments on a worker (worker/task_store.py:168-206).

A value is the list of the references contained in it. The arguments of a call are of two kinds: references that `push_data`
finds, directly or in lists, tuples and dictionary values, and references in other objects (sets, dictionary keys, instances,
closures), which are pickled with them and arrive unnoticed.

Simplifications: there is no clean-up (that is C78 for one process and C94) and no task fails; all references that code on a
process has seen count as held by it.
-/
namespace Verif.Reach

/-- A received `EXECUTE` request (api.py:555-562): output, references found by `push_data`, references in other objects. -/
structure Task where
  out : Nat
  args : List Nat
  inside : List Nat
deriving DecidableEq, Repr

/-- All processes: whether a process has the data of a reference and which owner it knows (local_object_store.py:24-38), the
references its code holds, its requests; the references contained in the value of each reference; the next reference
(local_object_store.py:182-200). -/
structure Sys where
  data : Nat → Nat → Bool
  owner : Nat → Nat → Option Nat
  held : Nat → List Nat
  tasks : Nat → List Task
  content : Nat → List Nat
  next : Nat

/-- Start: nothing exists (local_object_store.py:24-38). -/
def Sys.init : Sys where
  data _ _ := false
  owner _ _ := none
  held _ := []
  tasks _ := []
  content _ := []
  next := 0

/-- What happens: the code of a process puts a value that contains `content` (api.py:371); it submits a call to `dest`
(api.py:508); a worker executes its `i`-th request, whose value contains `content` (task_store.py:208-404); a process obtains
the data of a reference from the owner it knows (controller/common.py:192-231; task_store.py:196-202); code calls `get`
(api.py:400). -/
inductive Op
  | put (r new : Nat) (content : List Nat)
  | submit (r dest new : Nat) (args inside : List Nat)
  | work (r i : Nat) (content : List Nat)
  | fetch (r p : Nat)
  | get (r p : Nat)
deriving DecidableEq, Repr

/-- Whether a process has the data of `p` or knows an owner (controller/common.py:397-415; task_store.py:189-204). -/
def Sys.known (s : Sys) (r p : Nat) : Bool := s.data r p || (s.owner r p).isSome

/-- `get` raises `KeyError` (api.py:418-424; controller/common.py:193; local_object_store.py:117-131). -/
def Sys.getRaises (s : Sys) (r p : Nat) : Bool := !s.known r p

/-- `submit` raises `ValueError("Unknown DataID!")` (controller/common.py:389-415). -/
def Sys.submitRaises (s : Sys) (r : Nat) (args : List Nat) : Bool := args.any fun p => !s.known r p

/-- Process `r` has the data of `p` (local_object_store.py:73-85). -/
def Sys.setData (s : Sys) (r p : Nat) : Sys :=
  { s with data := fun r' p' => if r' = r ∧ p' = p then true else s.data r' p' }

/-- Process `r` knows that `o` owns `p` (local_object_store.py:87-99). -/
def Sys.setOwner (s : Sys) (r p : Nat) (o : Option Nat) : Sys :=
  { s with owner := fun r' p' => if r' = r ∧ p' = p then o else s.owner r' p' }

/-- The code of process `r` sees the references `ps` (mpi/core/common.py:287-319: they are unpickled). -/
def Sys.hold (s : Sys) (r : Nat) (ps : List Nat) : Sys :=
  { s with held := fun r' => if r' = r then ps ++ s.held r' else s.held r' }

/-- `push_data` from `r` to `dest` (controller/common.py:368-415): the data if the sender has it, else the owner. -/
def Sys.push (s : Sys) (r dest : Nat) : List Nat → Sys
  | [] => s
  | p :: ps => if s.data r p then (s.setData dest p).push r dest ps else (s.setOwner dest p (s.owner r p)).push r dest ps

/-- One step; `none` if it does not happen: code uses only references that it holds, a call that raises has no effect here, a
request is executed once the data of its arguments is there (api.py:371-433, 508-580; task_store.py:168-404). -/
def Sys.step (s : Sys) : Op → Option Sys
  | .put r new content =>
    if new = s.next ∧ content.all (· ∈ s.held r) then
      let s1 := (s.setData r new).hold r [new]
      some { s1 with content := fun p => if p = new then content else s.content p, next := s.next + 1 }
    else none
  | .submit r dest new args inside =>
    if new = s.next ∧ dest ≠ r ∧ (args ++ inside).all (· ∈ s.held r) ∧ s.submitRaises r args = false then
      let s1 := ((s.push r dest args).setOwner r new (some dest)).hold r [new]
      some { s1 with tasks := fun r' => if r' = dest then s.tasks r' ++ [⟨new, args, inside⟩] else s.tasks r',
                     next := s.next + 1 }
    else none
  | .work r i content =>
    match (s.tasks r)[i]? with
    | none => none
    | some t =>
      let s1 := s.hold r (t.inside ++ t.args.flatMap s.content)
      if t.args.all (s.data r ·) ∧ content.all (· ∈ s1.held r) then
        let s2 := s1.setData r t.out
        some { s2 with tasks := fun r' => if r' = r then (s.tasks r').eraseIdx i else s.tasks r',
                       content := fun p => if p = t.out then content else s.content p }
      else none
  | .fetch r p =>
    match s.owner r p with
    | none => none
    | some o => if s.data o p then some (s.setData r p) else none
  | .get r p => if p ∈ s.held r ∧ s.data r p then some (s.hold r (s.content p)) else none

/-- A history (worker/loop.py:103-233). -/
def Sys.run : Sys → List Op → Option Sys
  | s, [] => some s
  | s, op :: ops =>
    match s.step op with
    | some s' => Sys.run s' ops
    | none => none

end Verif.Reach
