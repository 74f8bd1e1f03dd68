/-!
# How long the sequential and the multiprocessing backend keep data

Both backends keep the objects and results in one dictionary (`/repo/unidist/core/backends/pyseq/core/object_store.py` 10-54,
`/repo/unidist/core/backends/pymp/core/object_store.py` 31-70) from which nothing is taken out; the end of a reference has no effect on it
(`/repo/unidist/core/backends/common/data_id.py` 10-29 has no finalizer).

Models a program that puts objects, calls functions with references as arguments and drops references. Values are lists of numbers; a task that is asked
for several results gives the elements of its list. Actors, nested references, values that cannot be serialized and the text of errors are left out.
-/
namespace Verif.Retention

/-- The two backends with a store in a dictionary (pyseq/core/object_store.py:10, pymp/core/object_store.py:19). -/
inductive Backend
  | pyseq
  | pymp
deriving DecidableEq, Repr

/-- What an entry can be: `Delayed()`, an object or an exception (pymp/core/object_store.py:13, 96-104). -/
inductive Entry
  | delayed
  | value (v : List Nat)
  | error
deriving DecidableEq, Repr

/-- A task of the multiprocessing backend: the references of its results, those among its arguments, and what the function does: it raises (`none`)
or returns a value (pymp/core/process_manager.py:184-229). -/
structure Task where
  ids : List Nat
  args : List Nat
  out : Option (List Nat)
deriving DecidableEq, Repr

/-- The dictionary, whose keys are references or `None`; the number of references made; the references that the program holds, once for each variable;
the submitted tasks that were not executed (pymp/core/object_store.py:31-33, pymp/core/process_manager.py:35-59). -/
structure State where
  store : List (Option Nat × Entry)
  next : Nat
  held : List Nat
  queue : List Task
deriving DecidableEq, Repr

/-- Nothing is stored (pyseq/core/object_store.py:15-17). -/
def State.init : State := ⟨[], 0, [], []⟩

/-- What the program does, and the execution of the `i`-th waiting task by a worker (pymp/core/process_manager.py:35-59). -/
inductive Op
  | put (v : List Nat)
  | call (n : Nat) (args : List Nat) (out : Option (List Nat))
  | exec (i : Nat)
  | drop (r : Nat)
deriving DecidableEq, Repr

/-- `store[key]` (pyseq/core/object_store.py:78-83, pymp/core/object_store.py:96-104); `none` is `KeyError`. -/
def find (store : List (Option Nat × Entry)) (k : Option Nat) : Option Entry := (store.find? fun e => e.1 = k).map (·.2)

/-- `store[key] = entry`: replaces the entry of the key or adds one (pymp/core/process_manager.py:44-56). -/
def assign (k : Option Nat) (x : Entry) : List (Option Nat × Entry) → List (Option Nat × Entry)
  | [] => [(k, x)]
  | e :: l => if e.1 = k then (k, x) :: l else e :: assign k x l

/-- Several assignments in order (pymp/core/process_manager.py:45-54). -/
def assigns (l : List (Nat × Entry)) (store : List (Option Nat × Entry)) : List (Option Nat × Entry) :=
  l.foldl (fun st p => assign (some p.1) p.2 st) store

/-- `put` under a fresh reference, for each of the objects (pyseq/core/object_store.py:51-54, pymp/core/object_store.py:67-70). The references are not
yet given to the program. -/
def State.puts (s : State) (xs : List Entry) : State :=
  { s with store := s.store ++ xs.mapIdx fun i x => (some (s.next + i), x), next := s.next + xs.length }

/-- `[obj_store.put(result[idx]) for idx in range(num_returns)]` (pyseq/core/api.py:111-121): the objects that are put, and whether all could be;
the missing one raises `IndexError`. -/
def results (n : Nat) : Option (List Nat) → List Entry × Bool
  | none => (List.replicate n .error, true)
  | some v => if n = 1 then ([.value v], true) else ((v.take n).map fun x => .value [x], decide (n ≤ v.length))

/-- What a worker assigns (pymp/core/process_manager.py:42-56): an exception goes to all results, to the key `None` if there are none; with several
results `zip` ends with the shorter list. -/
def Task.write (t : Task) (store : List (Option Nat × Entry)) : Option (List Nat) → List (Option Nat × Entry)
  | none => if t.ids = [] then assign none .error store else assigns (t.ids.map fun r => (r, .error)) store
  | some v =>
    match t.ids with
    | [] => store
    | [r] => assign (some r) (.value v) store
    | ids => assigns (ids.zip (v.map fun x => .value [x])) store

/-- `__call__` of a task takes the arguments in order (pymp/core/process_manager.py:221-229, pymp/core/object_store.py:96-104): it waits for one
(`none`), or one raises (`some true`), or all are there. -/
def fate (store : List (Option Nat × Entry)) : List Nat → Option Bool
  | [] => some false
  | r :: l =>
    match find store (some r) with
    | some .delayed => none
    | some (.value _) => fate store l
    | _ => some true

/-- One step; `none` if it is not possible: the program uses or drops what it does not hold, there is no such task, or it still waits for an argument
(pyseq/core/api.py:101-123, pymp/core/api.py:136-149, pymp/core/process_manager.py:35-59, 209-229). -/
def State.step (b : Backend) (s : State) : Op → Option State
  | .put v => some { s.puts [.value v] with held := s.held ++ [s.next] }
  | .drop r => if r ∈ s.held then some { s with held := s.held.erase r } else none
  | .call n args out =>
    if args.all fun r => decide (r ∈ s.held) then
      match b with
      | .pymp =>
        let ids := (List.range n).map (s.next + ·)
        some { s.puts (List.replicate n .delayed) with held := s.held ++ ids, queue := s.queue ++ [⟨ids, args, out⟩] }
      | .pyseq =>
        if fate s.store args ≠ some false then some s
        else
          let xs := results n out
          some { s.puts xs.1 with held := if xs.2 then s.held ++ (List.range n).map (s.next + ·) else s.held }
    else none
  | .exec i =>
    match b, s.queue[i]? with
    | .pymp, some t =>
      match fate s.store t.args with
      | none => none
      | some bad => some { s with store := t.write s.store (if bad then none else t.out), queue := s.queue.eraseIdx i }
    | _, _ => none

/-- A history (pymp/core/process_manager.py:35-59). -/
def State.run (b : Backend) : State → List Op → Option State
  | s, [] => some s
  | s, o :: os => (s.step b o).bind fun s' => s'.run b os

end Verif.Retention
