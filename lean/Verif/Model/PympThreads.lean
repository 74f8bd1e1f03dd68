/-!
# Calls from several threads on the multiprocessing backend

The process manager and the classes of actors are shared by the threads of a process and have no locks. Models calls of functions (`ProcessManager.submit`
and `_next`, `/repo/unidist/core/backends/pymp/core/process_manager.py` 117-129, 162-181) and creations of actors (`Actor.__init__`,
`/repo/unidist/core/backends/pymp/core/actor.py` 99-110, and `grab_worker`, process_manager.py 131-149) that go on in any order.

Threads change between any two reads and writes of shared data. `register` writes one entry of a dictionary of the class `BaseManager`, and `start` forks a
process with a copy of it. The rest of a call (references, queues, pickling) uses no data of other calls. Dropped actors are left out.
-/
namespace Verif.PympThreads

/-- What a call is: of a function, or the creation of an actor of a class (pymp/core/api.py:112-149, pymp/core/actor.py:99). -/
inductive Job
  | call
  | actor (cls : Nat)
deriving DecidableEq, Repr

/-- How a call ends: the task is in the queue of a worker; an actor has an object of a class and a worker; `RuntimeError` as there is no worker; `IndexError`
(process_manager.py:149, 175-181, pymp/core/actor.py:109-110). -/
inductive Res
  | placed (w : Nat)
  | made (cls w : Nat)
  | refused
  | indexError
deriving DecidableEq, Repr

/-- Where a call is: at the condition of the loop of `submit` with `num_skipped = k`; in `_next` after `idx = i`, after the load and after the store of the
increment, before the assignment of 0; at the test of the flag of worker `i`; before `add_task`. The creation of an actor: after `register`; at flag `i` with an
object of class `cls`; before its assignment. Or it has ended (process_manager.py:125-129, 145-149, 171-181, pymp/core/actor.py:105-110). -/
inductive Pc
  | idle
  | top (k : Nat)
  | read (k i : Nat)
  | loaded (k i r : Nat)
  | stored (k i : Nat)
  | wrap (k i : Nat)
  | checked (k i : Nat)
  | adding (i : Nat)
  | registered
  | looking (cls i : Nat)
  | marking (cls i : Nat)
  | done (r : Res)
deriving DecidableEq, Repr

/-- `_worker_id`, `grabbed_workers`, the entry "WrappedClass" of the registry of `BaseManager` and the calls (process_manager.py:90-102, pymp/core/actor.py:105). -/
structure State where
  counter : Nat
  flags : List Bool
  registry : Nat
  pc : Nat → Pc

/-- `n` free workers (process_manager.py:90-102). -/
def State.init (n : Nat) : State := ⟨0, List.replicate n false, 0, fun _ => .idle⟩

/-- Call `c` has come to `x` (process_manager.py:162-181). -/
def State.at (s : State) (c : Nat) (x : Pc) : State := { s with pc := fun d => if d = c then x else s.pc d }

/-- Call `c` goes on by one read or write of shared data (process_manager.py:125-129, 145-149, 171-181, pymp/core/actor.py:105-110). -/
def State.step (job : Nat → Job) (s : State) (c : Nat) : State :=
  match s.pc c with
  | .idle =>
    match job c with
    | .call => s.at c (.top 0)
    | .actor cls => { s with registry := cls }.at c .registered
  | .top k => if k < s.flags.length then s.at c (.read k s.counter) else s.at c (.done .refused)
  | .read k i => s.at c (.loaded k i s.counter)
  | .loaded k i r => { s with counter := r + 1 }.at c (.stored k i)
  | .stored k i => if s.counter = s.flags.length then s.at c (.wrap k i) else s.at c (.checked k i)
  | .wrap k i => { s with counter := 0 }.at c (.checked k i)
  | .checked k i =>
    match s.flags[i]? with
    | none => s.at c (.done .indexError)
    | some true => s.at c (.top (k + 1))
    | some false => s.at c (.adding i)
  | .adding i => s.at c (.done (.placed i))
  | .registered => s.at c (.looking s.registry 0)
  | .looking cls i =>
    match s.flags[i]? with
    | none => s.at c (.done .refused)
    | some true => s.at c (.looking cls (i + 1))
    | some false => s.at c (.marking cls i)
  | .marking cls i => { s with flags := s.flags.set i true }.at c (.done (.made cls i))
  | .done _ => s

/-- A history: which call goes on (process_manager.py:117-181). -/
def State.run (job : Nat → Job) : State → List Nat → State
  | s, [] => s
  | s, c :: cs => (s.step job c).run job cs

end Verif.PympThreads
