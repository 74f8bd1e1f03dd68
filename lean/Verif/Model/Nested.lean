/-!
# Tasks that submit tasks and wait for them

Models what happens when a task running on a worker uses the API itself: `put`, `submit` and `get` of
`/repo/unidist/core/backends/mpi/core/controller/api.py` (371-433, 508-577) called inside
`/repo/unidist/core/backends/mpi/core/worker/task_store.py` `execute_received_task` (339), with the blocking receive of
`controller/common.py` `request_worker_data` (174-233). A worker runs one task at a time and handles no message while the
task runs (worker/loop.py:103-122); in particular it answers no data request while a task waits in `get`.

Simplifications: values are numbers or exceptions, arguments are positional, references are numbers in the order of creation
(that they are unique is C20), `get` takes one reference, a waiting task may start as soon as its values are there (see C38), a
data request and its answer are one step, and there is no clean-up.
-/
namespace Verif.Nested

/-- What a store holds: a number or an exception (task_store.py:346-404). -/
inductive Val
  | ok (n : Nat)
  | exc (e : Nat)
deriving DecidableEq, Repr

/-- How `get` ends: it returns what the store holds, also an exception (api.py:426-433), or it raises
(controller/common.py:232-233). -/
inductive Got
  | value (v : Val)
  | raised (e : Nat)
deriving DecidableEq, Repr

/-- How a `get` ends whose value had to be requested (controller/common.py:223-224, 232-233; api.py:426-433). -/
def requested : Val → Got
  | .ok n => .value (.ok n)
  | .exc e => .raised e

/-- An argument of a call: a plain value or a reference created earlier by the calling program, by its position
(api.py:508-520). -/
inductive Arg
  | lit (v : Val)
  | var (i : Nat)
deriving DecidableEq, Repr

/-- What a function body or the main program does with the API: end with a value or an uncaught exception, `put` a value
(api.py:371), submit a function (api.py:508), or `get` the value of one of the references created before (api.py:400), where
the rest of the program can depend on what `get` returns and on the exception it raises. -/
inductive Prog
  | ret (v : Val)
  | put (v : Val) (next : Prog)
  | call (fn : Nat) (args : List Arg) (next : Prog)
  | get (x : Nat) (next : Got → Prog)

/-- An argument as it is sent: a value or a reference (api.py:556-562). -/
inductive Sent
  | val (v : Val)
  | ref (i : Nat)
deriving DecidableEq, Repr

/-- A received `EXECUTE` request (api.py:555-562): output reference, function, arguments. -/
structure Task where
  out : Nat
  fn : Nat
  args : List Sent
deriving DecidableEq, Repr

/-- A program in execution (task_store.py:339): its output reference (unused for the main program), what is left to do, the
references it created. -/
structure Frame where
  out : Nat
  prog : Prog
  env : List Nat

/-- All processes: values in their stores (local_object_store.py:24-38), requests not started (task_store.py:34-42), the
program each one runs, the owner of every reference (local_object_store.py:87-131), the number of references created and the
value or exception that the main program ends with. Process 0 is the main process. -/
structure State where
  store : Nat → Nat → Option Val
  inbox : Nat → List Task
  run : Nat → Option Frame
  home : Nat → Nat
  next : Nat
  done : Option Val

/-- The functions, the workers (communication.py:131-179) and the main program. -/
structure World where
  body : Nat → List Nat → Prog
  workers : List Nat
  main : Prog

/-- Start: process 0 runs the main program (task_store.py:34-42, local_object_store.py:24-38). -/
def State.init (W : World) : State where
  store _ _ := none
  inbox _ := []
  run r := if r = 0 then some ⟨0, W.main, []⟩ else none
  home _ := 0
  next := 0
  done := none

/-- What happens: the program of process `r` goes on, submitting to `dest` if it submits (controller/common.py:53-75); the idle
worker `r` starts its `i`-th request (task_store.py:406-459); the owner of `p` answers a data request of `r`
(request_store.py:230-268). -/
inductive Act
  | exec (r dest : Nat)
  | start (r i : Nat)
  | fetch (r p : Nat)

/-- The arguments as sent (api.py:556-562); `none` if a program names a reference that it did not create. -/
def sendArgs (env : List Nat) : List Arg → Option (List Sent)
  | [] => some []
  | .lit v :: as => (sendArgs env as).map (.val v :: ·)
  | .var i :: as =>
    match env[i]?, sendArgs env as with
    | some p, some l => some (.ref p :: l)
    | _, _ => none

/-- The arguments of a task as values, if the store has all of them (task_store.py:168-206). -/
def values (store : Nat → Option Val) : List Sent → Option (List Val)
  | [] => some []
  | .val v :: as => (values store as).map (v :: ·)
  | .ref p :: as =>
    match store p, values store as with
    | some v, some l => some (v :: l)
    | _, _ => none

/-- The program that a task runs: with an exception among its arguments it ends with the first one, else it runs the body of
the function on the numbers (task_store.py:329-339). -/
def runTask (body : List Nat → Prog) : List Val → Prog
  | [] => body []
  | .exc e :: _ => .ret (.exc e)
  | .ok n :: vs => runTask (fun ns => body (n :: ns)) vs

/-- Store `v` under `p` at process `r` (local_object_store.py:73-85). -/
def State.put (s : State) (r p : Nat) (v : Val) : State :=
  { s with store := fun r' p' => if r' = r ∧ p' = p then some v else s.store r' p' }

/-- Set the program of process `r` (task_store.py:339). -/
def State.setRun (s : State) (r : Nat) (f : Option Frame) : State :=
  { s with run := fun r' => if r' = r then f else s.run r' }

/-- Set the requests of process `r` (task_store.py:57-68). -/
def State.setInbox (s : State) (r : Nat) (l : List Task) : State :=
  { s with inbox := fun r' => if r' = r then l else s.inbox r' }

/-- `push_data` of the arguments (controller/common.py:368-415): what the sender has is stored at the receiver. -/
def State.push (s : State) (r dest : Nat) : List Sent → State
  | [] => s
  | .val _ :: as => s.push r dest as
  | .ref p :: as =>
    match s.store r p with
    | some v => (s.put dest p v).push r dest as
    | none => s.push r dest as

/-- Whether process `r` asks for `p`: its program waits for it in `get` (controller/common.py:192-231) or one of its requests
has it as an argument (task_store.py:196-202). -/
def State.needs (s : State) (r p : Nat) : Bool :=
  (match s.run r with
    | some ⟨_, .get x _, env⟩ => env[x]? == some p
    | _ => false) ||
  (s.inbox r).any fun t => t.args.any fun a => a == .ref p

/-- The owner's answer arrives at `r`: the value is stored (controller/common.py:155-161, worker/loop.py:134-143), and a `get`
that waits for it ends (controller/common.py:220-233). -/
def State.answer (s : State) (r p : Nat) (v : Val) : State :=
  match s.run r with
  | some ⟨out, .get x next, env⟩ =>
    if env[x]? = some p then (s.put r p v).setRun r (some ⟨out, next (requested v), env⟩) else s.put r p v
  | _ => s.put r p v

/-- One step of the program of process `r` (api.py:371-433, 508-580; task_store.py:339-404). A worker does not submit to
itself (controller/common.py:26-38); `get` of a value in the own store returns it, else it waits for the answer. -/
def State.exec (W : World) (s : State) (r dest : Nat) : Option State :=
  match s.run r with
  | none => none
  | some ⟨out, .ret v, _⟩ =>
    if r = 0 then some { s.setRun 0 none with done := some v } else some ((s.put r out v).setRun r none)
  | some ⟨out, .put v next, env⟩ =>
    some { (s.put r s.next v).setRun r (some ⟨out, next, env ++ [s.next]⟩) with
      home := fun p => if p = s.next then r else s.home p, next := s.next + 1 }
  | some ⟨out, .call fn args next, env⟩ =>
    if dest ∈ W.workers ∧ dest ≠ r then
      match sendArgs env args with
      | none => none
      | some l =>
        let s1 := (s.push r dest l).setInbox dest (s.inbox dest ++ [⟨s.next, fn, l⟩])
        some { s1.setRun r (some ⟨out, next, env ++ [s.next]⟩) with
          home := fun p => if p = s.next then dest else s.home p, next := s.next + 1 }
    else none
  | some ⟨out, .get x next, env⟩ =>
    match env[x]? with
    | none => none
    | some p =>
      match s.store r p with
      | none => none
      | some v => some (s.setRun r (some ⟨out, next (.value v), env⟩))

/-- One step; `none` if it is not possible (worker/loop.py:103-130, task_store.py:406-459, request_store.py:230-268). Only a
process that runs no program handles messages, and the main process never does. -/
def State.step (W : World) (s : State) : Act → Option State
  | .exec r dest => s.exec W r dest
  | .start r i =>
    if (s.run r).isSome ∨ r = 0 then none
    else match (s.inbox r)[i]? with
      | none => none
      | some t =>
        match values (s.store r) t.args with
        | none => none
        | some vs => some ((s.setInbox r ((s.inbox r).eraseIdx i)).setRun r (some ⟨t.out, runTask (W.body t.fn) vs, []⟩))
  | .fetch r p =>
    if (s.run (s.home p)).isSome ∨ s.home p = 0 ∨ (s.store r p).isSome ∨ s.needs r p = false then none
    else match s.store (s.home p) p with
      | none => none
      | some v => some (s.answer r p v)

/-- A history of steps (worker/loop.py:103-233). -/
def State.runAll (W : World) : State → List Act → Option State
  | s, [] => some s
  | s, a :: as =>
    match s.step W a with
    | some s' => State.runAll W s' as
    | none => none

end Verif.Nested
