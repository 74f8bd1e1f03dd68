/-!
# How the processes of the MPI backend come together

Models the beginning and the end of `init` in `/repo/unidist/core/backends/mpi/core/controller/api.py` (142-288): which processes call it
with which communicator, and what each of them does after it. A collective operation of MPI returns when every member of the
communicator has called it.
-/
namespace Verif.Launch

/-- How a program is started: the number of processes of `mpiexec -n`, the value of `MpiSpawn`, which all processes read from the same
environment or the same script, and the number of processes to spawn (controller/api.py:142-148, 211-216). -/
structure Setting where
  started : Nat
  spawn : Bool
  toSpawn : Nat
deriving DecidableEq, Repr

/-- A process: one of those started by `mpiexec` with its rank in `COMM_WORLD`, or one of those spawned by the process of rank 0
(controller/api.py:142-144, 234-240). -/
inductive Who
  | started (rank : Nat)
  | spawned (i : Nat)
deriving DecidableEq, Repr

/-- `COMM_WORLD` of the started processes (controller/api.py:142). -/
def Setting.world (s : Setting) : List Who := (List.range s.started).map .started

/-- The communicator merged from the process of rank 0 and the spawned ones, the spawned ones after it (controller/api.py:241, 251). -/
def Setting.merged (s : Setting) : List Who := .started 0 :: (List.range s.toSpawn).map .spawned

/-- The communicator given to `MPIState` (controller/api.py:142, 148, 241, 250-253). -/
def Setting.comm (s : Setting) : Who → List Who
  | .started r => if r = 0 ∧ s.spawn = true then s.merged else s.world
  | .spawned _ => s.merged

/-- All processes (controller/api.py:148, 234-240). -/
def Setting.processes (s : Setting) : List Who :=
  if s.spawn then s.world ++ (List.range s.toSpawn).map .spawned else s.world

/-- Do the collective operations of `MPIState` and the barrier return? (communication.py:128-133, controller/api.py:267) -/
def Setting.meets (s : Setting) (p : Who) : Bool := (s.comm p).all fun q => s.comm q == s.comm p

/-- What a process does (controller/api.py:262-288): it waits in `init` for ever, goes on with the script, serves requests and then exits
(276-277, 286-287), or serves requests and then goes on with its own program (278, 288). -/
inductive After
  | waits
  | script
  | servesAndExits
  | servesAndReturns
deriving DecidableEq, Repr

/-- What a process does (controller/api.py:262-288). -/
def Setting.after (s : Setting) (p : Who) : After :=
  if s.meets p then
    if (s.comm p).idxOf p = 0 then .script
    else if s.spawn then .servesAndReturns
    else .servesAndExits
  else .waits

end Verif.Launch
