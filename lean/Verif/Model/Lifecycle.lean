/-!
# Starting and stopping a backend

Models `init`, `is_initialized`, `shutdown` and the automatic start in `put` (`/repo/unidist/api.py` 82-111, 177-179) of a program
that uses one backend from its main thread: `init_backend` (`/repo/unidist/core/base/utils.py` 12-60) with `initialize_mpi`,
`initialize_dask`, `initialize_ray`, `initialize_pymp` and `initialize_pyseq` (`utils.py` of each backend) and what they
call. The choice of the backend and other threads are treated in `Verif.Model.Calls`.

Assumed of the libraries: `ray.init(ignore_reinit_error=True)` leaves a running Ray as it is, `ray.shutdown` may be called at any
time; `get_client` raises `ValueError` exactly if no Dask client is active. MPI routines other than `Is_initialized` and
`Is_finalized` fail after `MPI.Finalize`.
-/
namespace Verif.Lifecycle

/-- The backends (base/utils.py:23-57). -/
inductive Kind
  | mpi
  | dask
  | ray
  | pymp
  | pyseq
deriving DecidableEq, Repr

/-- The MPI library in the main process: not started, started, finalized (controller/api.py:125-139, 336-337). -/
inductive Lib
  | fresh
  | active
  | finalized
deriving DecidableEq, Repr

/-- The processes of the communicator of `MPIState` other than the main process: none yet, in their loops after the barrier
(worker/loop.py:95, monitor/loop.py:181), or gone (worker/loop.py:227, monitor/loop.py:287). -/
inductive Others
  | none
  | looping
  | gone
deriving DecidableEq, Repr

/-- What the main process remembers (controller/api.py:60-62, communication.py:113, pymp/core/api.py:18, pyseq/core/api.py:13). -/
structure State where
  /-- MPI: the library (controller/api.py:125). -/
  lib : Lib
  /-- MPI: `MPIState.__instance` is not `None` (communication.py:113). -/
  hasState : Bool
  /-- MPI: `is_mpi_initialized` (controller/api.py:60). -/
  mpiInitialized : Bool
  /-- MPI: `is_mpi_shutdown` (controller/api.py:62). -/
  mpiShutdown : Bool
  /-- MPI: the other processes (worker/loop.py:95-103). -/
  others : Others
  /-- Multiprocessing: `is_multiprocessing_initialized` (pymp/core/api.py:18). -/
  pympInitialized : Bool
  /-- Sequential: `is_python_initialized` (pyseq/core/api.py:13). -/
  pyseqInitialized : Bool
  /-- Ray: `ray.is_initialized()` (ray/backend.py:174). -/
  rayUp : Bool
  /-- Dask: `get_client` succeeds (dask/backend.py:193-198). -/
  daskUp : Bool
deriving DecidableEq, Repr

/-- After the import of the package (controller/api.py:60-62, pymp/core/api.py:18, pyseq/core/api.py:13). -/
def State.start : State := ⟨.fresh, false, false, false, .none, false, false, false, false⟩

/-- How a call ends: it returns (`is_initialized` with a value), raises, or never comes back (api.py:82-111). -/
inductive Outcome
  | returned
  | told (b : Bool)
  | raised
  | hangs
deriving DecidableEq, Repr

/-- `init` of the MPI backend in the main process (controller/api.py:117-288). The first call sets up the state with all processes and
meets them at the barrier (253, 256-257, 267). A later call finds the state already there
(`MPIState.get_instance`, communication.py:196-198) and waits at the barrier of the first communicator (267), while the other
processes are in their loops and do not come there. After `MPI.Finalize` the first routine fails (127). -/
def mpiInit (s : State) : Outcome × State :=
  match s.lib with
  | .finalized => (.raised, s)
  | _ =>
    if s.hasState then (.hangs, { s with lib := .active })
    else (.returned, { s with lib := .active, hasState := true, mpiInitialized := true, others := .looping })

/-- `shutdown` of the MPI backend (controller/api.py:305-340). Before `init` there is no `MPIState` and `mpi_state.workers` raises
(317-319). -/
def mpiStop (s : State) : Outcome × State :=
  if s.mpiShutdown then (.returned, s)
  else if s.hasState then (.returned, { s with others := .gone, lib := .finalized, mpiShutdown := true })
  else (.raised, s)

/-- `init` (api.py:82-92) by backend: controller/api.py:117-288; dask/utils.py:15-43; ray/utils.py:32-72; pymp/core/api.py:21-39;
pyseq/core/api.py:16-27. -/
def initCall (k : Kind) (s : State) : Outcome × State :=
  match k with
  | .mpi => mpiInit s
  | .dask => (.returned, { s with daskUp := true })
  | .ray => (.returned, { s with rayUp := true })
  | .pymp => (.returned, { s with pympInitialized := true })
  | .pyseq => (.returned, { s with pyseqInitialized := true })

/-- `is_initialized` (api.py:95-105) by backend: controller/api.py:291-301, dask/backend.py:184-198, ray/backend.py:165-174,
pymp/core/api.py:42-52, pyseq/core/api.py:30-40. -/
def isInitialized (k : Kind) (s : State) : Bool :=
  match k with
  | .mpi => s.mpiInitialized
  | .dask => s.daskUp
  | .ray => s.rayUp
  | .pymp => s.pympInitialized
  | .pyseq => s.pyseqInitialized

/-- `shutdown` (api.py:108-111) by backend: controller/api.py:305-340; dask/backend.py:178-181, where `get_client` raises without a client;
ray/backend.py:161-163; pymp/backend.py:156-167, which is not implemented; the sequential backend inherits the empty method
(base/backend.py:175-177). -/
def stopCall (k : Kind) (s : State) : Outcome × State :=
  match k with
  | .mpi => mpiStop s
  | .dask => if s.daskUp then (.returned, { s with daskUp := false }) else (.raised, s)
  | .ray => (.returned, { s with rayUp := false })
  | .pymp => (.raised, s)
  | .pyseq => (.returned, s)

/-- Calls of a program (api.py:82-111, 163-180). -/
inductive Op
  | init
  | isInitialized
  | shutdown
  | put
deriving DecidableEq, Repr

/-- One call (api.py:82-111, 163-180). `put` starts the backend if it is not initialized (177-178); only this start is modelled here, not the storing that follows (179-180). -/
def step (k : Kind) (s : State) : Op → Outcome × State
  | .init => initCall k s
  | .isInitialized => (.told (isInitialized k s), s)
  | .shutdown => stopCall k s
  | .put => if isInitialized k s then (.returned, s) else initCall k s

/-- A list of calls with their outcomes (api.py:82-111, 163-180); nothing follows a call that hangs. -/
def run (k : Kind) (s : State) : List Op → List (Op × Outcome) × State
  | [] => ([], s)
  | op :: ops =>
    match step k s op with
    | (.hangs, s') => ([(op, .hangs)], s')
    | (o, s') => let r := run k s' ops; ((op, o) :: r.1, r.2)

end Verif.Lifecycle
