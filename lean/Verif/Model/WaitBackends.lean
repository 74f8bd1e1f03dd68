import Verif.Model.Wait
import Verif.Model.Pymp
import Verif.Model.Pyseq
import Verif.Model.Dask

/-!
# `wait` for references that have all finished, on the different backends

Models what `unidist.wait` (`/repo/unidist/core/base/backend.py` 305-336) gives on the MPI, Python Multiprocessing, Python Sequential and Dask
backends for a list of references when nothing is left to be computed. The parts are those of the other models of `wait`.
-/
namespace Verif.WaitBackends

/-- How `wait` ends: it returns the two lists (core/base/backend.py:332), raises (pymp/core/object_store.py:138, 144), or waits for ever
(mpi/core/controller/api.py:490-493, dask/backend.py:122-124). -/
inductive Ends where
  | result (ready rest : List Nat)
  | raises
  | waits
deriving DecidableEq, Repr

/-- Python Sequential (pyseq/backend.py:121). -/
def pyseq (ids : List Nat) (k : Nat) : Ends := .result (Pyseq.wait ids k).1 (Pyseq.wait ids k).2

/-- MPI (mpi/core/controller/api.py:436-505): first the references whose objects are in the store of the process (`has`), then the reply of
the monitor, which knows the references `reported` as completed, and has no request left over (monitor/loop.py:204-213). Without a reply the
process waits; no report is under way any more. -/
def mpi (has : Nat → Bool) (reported ids : List Nat) (k : Nat) : Ends :=
  match Wait.localLoop has k ids [] ids with
  | (true, ready, rest) => .result ready rest
  | (false, ready, rest) =>
    match (({ Wait.Monitor.init with completed := reported } : Wait.Monitor).waitRequest rest (k - ready.length)).2 with
    | (more, rest') :: _ => .result (ready ++ more) rest'
    | [] => .waits

/-- Python Multiprocessing (pymp/core/object_store.py:108-147): every reference is found ready, none holds an error. -/
def pymp (ids : List Nat) (k : Nat) : Ends :=
  match Pymp.wait (fun _ => true) (fun _ => some (.ok (.data 0))) ids k with
  | .result ready rest => .result ready rest
  | .blocked => .waits
  | _ => .raises

/-- Dask (dask/backend.py:100-131): every future has finished when `wait` is called; `order` is the order in which a set is iterated (126). -/
def dask (order : List Nat → List Nat) (ids : List Nat) (k : Nat) : Ends :=
  match Dask.wait (fun _ => some 0) 0 0 (fun _ => 0) order ids k with
  | some (_, ready, rest) => .result ready rest
  | none => .waits

end Verif.WaitBackends
