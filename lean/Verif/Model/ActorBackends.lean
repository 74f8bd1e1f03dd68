import Verif.Model.Backends
import Verif.Spec.Actors

/-!
# One program with actors on two backends

How the calls of a program that uses `unidist.put`, remote functions and actors (`/repo/unidist/api.py` 114-180,
`/repo/unidist/core/base/actor.py` 220-238) reach the multiprocessing and the sequential backend: `pymp/remote_function.py` 60-81,
`pymp/actor.py` 29-63, 105-133, `pyseq/remote_function.py` 60-81, `pyseq/actor.py` 29-63, 105-133. Objects are numbers; constructors have no
arguments, and handles are not dropped.
-/
namespace Verif.ActorBackends
open Verif.Spec.Backends Verif.Backends
open Verif.Spec.Actors (Code)

/-- The state of an object of class `c` after calls of its methods (pymp/core/actor.py:109, pyseq/actor.py:132: the object is made once and kept). -/
def stateAfter (F : Code) (c : Nat) (hist : List (Nat × List Pymp.Val)) : Nat :=
  hist.foldl (fun st q => (F.mcode c q.1 st (q.2.map objNum)).2) (F.start c)

/-- The user's functions and methods on objects (pymp/core/process_manager.py:229, pyseq/core/api.py:111); pickling as in
pymp/core/object_store.py:69, 104. -/
def actorWorld (F : Code) : Pymp.World where
  call f vs := objRet (F.rets f) (F.code f (vs.map objNum))
  method c hist m vs := objRet (F.mrets m) (F.mcode c m (stateAfter F c hist) (vs.map objNum)).1
  loads b := .ok (.callable b)
  dumps c := c

/-- A call of the program on the multiprocessing backend (pymp/remote_function.py:60-81, pymp/core/api.py:55-70, pymp/actor.py:52-63, 132-133). -/
def pympAct (F : Code) : Spec.Actors.Call → Pymp.Act
  | .put n => .put (.data n)
  | .call f args => .submit f (args.map objArg) (F.rets f)
  | .make c => .create c
  | .method a m args => .method a m (args.map objArg) (F.mrets m)

/-- A call of the program on the sequential backend (pyseq/remote_function.py:60-81, pyseq/core/api.py:43-57, pyseq/actor.py:52-63, 132-133). -/
def pyseqOp (F : Code) : Spec.Actors.Call → Pyseq.Op
  | .put n => .put (.data n)
  | .call f args => .submit f (args.map objArg) (F.rets f)
  | .make c => .create c
  | .method a m args => .method a m (args.map objArg) (F.mrets m)

end Verif.ActorBackends
