import Verif.Model.Pyseq
import Verif.Model.Valued
import Verif.Spec.Backends

/-!
# One program on three backends

How the calls of a program that uses `unidist.put` and remote functions (`/repo/unidist/api.py` 114-180) reach the MPI, the multiprocessing and
the sequential backend: `/repo/unidist/core/backends/mpi/remote_function.py` 62-90, `pymp/remote_function.py` 60-81,
`pyseq/remote_function.py` 60-81 and `put` in the three `core/api.py`. Objects are numbers; there are no actors, no keyword arguments and no
references inside of other arguments.
-/
namespace Verif.Backends
open Verif.Spec.Backends

/-! ## Multiprocessing and sequential backend -/

/-- An argument: the data ID is taken out of the reference (core/base/common.py:46-48). -/
def objArg : Arg → Pymp.Arg
  | .num n => .lit (.data n)
  | .ref i => .ref i

/-- What a function gives (pymp/core/process_manager.py:50-56, pyseq/core/api.py:111-121): a single object, or an object whose elements are
the results. -/
def objRet (rets : Nat) : Except Nat (List Nat) → Pymp.Ret
  | .error e => .raise e
  | .ok l => if rets = 1 then .ok (.data (l.headD 0)) none else .ok (.data 0) (some (l.map .data))

/-- The number that an object is (pymp/core/object_store.py:69). -/
def objNum : Pymp.Val → Nat
  | .data n => n
  | .bytes n => n
  | .exc n => n
  | .callable n => n

/-- The user's functions on objects (pymp/core/process_manager.py:229, pyseq/core/api.py:111). There are no actors; pickling is as
in pymp/core/object_store.py:69, 104. -/
def objWorld (F : Funs) : Pymp.World where
  call f vs := objRet (F.rets f) (F.code f (vs.map objNum))
  method _ _ _ _ := .raise 0
  loads b := .ok (.callable b)
  dumps c := c

/-- A call of the program on the multiprocessing backend (pymp/remote_function.py:60-81, pymp/core/api.py:55-70). -/
def pympAct (F : Funs) : Call → Pymp.Act
  | .put n => .put (.data n)
  | .call f args => .submit f (args.map objArg) (F.rets f)

/-- The actions of the main process of the multiprocessing backend (pymp/core/api.py:55-149, pymp/core/actor.py:40-148). -/
def pympMain : Pymp.Act → Bool
  | .put _ => true
  | .submit _ _ _ => true
  | .create _ => true
  | .method _ _ _ _ => true
  | .drop _ => true
  | _ => false

/-- A call of the program on the sequential backend (pyseq/remote_function.py:60-81, pyseq/core/api.py:43-57). -/
def pyseqOp (F : Funs) : Call → Pyseq.Op
  | .put n => .put (.data n)
  | .call f args => .submit f (args.map objArg) (F.rets f)

/-- What `get` gives or raises (pymp/core/object_store.py:96-104, pyseq/core/object_store.py:76-83). -/
def objRes : Except Nat Pymp.Val → Res
  | .ok v => .value (objNum v)
  | .error e => .raised e

/-! ## MPI backend -/

/-- An argument, if `pos` are the references of the results of the program (mpi/remote_function.py:72-73). -/
def mpiArg (pos : List Nat) : Arg → Valued.Arg
  | .num n => .val (.ok n)
  | .ref i => .ref (pos.getD i 0)

/-- The user's functions (worker/task_store.py:339-345): the first argument is the function itself. -/
def mpiWorld (F : Funs) : Valued.World where
  call
    | [] => .error 0
    | f :: vs => (F.code f vs).map fun l k => l.getD k 0

/-- The calls of a program on the MPI backend without the workers chosen for them: objects that are put, and arguments and numbers of
results of submitted tasks. A remote function is put when it is called for the first time (mpi/remote_function.py:75-83); `fs` are the functions
put so far with their references, `next` is the number of references made so far, and `pos` the references of the results. -/
def mpiCalls (F : Funs) (fs : List (Nat × Nat)) (next : Nat) (pos : List Nat) :
    List Call → List (Valued.Val ⊕ (List Valued.Arg × Nat))
  | [] => []
  | .put n :: cs => .inl (.ok n) :: mpiCalls F fs (next + 1) (pos ++ [next]) cs
  | .call f args :: cs =>
    match fs.lookup f with
    | some r =>
      .inr (.ref r :: args.map (mpiArg pos), F.rets f) ::
        mpiCalls F fs (next + F.rets f) (pos ++ (List.range (F.rets f)).map (next + ·)) cs
    | none =>
      .inl (.ok f) :: .inr (.ref next :: args.map (mpiArg pos), F.rets f) ::
        mpiCalls F ((f, next) :: fs) (next + 1 + F.rets f) (pos ++ (List.range (F.rets f)).map (next + 1 + ·)) cs

/-- The references of the results of a program on the MPI backend (mpi/remote_function.py:75-90). -/
def mpiPos (F : Funs) (fs : List (Nat × Nat)) (next : Nat) (pos : List Nat) : List Call → List Nat
  | [] => pos
  | .put _ :: cs => mpiPos F fs (next + 1) (pos ++ [next]) cs
  | .call f _ :: cs =>
    match fs.lookup f with
    | some _ => mpiPos F fs (next + F.rets f) (pos ++ (List.range (F.rets f)).map (next + ·)) cs
    | none => mpiPos F ((f, next) :: fs) (next + 1 + F.rets f) (pos ++ (List.range (F.rets f)).map (next + 1 + ·)) cs

/-- What `get` gives or raises (controller/common.py:213-235). -/
def mpiRes : Valued.Val → Res
  | .ok n => .value n
  | .exc e => .raised e

end Verif.Backends
