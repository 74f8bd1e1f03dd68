import Verif.Model.Config

/-!
# The threshold of the serializer

Models `ComplexDataSerializer.PICKLE_THRESHOLD` in `/repo/unidist/core/backends/mpi/core/serialization.py` (120-141): the body of
the class reads the configuration when the module is imported, that is at the first call of unidist with the MPI backend (`base/utils.py`
24-28 and 79-82), and the value is not read again.
-/
namespace Verif.Thresholds
open Verif.Config

/-- A process: the three parameters and `PICKLE_THRESHOLD`, `none` before the module is imported (serialization.py:121). -/
structure Proc where
  cfg : Mpi
  serializer : Option PyVal
deriving DecidableEq, Repr

/-- What the program of the user does: a call on a parameter, or a call of unidist, for example a decorator or `init`, which needs the
backend (api.py:13-85, base/utils.py:12-62). -/
inductive Act
  | config (w : Which) (op : Op)
  | use
deriving DecidableEq, Repr

/-- One action. The first use imports the serializer, which reads the threshold; if that raises, the module is not imported and the
next use tries again (serialization.py:121, mpi/envvars.py:48-62). -/
def act (T : PyText) (p : Proc) : Act → Proc
  | .config w op => { p with cfg := mpiStep T p.cfg (w, op) }
  | .use =>
    match p.serializer with
    | some _ => p
    | none =>
      match pickleGet T p.cfg with
      | (.ok v, c) => ⟨c, some v⟩
      | (.error, c) => ⟨c, none⟩

/-- A program (serialization.py:121, mpi/envvars.py:29-110). -/
def acts (T : PyText) (p : Proc) (l : List Act) : Proc := l.foldl (act T) p

/-- The process after `import unidist.config`, with the three environment variables (mpi/envvars.py:29-110). -/
def Proc.init (a b c : Option String) : Proc := ⟨.init a b c, none⟩

/-- Does `_buffer_callback` keep a buffer of this length out of band? (serialization.py:137-142) -/
def Proc.keepsOut (p : Proc) (len : Nat) : Bool :=
  match p.serializer with
  | some (.int t) => outOfBand t len
  | _ => false

end Verif.Thresholds
