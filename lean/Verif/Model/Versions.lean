import Verif.Model.DataIds
import Verif.Model.Config

/-!
# Decisions that depend on versions and on the interpreter

Models `check_mpich_version` and `is_shared_memory_supported` (`/repo/unidist/core/backends/mpi/core/common.py` 443-517),
`Backend._get_default` (`/repo/unidist/config/backends/common/envvars.py` 25-70) and `_get_py_flags`
(`/repo/unidist/core/backends/mpi/core/controller/api.py` 63-115).
-/
namespace Verif.Versions

open Verif.Ids (Str parseInt)

/-- `text.split(sep)` (mpi/core/common.py:459, 464, 468). -/
def splitOn (sep : Char) : Str → List Str
  | [] => [[]]
  | c :: t =>
    if c = sep then [] :: splitOn sep t
    else match splitOn sep t with
      | [] => [[c]]
      | w :: ws => (c :: w) :: ws

/-- `part in text` (mpi/core/common.py:465, 506). -/
def hasPart (part : Str) : Str → Bool
  | [] => part.isEmpty
  | c :: t => part.isPrefixOf (c :: t) || hasPart part t

/-- `>=` of tuples of integers (mpi/core/common.py:470): lexicographic, a proper prefix is smaller. -/
def tupleGe : List Nat → List Nat → Bool
  | _, [] => true
  | [], _ :: _ => false
  | a :: as, b :: bs => if a = b then tupleGe as bs else decide (b < a)

/-- The marker of the version line (mpi/core/common.py:465). -/
def marker : Str := ['M', 'P', 'I', 'C', 'H', ' ', 'V', 'e', 'r', 's', 'i', 'o', 'n', ':']

/-- The name looked for in the library version (mpi/core/common.py:506). -/
def mpichName : Str := ['M', 'P', 'I', 'C', 'H']

/-- `tuple(map(int, v.split(".")))` (mpi/core/common.py:458-459); `none` is the `ValueError` of `int`. -/
def versionTuple (v : Str) : Option (List Nat) := (splitOn '.' v).mapM parseInt

/-- The last blank separated word of the first line that has the marker (mpi/core/common.py:461-469); `none` is the `IndexError` if no
line has it. -/
def mpichVersion (library : Str) : Option Str :=
  (((splitOn '\n' library).filter (hasPart marker)).head?.map fun line =>
    (splitOn ' ' (line.map fun c => if c = '\t' then ' ' else c)).getLastD [])

/-- `check_mpich_version` (mpi/core/common.py:443-470); `none` is an exception. -/
def checkMpich (library : Str) (target : List Nat) : Option Bool :=
  (mpichVersion library).bind fun v => (versionTuple v).map fun t => tupleGe t target

/-- What `is_shared_memory_supported` looks at (mpi/core/common.py:493-509). -/
structure Setup where
  enabled : Bool
  standard : Nat
  library : Str
  spawn : Bool

/-- `is_shared_memory_supported` (mpi/core/common.py:473-517), without the warnings; `none` is an exception. -/
def sharedMemory (s : Setup) : Option Bool :=
  if !s.enabled then some false
  else if s.standard < 3 then some false
  else if hasPart mpichName s.library && s.spawn then checkMpich s.library [4, 2, 0]
  else some true

/-! ## Default backend -/

/-- `version.parse(a) < version.parse(b)` (common/envvars.py:39, 50, 62-64) for release numbers; missing components count as
zero. Pre-releases and the like are not modelled. -/
def versionLt : List Nat → List Nat → Bool
  | [], [] => false
  | [], b :: bs => decide (0 < b) || versionLt [] bs
  | a :: as, [] => decide (a < 0) || (decide (a = 0) && versionLt as [])
  | a :: as, b :: bs => decide (a < b) || (decide (a = b) && versionLt as bs)

/-- The packages that can be imported, with their versions (common/envvars.py:34-64). -/
structure Installed where
  mpi4py : Option (List Nat)
  ray : Option (List Nat)
  dask : Option (List Nat)
  distributed : Option (List Nat)

/-- The backends (common/envvars.py:17-23). -/
inductive Backend
  | ray
  | dask
  | mpi
  | pymp
  | pyseq
deriving DecidableEq, Repr

/-- `Backend._get_default` (common/envvars.py:26-70); `none` is the `ImportError` for a version that is too old. -/
def defaultBackend (i : Installed) : Option Backend :=
  match i.mpi4py with
  | some v => if versionLt v [3, 0, 3] then none else some .mpi
  | none =>
    match i.ray with
    | some v => if versionLt v [1, 4, 0] then none else some .ray
    | none =>
      match i.dask, i.distributed with
      | some v, some w => if versionLt v [2, 22, 0] || versionLt w [2, 22, 0] then none else some .dask
      | _, _ => some .pymp

/-! ## Interpreter options -/

/-- `_PY_FLAGS_MAP` (api.py:64-85): attributes of `sys.flags` and the letters of their options. -/
def flagMap : List (String × Char) :=
  [("debug", 'd'), ("inspect", 'i'), ("interactive", 'i'), ("isolated", 'I'), ("optimize", 'O'), ("dont_write_bytecode", 'B'),
   ("no_user_site", 's'), ("no_site", 'S'), ("ignore_environment", 'E'), ("verbose", 'v'), ("bytes_warning", 'b'), ("quiet", 'q'),
   ("hash_randomization", 'R'), ("safe_path", 'P')]

/-- The interpreter of the main process: the attributes of `sys.flags` (0 if there is no such attribute, api.py:103),
`sys.warnoptions` and `sys._xoptions`, where `none` is the value `True` (api.py:109-113). -/
structure Interpreter where
  flags : String → Int
  warnings : List Str
  xoptions : List (Str × Option Str)

/-- One flag (api.py:102-108). -/
def flagArg (c : Char) (val : Int) : List Str :=
  let val := if c = 'i' then 0 else val
  if val > 0 then ['-' :: List.replicate val.toNat c] else []

/-- One extended option (api.py:112-114). -/
def xArg (x : Str × Option Str) : Str :=
  match x.2 with
  | none => '-' :: 'X' :: x.1
  | some v => '-' :: 'X' :: (x.1 ++ '=' :: v)

/-- `_get_py_flags` (api.py:88-114). -/
def pyFlags (i : Interpreter) : List Str :=
  (flagMap.map fun p => flagArg p.2 (i.flags p.1)).flatten ++ i.warnings.map (fun w => '-' :: 'W' :: w) ++
    i.xoptions.map xArg

/-! ## Slots of hosts -/

/-- The slots of the hosts for Open MPI (api.py:221-226): `int(slot_count / host_count) + (1 if i < slot_count % host_count
else 0)`. Exact division is used; the float division of the code is exact for fewer than 2^53 slots. -/
def slotsPerHost (slots hosts : Nat) : List Nat :=
  (List.range hosts).map fun i => slots / hosts + (if i < slots % hosts then 1 else 0)

end Verif.Versions
