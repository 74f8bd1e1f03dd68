import Verif.Model.Config

/-!
# The program of spawned MPI processes

Models `init` in `/repo/unidist/core/backends/mpi/core/controller/api.py` (117-251): the main process writes a program text for the
processes it spawns, which sets the configuration and environment variables, and the interpreter of a spawned process reads this text
back. The text is modelled character by character. Of Python's grammar only what these programs need is modelled; any other text
counts as a syntax error.
-/
namespace Verif.Spawn
open Verif.Config

/-- A Python text (api.py:152-194). -/
abbrev Str := List Char

/-- The parameters passed on, in the order of the program (api.py:157-182). -/
inductive Name
  | spawn
  | hosts
  | cpus
  | pickle
  | backoff
  | log
  | store
  | storeMemory
  | serviceMemory
  | sharedThreshold
deriving DecidableEq, Repr

/-- All of them in the order of the program (api.py:157-182). -/
def names : List Name :=
  [.spawn, .hosts, .cpus, .pickle, .backoff, .log, .store, .storeMemory, .serviceMemory, .sharedThreshold]

/-- The names of the classes (api.py:157-182). -/
def Name.text : Name → Str
  | .spawn => "MpiSpawn".toList
  | .hosts => "MpiHosts".toList
  | .cpus => "CpuCount".toList
  | .pickle => "MpiPickleThreshold".toList
  | .backoff => "MpiBackoff".toList
  | .log => "MpiLog".toList
  | .store => "MpiSharedObjectStore".toList
  | .storeMemory => "MpiSharedObjectStoreMemory".toList
  | .serviceMemory => "MpiSharedServiceMemory".toList
  | .sharedThreshold => "MpiSharedObjectStoreThreshold".toList

/-- The environment variables of the parameters (mpi/envvars.py:14-110, common/envvars.py:76). -/
def Name.var : Name → Str
  | .spawn => "UNIDIST_MPI_SPAWN".toList
  | .hosts => "UNIDIST_MPI_HOSTS".toList
  | .cpus => "UNIDIST_CPUS".toList
  | .pickle => "UNIDIST_MPI_PICKLE_THRESHOLD".toList
  | .backoff => "UNIDIST_MPI_BACKOFF".toList
  | .log => "UNIDIST_MPI_LOG".toList
  | .store => "UNIDIST_MPI_SHARED_OBJECT_STORE".toList
  | .storeMemory => "UNIDIST_MPI_SHARED_OBJECT_STORE_MEMORY".toList
  | .serviceMemory => "UNIDIST_MPI_SHARED_SERVICE_MEMORY".toList
  | .sharedThreshold => "UNIDIST_MPI_SHARED_OBJECT_STORE_THRESHOLD".toList

/-- Types and defaults (mpi/envvars.py:10-110, common/envvars.py:73-89); `cpus` is `multiprocessing.cpu_count()` of the host, and
the float 0.0001 has the code 0. -/
def param (cpus : Nat) : Name → Param
  | .spawn => ⟨.bool, none, some (.bool true)⟩
  | .hosts => ⟨.exactStr, none, some .none⟩
  | .cpus => ⟨.int, none, some (.int cpus)⟩
  | .pickle => ⟨.int, none, some (.int 262144)⟩
  | .backoff => ⟨.float, none, some (.float 0)⟩
  | .log => ⟨.bool, none, some (.bool false)⟩
  | .store => ⟨.bool, none, some (.bool false)⟩
  | .storeMemory => ⟨.int, none, some .none⟩
  | .serviceMemory => ⟨.int, none, some .none⟩
  | .sharedThreshold => ⟨.int, none, some (.int 100000)⟩

/-- The state of all classes (parameter.py:114, 151). -/
abbrev Cfg := Name → State

/-- Assignment to the fields of one class (parameter.py:114, 151). -/
def upd (s : Cfg) (n : Name) (x : State) : Cfg := fun m => if m = n then x else s m

/-- `get` of a class, overridden for `MpiPickleThreshold` (parameter.py:191-218, mpi/envvars.py:48-62). -/
def getOf (T : PyText) (cpus : Nat) (n : Name) (s : Cfg) : Result PyVal × Cfg :=
  if n = .pickle then
    match getValue T (param cpus .store) (s .store) with
    | (.error, a) => (.error, upd s .store a)
    | (.ok on, a) =>
      if on = .bool true then
        match getValue T (param cpus .sharedThreshold) (s .sharedThreshold) with
        | (.error, b) => (.error, upd (upd s .store a) .sharedThreshold b)
        | (.ok v, b) =>
          match getSource T (param cpus .sharedThreshold) b with
          | (.error, b') => (.error, upd (upd s .store a) .sharedThreshold b')
          | (.ok src, b') =>
            (.ok v, upd (upd (upd s .store a) .sharedThreshold b') .pickle { s .pickle with source := some src })
      else
        let q := getValue T (param cpus .pickle) (s .pickle)
        (q.1, upd (upd s .store a) .pickle q.2)
  else
    let q := getValue T (param cpus n) (s n)
    (q.1, upd s n q.2)

/-- `get_value_source` of a class (parameter.py:165-177). -/
def sourceOf (T : PyText) (cpus : Nat) (n : Name) (s : Cfg) : Result Source × Cfg :=
  match (s n).source with
  | some x => (.ok x, s)
  | none =>
    match getOf T cpus n s with
    | (.error, s') => (.error, s')
    | (.ok _, s') =>
      match (s' n).source with
      | some x => (.ok x, s')
      | none => (.error, s')

/-- One call of the program of the user on a class, or a change of its environment variable (parameter.py:165-233). -/
def cfgStep (T : PyText) (cpus : Nat) (s : Cfg) : Name × Op → Cfg
  | (n, .get) => (getOf T cpus n s).2
  | (n, .source) => (sourceOf T cpus n s).2
  | (n, .put v) => upd s n (put T (param cpus n) v (s n)).2
  | (n, .setEnv e) => upd s n { s n with env := e }

/-- A sequence of calls (parameter.py:165-233). -/
def cfgRun (T : PyText) (cpus : Nat) (s : Cfg) (ops : List (Name × Op)) : Cfg := ops.foldl (cfgStep T cpus) s

/-- The classes after import in a process with the given environment (parameter.py:114, 151). -/
def Cfg.init (environ : Str → Option Str) : Cfg := fun n => .init ((environ n.var).map String.ofList)

/-! ## Texts of values -/

/-- `repr` of a finite float and reading it back (api.py:166). Assumed of Python: the text consists of digits, a point, an exponent
and signs, it is not the text of an integer, and it is read back exactly. -/
structure FloatText where
  shown : Nat → Str
  read : Str → Option Nat
  read_shown : ∀ c, read (shown c) = some c
  chars : ∀ c, ∀ x ∈ shown c, x.isDigit = true ∨ x = '.' ∨ x = 'e' ∨ x = '-' ∨ x = '+'
  not_int : ∀ c, '.' ∈ shown c ∨ 'e' ∈ shown c

/-- `str` of an integer (api.py:162). -/
def showInt : Int → Str
  | .ofNat n => Nat.toDigits 10 n
  | .negSucc n => '-' :: Nat.toDigits 10 (n + 1)

/-- The text of a value in the program: `f"put({v})"`, or `f"put('{v}')"` for the hosts, the only parameter that is a text
(api.py:158-182). -/
def litText (F : FloatText) : PyVal → Str
  | .none => "None".toList
  | .bool true => "True".toList
  | .bool false => "False".toList
  | .int i => showInt i
  | .float c => F.shown c
  | .str s => '\'' :: (s.toList ++ ['\''])
  | .other _ => []

/-- The statement that sets a parameter (api.py:158-182). -/
def putText (F : FloatText) (n : Name) (v : PyVal) : Str :=
  "cfg.".toList ++ (n.text ++ (".put(".toList ++ (litText F v ++ [')'])))

/-- A value of an environment variable in `MpiRuntimeEnv` (api.py:188-192): a text or an integer. -/
inductive EnvVal
  | str (s : Str)
  | int (i : Int)
deriving DecidableEq, Repr

/-- `str` of a value (api.py:190, 247). -/
def EnvVal.text : EnvVal → Str
  | .str s => s
  | .int i => showInt i

/-- The quotes `repr` chooses for a text (api.py:184). -/
def quoteOf (s : Str) : Char := if '\'' ∈ s ∧ '"' ∉ s then '"' else '\''

/-- `repr` of the characters of a text (api.py:184). Characters that cannot be printed, other than the three shown, are left out of
the model. -/
def escape (q : Char) : Str → Str
  | [] => []
  | c :: t =>
    (if c = '\\' then ['\\', '\\'] else if c = q then ['\\', q] else if c = '\n' then ['\\', 'n']
     else if c = '\r' then ['\\', 'r'] else if c = '\t' then ['\\', 't'] else [c]) ++ escape q t

/-- `repr` of a text (api.py:184). -/
def reprStr (s : Str) : Str := quoteOf s :: (escape (quoteOf s) s ++ [quoteOf s])

/-- `repr` of a value (api.py:184). -/
def reprVal : EnvVal → Str
  | .str s => reprStr s
  | .int i => showInt i

/-- `repr` of the entries of a dictionary (api.py:184). -/
def reprEntries : List (Str × EnvVal) → Str
  | [] => []
  | [(k, v)] => reprStr k ++ (": ".toList ++ reprVal v)
  | (k, v) :: e :: es => reprStr k ++ (": ".toList ++ (reprVal v ++ (", ".toList ++ reprEntries (e :: es))))

/-- `repr` of the runtime environment, whose only option is `env_vars` (api.py:184, mpi/envvars.py:139-143). -/
def reprRuntime (d : List (Str × EnvVal)) : Str := "{'env_vars': {".toList ++ (reprEntries d ++ "}}".toList)

/-- The statement that sets an environment variable (api.py:189-191). -/
def envText (k : Str) (v : EnvVal) : Str :=
  "os.environ['".toList ++ (k ++ ("'] = '".toList ++ (v.text ++ ['\''])))

/-! ## The program written by the main process -/

/-- The statement for one parameter, if it does not have its default (api.py:157-182); `none` if reading it raises. -/
def emit (T : PyText) (F : FloatText) (cpus : Nat) (n : Name) (s : Cfg) : Option (List Str × Cfg) :=
  match sourceOf T cpus n s with
  | (.error, _) => none
  | (.ok src, s') =>
    if src = .default then some ([], s')
    else
      match getOf T cpus n s' with
      | (.error, _) => none
      | (.ok v, s'') => some ([putText F n v], s'')

/-- The statements for several parameters (api.py:157-182). -/
def emitAll (T : PyText) (F : FloatText) (cpus : Nat) : List Name → Cfg → Option (List Str × Cfg)
  | [], s => some ([], s)
  | n :: ns, s =>
    (emit T F cpus n s).bind fun r => (emitAll T F cpus ns r.2).map fun r' => (r.1 ++ r'.1, r'.2)

/-- The statements for the runtime environment; `none` is the empty dictionary (api.py:183-192). -/
def runtimeTexts : Option (List (Str × EnvVal)) → List Str
  | none => []
  | some d =>
    ("cfg.MpiRuntimeEnv.put(".toList ++ (reprRuntime d ++ [')'])) :: "import os".toList :: d.map fun e => envText e.1 e.2

/-- `"; ".join` (api.py:194). -/
def join : List Str → Str
  | [] => []
  | [t] => t
  | t :: u :: ts => t ++ (';' :: ' ' :: join (u :: ts))

/-- The program of the spawned processes (api.py:150-195) and the state of the main process after writing it. -/
def program (T : PyText) (F : FloatText) (cpus : Nat) (s : Cfg) (runtime : Option (List (Str × EnvVal))) : Option (Str × Cfg) :=
  (emitAll T F cpus names s).map fun r =>
    (join (["import unidist".toList, "import unidist.config as cfg".toList, "cfg.Backend.put('mpi')".toList] ++
        (r.1 ++ (runtimeTexts runtime ++ ["unidist.init()".toList]))), r.2)

/-! ## The interpreter of a spawned process -/

/-- A statement of the program (api.py:152-193). -/
inductive Stmt
  | imp (what : Str)
  | backend (name : Str)
  | put (n : Name) (v : PyVal)
  | runtime (d : List (Str × EnvVal))
  | setenv (k v : Str)
  | init
deriving DecidableEq, Repr

/-- Text after a known beginning (lexing of api.py:152-193). -/
def dropPrefix : Str → Str → Option Str
  | [], r => some r
  | _ :: _, [] => none
  | c :: p, d :: r => if c = d then dropPrefix p r else none

/-- An escape sequence in a text of the program, read by the interpreter (api.py:189-191). Sequences with a code or a name are left
out of the model. -/
def unescape (e : Char) : Option Str :=
  if e = '\\' ∨ e = '\'' ∨ e = '"' then some [e]
  else if e = 'n' then some ['\n']
  else if e = 'r' then some ['\r']
  else if e = 't' then some ['\t']
  else if e ∈ ['a', 'b', 'f', 'v', 'x', 'u', 'U', 'N', '0', '1', '2', '3', '4', '5', '6', '7', '\n', '\r'] then none
  else some ['\\', e]

/-- The rest of a text in quotes `q`: its characters and what follows; a line must not end inside (api.py:189-191). -/
def readStr (q : Char) : Str → Option (Str × Str)
  | [] => none
  | '\\' :: e :: t => (unescape e).bind fun u => (readStr q t).map fun r => (u ++ r.1, r.2)
  | c :: t =>
    if c = q then some ([], t)
    else if c = '\n' ∨ c = '\r' ∨ c = '\\' then none
    else (readStr q t).map fun r => (c :: r.1, r.2)

/-- A text in quotes (api.py:189-191). -/
def strLit : Str → Option (Str × Str)
  | [] => none
  | c :: t => if c = '\'' ∨ c = '"' then readStr c t else none

/-- Digits (api.py:162). -/
def readNat (ds : Str) : Option Nat :=
  if ds ≠ [] ∧ ds.all Char.isDigit = true then some (Nat.ofDigitChars 10 ds 0) else none

/-- An integer (api.py:162). -/
def readInt : Str → Option Int
  | '-' :: ds => (readNat ds).map fun n => -(n : Int)
  | ds => (readNat ds).map fun n => (n : Int)

/-- A constant or number (api.py:158-182). -/
def readToken (F : FloatText) (tok : Str) : Option PyVal :=
  if tok = "True".toList then some (.bool true)
  else if tok = "False".toList then some (.bool false)
  else if tok = "None".toList then some .none
  else match readInt tok with
    | some i => some (.int i)
    | none => (F.read tok).map .float

/-- The argument of `put` (api.py:158-182). -/
def lit (F : FloatText) (r : Str) : Option (PyVal × Str) :=
  match strLit r with
  | some (s, r') => some (.str (String.ofList s), r')
  | none => (readToken F (r.takeWhile (· ≠ ')'))).map fun v => (v, r.dropWhile (· ≠ ')'))

/-- A value in the dictionary (api.py:184). -/
def envVal (r : Str) : Option (EnvVal × Str) :=
  match strLit r with
  | some (s, r') => some (.str s, r')
  | none =>
    (readInt (r.takeWhile fun c => c ≠ ',' ∧ c ≠ '}')).map fun i => (.int i, r.dropWhile fun c => c ≠ ',' ∧ c ≠ '}')

/-- The entries of the dictionary (api.py:184); the first argument bounds their number. -/
def entries : Nat → Str → Option (List (Str × EnvVal) × Str)
  | 0, _ => none
  | fuel + 1, r =>
    (strLit r).bind fun k => (dropPrefix ": ".toList k.2).bind fun r1 => (envVal r1).bind fun v =>
      match v.2 with
      | '}' :: t => some ([(k.1, v.1)], t)
      | ',' :: ' ' :: t => (entries fuel t).map fun es => ((k.1, v.1) :: es.1, es.2)
      | _ => none

/-- The dictionary (api.py:184). -/
def envLit (r : Str) : Option (List (Str × EnvVal) × Str) :=
  (dropPrefix "{'env_vars': {".toList r).bind fun r1 =>
    (match r1 with
     | '}' :: t => some ([], t)
     | _ => entries r1.length r1).bind fun es => (dropPrefix "}".toList es.2).map fun t => (es.1, t)

/-- One statement and what follows it (api.py:152-193). -/
def stmt (F : FloatText) (cs : Str) : Option (Stmt × Str) :=
  match dropPrefix "import ".toList cs with
  | some r => some (.imp (r.takeWhile (· ≠ ';')), r.dropWhile (· ≠ ';'))
  | none =>
    match dropPrefix "os.environ[".toList cs with
    | some r =>
      (strLit r).bind fun k => (dropPrefix "] = ".toList k.2).bind fun r => (strLit r).map fun v => (.setenv k.1 v.1, v.2)
    | none =>
      match dropPrefix "unidist.init()".toList cs with
      | some r => some (.init, r)
      | none =>
        (dropPrefix "cfg.".toList cs).bind fun r =>
          match dropPrefix "MpiRuntimeEnv.put(".toList r with
          | some r => (envLit r).bind fun d => (dropPrefix ")".toList d.2).map fun t => (.runtime d.1, t)
          | none =>
            match dropPrefix "Backend.put(".toList r with
            | some r => (strLit r).bind fun b => (dropPrefix ")".toList b.2).map fun t => (.backend b.1, t)
            | none =>
              names.findSome? fun n => (dropPrefix (n.text ++ ".put(".toList) r).bind fun r =>
                (lit F r).bind fun v => (dropPrefix ")".toList v.2).map fun t => (.put n v.1, t)

/-- A program (api.py:194); `none` is a `SyntaxError`. The first argument bounds the number of statements. -/
def parse (F : FloatText) : Nat → Str → Option (List Stmt)
  | 0, _ => none
  | fuel + 1, cs =>
    (stmt F cs).bind fun s =>
      match s.2 with
      | [] => some [s.1]
      | ';' :: ' ' :: r => (parse F fuel r).map fun ss => s.1 :: ss
      | _ => none

/-- A spawned process: its configuration, the value of `MpiRuntimeEnv` and `os.environ` (api.py:152-247). -/
structure Proc where
  cfg : Cfg
  runtime : List (Str × EnvVal)
  environ : Str → Option Str

/-- A process before it runs the program, with the environment it inherits (api.py:234-240). -/
def Proc.start (environ : Str → Option Str) : Proc := ⟨.init environ, [], environ⟩

/-- `os.environ[k] = v` (api.py:190, 247); a configuration class reads the new value if it is still unset. -/
def setenv (p : Proc) (k v : Str) : Proc :=
  { p with
    environ := fun k' => if k' = k then some v else p.environ k'
    cfg := fun n => if n.var = k then { p.cfg n with env := some (String.ofList v) } else p.cfg n }

/-- A statement in the spawned process of the given rank (api.py:152-193); `init` sets the environment variables again, except in
rank 0 (243-247). `none` is an exception, which ends the process. -/
def execStmt (T : PyText) (cpus rank : Nat) (p : Proc) : Stmt → Option Proc
  | .imp _ => some p
  | .backend _ => some p
  | .put n v =>
    match put T (param cpus n) v (p.cfg n) with
    | (.ok _, x) => some { p with cfg := upd p.cfg n x }
    | (.error, _) => none
  | .runtime d => some { p with runtime := d }
  | .setenv k v => some (setenv p k v)
  | .init => if rank ≠ 0 then some (p.runtime.foldl (fun p e => setenv p e.1 e.2.text) p) else some p

/-- All statements (api.py:152-193). -/
def exec (T : PyText) (cpus rank : Nat) : Proc → List Stmt → Option Proc
  | p, [] => some p
  | p, s :: ss => (execStmt T cpus rank p s).bind fun p' => exec T cpus rank p' ss

/-- A spawned process when it enters its loop; `none` if it ended before (api.py:234-247). -/
def spawned (T : PyText) (F : FloatText) (cpus rank : Nat) (environ : Str → Option Str) (text : Str) : Option Proc :=
  (parse F text.length text).bind fun ss => exec T cpus rank (.start environ) ss

end Verif.Spawn
