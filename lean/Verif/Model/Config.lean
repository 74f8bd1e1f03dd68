import Verif.Model.Basic

/-!
# Configuration parameters

Models `/repo/unidist/config/parameter.py` (41-256) and `MpiPickleThreshold.get` in
`/repo/unidist/config/backends/mpi/envvars.py` (48-62).

Python's text functions are a parameter of the model (`PyText`), so every theorem holds for any behaviour of `strip`, `lower`,
`isdigit`, `int` and `float` on texts that satisfies the two laws stated there.
-/
namespace Verif.Config

/-- The functions on `str` that `_TYPE_PARAMS` (parameter.py:39-76) uses. Assumed of Python: `int` and `float` ignore
surrounding white space themselves. -/
structure PyText where
  strip : String → String
  lower : String → String
  noDots : String → String
  isDigit : String → Bool
  toInt : String → Option Int
  toFloat : String → Option Nat
  int_strip : ∀ s, toInt (strip s) = toInt s
  float_strip : ∀ s, toFloat (strip s) = toFloat s

/-- A Python object that may be given to `put` (parameter.py:221). Floats are opaque codes; `other` is any object of another
class. -/
inductive PyVal
  | none
  | bool (b : Bool)
  | int (i : Int)
  | float (code : Nat)
  | str (s : String)
  | other (n : Nat)
deriving DecidableEq, Repr

/-- The keys of `_TYPE_PARAMS` (parameter.py:39-76). -/
inductive Kind
  | str
  | exactStr
  | bool
  | int
  | float
deriving DecidableEq, Repr

/-- The texts accepted as true (parameter.py:53). -/
def positive : List String := ["true", "yes", "1"]

/-- The texts accepted by `verify` of a flag (parameter.py:58). -/
def flagTexts : List String := ["true", "yes", "1", "false", "no", "0"]

/-- `verify` (parameter.py:43, 49, 55-59, 65-66, 72-73); a `bool` is an `int` in Python. -/
def verify (T : PyText) : Kind → PyVal → Bool
  | .str, .str _ => true
  | .exactStr, .str _ => true
  | .bool, .bool _ => true
  | .bool, .str s => decide (T.lower (T.strip s) ∈ flagTexts)
  | .int, .int _ => true
  | .int, .bool _ => true
  | .int, .str s => T.isDigit (T.strip s)
  | .float, .float _ => true
  | .float, .str s => T.isDigit (T.noDots (T.strip s))
  | _, _ => false

/-- `decode` (parameter.py:41, 47, 53, 63, 70); `none` is a `ValueError` raised by `int` or `float`. -/
def decode (T : PyText) : Kind → String → Option PyVal
  | .str, s => some (.str (T.lower (T.strip s)))
  | .exactStr, s => some (.str s)
  | .bool, s => some (.bool (decide (T.lower (T.strip s) ∈ positive)))
  | .int, s => (T.toInt (T.strip s)).map .int
  | .float, s => (T.toFloat (T.strip s)).map .float

/-- `normalize` (parameter.py:42, 48, 54, 64, 71) of a value accepted by `verify`; `none` is a `ValueError`. `bool` of a text
tells whether it is not empty. -/
def normalize (T : PyText) : Kind → PyVal → Option PyVal
  | .str, .str s => some (.str (T.lower (T.strip s)))
  | .exactStr, v => some v
  | .bool, .bool b => some (.bool b)
  | .bool, .str s => some (.bool (s != ""))
  | .int, .int i => some (.int i)
  | .int, .bool b => some (.int (if b then 1 else 0))
  | .int, .str s => (T.toInt s).map .int
  | .float, .float c => some (.float c)
  | .float, .str s => (T.toFloat s).map .float
  | _, _ => none

/-- `ValueSource` (parameter.py:83-91). -/
inductive Source
  | default
  | user
  | config
deriving DecidableEq, Repr

/-- A parameter class (parameter.py:94-114, 138-163): its type, its choices and what `_get_default` gives; `none` stands for a
`_get_default` that raises, as `Backend._get_default` does for a package that is too old. -/
structure Param where
  kind : Kind
  choices : Option (List String)
  default : Option PyVal

/-- The class fields `_value` (`none` is `_UNSET`) and `_value_source` (parameter.py:114, 151), and the environment
variable. -/
structure State where
  value : Option PyVal
  source : Option Source
  env : Option String
deriving DecidableEq, Repr

/-- State after the class is defined (parameter.py:114, 151). -/
def State.init (env : Option String) : State := ⟨none, none, env⟩

/-- Value of a call, or an exception (parameter.py:165-233). -/
inductive Result (α : Type)
  | ok (a : α)
  | error
deriving DecidableEq, Repr

/-- The first half of `get` (parameter.py:201-212): an unset value is taken from the environment or the default; `none` if an
exception is raised. -/
def fill (T : PyText) (p : Param) (s : State) : Option State :=
  match s.value with
  | some _ => some s
  | none =>
    match s.env with
    | none => p.default.map fun d => { s with value := some d, source := some .default }
    | some raw =>
      if verify T p.kind (.str raw) then
        (decode T p.kind raw).map fun v => { s with value := some v, source := some .config }
      else none

/-- `_value in choices` (parameter.py:214); the choices are texts. -/
def allowed (p : Param) (v : PyVal) : Bool :=
  match p.choices with
  | none => true
  | some cs => match v with
    | .str t => decide (t ∈ cs)
    | _ => false

/-- `Parameter.get` (parameter.py:191-218). A value outside the choices raises but stays cached. -/
def getValue (T : PyText) (p : Param) (s : State) : Result PyVal × State :=
  match fill T p s with
  | none => (.error, s)
  | some s' =>
    match s'.value with
    | none => (.error, s')
    | some v => if allowed p v then (.ok v, s') else (.error, s')

/-- `Parameter.put` (parameter.py:220-233); the second component tells whether it raised. -/
def put (T : PyText) (p : Param) (v : PyVal) (s : State) : Result Unit × State :=
  if verify T p.kind v then
    match normalize T p.kind v with
    | some w => (.ok (), { s with value := some w, source := some .user })
    | none => (.error, s)
  else (.error, s)

/-- `Parameter.get_value_source` (parameter.py:165-177). -/
def getSource (T : PyText) (p : Param) (s : State) : Result Source × State :=
  match s.source with
  | some x => (.ok x, s)
  | none =>
    match getValue T p s with
    | (.error, s') => (.error, s')
    | (.ok _, s') => match s'.source with
      | some x => (.ok x, s')
      | none => (.error, s')

/-- What a program does with a parameter: the calls above, or a change of the environment variable in between
(parameter.py:165-233). -/
inductive Op
  | get
  | source
  | put (v : PyVal)
  | setEnv (e : Option String)
deriving DecidableEq, Repr

/-- One call (parameter.py:165-233); an exception is caught by the caller. -/
def step (T : PyText) (p : Param) (s : State) : Op → State
  | .get => (getValue T p s).2
  | .source => (getSource T p s).2
  | .put v => (put T p v s).2
  | .setEnv e => { s with env := e }

/-- A sequence of calls (parameter.py:165-233). -/
def run (T : PyText) (p : Param) (s : State) (ops : List Op) : State := ops.foldl (step T p) s

/-! ## The threshold for out-of-band buffers -/

/-- The three parameters `MpiSharedObjectStore`, `MpiSharedObjectStoreThreshold` and `MpiPickleThreshold`
(mpi/envvars.py:29-62, 87-110). -/
inductive Which
  | store
  | shared
  | pickle
deriving DecidableEq, Repr

/-- Types and defaults of the three parameters (mpi/envvars.py:29, 45, 87, 90, 106, 109). -/
def paramOf : Which → Param
  | .store => ⟨.bool, none, some (.bool false)⟩
  | .shared => ⟨.int, none, some (.int 100000)⟩
  | .pickle => ⟨.int, none, some (.int 262144)⟩

/-- The state of the three classes (mpi/envvars.py:29-110). -/
structure Mpi where
  store : State
  shared : State
  pickle : State
deriving DecidableEq, Repr

/-- `MpiPickleThreshold.get` (mpi/envvars.py:48-62). -/
def pickleGet (T : PyText) (m : Mpi) : Result PyVal × Mpi :=
  match getValue T (paramOf .store) m.store with
  | (.error, a) => (.error, { m with store := a })
  | (.ok on, a) =>
    if on = .bool true then
      match getValue T (paramOf .shared) m.shared with
      | (.error, b) => (.error, { m with store := a, shared := b })
      | (.ok v, b) =>
        match getSource T (paramOf .shared) b with
        | (.error, b') => (.error, { m with store := a, shared := b' })
        | (.ok src, b') => (.ok v, { store := a, shared := b', pickle := { m.pickle with source := some src } })
    else
      let q := getValue T (paramOf .pickle) m.pickle
      (q.1, { m with store := a, pickle := q.2 })

/-- `MpiPickleThreshold.get_value_source` (parameter.py:165-177 with the overridden `get`). -/
def pickleSource (T : PyText) (m : Mpi) : Result Source × Mpi :=
  match m.pickle.source with
  | some x => (.ok x, m)
  | none =>
    match pickleGet T m with
    | (.error, m') => (.error, m')
    | (.ok _, m') => match m'.pickle.source with
      | some x => (.ok x, m')
      | none => (.error, m')

/-- Calls on the three parameters (mpi/envvars.py:48-62 for `get` of the pickle threshold, parameter.py for the rest). -/
def mpiStep (T : PyText) (m : Mpi) : Which × Op → Mpi
  | (.store, op) => { m with store := step T (paramOf .store) m.store op }
  | (.shared, op) => { m with shared := step T (paramOf .shared) m.shared op }
  | (.pickle, .get) => (pickleGet T m).2
  | (.pickle, .source) => (pickleSource T m).2
  | (.pickle, op) => { m with pickle := step T (paramOf .pickle) m.pickle op }

/-- A sequence of calls on the three parameters (mpi/envvars.py:29-110). -/
def mpiRun (T : PyText) (m : Mpi) (ops : List (Which × Op)) : Mpi := ops.foldl (mpiStep T) m

/-- The three classes after import, with the environment variables (mpi/envvars.py:29-110). -/
def Mpi.init (a b c : Option String) : Mpi := ⟨.init a, .init b, .init c⟩

/-- `_buffer_callback` keeps a buffer out of band (serialization.py:138). -/
def outOfBand (threshold : Int) (len : Nat) : Bool := decide (threshold ≤ (len : Int))

/-- `should_be_shared` (shared_object_store.py:608-609). -/
def shouldBeShared (threshold : Int) (sData : Nat) (buffers : List Nat) : Bool := decide (((sData + buffers.sum : Nat) : Int) > threshold)

end Verif.Config
