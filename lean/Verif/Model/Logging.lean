/-!
Logging of the MPI backend: `get_logger` (mpi/core/common.py), one logger with its file, and the lines `log_operation` writes
(mpi/core/communication.py).

Assumed of Python's `logging`: a logger without a level of its own has the level of the root logger; a message is passed to the handlers of the logger
if its level is at least the level of the logger; `hasHandlers` looks at the logger and at the root logger.
-/
namespace Verif.Logging

/-- `logging.DEBUG` (mpi/core/common.py:366). -/
def debugLevel : Nat := 10

/-- One logger, the root logger of the application, and the file (mpi/core/common.py:356-370). `level = 0` is `NOTSET`. `others`: handlers the
application has given to the logger of this name; `files`: file handlers added by `get_logger`. -/
structure State where
  rootHandlers : Nat
  rootLevel : Nat
  others : Nat
  files : Nat
  level : Nat
  file : List Nat
deriving Repr, DecidableEq

/-- Before anything happens: the root logger has the level `WARNING` (mpi/core/common.py:356). -/
def State.init : State := ⟨0, 30, 0, 0, 0, []⟩

/-- What happens: the application configures logging, the backend gets the logger, the backend writes a message
(mpi/core/common.py:337-370; 11 calls of `get_logger`). -/
inductive Ev
  | rootHandler
  | rootLevel (n : Nat)
  | otherHandler
  | getLogger (activate : Bool)
  | debug (msg : Nat)
deriving Repr, DecidableEq

/-- `logger.hasHandlers()` (mpi/core/common.py:357). -/
def State.hasHandlers (s : State) : Bool := s.others + s.files + s.rootHandlers != 0

/-- `get_logger` (mpi/core/common.py:356-370). -/
def State.getLogger (s : State) (activate : Bool) : State :=
  let s := if s.hasHandlers then s else { s with files := s.files + 1 }
  { s with level := if activate then debugLevel else 0 }

/-- The level that counts (assumed of `logging`; mpi/core/common.py:366-368). -/
def State.effective (s : State) : Nat := if s.level ≠ 0 then s.level else s.rootLevel

/-- `logger.debug` (mpi/core/communication.py:60, 76-78): each file handler writes the message. -/
def State.debug (s : State) (msg : Nat) : State :=
  if s.effective ≤ debugLevel then { s with file := s.file ++ List.replicate s.files msg } else s

/-- One event (mpi/core/common.py:337-370). -/
def State.step (s : State) : Ev → State
  | .rootHandler => { s with rootHandlers := s.rootHandlers + 1 }
  | .rootLevel n => { s with rootLevel := n }
  | .otherHandler => { s with others := s.others + 1 }
  | .getLogger a => s.getLogger a
  | .debug m => s.debug m

/-- All events (mpi/core/common.py:337-370). -/
def State.run (s : State) (es : List Ev) : State := es.foldl State.step s

/-! ### Lines of the communication log -/

/-- The operations (mpi/core/common.py:72-89). -/
inductive Operation
  | execute | get | putData | putOwner | putSharedData | wait | actorCreate | actorExecute | cleanup | taskDone | getTaskCount
  | reserveSharedMemory | requestSharedData | cancel | readyToShutdown | shutdown
deriving Repr, DecidableEq

/-- Their numbers (mpi/core/common.py:72-89). -/
def Operation.number : Operation → Nat
  | .execute => 1 | .get => 2 | .putData => 3 | .putOwner => 4 | .putSharedData => 5 | .wait => 6 | .actorCreate => 7 | .actorExecute => 8
  | .cleanup => 9 | .taskDone => 10 | .getTaskCount => 11 | .reserveSharedMemory => 12 | .requestSharedData => 13 | .cancel => 14
  | .readyToShutdown => 15 | .shutdown => 16

/-- Their names (mpi/core/common.py:72-89). -/
def Operation.name : Operation → List Char
  | .execute => ['E', 'X', 'E', 'C', 'U', 'T', 'E']
  | .get => ['G', 'E', 'T']
  | .putData => ['P', 'U', 'T', '_', 'D', 'A', 'T', 'A']
  | .putOwner => ['P', 'U', 'T', '_', 'O', 'W', 'N', 'E', 'R']
  | .putSharedData => ['P', 'U', 'T', '_', 'S', 'H', 'A', 'R', 'E', 'D', '_', 'D', 'A', 'T', 'A']
  | .wait => ['W', 'A', 'I', 'T']
  | .actorCreate => ['A', 'C', 'T', 'O', 'R', '_', 'C', 'R', 'E', 'A', 'T', 'E']
  | .actorExecute => ['A', 'C', 'T', 'O', 'R', '_', 'E', 'X', 'E', 'C', 'U', 'T', 'E']
  | .cleanup => ['C', 'L', 'E', 'A', 'N', 'U', 'P']
  | .taskDone => ['T', 'A', 'S', 'K', '_', 'D', 'O', 'N', 'E']
  | .getTaskCount => ['G', 'E', 'T', '_', 'T', 'A', 'S', 'K', '_', 'C', 'O', 'U', 'N', 'T']
  | .reserveSharedMemory => ['R', 'E', 'S', 'E', 'R', 'V', 'E', '_', 'S', 'H', 'A', 'R', 'E', 'D', '_', 'M', 'E', 'M', 'O', 'R', 'Y']
  | .requestSharedData => ['R', 'E', 'Q', 'U', 'E', 'S', 'T', '_', 'S', 'H', 'A', 'R', 'E', 'D', '_', 'D', 'A', 'T', 'A']
  | .cancel => ['C', 'A', 'N', 'C', 'E', 'L']
  | .readyToShutdown => ['R', 'E', 'A', 'D', 'Y', '_', 'T', 'O', '_', 'S', 'H', 'U', 'T', 'D', 'O', 'W', 'N']
  | .shutdown => ['S', 'H', 'U', 'T', 'D', 'O', 'W', 'N']

/-- All operations, for `inspect.getmembers` (mpi/core/common.py:234-238). -/
def Operation.all : List Operation :=
  [.execute, .get, .putData, .putOwner, .putSharedData, .wait, .actorCreate, .actorExecute, .cleanup, .taskDone, .getTaskCount,
   .reserveSharedMemory, .requestSharedData, .cancel, .readyToShutdown, .shutdown]

/-- `get_op_name`: the name of the operation with the number; `none` is `KeyError` (mpi/core/common.py:234-263). A later member would replace an
earlier one of the same number. -/
def getOpName (n : Nat) : Option (List Char) := (Operation.all.reverse.find? (fun o => o.number = n)).map Operation.name

/-- `logger_op_name_len` (mpi/core/communication.py:51). -/
def nameWidth : Nat := 15

/-- `text * n` (mpi/core/communication.py:67-75). -/
def times (text : List Char) (n : Nat) : List Char := (List.replicate n text).flatten

/-- The arrow (mpi/core/communication.py:70-75). -/
def arrow (source dest : Nat) : List Char :=
  if dest > source then times ['.', '-', '-', '-'] (dest - source) ++ ['>']
  else '<' :: times ['-', '-', '-', '.'] (source - dest)

/-- The line `log_operation` writes, for `size` processes (mpi/core/communication.py:62-78). A negative number of repetitions is none. -/
def logLine (size : Nat) (name : List Char) (source dest : Nat) : List Char :=
  name ++ ':' :: (times [' '] (nameWidth - name.length) ++ times ['.', ' ', ' ', ' '] (min source dest) ++ arrow source dest
    ++ times [' ', ' ', ' ', '.'] (size - max source dest - 1))

end Verif.Logging
