/-!
# Calls from several threads of the main process

The MPI backend demands an MPI library that allows calls from several threads (`/repo/unidist/core/backends/mpi/core/controller/api.py` 124-139); the
backend itself has no locks. Models two parts of concurrent calls: the identities of new references (`local_object_store.py` 182-200), and requests to
the monitor, that is an operation, its data with another tag, and the reply (`communication.py` 277-297, 300-322, 440-461, 1054-1086,
`controller/api.py` 475-492, `controller/garbage_collector.py` 120-131, `monitor/loop.py` 190-235).

Threads change between any two reads and writes of the counter and between any two calls of MPI. Messages with equal tags arrive in the order in which
the threads sent them. Left out: memory that is full, a `wait` whose tasks have not finished (it is replied at once), races inside mpi4py, and the
other data of the process.
-/
namespace Verif.Threads

/-- The counter of references; the identities of the calls so far, in the order in which they were read; the calls that have read the counter
for its increment, and their registers until they write it (local_object_store.py:196-200). -/
structure Ids where
  counter : Nat
  taken : List (Nat × Nat)
  loaded : List Nat
  regs : List (Nat × Nat)
deriving DecidableEq, Repr

/-- At start (local_object_store.py:24-39). -/
def Ids.init : Ids := ⟨0, [], [], []⟩

/-- What a call does one after the other: it reads the counter for the identity, reads it for the increment, and writes it
(local_object_store.py:196-199). Calls are numbered. -/
inductive IdAct
  | take (c : Nat)
  | load (c : Nat)
  | store (c : Nat)
deriving DecidableEq, Repr

/-- One step (local_object_store.py:196-199); `none` if the call is not at this step. -/
def Ids.step (s : Ids) : IdAct → Option Ids
  | .take c => if c ∈ s.taken.map (·.1) then none else some { s with taken := s.taken ++ [(c, s.counter)] }
  | .load c =>
    if c ∈ s.taken.map (·.1) ∧ c ∉ s.loaded then some { s with loaded := s.loaded ++ [c], regs := s.regs ++ [(c, s.counter)] } else none
  | .store c => (s.regs.find? (·.1 = c)).map fun r => { s with counter := r.2 + 1, regs := s.regs.filter (·.1 ≠ c) }

/-- A history (local_object_store.py:196-199). -/
def Ids.run : Ids → List IdAct → Option Ids
  | s, [] => some s
  | s, a :: as => (s.step a).bind fun s' => s'.run as

/-- Requests to the monitor: memory (communication.py:1070-1086), `wait` (api.py:475-492), the number of tasks (garbage_collector.py:123-131). -/
inductive Kind
  | reserve
  | wait
  | count
deriving DecidableEq, Repr

/-- Whether data follow the operation (communication.py:1073-1085, api.py:476-488, garbage_collector.py:123-127). -/
def Kind.data : Kind → Bool
  | .count => false
  | _ => true

/-- Operations and data sent so far and those under way, with the calls they belong to; replies under way, as the call whose data (or operation, if there
are none) was answered; the operation whose data the monitor waits for; whether the monitor has ended; the calls that received a reply and the calls that
were answered by it (communication.py:277-322, 440-461, monitor/loop.py:190-235). The numbers of the calls are not in the messages. -/
structure State where
  begun : List (Nat × Kind)
  sent : List (Nat × Kind)
  ops : List (Nat × Kind)
  data : List (Nat × Kind)
  replies : List Nat
  reading : Option (Nat × Kind)
  ended : Bool
  log : List (Nat × Nat)
deriving DecidableEq, Repr

/-- At start (monitor/loop.py:180-188). -/
def State.init : State := ⟨[], [], [], [], [], none, false, []⟩

/-- What can happen: call `c` begins and sends its operation; it sends its data; the monitor reads an operation; it reads data; a call receives a reply
(communication.py:277-322, 440-461, monitor/loop.py:190-235). -/
inductive Act
  | op (c : Nat) (k : Kind)
  | data (c : Nat) (k : Kind)
  | readOp
  | readData
  | reply (c : Nat)
deriving DecidableEq, Repr

/-- Whether a call waits for its reply (communication.py:1080-1086, api.py:483-492, garbage_collector.py:123-131). -/
def State.waits (s : State) (c : Nat) : Bool :=
  (s.begun.any fun x => decide (x.1 = c) && (!x.2.data || decide (x ∈ s.sent))) && decide (c ∉ s.log.map (·.1))

/-- One step (communication.py:277-322, 440-461, monitor/loop.py:190-235); `none` if it is not possible. Data of another request lack the keys that
the monitor looks up, and the exception ends it (monitor/loop.py:210-211, 223-225). -/
def State.step (s : State) : Act → Option State
  | .op c k =>
    if c ∈ s.begun.map (·.1) then none else some { s with begun := s.begun ++ [(c, k)], ops := s.ops ++ [(c, k)] }
  | .data c k =>
    if (c, k) ∈ s.begun ∧ k.data = true ∧ (c, k) ∉ s.sent then some { s with sent := s.sent ++ [(c, k)], data := s.data ++ [(c, k)] } else none
  | .readOp =>
    match s.ended, s.reading, s.ops with
    | false, none, (c, k) :: rest =>
      if k.data then some { s with ops := rest, reading := some (c, k) } else some { s with ops := rest, replies := s.replies ++ [c] }
    | _, _, _ => none
  | .readData =>
    match s.ended, s.reading, s.data with
    | false, some (_, k), (d, k') :: rest =>
      if k = k' then some { s with data := rest, reading := none, replies := s.replies ++ [d] } else some { s with data := rest, ended := true }
    | _, _, _ => none
  | .reply c =>
    match s.waits c, s.replies with
    | true, r :: rest => some { s with replies := rest, log := s.log ++ [(c, r)] }
    | _, _ => none

/-- A history (communication.py:277-322, 440-461, monitor/loop.py:190-235). -/
def State.run : State → List Act → Option State
  | s, [] => some s
  | s, a :: as => (s.step a).bind fun s' => s'.run as

end Verif.Threads
