import Verif.Model.Basic

/-!
# Word-level protocol on one metadata slot

Models the accesses of `/repo/unidist/core/backends/mpi/core/shared_object_store.py` to the four words of one metadata
slot: publication (`_put_service_info`, 350-383), deletion (`delete_service_info`, 678-723), the check without the lock
(`_check_service_info`, 385-408), `_increment_ref_number` (282-316) and `_decrement_ref_number` (318-348).
Slots of different objects are disjoint (property C03), so one slot is enough.
-/
namespace Verif.Slot

/-- The words of a slot; offsets `WORKER_ID_INDEX` 0, `DATA_NUMBER_INDEX` 1, `FIRST_DATA_INDEX` 2,
`REFERENCES_NUMBER` 3 (shared_object_store.py:77-88). -/
structure Words where
  worker : Int
  number : Int
  first : Int
  refs : Int
deriving DecidableEq, Repr

/-! ## Word by word interleaving of a deletion, a publication and a reader -/

/-- What the writers of the slot still have to do: remaining word writes in program order (shared_object_store.py:350-383, 678-723). -/
inductive W where
  | worker (v : Int) | number (v : Int) | first (v : Int) | refs (v : Int)
deriving DecidableEq, Repr

/-- One word write (shared_object_store.py:350-383, 678-723). -/
def W.apply (s : Words) : W → Words
  | .worker v => { s with worker := v }
  | .number v => { s with number := v }
  | .first v => { s with first := v }
  | .refs v => { s with refs := v }

/-- Writes of `delete_service_info` in program order (shared_object_store.py:709-712). -/
def deleteWrites : List W := [.worker (-1), .number (-1), .first (-1), .refs (-1)]

/-- Writes of `_put_service_info` in program order (shared_object_store.py:369-377). -/
def publishWrites (id : DataId) (first : Nat) : List W :=
  [.first first, .refs 1, .number id.num, .worker id.rank]

/-- The reader of `_check_service_info` (shared_object_store.py:405-408): reads the worker word, then the number
word. -/
inductive Reader where
  | start
  | readWorker (w : Int)
  | done (accepted : Bool)
deriving DecidableEq, Repr

/-- Slot, remaining writes of the lock holder(s) in order, and a reader without the lock. `extra` counts references of
other processes that found the object and registered (shared_object_store.py:350-408). -/
structure St where
  words : Words
  todo : List W
  reader : Reader
  extra : Nat
deriving DecidableEq, Repr

/-- Scheduler choices (shared_object_store.py:350-408). -/
inductive Act where
  | write
  | read
  | incr
  | decr
deriving DecidableEq, Repr

/-- One step for a reader looking for `id`. `incr` and `decr` (under the lock, shared_object_store.py:302-308, 338-345)
are possible only while no writer holds the lock half way, i.e. after the publication is complete;
`decr` is one of the registered other processes, the publisher keeps its own reference. -/
def step (id : DataId) (s : St) : Act → St
  | .write =>
    match s.todo with
    | [] => s
    | w :: rest => { s with words := w.apply s.words, todo := rest }
  | .read =>
    match s.reader with
    | .start => { s with reader := .readWorker s.words.worker }
    | .readWorker w => { s with reader := .done (w == (id.rank : Int) && s.words.number == (id.num : Int)) }
    | .done b => { s with reader := .done b }
  | .incr =>
    match s.todo with
    | [] => { s with words := { s.words with refs := s.words.refs + 1 }, extra := s.extra + 1 }
    | _ :: _ => s
  | .decr =>
    match s.todo with
    | [] => if 0 < s.extra then { s with words := { s.words with refs := s.words.refs - 1 }, extra := s.extra - 1 } else s
    | _ :: _ => s

/-- Any schedule (shared_object_store.py:350-408). -/
def run (id : DataId) (s : St) : List Act → St
  | [] => s
  | a :: rest => run id (step id s a) rest

/-- A slot that still holds an old object while the monitor deletes it and `id` is published into the same slot
(shared_object_store.py:350-383, 678-723). -/
def startSt (old : Words) (id : DataId) (first : Nat) : St :=
  { words := old, todo := deleteWrites ++ publishWrites id first, reader := .start, extra := 0 }

/-! ## Reference counting on a slot -/

/-- State of a slot in its life: the words, the registrations (`weakref.finalize` objects of all processes of the host
for this slot, shared_object_store.py:312-316, 379-383), and processes that passed `_check_service_info` in `get` (784)
and did not increment yet (825). -/
structure Life where
  words : Words
  holders : List DataId
  checked : List DataId
deriving DecidableEq, Repr

/-- Operations on the slot; each is atomic here (writes are under the window lock, 40-63) (shared_object_store.py:282-383). -/
inductive Op where
  | publish (id : DataId) (first : Nat)
  | check (id : DataId)
  | incr (id : DataId)
  | finalize (id : DataId)
  | cleanup (id : DataId)
deriving DecidableEq, Repr

/-- Empty slot: words are -1 (shared_object_store.py:261-263, 709-712). -/
def emptyWords : Words := ⟨-1, -1, -1, -1⟩

/-- `_check_service_info` (shared_object_store.py:385-408). -/
def holds (w : Words) (id : DataId) : Bool := w.worker == (id.rank : Int) && w.number == (id.num : Int)

/-- One operation.
* `publish`: `_put_service_info` (350-383). The slot is reserved for `id` by the monitor, hence names no object; the operation is
  ignored otherwise. The number of references may not be -1 any more after a late increment.
* `check`: the check in `get` (784, or the waiting loop 815-816) succeeds.
* `incr`: `_increment_ref_number` (282-316) of a process that passed the check.
* `finalize`: a finalizer runs `_decrement_ref_number` (318-348).
* `cleanup`: the monitor frees the object if its reference number is not positive
  (shared_memory_manager.py:208-236, `delete_service_info` 678-723). -/
def Life.step (s : Life) : Op → Life
  | .publish id first =>
    if s.words.worker = -1 ∧ s.words.number = -1 then
      { s with words := ⟨id.rank, id.num, first, 1⟩, holders := id :: s.holders }
    else s
  | .check id => if holds s.words id then { s with checked := id :: s.checked } else s
  | .incr id =>
    if id ∈ s.checked then
      { words := { s.words with refs := s.words.refs + 1 }, holders := id :: s.holders,
        checked := s.checked.erase id }
    else s
  | .finalize id =>
    if id ∈ s.holders then
      { s with
        words := if holds s.words id then { s.words with refs := s.words.refs - 1 } else s.words
        holders := s.holders.erase id }
    else s
  | .cleanup id =>
    if holds s.words id ∧ s.words.refs ≤ 0 then { s with words := emptyWords } else s

/-- A history of the slot (shared_object_store.py:282-383). -/
def Life.run (s : Life) : List Op → Life
  | [] => s
  | op :: rest => (s.step op).run rest

/-- A fresh slot (shared_object_store.py:249-263). -/
def Life.init : Life := { words := emptyWords, holders := [], checked := [] }

/-- No cleanup of the history takes effect while some process is between its check and its increment
(shared_object_store.py:758-828). -/
def QuietCleanups (s : Life) : List Op → Prop
  | [] => True
  | .cleanup id :: rest => s.checked = [] ∧ QuietCleanups (s.step (.cleanup id)) rest
  | op :: rest => QuietCleanups (s.step op) rest

end Verif.Slot
