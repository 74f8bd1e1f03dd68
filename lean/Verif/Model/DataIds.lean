import Verif.Model.Basic

/-!
# References: text form, generation, and life cycle inside a process

Models `/repo/unidist/core/backends/common/data_id.py` (10-31), `MpiDataID` in
`/repo/unidist/core/backends/mpi/core/common.py` (266-334), `LocalObjectStore.generate_data_id` and
`generate_output_data_id` (`local_object_store.py` 182-231) and `SharedObjectStore._parse_data_id`
(`shared_object_store.py` 265-280).
-/
namespace Verif.Ids

/-- Text (common/data_id.py:10-29). -/
abbrev Str := List Char

/-- Decimal digit (mpi/core/common.py:297). -/
def digitChar (d : Nat) : Char := Char.ofNat (48 + d)

/-- `str(n)` / f-string formatting of a non-negative `int` (mpi/core/common.py:297). -/
def decimal (n : Nat) : Str :=
  if n < 10 then [digitChar n] else decimal (n / 10) ++ [digitChar (n % 10)]
termination_by n
decreasing_by omega

/-- The field `_id`: `f"rank_{owner_rank}_id_{data_number}"` (mpi/core/common.py:297). -/
def idText (d : DataId) : Str := ['r', 'a', 'n', 'k', '_'] ++ decimal d.rank ++ ['_', 'i', 'd', '_'] ++ decimal d.num

/-- `str(data_id)` (data_id.py:22-23). -/
def reprText (d : DataId) : Str := ['D', 'a', 't', 'a', 'I', 'D', '('] ++ idText d ++ [')']

/-- `str.split("_")` (shared_object_store.py:279). -/
def split : Str → List Str
  | [] => [[]]
  | c :: t =>
    if c = '_' then [] :: split t
    else match split t with
      | [] => [[c]]
      | w :: ws => (c :: w) :: ws

/-- Digits to number, from the left (shared_object_store.py:280). -/
def parseFrom (acc : Nat) : Str → Option Nat
  | [] => some acc
  | c :: t => if 48 ≤ c.toNat ∧ c.toNat ≤ 57 then parseFrom (acc * 10 + (c.toNat - 48)) t else none

/-- `int(text)` for texts of digits; anything else is an error (Python's `int` accepts some more forms)
(shared_object_store.py:280). -/
def parseInt : Str → Option Nat
  | [] => none
  | c :: t => parseFrom 0 (c :: t)

/-- `_parse_data_id` (shared_object_store.py:265-280) on the text of a reference. -/
def parseId (s : Str) : Option (Nat × Nat) :=
  let parts := split (s.filter (· != ')'))
  match parts[1]?, parts[3]? with
  | some a, some b =>
    match parseInt a, parseInt b with
    | some x, some y => some (x, y)
    | _, _ => none
  | _, _ => none

/-! ## Generation -/

/-- `_data_id_counter` of every process (local_object_store.py:197-199). -/
abbrev Counters := Nat → Nat

/-- A request for `count` new references in process `rank`: `put` and actor creation (1), `submit` and actor methods
(`num_returns`) (local_object_store.py:182-231). -/
structure Gen where
  rank : Nat
  count : Nat
deriving DecidableEq, Repr

/-- `generate_data_id` (182-200) called `k` times in process `r` (`generate_output_data_id`, 220-231)
(local_object_store.py:182-231). -/
def generate (r : Nat) : Nat → Counters → List DataId × Counters
  | 0, cs => ([], cs)
  | k + 1, cs =>
    let id : DataId := ⟨r, cs r⟩
    let q := generate r k (fun x => if x = r then cs r + 1 else cs x)
    (id :: q.1, q.2)

/-- Any interleaving of requests of all processes (local_object_store.py:182-231). -/
def generateAll : List Gen → Counters → List DataId × Counters
  | [], cs => ([], cs)
  | g :: gs, cs =>
    let r := generate g.rank g.count cs
    let q := generateAll gs r.2
    (r.1 ++ q.1, q.2)

/-! ## Life cycle of `MpiDataID` objects in one process -/

/-- A Python object of class `MpiDataID`: its key, whether `_gc` is set, and its reference count (0 = destroyed)
(mpi/core/common.py:266-334). -/
structure IdObj where
  id : DataId
  gc : Bool
  refs : Nat
deriving DecidableEq, Repr

/-- State of a process: rank, id counter, all objects made so far, the weak dictionary `_instances` (285), and the list
of keys given to `GarbageCollector.collect` (mpi/core/common.py:285, local_object_store.py:24-38). -/
structure Proc where
  rank : Nat
  counter : Nat
  heap : List IdObj
  instances : List (DataId × Nat)
  reported : List DataId
deriving DecidableEq, Repr

/-- A new process (local_object_store.py:24-38). -/
def Proc.init (rank : Nat) : Proc := ⟨rank, 0, [], [], []⟩

/-- `_instances` lookup (mpi/core/common.py:288-290). -/
def find (id : DataId) : List (DataId × Nat) → Option Nat
  | [] => none
  | (k, a) :: t => if k = id then some a else find id t

/-- `__new__` (287-294): the live instance, or a new object; the caller holds a reference to the result
(mpi/core/common.py:287-294). -/
def Proc.new (p : Proc) (id : DataId) : Nat × Proc :=
  match find id p.instances with
  | some a => (a, { p with heap := p.heap.modify a fun o => { o with refs := o.refs + 1 } })
  | none => (p.heap.length, { p with heap := p.heap ++ [⟨id, false, 1⟩], instances := (id, p.heap.length) :: p.instances })

/-- `__init__` (296-300) sets `_gc` (mpi/core/common.py:296-300). -/
def Proc.setGc (p : Proc) (a : Nat) (gc : Bool) : Proc :=
  { p with heap := p.heap.modify a fun o => { o with gc := gc } }

/-- One reference to object `a` goes away; with the last one `__del__` runs (329-334) and the weak dictionary forgets
the object (mpi/core/common.py:329-334). -/
def Proc.drop (p : Proc) (a : Nat) : Proc :=
  match p.heap[a]? with
  | none => p
  | some o =>
    if o.refs = 0 then p
    else if o.refs = 1 then
      { p with
        heap := p.heap.modify a fun o => { o with refs := 0 }
        instances := p.instances.filter fun e => e.2 ≠ a
        reported := if o.gc then p.reported ++ [o.id] else p.reported }
    else { p with heap := p.heap.modify a fun o => { o with refs := o.refs - 1 } }

/-- Events in a process (mpi/core/common.py:287-334). -/
inductive Ev
  /-- `generate_data_id` (local_object_store.py:182-200). -/
  | create
  /-- A reference arrives in a message: unpickling calls `__new__` and restores the state without `_gc` (306-327). -/
  | receive (id : DataId)
  /-- A cleanup list arrives: `MpiDataID(*tpl)` runs `__new__` and `__init__` without gc (worker/loop.py:207). -/
  | cleanup (id : DataId)
  /-- Another Python reference to a live object is made. -/
  | copy (a : Nat)
  /-- A Python reference is dropped. -/
  | drop (a : Nat)
deriving DecidableEq, Repr

/-- Effect of an event (mpi/core/common.py:287-334). -/
def Proc.step (p : Proc) : Ev → Proc
  | .create =>
    let r := p.new ⟨p.rank, p.counter⟩
    { r.2.setGc r.1 true with counter := p.counter + 1 }
  | .receive id => (p.new id).2
  | .cleanup id => let r := p.new id; r.2.setGc r.1 false
  | .copy a =>
    match p.heap[a]? with
    | some o => if o.refs = 0 then p else { p with heap := p.heap.modify a fun o => { o with refs := o.refs + 1 } }
    | none => p
  | .drop a => p.drop a

/-- Events that can happen: references to own data only come back after they were created, and cleanup lists come from
other processes with their own data (`GarbageCollector.collect` only gets own data) (mpi/core/common.py:287-334). -/
def Proc.allowed (p : Proc) : Ev → Bool
  | .receive id => id.rank ≠ p.rank || id.num < p.counter
  | .cleanup id => id.rank ≠ p.rank
  | _ => true

/-- A history; `none` if an event could not happen (mpi/core/common.py:287-334). -/
def Proc.run : Proc → List Ev → Option Proc
  | p, [] => some p
  | p, e :: es => if p.allowed e then (p.step e).run es else none

end Verif.Ids
