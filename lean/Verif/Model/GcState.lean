/-!
# The garbage collector during deserialization

`ComplexDataSerializer.deserialize` switches Python's garbage collector off and on again
(`/repo/unidist/core/backends/mpi/core/serialization.py` 259-282).
-/
namespace Verif.GcState

/-- What happens while `msgpack.unpackb` runs (serialization.py:278-280): it ends, it raises an exception (an object cannot be
restored, serialization.py:244-249), memory is allocated, user code that restores an object (244-249) switches the collector or
deserializes something itself (it calls `get`; an exception of that is caught or not), and then it goes on. -/
inductive Work
  | done
  | fail
  | alloc (rest : Work)
  | switch (on : Bool) (rest : Work)
  | nested (inner : Work) (caught : Bool) (rest : Work)
deriving DecidableEq, Repr

/-- Outcome: whether the collector is on, whether there was no exception, and whether the collector was on at each allocation
(serialization.py:277-282). -/
structure Outcome where
  gc : Bool
  ok : Bool
  seen : List Bool
deriving DecidableEq, Repr

/-- `gc.enable()` (serialization.py:281), which is only reached without an exception. -/
def close (o : Outcome) : Outcome := if o.ok then { o with gc := true } else o

/-- `msgpack.unpackb` with the collector in the given state (serialization.py:278-280). -/
def unpack : Work → Bool → Outcome
  | .done, g => ⟨g, true, []⟩
  | .fail, g => ⟨g, false, []⟩
  | .alloc rest, g =>
    let o := unpack rest g
    { o with seen := g :: o.seen }
  | .switch on rest, _ => unpack rest on
  | .nested inner caught rest, _ =>
    let i := close (unpack inner false)
    if i.ok || caught then
      let o := unpack rest i.gc
      { o with seen := i.seen ++ o.seen }
    else i

/-- `deserialize` (serialization.py:259-282): the state of the collector before the call does not matter, it is switched off
first (277). -/
def deserialize (w : Work) (_before : Bool) : Outcome := close (unpack w false)

/-- Several deserializations one after another, as in a program that calls `get` several times; exceptions are caught by the
program, and the collector is not switched in between. (The callers of serialization.py:387-410 in controller and worker.) -/
def several (before : Bool) : List Work → Bool
  | [] => before
  | w :: ws => several (deserialize w before).gc ws

end Verif.GcState
