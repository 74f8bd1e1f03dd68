import Verif.Model.Packing

/-!
The messages of calls (`mpi/core/controller/api.py` 560-566, `mpi/core/controller/actor.py` 46-54, 112-119) and whether they can be serialized.
-/
namespace Verif.Packing

/-- The keys of the messages, as code points (api.py:561-565; actor.py:48-53, 114-118). -/
def key (s : List Char) : Obj := .text (s.map Char.toNat)

/-- A reference; its class is not one of `builtins` (mpi/core/common.py:266). -/
def ref (n : Nat) : Obj := .importable n false

/-- The three kinds of calls with what else is in their messages: the reference of the function (`put` by the remote function,
mpi/remote_function.py:75-76); the references of the name and of the actor; the class, which may be a local one, and the reference of the actor. -/
inductive CallKind
  | function (task : Nat)
  | method (task handler : Nat)
  | create (cls : Obj) (handler : Nat)

/-- `operation_data`: of `submit` (controller/api.py:560-566), where the arguments are made a list; of `ActorMethod.__call__` (controller/actor.py:46-54),
likewise; of `Actor.__init__` (controller/actor.py:112-119), where they stay a tuple. The keyword arguments are given as keys and values in turn. -/
def message : CallKind → List Obj → List Obj → List Nat → Obj
  | .function task, args, kwargs, outs =>
    .dict [key ['t', 'a', 's', 'k'], ref task, key ['a', 'r', 'g', 's'], .list args, key ['k', 'w', 'a', 'r', 'g', 's'], .dict kwargs, key ['o', 'u', 't', 'p', 'u', 't'], .list (outs.map ref)]
  | .method task handler, args, kwargs, outs =>
    .dict [key ['t', 'a', 's', 'k'], ref task, key ['a', 'r', 'g', 's'], .list args, key ['k', 'w', 'a', 'r', 'g', 's'], .dict kwargs, key ['o', 'u', 't', 'p', 'u', 't'], .list (outs.map ref), key ['h', 'a', 'n', 'd', 'l', 'e', 'r'], ref handler]
  | .create cls handler, args, kwargs, _ =>
    .dict [key ['c', 'l', 'a', 's', 's'], cls, key ['a', 'r', 'g', 's'], .pickledSeq args, key ['k', 'w', 'a', 'r', 'g', 's'], .dict kwargs, key ['h', 'a', 'n', 'd', 'l', 'e', 'r'], ref handler]

/-- Whether the call can be sent: the message is serialized when it is sent (communication.py:801-807). -/
def sends (k : CallKind) (args kwargs : List Obj) (outs : List Nat) : Bool := (encode (message k args kwargs outs)).isSome

/-- What the worker gets as positional and keyword arguments (worker/loop.py:179-183; worker/task_store.py:429-430; they are spread with
`*` and `**`): the items of the list or tuple under `args` and of the dictionary under `kwargs`. -/
def arrivesAs (k : CallKind) (args kwargs : List Obj) (outs : List Nat) : Option (List Obj × List Obj) :=
  match encode (message k args kwargs outs) with
  | none => none
  | some w => match decode w with
    | .dict (_ :: _ :: _ :: .list a :: _ :: .dict b :: _) => some (a, b)
    | .dict (_ :: _ :: _ :: .pickledSeq a :: _ :: .dict b :: _) => some (a, b)
    | _ => none

end Verif.Packing
