/-!
# Options of decorators and calls

Models which options of `@unidist.remote(...)` and `.options(...)` have an effect: `/repo/unidist/api.py` 16-141, `core/base/remote_function.py` 64-100,
`core/base/actor.py` 26-54, 184-218 and the methods `_remote` of the backends (`core/backends/mpi/remote_function.py` 36-90, `mpi/actor.py` 156-187 and
their counterparts). Values are numbers here; an option that is given as `None` counts as not given. How calls pass their arguments, also those with the
names of options, is in `Verif.Model.Calls`.
-/
namespace Verif.Options

/-- Keyword arguments, each name once (the `**kwargs` of api.py:114, base/remote_function.py:64). -/
abbrev Kws := List (String × Nat)

/-- `kwargs.get(name)` (api.py:136-138) and the binding of keyword parameters (base/remote_function.py:64). -/
def value (kw : Kws) (name : String) : Option Nat := (kw.find? fun p => p.1 == name).map (·.2)

/-- The backends (base/common.py:10-17). -/
inductive Backend
  | ray
  | mpi
  | dask
  | pymp
  | pyseq
deriving DecidableEq, Repr

/-- A call of a remote function with the keywords of its decorator, the creation of an actor with those of its class, or a call of a method; in all cases
with the positional and keyword arguments of `options` (api.py:114-141, base/remote_function.py:64, base/actor.py:26, 184). Without `options` they
are empty. -/
inductive Ask
  | function (deco : Kws) (pos : List Nat) (opts : Kws)
  | create (deco : Kws) (pos : List Nat) (opts : Kws)
  | method (pos : List Nat) (opts : Kws)
deriving DecidableEq, Repr

/-- The reserved CPUs and resources and the number of results of a call (ray/remote_function.py:61-74). -/
structure Effect where
  cpus : Option Nat
  resources : Option Nat
  returns : Nat
deriving DecidableEq, Repr

/-- `TypeError` of the decorator (api.py:65-66), `NotImplementedError` of the call (mpi/remote_function.py:62-67). -/
inductive Err
  | typeError
  | notImplemented
deriving DecidableEq, Repr

/-- The CPUs and resources of a function or an actor, given by `options` or else by the decorator (ray/remote_function.py:61-66, ray/actor.py:176-188);
the other backends refuse both (mpi/remote_function.py:62-67, mpi/actor.py:179-184, dask/remote_function.py:62-69, dask/actor.py:207-214,
pymp/remote_function.py:60-67, pymp/actor.py:123-130, pyseq/remote_function.py:60-67, pyseq/actor.py:123-130). -/
def reserve (b : Backend) (deco opts : Kws) : Except Err (Option Nat × Option Nat) :=
  let c := value opts "num_cpus"
  let r := value opts "resources"
  let c0 := value deco "num_cpus"
  let r0 := value deco "resources"
  match b with
  | .ray => .ok (c.or c0, r.or r0)
  | _ => if c.isSome ∨ c0.isSome then .error .notImplemented else if r.isSome ∨ r0.isSome then .error .notImplemented else .ok (none, none)

/-- The call: `options` takes its named parameters from the keywords and drops the rest with the positional arguments (base/remote_function.py:64-100,
base/actor.py:26-54, 184-218); the number of results is the given one or 1 (mpi/remote_function.py:33, 69-70, mpi/actor.py:27-52). -/
def call (b : Backend) : Ask → Except Err Effect
  | .function deco _ opts =>
    match reserve b deco opts with
    | .error e => .error e
    | .ok (c, r) => .ok ⟨c, r, (value opts "num_returns").getD ((value deco "num_returns").getD 1)⟩
  | .create deco _ opts =>
    if (value deco "num_returns").isSome then .error .typeError
    else
      match reserve b deco opts with
      | .error e => .error e
      | .ok (c, r) => .ok ⟨c, r, 1⟩
  | .method _ opts => .ok ⟨none, none, (value opts "num_returns").getD 1⟩

end Verif.Options
