import Verif.Model.Calls
/-!
# The arguments of a call on the backends that pass them on to a library

Dask (`/repo/unidist/core/backends/dask/remote_function.py` 36-94, `dask/actor.py` 31-91, 188-221) gives the arguments to
`Client.submit`, Ray (`/repo/unidist/core/backends/ray/remote_function.py` 35-80, `ray/actor.py` 30-64, 161-189) to the `remote`
method of a Ray object. The libraries are not part of the repository: which keyword names their functions take for themselves is a
parameter of the model.
-/
namespace Verif.Calls

/-- The two backends (base/common.py:10-17). -/
inductive LibBackend
  | dask
  | ray
deriving DecidableEq, Repr

/-- The signature of the function of the library that gets the arguments (`Client.submit` for dask/remote_function.py:82-84,
dask/actor.py:70-79, 218-220; `remote` of Ray for ray/remote_function.py:68-73, ray/actor.py:57, 184-188): the names that are filled by
position and those with a default. -/
structure LibCall where
  params : List String
  only : List String
deriving DecidableEq, Repr

/-- From `_remote` on, for a remote function. Dask (dask/remote_function.py:36-84) refuses `num_cpus` and `resources` and adds
`pure=False` to the call of `submit`; Ray (ray/remote_function.py:35-73) hands the options to `options`, then the arguments to
`remote`. The decorator gave no `num_cpus` and no `resources`. -/
def libFunction (b : LibBackend) (lib : LibCall) (args : List Val) (kw : Kw) : Sent :=
  match enter ["self"] ["num_cpus", "num_returns", "resources"] kw with
  | none => .typeError
  | some (taken, kw) =>
    match b with
    | .dask =>
      if takenValue taken "num_cpus" ≠ .none then .notImplemented
      else if takenValue taken "resources" ≠ .none then .notImplemented
      else
        match spread ["pure"] kw with
        | none => .typeError
        | some kw =>
          match enter lib.params lib.only kw with
          | none => .typeError
          | some (_, kw) => .delivered args kw (takenValue taken "num_returns")
    | .ray =>
      match enter lib.params lib.only kw with
      | none => .typeError
      | some (_, kw) => .delivered args kw (takenValue taken "num_returns")

/-- From `_remote` on, for a method of an actor: Dask submits a lambda with parameters `actor_cls` and `method`
(dask/actor.py:31-79), Ray calls `remote` of the method (ray/actor.py:30-57). -/
def libMethod (b : LibBackend) (lib : LibCall) (args : List Val) (kw : Kw) : Sent :=
  match enter ["self"] ["num_returns"] kw with
  | none => .typeError
  | some (taken, kw) =>
    match b with
    | .dask =>
      match spread ["pure"] kw with
      | none => .typeError
      | some kw =>
        match enter lib.params lib.only kw with
        | none => .typeError
        | some (_, kw) =>
          match enter ["actor_cls", "method"] [] kw with
          | none => .typeError
          | some (_, kw) => .delivered args kw (takenValue taken "num_returns")
    | .ray =>
      match enter lib.params lib.only kw with
      | none => .typeError
      | some (_, kw) => .delivered args kw (takenValue taken "num_returns")

/-- From `_remote` on, for the constructor: Dask adds `actor=True` (dask/actor.py:188-221), Ray hands `num_cpus` and `resources` to
`options` (ray/actor.py:161-189). -/
def libCreate (b : LibBackend) (lib : LibCall) (args : List Val) (kw : Kw) : Sent :=
  match enter ["self"] ["num_cpus", "resources"] kw with
  | none => .typeError
  | some (taken, kw) =>
    match b with
    | .dask =>
      if takenValue taken "num_cpus" ≠ .none then .notImplemented
      else if takenValue taken "resources" ≠ .none then .notImplemented
      else
        match spread ["actor"] kw with
        | none => .typeError
        | some kw =>
          match enter lib.params lib.only kw with
          | none => .typeError
          | some (_, kw) => .delivered args kw .none
    | .ray =>
      match enter lib.params lib.only kw with
      | none => .typeError
      | some (_, kw) => .delivered args kw .none

/-- `remote(*args, **kwargs)` without options (base/remote_function.py:33-38; base/actor.py:56-73, 220-238). -/
def libDirect (b : LibBackend) (lib : LibCall) (c : Callee) (args : List Val) (kw : Kw) : Sent :=
  match c with
  | .function => libFunction b lib args kw
  | .method =>
    match enter ["self"] [] kw with
    | none => .typeError
    | some (_, kw) => libMethod b lib args kw
  | .create =>
    match enter ["self"] [] kw with
    | none => .typeError
    | some (_, kw) => libCreate b lib args kw

/-- `options(num_returns=returns).remote(*args, **kwargs)` (base/remote_function.py:88-98, base/actor.py:46-54, 207-216). -/
def libOptions (b : LibBackend) (lib : LibCall) (c : Callee) (returns : Val) (args : List Val) (kw : Kw) : Sent :=
  match enter ["self"] [] kw with
  | none => .typeError
  | some (_, kw) =>
    match c with
    | .function =>
      match spread ["num_cpus", "num_returns", "resources"] kw with
      | none => .typeError
      | some kw => libFunction b lib args (("num_cpus", .none) :: ("num_returns", returns) :: ("resources", .none) :: kw)
    | .method =>
      match spread ["num_returns"] kw with
      | none => .typeError
      | some kw => libMethod b lib args (("num_returns", returns) :: kw)
    | .create =>
      match spread ["num_cpus", "resources"] kw with
      | none => .typeError
      | some kw => libCreate b lib args (("num_cpus", .none) :: ("resources", .none) :: kw)

end Verif.Calls
