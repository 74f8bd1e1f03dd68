/-!
# The user-facing call layer

Models the decorator (`/repo/unidist/api.py` 16-141), the way arguments travel from `remote` to the user's function
(`/repo/unidist/core/base/remote_function.py`, `base/actor.py` and the `_remote` methods of the backends), the options of calls,
and the choice of the backend (`base/backend.py` 192-220, `base/utils.py`).
-/
namespace Verif.Calls

/-! ## Decorator -/

/-- A Python object given as `num_returns` (api.py:50-56): only its being `None`, an `int` (a `bool` is one) or something else
matters. -/
inductive PyObj
  | none
  | int (z : Int)
  | bool (b : Bool)
  | other
deriving DecidableEq, Repr

/-- `isinstance(x, int)` (api.py:52). -/
def isInt : PyObj → Bool
  | .int _ => true
  | .bool _ => true
  | _ => false

/-- `x < 0` for an integer (api.py:52). -/
def isNegative : PyObj → Bool
  | .int z => decide (z < 0)
  | _ => false

/-- What is decorated (api.py:50, 64): `inspect.isfunction`, `inspect.isclass`, another callable, or not callable. -/
inductive Thing
  | function
  | cls
  | callable
  | plain
deriving DecidableEq, Repr

/-- Errors of the decorator (api.py:54-73, 134). -/
inductive DecoError
  | valueError
  | typeError
  | assertionError
deriving DecidableEq, Repr

/-- The remote function or actor class made by the decorator with its keyword values (api.py:58-70). -/
inductive Made
  | function (cpus returns resources : PyObj)
  | actor (cpus resources : PyObj)
deriving DecidableEq, Repr

/-- `make_decorator(...)(thing)` (api.py:16-76). -/
def decorate (cpus returns resources : PyObj) : Thing → Except DecoError Made
  | .function =>
    if returns ≠ .none ∧ (isInt returns = false ∨ isNegative returns = true) then .error .valueError
    else .ok (.function cpus returns resources)
  | .cls => if returns ≠ .none then .error .typeError else .ok (.actor cpus resources)
  | .callable => .error .typeError
  | .plain => .error .typeError

/-- `kwargs.get(name)` (api.py:136-138). -/
def lookup (kw : List (String × PyObj)) (name : String) : PyObj :=
  match kw.find? fun p => p.1 == name with
  | some p => p.2
  | none => .none

/-- `callable(x)` (api.py:130). -/
def isCallable : Thing → Bool
  | .plain => false
  | _ => true

/-- `remote(*args, **kwargs)` (api.py:114-141) followed, if it made a decorator, by its application to `target`. -/
def remote (args : List Thing) (kw : List (String × PyObj)) (target : Thing) : Except DecoError Made :=
  match args, kw with
  | [t], [] => if isCallable t then decorate .none .none .none t else .error .assertionError
  | [], k :: ks =>
    decorate (lookup (k :: ks) "num_cpus") (lookup (k :: ks) "num_returns") (lookup (k :: ks) "resources") target
  | _, _ => .error .assertionError

/-! ## Arguments on their way to the user's code -/

/-- A value passed by the user: `None` or anything else. (mpi/remote_function.py:62-67 only test for `None`.) -/
inductive Val
  | none
  | obj (n : Nat)
deriving DecidableEq, Repr

/-- Keyword arguments. (The `**kwargs` of base/remote_function.py:33.) -/
abbrev Kw := List (String × Val)

/-- Python's call of a function `def f(params…, *args, only…=default, **kwargs)` whose `params` the caller has filled by
position: a keyword argument with the name of a filled parameter is a `TypeError` (`none`); those with names of `only` are taken,
the others end up in `kwargs`. (The signatures are cited where this is used.) The signatures are those of
base/remote_function.py:33-36, 64-100 and base/actor.py:26-73, 184-238 -/
def enter (params only : List String) (kw : Kw) : Option (Kw × Kw) :=
  if kw.any (fun p => params.contains p.1) then none
  else some (kw.filter (fun p => only.contains p.1), kw.filter (fun p => !only.contains p.1))

/-- Python's call expression `f(*args, name=…, **kwargs)`: a repeated name is a `TypeError` (base/remote_function.py:89-98,
base/actor.py:50-52, 207-216). -/
def spread (names : List String) (kw : Kw) : Option Kw := if kw.any (fun p => names.contains p.1) then none else some kw

/-- The value of a keyword that was taken; `None` is the default (mpi/remote_function.py:36). -/
def takenValue (taken : Kw) (name : String) : Val :=
  match taken.find? fun p => p.1 == name with
  | some p => p.2
  | none => .none

/-- The backends modelled here. (base/common.py:10-17; Dask and Ray pass the arguments on to other libraries.) -/
inductive Backend
  | mpi
  | pymp
  | pyseq
deriving DecidableEq, Repr

/-- What is called: a remote function, a method of an actor, or the constructor of an actor class (base/remote_function.py:33,
base/actor.py:56, base/actor.py:220). -/
inductive Callee
  | function
  | method
  | create
deriving DecidableEq, Repr

/-- What happens to a call (base/remote_function.py:33-36, 64-100). -/
inductive Sent
  /-- The user's code gets these arguments; the number of results is the given one or the default. -/
  | delivered (args : List Val) (kw : Kw) (returns : Val)
  /-- `TypeError` (Python's own, for a repeated argument). -/
  | typeError
  /-- `NotImplementedError` (mpi/remote_function.py:62-67). -/
  | notImplemented
  /-- Nothing is sent to a worker (controller/actor.py:112). -/
  | notSent
deriving DecidableEq, Repr

/-- From `_remote` on (the functions called by it, then the user's code), for a remote function: mpi/remote_function.py:36-90 and
controller/api.py:508; pymp/remote_function.py:34-72, pymp/core/api.py:112-149 and process_manager.py:202-229;
pyseq/remote_function.py:34-71 and pyseq/core/api.py:77-112. References are treated in `Verif.Model.Arguments`. The decorator gave
no `num_cpus` and no `resources`. -/
def functionRemote (b : Backend) (args : List Val) (kw : Kw) : Sent :=
  match enter ["self"] ["num_cpus", "num_returns", "resources"] kw with
  | none => .typeError
  | some (taken, kw) =>
    if takenValue taken "num_cpus" ≠ .none then .notImplemented
    else if takenValue taken "resources" ≠ .none then .notImplemented
    else
      let returns := takenValue taken "num_returns"
      match b with
      | .mpi =>
        match enter ["task"] ["num_returns"] kw with
        | none => .typeError
        | some (_, kw) => .delivered args kw returns
      | .pymp =>
        match enter ["func"] ["num_returns"] kw with
        | none => .typeError
        | some (_, kw) =>
          match enter ["self", "func", "data_ids", "obj_store"] [] kw with
          | none => .typeError
          | some (_, kw) => .delivered args kw returns
      | .pyseq =>
        match enter ["func"] ["num_returns"] kw with
        | none => .typeError
        | some (_, kw) => .delivered args kw returns

/-- From `_remote` on, for a method of an actor: mpi/actor.py:29-63 and controller/actor.py:36-64; pymp/actor.py:29-63,
pymp/core/actor.py:40-74 and process_manager.py:202-229; pyseq/actor.py:29-63 and pyseq/core/api.py:77-112. -/
def methodRemote (b : Backend) (args : List Val) (kw : Kw) : Sent :=
  match enter ["self"] ["num_returns"] kw with
  | none => .typeError
  | some (taken, kw) =>
    let returns := takenValue taken "num_returns"
    match b with
    | .mpi =>
      match enter ["self"] ["num_returns"] kw with
      | none => .typeError
      | some (_, kw) => .delivered args kw returns
    | .pymp =>
      match enter ["self"] ["num_returns"] kw with
      | none => .typeError
      | some (_, kw) =>
        match enter ["self", "func", "data_ids", "obj_store"] [] kw with
        | none => .typeError
        | some (_, kw) => .delivered args kw returns
    | .pyseq =>
      match enter ["func"] ["num_returns"] kw with
      | none => .typeError
      | some (_, kw) => .delivered args kw returns

/-- From `_remote` on, for the constructor: mpi/actor.py:160-187 and controller/actor.py:91-128; pymp/actor.py:104-133 and
pymp/core/actor.py:99-110; pyseq/actor.py:104-133. -/
def createRemote (b : Backend) (args : List Val) (kw : Kw) : Sent :=
  match enter ["self"] ["num_cpus", "resources"] kw with
  | none => .typeError
  | some (taken, kw) =>
    if takenValue taken "num_cpus" ≠ .none then .notImplemented
    else if takenValue taken "resources" ≠ .none then .notImplemented
    else
      match b with
      | .mpi =>
        match enter ["self", "cls"] ["owner_rank", "handler_id"] kw with
        | none => .typeError
        | some (taken, kw) =>
          if takenValue taken "owner_rank" = .none ∧ takenValue taken "handler_id" = .none then .delivered args kw .none
          else .notSent
      | .pymp =>
        match enter ["self", "cls"] [] kw with
        | none => .typeError
        | some (_, kw) => .delivered args kw .none
      | .pyseq => .delivered args kw .none

/-- `remote(*args, **kwargs)` without options (base/remote_function.py:33-38, a closure without `self`; base/actor.py:56-73,
220-238). -/
def callDirect (b : Backend) (c : Callee) (args : List Val) (kw : Kw) : Sent :=
  match c with
  | .function => functionRemote b args kw
  | .method =>
    match enter ["self"] [] kw with
    | none => .typeError
    | some (_, kw) => methodRemote b args kw
  | .create =>
    match enter ["self"] [] kw with
    | none => .typeError
    | some (_, kw) => createRemote b args kw

/-- `options(num_returns=returns).remote(*args, **kwargs)` (base/remote_function.py:88-98, base/actor.py:46-54, 207-216). -/
def callOptions (b : Backend) (c : Callee) (returns : Val) (args : List Val) (kw : Kw) : Sent :=
  match enter ["self"] [] kw with
  | none => .typeError
  | some (_, kw) =>
    match c with
    | .function =>
      match spread ["num_cpus", "num_returns", "resources"] kw with
      | none => .typeError
      | some kw => functionRemote b args (("num_cpus", .none) :: ("num_returns", returns) :: ("resources", .none) :: kw)
    | .method =>
      match spread ["num_returns"] kw with
      | none => .typeError
      | some kw => methodRemote b args (("num_returns", returns) :: kw)
    | .create =>
      match spread ["num_cpus", "resources"] kw with
      | none => .typeError
      | some kw => createRemote b args (("num_cpus", .none) :: ("resources", .none) :: kw)

/-! ## Options of calls -/

/-- Keyword options of the decorator or of a call; `none` is `None` (base/remote_function.py:64). -/
structure Opts where
  cpus : Option Nat
  returns : Option Int
  resources : Option Nat
deriving DecidableEq, Repr

/-- A remote function object: what its constructor keeps (mpi/remote_function.py:30-34) and whether the function has already
been put into the object store (mpi/remote_function.py:75-76). -/
structure Fn where
  cpus : Option Nat
  returns : Int
  resources : Option Nat
  stored : Bool
deriving DecidableEq, Repr

/-- `MPIRemoteFunction.__init__` (mpi/remote_function.py:30-34); the other backends keep the same fields. -/
def Fn.init (deco : Opts) : Fn := ⟨deco.cpus, deco.returns.getD 1, deco.resources, false⟩

/-- Outcome of a call: an error, or a task with this number of results (base/remote_function.py:33-36, 64-100). -/
inductive CallResult
  | notImplemented
  | submitted (returns : Int)
deriving DecidableEq, Repr

/-- `MPIRemoteFunction._remote` (mpi/remote_function.py:62-90) with the given options; also whether the function is put into the
store by this call. -/
def Fn.remote (f : Fn) (o : Opts) : Fn × CallResult × Bool :=
  if o.cpus.isSome ∨ f.cpus.isSome then (f, .notImplemented, false)
  else if o.resources.isSome ∨ f.resources.isSome then (f, .notImplemented, false)
  else ({ f with stored := true }, .submitted (o.returns.getD f.returns), !f.stored)

/-- What a program does with one remote function (base/remote_function.py:33-38, 64-100). -/
inductive FnOp
  /-- `f.remote(…)`. -/
  | call
  /-- `w = f.options(…)`. -/
  | options (o : Opts)
  /-- `w.remote(…)` for the `i`-th object made by `options`. -/
  | callWith (i : Nat)
deriving DecidableEq, Repr

/-- The remote function and the wrappers made so far (base/remote_function.py:88-98). -/
structure FnState where
  fn : Fn
  wrappers : List Opts
  puts : Nat
deriving DecidableEq, Repr

/-- One operation, with the result of a call (base/remote_function.py:33-38, 64-100). A wrapper that does not exist cannot be
called. -/
def fnStep (s : FnState) : FnOp → FnState × Option CallResult
  | .call =>
    let r := s.fn.remote ⟨none, none, none⟩
    ({ s with fn := r.1, puts := s.puts + r.2.2.toNat }, some r.2.1)
  | .options o => ({ s with wrappers := s.wrappers ++ [o] }, none)
  | .callWith i =>
    match s.wrappers[i]? with
    | none => (s, none)
    | some o =>
      let r := s.fn.remote o
      ({ s with fn := r.1, puts := s.puts + r.2.2.toNat }, some r.2.1)

/-- A sequence of operations (base/remote_function.py:33-100), with the results. -/
def fnRun (s : FnState) : List FnOp → FnState × List (Option CallResult)
  | [] => (s, [])
  | op :: ops =>
    let r := fnRun (fnStep s op).1 ops
    (r.1, (fnStep s op).2 :: r.2)

/-! ## Choice of the backend -/

/-- Values of the `Backend` configuration (base/common.py:10-17). -/
inductive Name
  | mpi
  | dask
  | ray
  | pymp
  | pyseq
deriving DecidableEq, Repr

/-- The process: configured backend, the proxy's backend (`BackendProxy.__instance`, base/backend.py:202), and the backends that
have been initialized. -/
structure Proc where
  config : Name
  proxy : Option Name
  ready : List Name
deriving DecidableEq, Repr

/-- The process at import (base/backend.py:202). -/
def Proc.start (config : Name) : Proc := ⟨config, none, []⟩

/-- `BackendProxy.get_instance(backend_cls)` (base/backend.py:208-220). -/
def Proc.instance (p : Proc) (b : Name) : Proc := { p with proxy := some (p.proxy.getD b) }

/-- `get_backend_proxy` (base/utils.py:65-105). -/
def Proc.getProxy (p : Proc) : Proc × Name := (p.instance p.config, p.proxy.getD p.config)

/-- `init_backend` (base/utils.py:12-62); `none` is the `UnboundLocalError` for Dask outside the main thread. -/
def Proc.initBackend (p : Proc) (mainThread : Bool) : Option Proc :=
  if p.config = .dask ∧ mainThread = false then none
  else some ({ p with ready := p.config :: p.ready }.instance p.config)

/-- Operations of a program (api.py:82-261). -/
inductive ApiOp
  /-- `Backend.put(name)`. -/
  | select (b : Name)
  | init (mainThread : Bool)
  /-- `remote`, `get`, `wait`, `is_initialized`, `shutdown`, … -/
  | use
  | put (mainThread : Bool)
deriving DecidableEq, Repr

/-- What an operation shows: the backend whose initialization ran, the backend used by the call (core/base/utils.py:12-105). -/
structure Shown where
  initialized : Option Name
  used : Option Name
  failed : Bool
deriving DecidableEq, Repr

/-- One operation (api.py:82-261). -/
def apiStep (p : Proc) : ApiOp → Proc × Shown
  | .select b => ({ p with config := b }, ⟨none, none, false⟩)
  | .init m =>
    match p.initBackend m with
    | none => (p, ⟨none, none, true⟩)
    | some q => (q, ⟨some p.config, none, false⟩)
  | .use => (p.getProxy.1, ⟨none, some p.getProxy.2, false⟩)
  | .put m =>
    let q := p.getProxy
    if q.1.ready.contains q.2 then (q.1, ⟨none, some q.2, false⟩)
    else
      match q.1.initBackend m with
      | none => (q.1, ⟨none, none, true⟩)
      | some r => (r.getProxy.1, ⟨some q.1.config, some r.getProxy.2, false⟩)

/-- A sequence of operations (api.py:82-261). -/
def apiRun (p : Proc) : List ApiOp → Proc × List Shown
  | [] => (p, [])
  | op :: ops =>
    let r := apiRun (apiStep p op).1 ops
    (r.1, (apiStep p op).2 :: r.2)

end Verif.Calls
