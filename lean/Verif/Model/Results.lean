/-!
# Results of remote calls on the different backends

Models what `f.remote(…)` with `num_returns = k` returns on the MPI, Python Multiprocessing, Python Sequential and Dask backends and what
`unidist.get` gives for each of the returned references, as a function of what `f` returned or raised. Everything else of a run (other
tasks, memory, cleanups) is left to the other models; here one call is made and its references are asked for one after the other.
The Ray backend hands `num_returns` to Ray itself (`/repo/unidist/core/backends/ray/remote_function.py:58-80`) and is not modelled.
-/
namespace Verif.Results

/-- A Python object as far as the backends distinguish them: an integer, which stands for every object without a special treatment, an
exception instance (raised by `get`, mpi/core/controller/common.py:223-233, pymp/core/object_store.py:101-102,
pyseq/core/object_store.py:78-83) or
`bytes` (unpickled by `get`, pymp/core/object_store.py:104) with their content. -/
inductive Item where
  | int (n : Nat)
  | exc (e : Nat)
  | bytes (content : List Nat)
deriving DecidableEq, Repr

/-- What a remote function can return: a single object, a sequence (`list`, `tuple`), which can be iterated and subscripted by position,
an iterable that cannot be subscripted (a generator, a set), which may raise an exception after having given some items, or a dictionary
with integer keys, whose iteration gives the keys and whose subscript takes a key (mpi/core/worker/task_store.py:364-366,
pymp/core/process_manager.py:53, pyseq/core/api.py:119, dask/remote_function.py:90). Nested containers are not distinguished from other
objects. -/
inductive Value where
  | one (x : Item)
  | seq (xs : List Item)
  | iter (xs : List Item) (raises : Option Nat)
  | dict (kvs : List (Nat × Item))
deriving DecidableEq, Repr

/-- How the execution of a remote function ends (mpi/core/worker/task_store.py:326-357, pymp/core/process_manager.py:42-51,
pyseq/core/api.py:111-114). -/
inductive Ending where
  | returns (v : Value)
  | raises (e : Nat)
deriving DecidableEq, Repr

/-- Exceptions: one of the user, the `IndexError`, `KeyError` and `TypeError` of a subscript (pyseq/core/api.py:119,
dask/remote_function.py:90) and the error of `pkl.loads` (pymp/core/object_store.py:104). -/
inductive Error where
  | user (e : Nat)
  | index
  | key
  | type
  | unpickling
deriving DecidableEq, Repr

/-- What `unidist.get` of a reference does: returns a value, raises, or never returns (base/backend.py:264-286). -/
inductive Got where
  | value (v : Value)
  | error (e : Error)
  | never
deriving DecidableEq, Repr

/-- What `f.remote(…)` gives: `None`, one reference, a list of references, each with what `get` of it will do, or it raises
(mpi/remote_function.py:85-90, pymp/remote_function.py:76-81, pyseq/remote_function.py:76-81, dask/remote_function.py:86-94). -/
inductive Outcome where
  | none
  | single (g : Got)
  | many (gs : List Got)
  | raises (e : Error)
deriving DecidableEq, Repr

/-- The modelled backends (config/backends/common/envvars.py:13-23). -/
inductive Backend where
  | mpi
  | pymp
  | pyseq
  | dask
deriving DecidableEq, Repr

/-- What iterating an object gives and how the iteration ends: `some e` an exception of the user; `none` as a whole: not iterable
(`zip`, mpi/core/worker/task_store.py:364-366, pymp/core/process_manager.py:53). Iterating `bytes` gives integers. -/
def iterate : Value → Option (List Item × Option Nat)
  | .one (.bytes bs) => some (bs.map .int, none)
  | .one _ => none
  | .seq xs => some (xs, none)
  | .iter xs r => some (xs, r)
  | .dict kvs => some (kvs.map fun kv => .int kv.1, none)

/-- `value[i]` with a non-negative integer (pyseq/core/api.py:119, dask/remote_function.py:90). -/
def subscript : Value → Nat → Except Error Item
  | .one (.bytes bs), i => match bs[i]? with | some b => .ok (.int b) | none => .error .index
  | .one _, _ => .error .type
  | .seq xs, i => match xs[i]? with | some x => .ok x | none => .error .index
  | .iter _ _, _ => .error .type
  | .dict kvs, i => match kvs.lookup i with | some x => .ok x | none => .error .key

/-- `get` of an object that is in the store of the MPI or the Python Sequential backend: an exception instance is raised
(mpi/core/controller/api.py:400-433, mpi/core/controller/common.py:220-233, pyseq/core/object_store.py:78-83). The first `get` is meant; a
second one on the MPI backend finds the exception in the local store and returns it. -/
def getStored : Value → Got
  | .one (.exc e) => .error (.user e)
  | v => .value v

/-- `get` of an object that is in the store of the Python Multiprocessing backend: an exception instance is raised, `bytes` are unpickled
(pymp/core/object_store.py:100-104). `loads` is `pkl.loads`; `none` if it raises. -/
def getStoredPymp (loads : List Nat → Option Item) : Value → Got
  | .one (.exc e) => .error (.user e)
  | .one (.bytes bs) => match loads bs with | some x => .value (.one x) | none => .error .unpickling
  | v => .value v

/-- The references of a call with `k > 1` results on the MPI backend. An exception is stored under every id (task_store.py:349-354).
Otherwise ids and items are zipped (364-378): ids without an item never get one. A result that cannot be iterated and an iteration that
raises before `k` items raise outside of the `try`, so the worker ends and answers no request any more; `zip` takes the next id before
the next item and does not go on after the last id. -/
def manyMpi (k : Nat) : Ending → List Got
  | .raises e => List.replicate k (.error (.user e))
  | .returns v =>
    match iterate v with
    | none => List.replicate k .never
    | some (xs, r) =>
      if r.isSome && decide (xs.length < k) then List.replicate k .never
      else (xs.take k).map (fun x => getStored (.one x)) ++ List.replicate (k - xs.length) .never

/-- The references of a call with `k > 1` results on the Python Multiprocessing backend. As on the MPI backend
(pymp/core/process_manager.py:45-54), but every item is at once in the shared dictionary (54), so that the items before an exception of the
iteration can still be read when the worker has ended; `get` polls an id without item forever (pymp/core/object_store.py:97-98). -/
def manyPymp (loads : List Nat → Option Item) (k : Nat) : Ending → List Got
  | .raises e => List.replicate k (.error (.user e))
  | .returns v =>
    match iterate v with
    | none => List.replicate k .never
    | some (xs, _) =>
      (xs.take k).map (fun x => getStoredPymp loads (.one x)) ++ List.replicate (k - xs.length) .never

/-- The list comprehension of `submit` on the Python Sequential backend, from position `i` on: it raises at the first position whose
subscript raises (pyseq/core/api.py:119). -/
def subscripts (v : Value) : Nat → Nat → Except Error (List Item)
  | _, 0 => .ok []
  | i, k + 1 =>
    match subscript v i with
    | .error e => .error e
    | .ok x =>
      match subscripts v (i + 1) k with
      | .error e => .error e
      | .ok xs => .ok (x :: xs)

/-- A call with `k > 1` results on the Python Sequential backend: an exception is replicated (pyseq/core/api.py:113-114) and then
subscripted like a result (119); errors of the subscript are raised by `remote` itself. -/
def manyPyseq (k : Nat) (r : Ending) : Outcome :=
  match r with
  | .raises e =>
    match subscripts (.seq (List.replicate k (.exc e))) 0 k with
    | .error err => .raises err
    | .ok xs => .many (xs.map fun x => getStored (.one x))
  | .returns v =>
    match subscripts v 0 k with
    | .error err => .raises err
    | .ok xs => .many (xs.map fun x => getStored (.one x))

/-- The references of a call with `k > 1` results on the Dask backend: every reference is a task that subscripts the result
(dask/remote_function.py:88-92). `get` is `future.result()` (dask/backend.py:77-81), which raises if the task or one it depends on raised,
and returns an exception instance as any other value. -/
def manyDask (k : Nat) : Ending → List Got
  | .raises e => (List.range k).map fun _ => .error (.user e)
  | .returns v => (List.range k).map fun i =>
      match subscript v i with
      | .error e => .error e
      | .ok x => .value (.one x)

/-- `get` of the reference of a call with `num_returns = 1` (task_store.py:356, 380-391, pymp/core/process_manager.py:49, 56,
pyseq/core/api.py:114, 121, dask/remote_function.py:86-87). The result must be serializable on the MPI and the Python Multiprocessing
backend, which is not modelled. -/
def single (loads : List Nat → Option Item) : Backend → Ending → Got
  | _, .raises e => .error (.user e)
  | .mpi, .returns v => getStored v
  | .pymp, .returns v => getStoredPymp loads v
  | .pyseq, .returns v => getStored v
  | .dask, .returns v => .value v

/-- `f.remote(…)` with `num_returns = k` (mpi/remote_function.py:85-90, pymp/remote_function.py:76-81, pyseq/remote_function.py:76-81,
dask/remote_function.py:86-94). -/
def call (loads : List Nat → Option Item) (b : Backend) (k : Nat) (r : Ending) : Outcome :=
  match k with
  | 0 => .none
  | 1 => .single (single loads b r)
  | k =>
    match b with
    | .mpi => .many (manyMpi k r)
    | .pymp => .many (manyPymp loads k r)
    | .pyseq => manyPyseq k r
    | .dask => .many (manyDask k r)

/-! ## `put` on the Dask backend -/

/-- An object handed to `put`: what is not a container, or a container of such (dask/backend.py:84-98). -/
inductive Data where
  | scalar (n : Nat)
  | list (xs : List Nat)
  | tuple (xs : List Nat)
  | set (xs : List Nat)
  | dict (kvs : List (Nat × Nat))
  | range (n : Nat)
  | iterator (xs : List Nat)
deriving DecidableEq, Repr

/-- What `Client.scatter` returns, with the data of every future: a future, or a container of futures; `scatter` documents that it gives
a dictionary for a dictionary and a list (tuple, set) of futures for a list (tuple, set), as every element is scattered on its own;
ranges and iterators become lists (dask/backend.py:98). -/
inductive Scattered where
  | future (n : Nat)
  | list (fs : List Nat)
  | tuple (fs : List Nat)
  | set (fs : List Nat)
  | dict (fs : List (Nat × Nat))
deriving DecidableEq, Repr

/-- `get_client().scatter(data, hash=False)` (dask/backend.py:98). -/
def scatter : Data → Scattered
  | .scalar n => .future n
  | .list xs => .list xs
  | .tuple xs => .tuple xs
  | .set xs => .set xs
  | .dict kvs => .dict kvs
  | .range n => .list (List.range n)
  | .iterator xs => .list xs

/-- `get_client().gather(futures)` replaces the futures in a container by their data (dask/backend.py:78). -/
def gather : Scattered → Data
  | .future n => .scalar n
  | .list fs => .list fs
  | .tuple fs => .tuple fs
  | .set fs => .set fs
  | .dict fs => .dict fs

/-- `get` of one reference: a list is gathered, everything else asked for its `result()`, which only a future has; `none` is the
`AttributeError` (dask/backend.py:77-81). -/
def daskGet : Scattered → Option Data
  | .list fs => some (gather (.list fs))
  | .future n => some (.scalar n)
  | _ => none

/-- `get` of a list of references: the list of what they refer to is gathered (base/backend.py:279-286, dask/backend.py:77-79). -/
def daskGetMany (refs : List Scattered) : Option (List Data) := some (refs.map gather)

end Verif.Results
