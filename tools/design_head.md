# Design of the formal model of unidist

Source: `/repo` (modin-project/unidist). The code is read as text and never run; the tie between
code and model is the citation (file and lines) on every definition plus the reading notes below.
This file is written by `tools/design.py` from the texts in `tools/`.

## Layout

* `lean/Verif/Model/*.lean`  executable models, one per source component, each definition citing `/repo` lines
* `lean/Verif/Spec/*.lean`   small specifications that do not use the models' helper functions
* `lean/Verif/Lemmas/*.lean` helper lemmas and invariants
* `lean/Verif/Props/*.lean`  the property theorems (named `Cnn_...`) with non-vacuity examples
* `MANIFEST.json`            property -> theorem names and status (written by `tools/manifest.py`)
* `seeded/LOG.jsonl`         mutation experiments on the model
* `tools/citations.py`       checks that every model definition cites existing lines

Conventions: a property the code violates has its full statement as `def Cnn_full : Prop` (or as the
statement negated by the witness), theorems ending in `_violated` that prove the negation with a concrete
witness, and theorems ending in `_partial` that prove the part that holds. Beside each theorem stands an
`example` that runs a concrete, non-trivial case through its hypotheses.

## Trusted base

* Lean 4.33.0's kernel.
* Axioms: at most `propext`, `Classical.choice`, `Quot.sound`; the table at the end lists them per theorem.
  No own axioms, no `sorry`, no `native_decide`/`bv_decide`.
* The reading of the Python/C++ sources into the model. Exceptions are values, mutation is state passing,
  `dict`/`set`/`WeakKeyDictionary` are finite maps or association lists, loops are structural recursion.
* Assumptions about the environment, each stated where it is used:
  * MPI delivers messages between two processes on the same tag in order and without loss or duplication
    (non-overtaking rule); different pairs and tags are unordered. Collectives combine the k-th call of every member.
  * User functions are arbitrary functions of their argument values (and, for actors, of the calls executed
    before on the same object); they are parameters of every theorem, never fixed.
  * `pickle`, `cloudpickle` and `msgpack` return what was given to them for the leaf objects they support. Which objects they
    refuse, `msgpack`'s limit on the depth, and that `pickle` keeps references within one object, while `msgpack` does not,
    are assumed in C121-C123.
  * Floating point products are rounded to 53 bits, to nearest, ties to even (C12, C13, C76).
  * Python semantics: a reference-counted object is finalized when its last reference goes; dictionaries keep
    insertion order; `set` iteration order is arbitrary (a parameter where it matters).
  * `logging` finds levels and handlers as documented (C119); `git describe` and `git archive` print what their
    documentation says (C116, C117).
  * Access to a `multiprocessing.Manager` dictionary is atomic per operation.

## What is modelled

* MPI backend (`unidist/core/backends/mpi/core`): `communication.py` (topology, chunked buffers, composite messages, operations and tags),
  `common.py` (data IDs, materialization of arguments, shared memory support), `serialization.py`,
  `memory/memory.cpp`, `async_operations.py`, `local_object_store.py`, `object_store.py`, `shared_object_store.py`,
  `controller/api.py` (init decisions, put, get, submit, wait, shutdown, cluster_resources), `controller/common.py`
  (scheduler, request and push of data), `controller/actor.py`, `controller/garbage_collector.py`,
  `worker/loop.py`, `worker/task_store.py`, `worker/request_store.py`, `monitor/loop.py`,
  `monitor/shared_memory_manager.py`.
* Multiprocessing backend (`pymp/core`): process manager, object store, tasks, actors, wait.
* Sequential backend (`pyseq`): all of it.
* Dask and Ray backends: the code of unidist itself (wait loops, resource tables, initialization decisions).
* Frontend: `api.py` decorator, `base/*` (options, argument wrapping, backend proxy), `config/*`.
* `_version.py` (the version texts of checkouts, archives and source distributions), the log files of the MPI backend.

## What is not modelled

* MPI, Ray, Dask and `multiprocessing` internals; process crashes; signals other than in C51.
* Byte formats of pickle and msgpack (abstract inverses); bytes inside shared memory are modelled (C08).
* The asyncio event loop in the cluster system (a coroutine completes at any later step; C114 models the loop of one
  worker) and time (any reading of the clock).
* Submission of tasks from inside tasks in the cluster system (C32-C49, C81): only the main process submits there.
  Nested calls have a model of their own (C87, C88), and the scheduler (C26), the collector (C45, C47) and the stores are
  modelled for several submitting processes.
* The contents of log messages (except the communication log, C120), documentation, tests and benchmarks.
