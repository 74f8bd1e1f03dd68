# Design of the formal model of unidist

Source: `/repo` (modin-project/unidist). The code is read as text and never run; the tie between
code and model is the citation (file and lines) on every definition plus the reading notes below.
This file is written by `tools/design.py` from the texts in `tools/`.

## Layout

* `lean/Verif/Model/*.lean`  executable models, one per source component, each definition citing `/repo` lines
* `lean/Verif/Spec/*.lean`   small specifications that do not use the models' helper functions
* `lean/Verif/Lemmas/*.lean` helper lemmas and invariants
* `lean/Verif/Props/*.lean`  the property theorems (named `Cnn_...`) with non-vacuity examples
* `MANIFEST.json`            property -> theorem names and status (written by `tools/manifest.py`)
* `seeded/LOG.jsonl`         mutation experiments on the model
* `tools/citations.py`       checks that every model definition cites existing lines

Conventions: a property the code violates has its full statement as `def Cnn_full : Prop` (or as the
statement negated by the witness), theorems ending in `_violated` that prove the negation with a concrete
witness, and theorems ending in `_partial` that prove the part that holds. Beside each theorem stands an
`example` that runs a concrete, non-trivial case through its hypotheses.

## Trusted base

* Lean 4.33.0's kernel.
* Axioms: at most `propext`, `Classical.choice`, `Quot.sound`; the table at the end lists them per theorem.
  No own axioms, no `sorry`, no `native_decide`/`bv_decide`.
* The reading of the Python/C++ sources into the model. Exceptions are values, mutation is state passing,
  `dict`/`set`/`WeakKeyDictionary` are finite maps or association lists, loops are structural recursion.
* Assumptions about the environment, each stated where it is used:
  * MPI delivers messages between two processes on the same tag in order and without loss or duplication
    (non-overtaking rule); different pairs and tags are unordered. Collectives combine the k-th call of every member.
  * User functions are arbitrary functions of their argument values (and, for actors, of the calls executed
    before on the same object); they are parameters of every theorem, never fixed.
  * `pickle`, `cloudpickle` and `msgpack` return what was given to them for the leaf objects they support. Which objects they
    refuse, `msgpack`'s limit on the depth, and that `pickle` keeps references within one object, while `msgpack` does not,
    are assumed in C121-C123.
  * Floating point products are rounded to 53 bits, to nearest, ties to even (C12, C13, C76).
  * Python semantics: a reference-counted object is finalized when its last reference goes; dictionaries keep
    insertion order; `set` iteration order is arbitrary (a parameter where it matters).
  * `logging` finds levels and handlers as documented (C119); `git describe` and `git archive` print what their
    documentation says (C116, C117).
  * Access to a `multiprocessing.Manager` dictionary is atomic per operation.

## What is modelled

* MPI backend (`unidist/core/backends/mpi/core`): `communication.py` (topology, chunked buffers, composite messages, operations and tags),
  `common.py` (data IDs, materialization of arguments, shared memory support), `serialization.py`,
  `memory/memory.cpp`, `async_operations.py`, `local_object_store.py`, `object_store.py`, `shared_object_store.py`,
  `controller/api.py` (init decisions, put, get, submit, wait, shutdown, cluster_resources), `controller/common.py`
  (scheduler, request and push of data), `controller/actor.py`, `controller/garbage_collector.py`,
  `worker/loop.py`, `worker/task_store.py`, `worker/request_store.py`, `monitor/loop.py`,
  `monitor/shared_memory_manager.py`.
* Multiprocessing backend (`pymp/core`): process manager, object store, tasks, actors, wait.
* Sequential backend (`pyseq`): all of it.
* Dask and Ray backends: the code of unidist itself (wait loops, resource tables, initialization decisions).
* Frontend: `api.py` decorator, `base/*` (options, argument wrapping, backend proxy), `config/*`.
* `_version.py` (the version texts of checkouts, archives and source distributions), the log files of the MPI backend.

## What is not modelled

* MPI, Ray, Dask and `multiprocessing` internals; process crashes; signals other than in C51.
* Byte formats of pickle and msgpack (abstract inverses); bytes inside shared memory are modelled (C08).
* The asyncio event loop in the cluster system (a coroutine completes at any later step; C114 models the loop of one
  worker) and time (any reading of the clock).
* Submission of tasks from inside tasks in the cluster system (C32-C49, C81): only the main process submits there.
  Nested calls have a model of their own (C87, C88), and the scheduler (C26), the collector (C45, C47) and the stores are
  modelled for several submitting processes.
* The contents of log messages (except the communication log, C120), documentation, tests and benchmarks.

## Properties

For each property: what is modelled and how it is proved, the files, the theorems, and the result.

* **C01 Live shared-memory reservations never overlap** (proved). Model `FreeMemoryRange.occupy/release` branch by branch on lists of (lo,hi) pairs (Model/FreeMemory). Spec: set of live [a,b) intervals. Invariant over op lists: free list canonical (sorted, positive gaps) and its byte set is the complement of the live bytes; disjointness and bounds follow.
  Result: Proved for every history of the range allocator and, at object level, for every history of a monitor (reservations, cleanups with any collective result, arbitrary metadata writes). Requests have at least one byte.
  Theorems in `Props/FreeMemory.lean`, `Props/ShmManager.lean`: `C01_live_ranges_disjoint`, `C01_reserve_grants_exact_size`, `C01_object_ranges_disjoint`.
* **C02 Free shared memory is fully coalesced and every fitting request is served** (proved). Same invariant; completeness of first fit: if n consecutive bytes are all free then `occupy n` succeeds; if no live range the free list is exactly [[0,len]]. Lifted to the manager in Props/ShmExact: after any history of reservations, cleanups and metadata writes every free byte is on the free list, so a fitting object is served.
  Result: Proved for every history of the range allocator: first fit serves a request whenever enough consecutive free bytes exist, and the free list is the whole segment once everything is released.
  Theorems in `Props/FreeMemory.lean`, `Props/ShmExact.lean`: `C02_first_fit_complete`, `C02_whole_segment_after_release`, `C02_manager_serves_fitting_request`.
* **C03 Two live shared objects never share metadata cells** (proved). Same allocator with chunk 4 (Model/ShmManager): invariant that all free boundaries are multiples of 4, hence slots aligned, disjoint, in range. Props/ShmExact adds that a cleanup leaves the four words of every surviving reservation unchanged.
  Result: Proved for every history of a monitor.
  Theorems in `Props/ShmExact.lean`, `Props/ShmManager.lean`: `C03_cleanup_keeps_other_metadata`, `C03_metadata_slots_disjoint`.
* **C04 A refused shared-memory reservation does not consume capacity** (partial). Model `SharedMemoryManager.put` with exceptions as values.
  Result: Violated by the code: both resources are taken before either is checked. Negation proved with witnesses; the partial theorem gives exactly what is preserved. `C04_lost_partial`: exactly how much memory a refused `put` consumes.
  Theorems in `Props/ShmManager.lean`: `C04_violated`, `C04_memory_lost_violated`, `C04_refused_put_partial`, `C04_lost_partial`.
* **C05 Reservations are idempotent with exactly one first request** (proved). Monitor handler of RESERVE_SHARED_MEMORY as step function over request histories; spec counts first answers per id between cleanups.
  Result: Proved for every history of a monitor: the log of answers is legal (first exactly if there is no reservation in force, otherwise the same reservation).
  Theorems in `Props/ShmManager.lean`: `C05_reservations_idempotent`.
* **C06 Shared memory is not reclaimed while any host holds references** (proved). Model `SharedMemoryManager.clear` for N hosts with Allreduce MAX as list maximum; theorem: freed -> every host count <= 0, and not freed -> in pending list. Props/ShmExact adds that a reservation is dropped only if its slot carries the identity of the object.
  Result: Proved for any number of hosts and any history in which every monitor processes the cleanup lists in the same order.
  Theorems in `Props/ShmExact.lean`, `Props/ShmManager.lean`: `C06_reclaims_only_published`, `C06_reclaim_only_unreferenced`.
* **C07 Hosts agree on what to reclaim for any delivery order** (partial). Two-queue model of k-th collective call on each monitor; `_partial` for equal orders. For all orders: the result of the collective is at least the own contribution of a host, and metadata slots of different objects do not overlap.
  Result: Violated by the code when two cleanup requests are delivered in different orders; negation proved with a two-host witness, also showing that a referenced object is freed. Partial: same delivery order; and for all delivery orders, even of different lists, a host never reclaims an object that it refers to itself (`C07_own_references_partial`), so only references from other hosts are overlooked.
  Theorems in `Props/ShmManager.lean`, `Props/ShmOwn.lean`: `C07_violated`, `C07_referenced_object_freed_violated`, `C07_same_order_partial`, `C07_own_references_partial`.
* **C08 Data written to shared memory is read back unchanged** (proved). Memory = function Nat -> Byte or list; model write/read with running offsets; round trip + frame theorem.
  Result: Proved for every object and reservation: local round trip, stability under writes of other objects into disjoint ranges, and round trip after the copy to another host. Byte contents only; serialization is C17/C18. The copy of a raw buffer is taken as exact here; which buffers are copied exactly is C124.
  Theorems in `Props/SharedBuffer.lean`: `C08_write_read_roundtrip`, `C08_stable_under_other_writes`, `C08_other_host_roundtrip`.
* **C09 Oversized writes are refused without touching other objects** (proved). Same model, error branch with partially written memory returned.
  Result: Proved: an object larger than its reservation is refused and bytes outside the reservation are untouched.
  Theorems in `Props/SharedBuffer.lean`: `C09_oversized_write_refused`.
* **C10 Lock-free readers never accept a half-published object** (proved). Word-level step model of `_put_service_info` (4 ordered writes) and readers (2 reads) as interleavings; invariant on program counter.
  Result: Proved for all interleavings of one writer with any number of reader steps, at word granularity and with the code's write order (identity words last).
  Theorems in `Props/SlotProtocol.lean`: `C10_accepted_object_is_published`.
* **C11 Shared reference count equals the number of outstanding holders** (partial). State = slot words + multiset of outstanding finalizers; ops publish/get/finalize/cleanup; invariant refs = number of outstanding finalizers while the slot holds the id; without that restriction refs is at least that number.
  Result: Violated by the code: a reader's check and its reference increment are not atomic, so a cleanup and re-use of the cell between them counts the reference on another object. Negation with witness; partial for histories where no cleanup falls between check and increment. For all histories in which no object is published twice the count is never below the number of registrations of the object in the slot, so the race makes an object stay too long and never lets one go too early (`C11_never_below_partial`).
  Theorems in `Props/SlotProtocol.lean`: `C11_violated`, `C11_refcount_partial`, `C11_never_below_partial`.
* **C12 Shared segment sizes respect the allowed memory** (proved). Model of `_allocate_shared_memory` with integers, errors as values, and the products with 0.95, 0.99 and 0.01 rounded as double precision does (Model/Float). Below 64 TiB the rounding is shown to give the exact floor (Lemmas/Float), from which the claims follow by integer arithmetic.
  Result: Proved for all non-negative configured sizes and all amounts of available memory below 64 TiB, with the rounding of the floating point products.
  Theorems in `Props/SegmentSizes.lean`: `C12_segments_fit`, `C12_refused_iff_does_not_fit`.
* **C13 Metadata space is never the bottleneck with default sizing** (proved). Arithmetic consequence of the default split, and of the split for a configured object store, plus a bound on the number of objects above the threshold.
  Result: Proved for the default sizing and for a configured object store, and any list of live objects larger than the sharing threshold; memory below 64 TiB. That all shared objects are larger than the threshold is property C125, which `put` violates.
  Theorems in `Props/SegmentSizes.lean`: `C13_slots_suffice`, `C13_slots_suffice_configured`.
* **C14 Buffers of any length survive chunked transfer** (proved). Partition model of send/recv loops over lists of bytes; round trip by induction on the length.
  Result: Proved for every length and every positive block size, also with other traffic queued.
  Theorems in `Props/Comm.lean`: `C14_known_length_roundtrip`, `C14_sized_roundtrip`.
* **C15 Composite messages are reassembled exactly** (partial). FIFO channel per (source,tag) model, send/recv of packages; round trip for queues of packages with interleaved sources.
  Result: Violated by the code: blocking and non-blocking packages share the tag for their bodies, so a blocking receive can take the body of another package from the same sender. Negation with witnesses; partial: packages of one kind arrive in order from any number of senders. Exactly, for one receive: the first package of the awaited kind arrives intact if and only if its byte messages come first among all byte messages of its sender.
  Theorems in `Props/Comm.lean`: `C15_violated`, `C15_wrong_body_violated`, `C15_packages_in_order_partial`, `C15_exactly_partial`.
* **C16 Parallel memory copy copies exactly the requested bytes** (partial). Model with Int addresses and 64-bit wrap-around of the unsigned division; list memory; theorem for n >= block size - 1; negation for small n with witness.
  Result: Violated by the code for short buffers without a 64-aligned address inside (a negative chunk size is passed to memcpy). Negation with witness; partial: exact for every buffer of at least 63 bytes, any alignment, any thread count, any order of the copies. Exactly: the copy is made, and is exact, if and only if an address divisible by 64 lies in the buffer or at its end. Copies are defined if and only if none of them has a negative length or leaves one of the buffers (`C16_defined_exactly`), and under the same condition as above none does (`C16_bounds_partial`).
  Theorems in `Props/Memcopy.lean`: `C16_violated`, `C16_exact_copy_partial`, `C16_exactly_partial`, `C16_defined_exactly`, `C16_bounds_partial`.
* **C17 Objects survive serialization unchanged** (partial). Abstract object type (scalars, lists, string-key dicts, tuples/opaque leaves, array leaves); encode/decode as in msgpack hooks. `_partial` without marker keys.
  Result: Violated by the code for dictionaries with one of the three marker keys (KeyError or silent replacement) and for bytearray (comes back as bytes). Negation with witnesses; partial, exactly: an object comes back unchanged if and only if it has none of these at any depth, for every threshold. pickle/msgpack round-trips of leaves are assumed. What comes back for an object without marker keys is the object with every bytearray replaced by bytes.
  Theorems in `Props/Serialization.lean`, `Props/SerializationExact.lean`: `C17_violated`, `C17_silently_replaced_violated`, `C17_bytearray_violated`, `C17_roundtrip_partial`, `C17_exactly_partial`, `C17_as_bytes_partial`.
* **C18 Out-of-band buffers return to the object they came from** (partial). Same model with buffers: encoding appends to buffer list and counts; decoding consumes; round trip theorem for any threshold.
  Result: Violated by the code when a dictionary with the marker key precedes an array in the same object. Negation with witness; partial: without marker keys the buffers return exactly, none left over. Bytearrays do not disturb the buffers: they come back as bytes and the buffers are the same. Marker keys other than `__pickle5_custom__` disturb no buffer: everything outside of such dictionaries comes back with its own buffers, or the deserialization fails because of the dictionary itself (C18_markers_partial).
  Theorems in `Props/Serialization.lean`, `Props/SerializationExact.lean`: `C18_violated`, `C18_buffers_partial`, `C18_bytearrays_partial`, `C18_markers_partial`.
* **C19 A stored object can be read and forwarded any number of times** (partial). Stateful model of the cache entry with aliasing of `raw_buffers`. `_partial` for objects without out-of-band buffers.
  Result: Violated by the code: after a local read of an object with out-of-band buffers the stored buffer list is empty, so forwarding fails. Negation with witness; partial, exactly: all uses agree if and only if no buffer reaches the threshold or no forward follows a local read; for every object forwards before the first read and all reads agree.
  Theorems in `Props/Serialization.lean`, `Props/SerializationExact.lean`: `C19_violated`, `C19_small_objects_partial`, `C19_reads_partial`, `C19_exactly_partial`.
* **C20 Object references are globally unique** (proved). Per-process counters; histories of generate ops by all ranks; ids distinct.
  Result: Unbounded over all histories of all processes; a request is always served with data of the same reference.
  Theorems in `Props/DataIds.lean`: `C20_references_unique`, `C20_request_served`.
* **C21 Shared metadata identifies exactly one object** (proved). Strings as char lists; decimal printing and parsing; injectivity via round trip.
  Result: Parse of the textual form is exact and the metadata pair is injective.
  Theorems in `Props/DataIds.lean`: `C21_parse_exact`, `C21_metadata_injective`.
* **C22 Each dropped reference is reported for cleanup exactly once** (proved). Process-level heap model: live instance table and gc handle; history ops.
  Result: Unbounded over all histories of creating, copying, sending, receiving and dropping references; dropping the last reference reports it (`C22_last_drop_reports`). The histories are all that can happen: creations, copies, drops and receptions are always possible (C22_possible).
  Theorems in `Props/DataIds.lean`: `C22_one_live_object`, `C22_reported_exactly_once`, `C22_report_at_last_drop`, `C22_last_drop_reports`, `C22_possible`.
* **C23 Tasks are only scheduled on free workers** (proved). Rotation as list position over eligible workers; schedule as in code; spec predicates on the result.
  Result: For every state of the scheduler and every number of workers.
  Theorems in `Props/Scheduler.lean`: `C23_only_free_workers`, `C23_fails_only_if_all_blocked`.
* **C24 Task placement is fair** (proved). Count placements over k submissions, difference <= 1.
  Result: For every number of submissions and workers; with reservations every full round visits each free worker.
  Theorems in `Props/Scheduler.lean`: `C24_fair`, `C24_full_round`.
* **C25 An actor keeps its worker to itself** (proved). Reservation multiset with handles; history invariant.
  Result: Unbounded over histories of submissions, actor creations, handle copies and drops in one process.
  Theorems in `Props/Scheduler.lean`: `C25_actor_keeps_worker`, `C25_released_worker_used_again`.
* **C26 An actor keeps its worker to itself across processes** (partial). Two scheduler states of Model/Scheduler side by side; witness in which one process places a task on the worker of the other's actor; partial: actors of the placing process (C25).
  Result: Violated by the code: reservations are local to each process. Negation with witness; partial: holds for actors of the placing process itself. If the other processes only submit work and drop handles, so that one process holds all handles, nothing it places is on the worker of any actor (`C26_one_creator_partial`).
  Theorems in `Props/Scheduler.lean`: `C26_violated`, `C26_own_actors_partial`, `C26_one_creator_partial`.
* **C27 Multiprocessing scheduler uses only free workers** (proved). Model of ProcessManager with grabbed flags and cyclic counter; history invariant. For whole programs the same invariant is carried along the runs of Model/Pymp (Props/PympSystem).
  Result: Unbounded over histories of submissions, actor creations and drops. `C27_programs` says it of the whole multiprocessing system of C65–C70: in every program of functions, actors, method calls and drops exactly the workers of the existing actors are taken, and no function and no new actor gets one of them.
  Theorems in `Props/PympManager.lean`, `Props/PympSystem.lean`: `C27_only_free_workers`, `C27_actors_exclusive_and_released`, `C27_programs`.
* **C28 Every process has exactly one role** (proved). Topology as list of hosts with ranks; role functions; partition theorem under the well-formedness MPI provides (ranks 0..n-1 each once).
  Result: For every layout of processes over hosts with different addresses, with and without shared memory; all processes compute the same roles.
  Theorems in `Props/Topology.lean`: `C28_one_role`, `C28_agreement`.
* **C29 Workers use the monitor of their own host** (proved). Monitor lookup in the topology model of C28, compared with the physical node of each rank in the layout.
  Result: Same physical node for every layout with different addresses; common monitor without shared memory; the root refuses exactly the layouts with a lone process on some node.
  Theorems in `Props/Topology.lean`: `C29_same_host`, `C29_common_monitor`, `C29_lone_host_rejected`.
* **C30 Reported cluster resources match the workers** (proved). Sum over hosts of eligible ranks = number of workers; with spawn counts = CpuCount.
  Result: The sum holds for every layout; with shared memory the number of workers plus the number of actual hosts is the configured CPU count plus the number of configured hosts, so it is the configured count exactly if the numbers of hosts agree (otherwise the code only warns).
  Theorems in `Props/Topology.lean`: `C30_sum`, `C30_any_hosts`, `C30_configured`.
* **C31 Slots are balanced over hosts** (proved). Quotient and remainder list of slots; sum and balance.
  Result: Float division replaced by exact division (equal below 2^53).
  Theorems in `Props/Topology.lean`: `C31_slots`.
* **C32 Results do not depend on the schedule** (proved). Transition system: root + workers, FIFO channels per pair, operations EXECUTE/GET/PUT_DATA/PUT_OWNER, nondeterministic delivery. Spec: sequential evaluator over the submission list. Invariant: every stored or travelling value equals the spec value.
  Result: Cluster model: main process, workers, FIFO channels per pair; any interleaving of deliveries, replies, coroutine completions. User functions are pure and neither stored nor returned values contain references (references inside values are C53/C78). Which of several errors a get of several failed references raises depends on arrival order; only that it is one of them is claimed.
  Theorems in `Props/Cluster.lean`: `C32_results_sequential`, `C32_schedule_independent`.
* **C33 Each submitted task runs at most once and only with resolved arguments** (proved). Same system with an execution log; invariant on log multiplicity and argument resolution.
  Result: Executions are logged by the model; tags number the submissions of the main process.
  Theorems in `Props/Cluster.lean`: `C33_once_with_values`.
* **C34 get of a list returns the values in order** (partial). `get`/`request_worker_data` inside the cluster transition system with all arrival orders; witness for a repeated reference. `C34_repeated_partial`: the references received are distinct, so the replies never suffice for a list with repetitions (invariant of the `get` in progress). Progress comes from the results of C81.
  Result: Violated by the code: get([x, x]) hangs because the data is requested twice and sent once. Partial: results are given in order, at the right positions. Exactly for programs that submit no coroutine functions (`C34_exact_partial`): a get returns if and only if all references in its list have values in the sequential evaluation of the program and no output of a task is twice in the list without having been in an earlier list. A get with such a repetition never returns in any program (`C34_repeated_partial`).
  Theorems in `Props/Cluster.lean`, `Props/Live.lean`: `C34_violated`, `C34_order_partial`, `C34_repeated_partial`, `C34_exact_partial`.
* **C35 get of a failed task raises every time** (partial). Cluster transition system; witness with two `get` calls; the first `get` is proved to raise an error of its list.
  Result: Violated: the first get raises and stores the exception object, the second get returns it as a value. Proved: the first get raises an error of its list. `C35_exact_partial`: exactly when `get` raises.
  Theorems in `Props/Cluster.lean`, `Props/ClusterGet.lean`: `C35_violated`, `C35_first_partial`, `C35_exact_partial`.
* **C36 A failed argument fails the dependent task without running it** (proved). Cluster transition system; invariant on the execution log (a call with a failed argument is never logged) and on stored values (its outputs are the same error), transitively through any graph.
  Result: Any plain exception object given as direct argument also fails the task (see C61).
  Theorems in `Props/Cluster.lean`: `C36_not_called`, `C36_same_error`, `C36_transitive`.
* **C37 Every data request is answered exactly once** (partial). Worker model with request store and `sent` map, histories of one worker; invariant relating requests received, kept and answered.
  Result: Full claim refuted: a blocking request after a non-blocking one of the same process and reference is never answered, and a request for the output of a coroutine that starts later is forgotten at the start (C37_coroutine_violated). Proved for all histories of a worker: once the value exists each process that asked was sent it exactly once, never twice, and directly if its requests were blocking. Assumes that the requested output is not made by a coroutine and that the function of the task returns enough values (otherwise kept requests are forgotten, shown by an example). For every history, with coroutines and short results, a process is sent the value at most once, only after asking and only when it exists (C37_once_partial). For the output of a coroutine, exactly the processes that ask after its start get the value (C37_coroutine_partial).
  Theorems in `Props/Worker.lean`: `C37_violated`, `C37_coroutine_violated`, `C37_answered_partial`, `C37_once_partial`, `C37_coroutine_partial`.
* **C38 A task whose arguments are all available is not left waiting** (partial). Cluster transition system; invariant: every task held back has an argument missing in its worker. Witnesses for actor methods, coroutines and overtaken consumers. For every history of one worker: invariant that each request held back has an argument that is missing or is an output in the log of executions.
  Result: Violated by the code: three witnesses (actor method output, coroutine output, overtaken consumer). Partial: in programs of the main process that submit no coroutine functions, every task held back has a missing argument in every reachable state, however many values the functions return; in every history of a worker, with actors and coroutines, a request held back although its arguments are there has an argument that this worker made itself (`C38_remote_partial`).
  Theorems in `Props/Held.lean`, `Props/Live.lean`, `Props/Worker.lean`: `C38_remote_partial`, `C38_cluster_partial`, `C38_actor_violated`, `C38_coroutine_violated`, `C38_overtaken_violated`.
* **C39 wait returns a correct partition** (proved). Main process `wait`, monitor handler and workers over arbitrary delivery orders of reports (Model/Wait); invariant of the monitor lists.
  Result: Proved for every history of stores, finishing tasks, wait calls and message deliveries (clean-up not modelled): partition, exact number, every ready reference stored locally or computed.
  Theorems in `Props/Wait.lean`: `C39_partition`.
* **C40 wait returns once enough tasks have finished** (partial). Same model as C39; quiescent states; three witnesses for calls that never return. `C40_exact_partial` combines the quiescent states with C39 and the fact that no reply and no result has an empty list of ready references.
  Result: Violated by the code: wait for a failed task, num_returns 0 and num_returns larger than the list never return (three witnesses). Partial: with num_returns at least 1 a quiescent wait in progress has fewer than num_returns stored or successfully computed references. Exactly (`C40_exact_partial`): when no message is under way the call has returned if and only if num_returns is at least 1 and that many references are stored or successfully computed.
  Theorems in `Props/Wait.lean`: `C40_failed_violated`, `C40_zero_violated`, `C40_many_violated`, `C40_succeeded_partial`, `C40_exact_partial`.
* **C41 num_returns determines the shape of the result** (proved). Cluster transition system; references handed out per submission and the value of the i-th one.
  Result: i-th value claimed when the function returns at least num_returns values as list.
  Theorems in `Props/Cluster.lean`: `C41_shape`, `C41_values`.
* **C42 A task returning too few values reports it** (partial). Cluster transition system; witness with a short result; no value is ever given for the missing reference.
  Result: Violated: the missing output is never stored and get hangs. Proved: no wrong value is ever returned for it. `C42_never_partial`: a missing output never gets a value, and no `get` of it ever ends.
  Theorems in `Props/Cluster.lean`, `Props/ClusterGet.lean`: `C42_violated`, `C42_no_wrong_value_partial`, `C42_never_partial`.
* **C43 A failing fire-and-forget task does not harm its worker** (partial). Worker model with crashes as values; witness, and a characterization of all ways to end a worker.
  Result: Violated: storing the exception under None raises TypeError in the worker loop. Proved: these and non-iterable results are the only ways for a program of tasks to end a worker.
  Theorems in `Props/Cluster.lean`: `C43_violated`, `C43_crash_partial`.
* **C44 Actor methods run in call order** (partial). Worker model with actor queues; witness with a missing argument; partial: calls whose references have values on arrival, against a sequential program (`arrived`, `avail_run` in Lemmas/WorkerActor): no request of the actor is ever kept, so each call is executed when it arrives. One step of the worker from any state: `processAll_log` splits the requests looked at into those executed and those kept, both in order.
  Result: Violated by the code: a call that waits for an argument is overtaken by a later one. Partial: calls whose references have values when the call arrives (in particular calls without references) run in the order of arrival with these values, and the state is that of a sequential program; coroutine methods excluded. For every state of a worker: a call with available arguments is executed at once before all calls kept (`C44_overtaken_partial`), a call with a missing argument is kept at the end (`C44_held_partial`), and data that arrives lets kept calls run in their order (`C44_woken_partial`).
  Theorems in `Props/Worker.lean`: `C44_violated`, `C44_order_partial`, `C44_available_partial`, `C44_overtaken_partial`, `C44_held_partial`, `C44_woken_partial`.
* **C45 Cleanup is not broadcast while submitted tasks are outstanding** (partial). Counter model of controller, monitor; partial for a single controller without actors. `C45_count_partial`: balance of the counters with the number of results that do not belong to the collector.
  Result: Violated by the code: the number of executed tasks is compared with the submissions of one collector only, so results of actor methods and of other processes count too and a reference is cleaned while a task that uses it is unfinished (two witnesses). Partial: without actor methods and with a single submitting process no cleanup happens while a submitted task is unfinished. Exactly how far it is off (`C45_count_partial`): at a broadcast by a process, the number of pieces of work still unfinished or unreported is at most the number of actor methods and tasks of other processes so far, and equal to it if no coroutine failed.
  Theorems in `Props/GarbageCollector.lean`: `C45_method_violated`, `C45_processes_violated`, `C45_single_partial`, `C45_count_partial`.
* **C46 Every dropped reference is cleaned up exactly once** (partial). GC list model with arbitrary clock and counter readings; for all histories broadcasts followed by the queue are the drops that did not happen during a send.
  Result: Violated by the code: a reference finalized between serializing the list and clearing it is never broadcast (witness). For all histories (`C46_onTime_partial`): exactly the references finalized while a list is being sent are lost; all others are broadcast exactly once, in the order in which they were dropped, or are still queued. The receivers are every worker and monitor but the sender.
  Theorems in `Props/GarbageCollector.lean`: `C46_late_violated`, `C46_exactly_once_partial`, `C46_onTime_partial`, `C46_receivers`.
* **C47 Cleanup keeps happening** (partial). Same model as C45; witnesses for histories in which the counts never meet again; progress otherwise.
  Result: Violated by the code: after an actor method, a task of another process or a failed coroutine the counts never meet again and cleanup stops for ever (three witnesses). Partial: without these, dropped references are broadcast by later attempts.
  Theorems in `Props/GarbageCollector.lean`: `C47_stops`, `C47_method_violated`, `C47_processes_violated`, `C47_coroutine_violated`, `C47_progress_partial`.
* **C48 Received data stays available until its owner releases it** (proved). Local store with weak/strong references model.
  Result: Proved over every operation sequence of the store model.
  Theorems in `Props/LocalStore.lean`: `C48_data`, `C48_owner`.
* **C49 A task's references are known to its worker before the task arrives** (proved). push_data model over nested values, channel FIFO, worker store.
  Result: Main process as only submitter; sent-once claim is for the main process over all its submissions.
  Theorems in `Props/Cluster.lean`: `C49_known_before_task`, `C49_never_missing`, `C49_sent_once`.
* **C50 Shutdown is orderly** (partial). Shutdown transition system with all delivery orders; invariants and termination measure. `C50_returns_partial`: every message that can end the wait of the root comes from its monitor, which answers only to a worker.
  Result: Violated by the code in five ways (witnesses): root monitor with a rank other than 1, two workers finishing with rendezvous sends, no workers, stray messages, unfinished coroutine. Partial: otherwise every maximal run ends with every process gone; nobody leaves early and the root is last. `C50_returns_partial`: whatever else happens, the root returns only if its monitor is rank 1 and there is a worker.
  Theorems in `Props/Shutdown.lean`: `C50_monitor_violated`, `C50_finish_violated`, `C50_no_workers_violated`, `C50_stray_violated`, `C50_coroutine_violated`, `C50_no_early_leave`, `C50_root_last`, `C50_no_stray_protocol`, `C50_ends_partial`, `C50_returns_partial`, `C50_bounded`.
* **C51 Shutdown can be called repeatedly** (partial). Shutdown calls, exit handler and signals as operations on the `done` flag; counts of CANCEL messages per worker; invariant with the prefixes of the list of workers served by interrupted calls.
  Result: Violated by the code: an interrupted shutdown is repeated by the exit handler and sends CANCEL twice, and the signal handler itself raises TypeError. Partial: without a signal every worker gets CANCEL exactly once; with signals every interrupted call has sent CANCEL to the first of the workers, so a worker gets at most one more than there were signals (`C51_bound_partial`).
  Theorems in `Props/Shutdown.lean`: `C51_violated`, `C51_crash_violated`, `C51_once_partial`, `C51_bound_partial`.
* **C52 Buffers of unfinished sends are kept alive** (proved). Handler list model with completion oracle.
  Result: Proved over every history of sends, completions and sweeps.
  Theorems in `Props/AsyncOperations.lean`: `C52_kept`, `C52_released`, `C52_finish`.
* **C53 References in nested arguments are replaced by values** (partial). Nested argument type, materialize as in code (with double unwrapping), store growth; spec substitution.
  Result: Violated by the code in three ways (witnesses): methods of actors get references inside containers unreplaced; a value that contains a raw reference is replaced inside when another argument arrives later; a reference of unknown owner ends the worker. Partial: functions (any depth) and methods with direct references, for values without raw references and any arrival order. `C53_method_exactly_partial`: with all values at hand a method gets the right arguments exactly when no container has a wrapper inside.
  Theorems in `Props/Arguments.lean`: `C53_function_partial`, `C53_method_partial`, `C53_method_exactly_partial`, `C53_method_violated`, `C53_value_violated`, `C53_missing_violated`.
* **C54 Shared memory support is decided by configuration and MPI version** (partial). Version texts as character lists, parsing and comparison as in the code; spec: comparison of version numbers as padded lists.
  Result: Violated by the code in two ways (witnesses): the version text "4.2" counts as older than 4.2.0, and a library that mentions MPICH without the line "MPICH Version:" raises IndexError. Partial: versions with at least three components are compared correctly. Also proved: the version is read from its line, and other libraries are not affected. Exactly: the decision is wrong if and only if sharing is enabled, the standard is at least 3, processes are spawned and the version is 4.2 without a third component.
  Theorems in `Props/Versions.lean`: `C54_version_read`, `C54_mpich_partial`, `C54_other_libraries`, `C54_short_violated`, `C54_no_version_line_violated`, `C54_exactly_partial`.
* **C55 Configuration sources have a fixed precedence** (partial). Parameter state machine with env oracle.
  Result: Violated by the code: the source of the pickle threshold is overwritten while the shared store is enabled. Proved: the order program, environment, default, and that a value stays once read; partial for the reported source.
  Theorems in `Props/Config.lean`: `C55_program_first`, `C55_environment_second`, `C55_default_last`, `C55_stable`, `C55_threshold_violated`, `C55_source_partial`, `C55_values`, `C55_threshold_source_partial`.
* **C56 Setting a parameter by text agrees with the environment** (partial). Type codec functions on strings; partial for others.
  Result: Violated by the code: putting the text "false" into a flag turns it on. Partial: environment text and program values otherwise agree. Exactly: the two agree for a text if and only if it does not mean false.
  Theorems in `Props/Config.lean`: `C56_flag_violated`, `C56_full_violated`, `C56_flag_texts`, `C56_agrees_partial`, `C56_flag_exactly_partial`.
* **C57 A parameter with choices never yields another value** (partial). Parameter state machine with declared choices; witness for `put`, invariant for values read.
  Result: Violated by the code: put ignores the declared choices. Partial: a value read from the environment is always one of the choices. Exactly, for text parameters: put accepts every text, and the next read gives it in lower case and stripped if that is one of the choices, and raises otherwise.
  Theorems in `Props/Config.lean`: `C57_set_violated`, `C57_read_partial`, `C57_set_exactly_partial`.
* **C58 The out-of-band threshold follows the shared store** (partial). `MpiPickleThreshold.get` over every sequence of configuration operations, and the class attribute of the serializer, which is read once at the first call of unidist; an equivalence over all programs says which call that is.
  Result: The configuration follows the shared store after every sequence of operations. The serializer reads it only once, at the first call of unidist: settings made later are ignored (`C58_late_violated`, `C58_unshared_violated`). For all programs the threshold is exactly the one configured at the first call of unidist that finds a readable configuration (`C58_first_partial`). Without settings after that call every object with an out-of-band buffer is large enough to be shared.
  Theorems in `Props/Config.lean`, `Props/Thresholds.lean`: `C58_follows`, `C58_out_of_band_shared`, `C58_late_violated`, `C58_unshared_violated`, `C58_serializer_partial`, `C58_shared_partial`, `C58_first_partial`, `C58_own_variables`.
* **C59 The default backend is the best installed one** (proved). Decision function over installed packages/versions.
  Result: Proved over all combinations of installed packages and backends.
  Theorems in `Props/Versions.lean`: `C59_best_installed`, `C59_read`.
* **C60 Decorator arguments are validated** (proved). Decision function over an object kind type.
  Result: Proved over all decorated objects and keyword values. Bare and keyword use, the errors of both, and the values that reach the created object are characterized.
  Theorems in `Props/Calls.lean`: `C60_function`, `C60_cases`, `C60_class`, `C60_other`, `C60_bare`, `C60_bare_errors`.
* **C61 User arguments reach the function unchanged** (partial). Python's binding of keywords through each function on the way to the user's function; a call delivers its arguments unchanged if and only if no keyword has a reserved name. For Dask and Ray the names taken by the library are a parameter of the model.
  Result: Violated by the code: keyword names used by the functions on the way (task, func, self, num_returns, owner_rank, ...) are captured or raise TypeError; every reserved name is shown to be lost. Partial: exactly the calls without a reserved name deliver the arguments unchanged, on the MPI, multiprocessing and sequential backends, with and without options. Dask and Ray: the same equivalence for every signature of the library's function; on Dask also pure, actor, actor_cls and method are lost. num_cpus and resources are refused by the MPI and multiprocessing backends. `C61_refused_partial`: Dask never ignores `num_cpus` or `resources`.
  Theorems in `Props/Calls.lean`, `Props/CallsExact.lean`: `C61_other_names_partial`, `C61_reserved_violated`, `C61_resources_refused_partial`, `C61_full_violated`, `C61_exact_partial`, `C61_nothing_invented`, `C61_library_partial`, `C61_library_violated`, `C61_refused_partial`.
* **C62 Reference wrappers are stripped at every depth** (proved). Recursion over nested containers; spec by paths into the structure.
  Result: Proved over all structures by paths.
  Theorems in `Props/Arguments.lean`: `C62_positions`, `C62_none_left`, `C62_sent`.
* **C63 Per-call options do not leak** (proved). Remote function object model with defaults; call histories.
  Result: Proved over all sequences of calls and options.
  Theorems in `Props/Calls.lean`: `C63_own_options`, `C63_stored_once`.
* **C64 All API calls go to one backend** (partial). BackendProxy singleton model over call histories.
  Result: Violated by the code: a decorator or call before init fixes the proxy to the backend configured at that time, and Dask outside the main thread raises UnboundLocalError. Partial: all calls go to one backend, the one that is selected at the first call, decoration, put or successful initialization (`C64_which_partial`), and to the initialized one if init comes first. An initialization or a put that does neither raises (`C64_noticed_partial`).
  Theorems in `Props/Calls.lean`: `C64_full_violated`, `C64_thread_violated`, `C64_one_partial`, `C64_init_first_partial`, `C64_which_partial`, `C64_noticed_partial`.
* **C65 Multiprocessing results do not depend on the schedule** (partial). pymp transition system: queues per worker, shared store; invariant values = sequential spec with the treatment of values by the store (`seen`); without special values `seen` is the plain meaning.
  Result: Violated: a result that is a byte string is unpickled by get, a result that is an exception object is raised. Proved for all programs, every number of workers and every interleaving: the results are those of sequential evaluation in which reading a reference unpickles byte strings and raises exception objects (`C65_read_partial`), so two runs of the same program agree (`C65_same_program_partial`); without such values they are those of plain sequential evaluation.
  Theorems in `Props/Pymp.lean`: `C65_bytes_violated`, `C65_exception_violated`, `C65_read_partial`, `C65_same_program_partial`, `C65_schedule_partial`.
* **C66 Multiprocessing task graphs never deadlock** (partial). Same system; progress: the earliest unfinished task is at a queue head and its arguments are finished; plus a decreasing measure. For all programs: a worker is dead only because of a call whose result does not fit, so calls with smaller numbers finish.
  Result: Violated: a task whose result has too few elements kills its worker, and the tasks queued behind it never run. Proved for all programs: the number of worker actions is bounded, and when none is possible the references of every call up to any number b have outcomes if the results of those calls fit (`C66_upto_partial`); when every result fits, no worker is dead and some action is possible while a task is unfinished.
  Theorems in `Props/Pymp.lean`: `C66_worker_dies_violated`, `C66_upto_partial`, `C66_progress_partial`.
* **C67 Multiprocessing wait returns a correct partition** (partial). Loop of `wait` on lists with the store at each poll; witnesses; partition for the calls that return.
  Result: Violated: duplicates or too large num_returns give IndexError, num_returns = 0 returns a reference, the scan removes the wrong reference, a failed reference is raised. Proved: partition and length for the calls that return. Exactly: which calls return a partition of the wanted length and which raise IndexError, when all references get a value, for num_returns of at least one and for zero.
  Theorems in `Props/Pymp.lean`: `C67_index_violated`, `C67_zero_violated`, `C67_wrong_reference_violated`, `C67_failed_violated`, `C67_partial`, `C67_exactly_partial`, `C67_zero_exactly_partial`.
* **C68 Multiprocessing put followed by get is the identity** (partial). Value kinds distinguished by the object store; put then get.
  Result: Violated: byte strings and exception objects. Proved for all other objects. Exactly: a byte string comes back as what unpickling it gives, an exception object is raised, any other object comes back as it was.
  Theorems in `Props/Pymp.lean`: `C68_bytes_violated`, `C68_exception_violated`, `C68_partial`, `C68_exactly_partial`.
* **C69 Multiprocessing actor methods run in call order** (proved). Queue order invariant of the transition system of C65, with a log of method executions.
  Result: The log of method executions of an actor is a prefix of its calls in call order, and the state of the actor is that of the sequential meaning, for all programs (`C69_history_read`; reading a reference unpickles byte strings and raises exception objects, see C65).
  Theorems in `Props/Pymp.lean`: `C69_order`, `C69_history_read`, `C69_history`.
* **C70 Multiprocessing tasks fill all their references** (partial). Transition system of C65; every reference of a finished task is stored when the result fits. The liveness invariant is stated per reference (`FitsAt`); `C70_forever_partial`: only the task that owns a reference writes it.
  Result: Violated: results with too few elements and non-iterable results. Proved position by position: the k-th reference is filled if the task failed, has one result, or gives more than k elements (`C70_position_partial`, `C70_partial`). A reference that is not filled when its task is gone never is (`C70_forever_partial`).
  Theorems in `Props/Pymp.lean`: `C70_short_violated`, `C70_not_iterable_violated`, `C70_position_partial`, `C70_partial`, `C70_forever_partial`.
* **C71 The sequential backend behaves like direct calls** (partial). Direct model; refinement to direct evaluation in which exception objects are raised when read; without such objects this is plain evaluation.
  Result: Violated: exception objects as values (returned or put) are raised by get. Proved for all programs: every reference gives what direct calls give if an exception object counts as raised when it is read, and submissions raise likewise (`C71_read_partial`, `C71_submit_read_partial`); without exception objects these are plain direct calls. wait slices; get of a list gives the values of its references in order, or raises the error of the first that has one.
  Theorems in `Props/Pyseq.lean`: `C71_exception_violated`, `C71_put_violated`, `C71_read_partial`, `C71_get_partial`, `C71_submit_read_partial`, `C71_submit_partial`, `C71_wait`, `C71_get_list`.
* **C72 Backends agree on failed arguments** (partial). Sequential, multiprocessing and MPI models; submit and get of a task with a failed argument.
  Result: Violated on the sequential backend: submit raises the error of the argument. Proved on multiprocessing (for all programs) and MPI (first get of the reference). On the sequential backend a submission raises exactly the error of the first failed argument, and nothing is changed then (`C72_sequential_exactly_partial`).
  Theorems in `Props/FailedArguments.lean`: `C72_sequential_violated`, `C72_sequential_exactly_partial`, `C72_pymp_submit_partial`, `C72_pymp_read_partial`, `C72_pymp_get_partial`, `C72_mpi_partial`.
* **C73 Backends agree on nested references** (partial). The MPI substitution of nested references next to the one-level replacement of the other backends, on one argument type (Model/Arguments, Spec/Arguments); agreement theorem and witness.
  Result: Violated by the code: a nested reference is a value on MPI and a reference on the other backends. Partial: the backends agree if containers hold no references. `C73_exactly_partial`: exactly then.
  Theorems in `Props/Arguments.lean`: `C73_full_violated`, `C73_direct_partial`, `C73_nested_partial`, `C73_exactly_partial`.
* **C74 Dask wait returns a correct partition** (partial). Loop of `wait` with `distributed.wait` as oracle given by completion times; sets in any iteration order.
  Result: Violated for a reference given twice: one occurrence is lost, or the loop never ends. Proved for different references, for all completion times, delays and set iteration orders. Exactly: a reference given twice counts once, and the call returns if and only if num_returns different references finish.
  Theorems in `Props/Dask.lean`: `C74_lost_violated`, `C74_endless_violated`, `C74_partial`, `C74_exactly_partial`.
* **C75 Dask cluster resources count every worker thread** (partial). Dictionary of addresses with the localhost replacement; sum over workers.
  Result: Violated if workers are registered both with 127.0.0.1 and with the address of the host. Proved otherwise, per address and in total. Exactly: the threads that are not counted are those of the workers registered with the address of the host.
  Theorems in `Props/Dask.lean`: `C75_violated`, `C75_partial`, `C75_exactly_partial`.
* **C76 Ray object store memory is within system memory** (proved). Arithmetic with an exact model of the double precision product.
  Result: Proved for memory below 2^52 bytes, with an exact model of the double precision product. The warning about small shared memory is not modelled.
  Theorems in `Props/Ray.lean`: `C76_memory`, `C76_bounds`.
* **C77 Interpreter options are passed on to spawned processes** (proved). List of flags written and read back.
  Result: Proved as a round trip: reading the produced options back gives the flags of the interpreter.
  Theorems in `Props/Versions.lean`: `C77_round_trip`.
* **C78 References embedded in stored objects keep their data alive** (partial). Lifetime model of C48 with embedded references for one process. Model/Reach for several processes without clean-up: which data and owners each process knows, which references its code holds; values contain references, arguments are visible to push_data or hidden in other objects. Invariant: what a process knows is determined by the calls made.
  Result: Violated by the code: an embedded reference whose original was dropped has lost its data, and a received embedded reference has no known owner (witnesses for one process in Props/LocalStore, for several processes in Props/Reach: a reference returned by a task, a reference in a set given to a task). Partial: data survives while a copy of the reference is held; for several processes exactly the references that a process created, computed or received as visible arguments can be used (C78_usable_exact_partial).
  Theorems in `Props/LocalStore.lean`, `Props/Reach.lean`: `C78_dropped_violated`, `C78_received_violated`, `C78_held_partial`, `C78_returned_violated`, `C78_inside_violated`, `C78_usable_exact_partial`, `C78_open_partial`.
* **C79 The lock-free metadata check never takes one object for another** (partial). Same word-level model as C10 with an old object in the cell. Violated; partial excludes the mixed identity.
  Result: Violated by the code: the two identity words are read separately and can mix an old and a new object. Negation with witness; partial: the only wrong answer is the one combining the old object's worker with the new object's number. Exactly: for which old, new and looked-for objects some schedule makes the check succeed.
  Theorems in `Props/SlotProtocol.lean`: `C79_violated`, `C79_check_partial`, `C79_exactly_partial`.
* **C80 Hosts reporting the same address are not confused** (partial). Topology model (Model/Topology) with layouts in which two nodes report the same address; witnesses for lost processes and a foreign monitor; partial for one host.
  Result: Violated by the code: topology entries are keyed by address. Negation with witnesses; partial: a single host is always handled correctly. Exactly, for any addresses: which processes get a role, and which process each one takes for its monitor.
  Theorems in `Props/Topology.lean`: `C80_violated`, `C80_foreign_monitor_violated`, `C80_single_host_partial`, `C80_roles_exactly_partial`, `C80_monitor_exactly_partial`.
* **C81 Programs of remote function calls do not hang** (partial). Cluster transition system of C32; the state reached is compared with the sequential evaluation of the calls (`meaning`). Progress: every request for a value that exists is answered or under way, so at rest a task that is held back or a `get` that waits has an argument without value. Termination: a potential (weights of messages in flight, references a worker may still ask for, kept requests, held back tasks) decreases with every step that is not a call.
  Result: Violated by the code: a plain task that needs the output of a coroutine function in the same worker is never woken up, and get of an output that a task did not return waits for ever (two cluster-level witnesses). Exactly what holds without coroutine functions (`C81_exact_partial`): when nothing can be received any more, a task was executed if and only if its arguments have values in the sequential evaluation of the program (outputs a function did not return have none), and a get waits only if it can never return (C34). Hence no deadlock if all outputs have values. The processes make only boundedly many steps for the calls made (all programs), so such programs really come to this end from every reachable state, without crash, if no task without outputs raises and no task with several outputs returns something that is no list.
  Theorems in `Props/Live.lean`, `Props/Terminate.lean`: `C81_coroutine_violated`, `C81_short_violated`, `C81_exact_partial`, `C81_no_deadlock_partial`, `C81_bounded`, `C81_terminates_partial`.
* **C82 Data of unreachable references is released** (proved). Local store model of C48; every entry of the data dictionaries belongs to a reference that is held by the program, kept strongly, or inside a live object.
  Result: Proved over every operation sequence of the store model.
  Theorems in `Props/LocalStore.lean`: `C82_no_garbage`, `C82_own`.
* **C83 Slots of the hosts add up** (proved). Arithmetic on the list of slots (sum, difference at most one, no empty host).
  Result: Proved for all counts of processes and hosts.
  Theorems in `Props/Versions.lean`: `C83_sum`, `C83_even`, `C83_nonzero`.
* **C84 Dask reports its CPUs** (partial). Sum over the scheduler's worker table (Model/Dask).
  Result: Violated for workers with several threads. Proved for one thread per worker. Exactly: right if and only if every worker has one thread, too small otherwise.
  Theorems in `Props/Dask.lean`: `C84_violated`, `C84_partial`, `C84_exactly_partial`.
* **C85 Ray cluster resources add up** (partial). Sum over the list of alive nodes with dictionary semantics for addresses (Model/Ray).
  Result: Violated for nodes without CPU resource and for nodes with equal addresses. Proved otherwise. Exactly: each address of a node is reported once, with the CPUs of the last node with that address, or 1 if it has none.
  Theorems in `Props/Ray.lean`: `C85_missing_violated`, `C85_address_violated`, `C85_partial`, `C85_exactly_partial`.
* **C86 Ray is initialized as configured** (proved). Decision function of `initialize_ray` (Model/Ray).
  Result: Decision logic of initialize_ray.
  Theorems in `Props/Ray.lean`: `C86_initialize`.
* **C87 Nested remote calls compute what direct calls compute** (proved). Model/Nested: processes with stores, request lists and running programs (end with a value or an exception, put, submit, get with try/except); a worker answers requests only between tasks; a get of a value in the own store returns it, one that had to be requested raises a failed one; a task with a failed argument ends with its exception. Spec/Nested evaluates the program directly with suspended calls; a flag tells whether a second get raises again. Invariant (Lemmas/Nested): a list with the direct call behind every reference and its creator such that every stored value is its value, every running program still computes the value of its output, and the creator has the value exactly if it put it or got it. careful_eval: the flag does not matter for programs that get each reference once or treat raised and returned exceptions alike.
  Result: Proved for all programs in which references are used by the task that created them or passed as arguments, with put and failing tasks. A program that calls get again for a failed reference and looks at whether it raises sees the difference of C35 (C87_second_get_tells); for such programs C87_any_program gives the exact result. References inside returned values and keyword arguments are not part of this model.
  Theorems in `Props/Nested.lean`: `C87_nested_calls_are_direct_calls`, `C87_any_program`, `C87_nested_schedule_independent`, `C87_copies_agree`, `C87_second_get_tells`.
* **C88 Nested remote calls do not deadlock** (partial). Same model. Deadlock: an invariant of the recursion get(f.remote(d-1)) shows that callers occupy distinct workers, so by counting no schedule finishes if the depth reaches the number of workers. Progress: every reference has a value, a request or a running program at its owner; arguments are older than the call, so following a missing value through missing arguments ends at a waiting worker, and following waiting workers repeats one: a cycle. No step can change what a cycle consists of. Without nested get a schedule is built that brings every value and then the main program to its end. With nested get a schedule is built from the direct evaluation: calls of depth k go to the k-th worker and run when their value is asked for, so the workers of greater depth are idle whenever a value is needed.
  Result: The code violates it: a recursion as deep as there are workers never finishes under any schedule (C88_recursion_deadlocks), and with two workers two calls that each wait for a further call can block each other although another placement would finish (C88_progress_violated). Proved: a program whose calls wait for each other at most as deep as there are workers can finish, with the value of direct evaluation (C88_can_finish_within_workers_partial); this bound is exact (C88_recursion_finishes_iff), so every program with a value can finish with enough workers. Every deadlock is a cycle of workers, each waiting for a value that the next one holds back (C88_deadlock_is_cycle_partial), and such a cycle never ends (C88_cycle_lasts); some process can go on as long as at most one task waits (C88_one_waiting_task_partial); if only the main program calls get, every reachable state can be continued to the end. Missing: programs that wait deeper than there are workers, and placements that close a cycle.
  Theorems in `Props/Nested.lean`: `C88_recursion_deadlocks`, `C88_nested_get_violated`, `C88_cycle_lasts`, `C88_deadlock_is_cycle_partial`, `C88_one_waiting_task_partial`, `C88_progress_violated`, `C88_no_deadlock_without_nested_get_partial`, `C88_can_finish_without_nested_get_partial`, `C88_can_finish_within_workers_partial`, `C88_can_finish_with_enough_workers_partial`, `C88_recursion_finishes_iff`.
* **C89 wait works in every process** (partial). Model/WaitMany: the monitor of Model/Wait with one call per process and all replies sent to process 0. Witness runs by evaluation; a call of another process is never removed (induction over runs); if only process 0 waits, simulation by Model/Wait and C39.
  Result: The code violates it: wait in a task never returns and its reply is taken by the main process. Proved for programs in which only the main process waits: the state is consistent, and a wait in progress while nothing is under way really has fewer than num_returns stored or computed references.
  Theorems in `Props/WaitMany.lean`: `C89_stolen_reply_violated`, `C89_task_waits_forever_violated`, `C89_wait_in_task_never_returns`, `C89_main_process_only_partial`, `C89_main_process_returns_partial`.
* **C90 A method call finds its actor** (partial). Model/ActorNet: one queue per pair of processes with creations, calls, tasks carrying handles and results. Invariant: while the creation of a handle is under way, only its creator has it and every call of it is behind the creation in the same queue. For all histories: the creator's own calls are behind the creation, and every known actor is either created or under way.
  Result: The code violates it: a call through a passed handle can overtake the creation and ends the worker. In every history this is exactly how a worker ends: it takes a call of an actor whose creation is still under way to it, and such a call comes from another process than the creator (`C90_overtaken_partial`). Proved free of this if the creator passes the handle on only after a first method result came back.
  Theorems in `Props/ActorNet.lean`: `C90_call_before_creation_violated`, `C90_confirmed_handles_partial`, `C90_overtaken_partial`.
* **C91 A value obtained from shared memory never changes while it is held** (partial). Model/SharedSystem: per host the manager, metadata words, bytes, unfinished transfers, lookups, registrations and values; the steps of put, get and finalizers interleave with cleanups on all hosts. Invariant of a host (`NInv`): reservations are unfinished or complete, complete ones have their bytes, offset and a count equal to the registrations; ranges disjoint (C01). Invariant of the system (`SInv`): a value is at the place of its object or the object is gone on all hosts for good.
  Result: The code violates it: the finalizer belongs to the reference and not to the value, so a value kept after its reference is dropped changes when the memory is reused. Proved for values whose object has a registered user on any host, in histories where objects being looked up during a cleanup have one. A value whose object nobody is registered for any more keeps its bytes until some of them are reserved for another object (`C91_until_reuse_partial`).
  Theorems in `Props/SharedSystem.lean`: `C91_registered_values_intact_partial`, `C91_value_outlives_reference_violated`, `C91_lookup_overtaken_violated`, `C91_until_reuse_partial`.
* **C92 A cleanup reclaims exactly the unused objects** (proved). Same model and invariant; a reference flag of a host is 0 exactly if it has no registration.
  Result: All histories with guarded lookups; without the guard see C11.
  Theorems in `Props/SharedSystem.lean`: `C92_unused_objects_reclaimed`, `C92_used_objects_kept`.
* **C93 A cleanup never ends a monitor** (partial). Same model and invariant; the loop of `clear` raises only for a reserved object that is not complete, and it does raise for it unless another one ended it first.
  Result: The code violates it: cleaning up an object that is being copied to another host raises RuntimeError in that host's monitor. With guarded lookups a cleanup round ends a monitor if and only if a listed object is being put or copied somewhere and nobody is registered for it (`C93_exact_partial`); in particular it never does if objects in transfer have a registered user.
  Theorems in `Props/SharedSystem.lean`: `C93_cleanup_during_copy_violated`, `C93_cleanup_completes_partial`, `C93_exact_partial`.
* **C94 Nothing that is still needed is cleaned up** (partial). Model/Lifetime: main process, workers with weak stores, held back tasks and data requests, FIFO channels, monitor counter and cleanup broadcast in one system. Invariant `Inv`: submitted = executed + reports under way + tasks under way + held back tasks; every task in a channel finds its arguments known when it is received (`Served`); outputs that are not cleaned up are kept by their owner or still to be computed. A cleanup needs equal counters, so nothing is unfinished then. With method calls (`Kept`, Lemmas/LifetimeKept) the counters say nothing; the same invariant holds if no cleanup names an argument of an unfinished call, which is what `KeepsArguments` says of the program.
  Result: The code violates it: method calls are not counted as submitted tasks, so a cleanup can remove their arguments; the program then hangs. Proved for all programs with tasks and method calls that drop no argument of an unfinished call before a cleanup; programs without method calls always satisfy this.
  Theorems in `Props/Lifetime.lean`: `C94_needed_objects_survive_partial`, `C94_kept_arguments_partial`, `C94_tasks_keep_arguments_partial`, `C94_method_argument_violated`, `C94_hang_violated`.
* **C95 A cleanup leaves nothing behind** (partial). Same model. Invariant `Leak`: for every reference and process, requests under way + requests waiting at the owner + answers under way are at most the number of answers the process waits for, which is zero for a cleaned up object; every value or owner sent by the main process is followed by a task; a cleaned up object is kept only where the cleanup is under way. The negation also shows that the object stays in every continuation (`Stuck`). With method calls (`LeakM`, Lemmas/LifetimeKeptLeak) every value or owner sent by the main process is followed by a call with this argument, and no result of an unfinished call is cleaned up.
  Result: The code violates it: an answer that arrives after the cleanup puts the object back, for good; so does a method call whose ignored result is cleaned up before the method runs. Proved for programs with tasks and method calls that pass no result to a call after getting its value and drop no argument or result of an unfinished call before a cleanup; programs without method calls always satisfy the latter. A monitor keeps the reference of every result it was told about, whatever is cleaned up (C95_monitor_violated).
  Theorems in `Props/Lifetime.lean`, `Props/Monitor.lean`: `C95_nothing_left_partial`, `C95_late_answer_violated`, `C95_kept_forever_violated`, `C95_kept_calls_partial`, `C95_tasks_keep_results_partial`, `C95_ignored_result_violated`, `C95_monitor_violated`.
* **C96 Spawned processes run with the configuration of the main process** (partial). Model/Spawn: the program text is built character by character (`f`-strings, `repr` of dictionaries, `"; ".join`) and read back by a small lexer and parser with Python's rules for quotes and escapes; a round-trip theorem for every statement. The ten parameter classes are modelled with the override of the pickle threshold; an invariant over all histories of calls (Lemmas/SpawnConfig) says that a class holds its default or a value of its type and tells which; a second one, for histories that do not disable the store, says it of the pickle threshold too.
  Result: Violated by the code: a quote in the hosts, a pickle threshold whose source was overwritten, default CPU counts of different hosts. For all programs with hosts without quotes, backslashes and line ends and variables without quotes, line ends and codes (`C96_settings_partial`): every setting is read alike, except the default CPU count on another host, and the pickle threshold if its recorded source is the default while the store is disabled; then the spawned processes read 262144. A variable of the runtime environment named like a parameter reaches only the spawned processes (C96_variable_violated). Where nothing is set every parameter has its documented value, however often it is read before (`C96_defaults`).
  Theorems in `Props/Spawn.lean`: `C96_threshold_violated`, `C96_hosts_violated`, `C96_cpus_violated`, `C96_variable_violated`, `C96_settings_partial`, `C96_configuration_partial`, `C96_defaults`.
* **C97 Variables of the runtime environment reach every spawned process** (partial). The same program; `repr` of any text is read back unchanged, a text between hand-written quotes as the text its backslash sequences stand for. Ranks other than 0 set the variables again in `init`.
  Result: Violated by the code: quotes and backslashes in values; what follows a quote is run as a program (`C97_runs_value_violated`). Proved for texts without them, whatever the program set and read before. With backslashes (`C97_backslashes_partial`): rank 0 has the texts that the values stand for in Python, the others have the values. Left out: escape sequences with codes or names.
  Theorems in `Props/Spawn.lean`: `C97_quote_violated`, `C97_backslash_violated`, `C97_runs_value_violated`, `C97_backslashes_partial`, `C97_variables_partial`.
* **C98 Programs do not hang, whatever is cleaned up** (partial). Model of C94. Invariant `Live`: every request is under way, noted at the owner or answered; a noted request is for a value its owner does not have yet; tasks held back come before those that need their results; references are made after the references they are made from. Without messages the smallest missing reference leads to a contradiction. Arrivals end because a weight (requests still possible, requests noted, messages, executions not counted) decreases with each. The code violates it: method calls are not counted by the cleanup, a value is sent once to each process, and tasks are checked before methods. Proved for programs without method calls and without repetitions in `get`. For programs with actors: if tasks precede the unfinished methods of each worker, the system behaves step by step like the one in which all calls are tasks (`Verif.Lemmas.LifetimeFlip`), where only the guard of the cleanup differs, so the invariants carry over.
  Result: Violated by the code: a method call whose argument is cleaned up never runs; get of a list that names a reference twice never returns; a task that waits for the result of a held back method on the same worker is not looked at when the method has run, even in programs that drop nothing. Partial: without actor method calls, if no get names a reference twice, arrivals end and leave nothing waiting; with actors the same holds if the program keeps the arguments of unfinished calls, sends no task to a worker with an unfinished method call, and no get names a reference twice.
  Theorems in `Props/NoHang.lean`: `C98_method_violated`, `C98_get_twice_violated`, `C98_task_behind_method_violated`, `C98_no_hang_partial`, `C98_returns_partial`, `C98_actors_partial`, `C98_actors_return_partial`.
* **C99 The backends agree on the results of a call** (partial). Model/Results: what the call returns and what `get` of each reference gives on each backend, with Python's iteration and subscript of the returned object. MPI and Multiprocessing zip ids and items, Sequential and Dask subscript. The code violates it in five ways; proved for raising functions and for sequences with enough items that are neither exception instances nor `bytes`, and, for any sequence, that no reference gives a wrong item.
  Result: Violated by the code: dictionaries, generators, results that cannot be iterated, too few items and exception instances as values behave differently on the four backends. Partial: functions that raise, and functions that return what they announce; for sequences of any length no backend gives a wrong item. bytes are unpickled by get on the multiprocessing backend. Exactly for one result and for several results in a sequence: the backends agree if and only if there are enough items and those that count are no exception instances and no bytes that unpickle to something else. Iterables that cannot be subscripted: exactly which items can be read on each backend, also if they raise in between (`C99_iterable_partial`).
  Theorems in `Props/Results.lean`: `C99_too_few_violated`, `C99_dictionary_violated`, `C99_generator_violated`, `C99_not_iterable_violated`, `C99_exception_value_violated`, `C99_bytes_violated`, `C99_agreement_violated`, `C99_results_partial`, `C99_errors_partial`, `C99_no_wrong_item_partial`, `C99_one_exactly_partial`, `C99_sequence_exactly_partial`, `C99_iterable_partial`.
* **C100 What is put on the Dask backend can be read** (partial). Model/Results: `scatter` as documented by `distributed` (containers element by element), `gather` for lists, `result()` for the rest. The behaviour of `scatter` and `gather` is trusted. The code violates it for tuples, sets and dictionaries; proved for the rest.
  Result: Violated by the code: get of the reference of a tuple, set or dictionary raises AttributeError; ranges and iterators come back as lists. Partial: all other objects, and all but ranges and iterators in a list of references. Both exactly.
  Theorems in `Props/Results.lean`: `C100_containers_violated`, `C100_put_get_violated`, `C100_put_get_partial`, `C100_put_get_list_partial`, `C100_put_get_exactly_partial`, `C100_put_get_list_exactly_partial`.
* **C101 Every method of an actor class can be called through its handle** (partial). Model/Handles: the chain of attribute lookups from the front handle over the backend's handle to the native one, each with the names it has itself. Proved by cases over the names; the names that are taken are written out and the condition is an equivalence.
  Result: Violated by the code: a method named submit of a multiprocessing actor and one named actor_methods on MPI are hidden by attributes of the native handle; private methods are not exposed by the multiprocessing proxy. Partial: for all names and backends exactly which ones work (`C101_exact_partial`), and what happens with the others (`C101_otherwise_partial`).
  Theorems in `Props/Handles.lean`: `C101_submit_violated`, `C101_actor_methods_violated`, `C101_private_violated`, `C101_public_names_partial`, `C101_private_names_partial`, `C101_no_other_method`, `C101_exact_partial`, `C101_otherwise_partial`.
* **C102 A handle refers to exactly one actor and can be passed on** (partial). Model/Handles: creation, serialization and deserialization of handles over all histories; invariant: every handle belongs to one message that creates an actor, or a keyword argument gave it a name and no message has its name, now or later.
  Result: Violated by the code: a multiprocessing handle cannot be unpickled; a constructor keyword owner_rank or handler_id on MPI is captured and no actor is created. For all histories on MPI (`C102_all_partial`): every handle refers to exactly one actor, with the class and arguments it was created with, or to none, and the latter exactly if such a keyword is given another value than None (`C102_creation_partial`). Every handle can be passed on and arrives unchanged.
  Theorems in `Props/Handles.lean`: `C102_multiprocessing_violated`, `C102_owner_rank_violated`, `C102_all_partial`, `C102_one_actor_partial`, `C102_creation_partial`, `C102_passing_partial`, `C102_arrives_partial`.
* **C103 No request of a program ends a worker** (partial). Model/Robust: one turn of the loop as a function to `Option`, `none` if an exception leaves it. Results are described by whether they can be serialized and iterated. Invariant for well-behaved programs: everything stored can be serialized. `C103_exact_partial` is an equivalence for single calls.
  Result: Violated by the code in seven ways (raising constructor, missing method, results or exceptions that cannot be serialized, SystemExit, negative num_returns, raising with no results). Partial: programs that do none of these; exactly which calls end a fresh worker.
  Theorems in `Props/Robust.lean`: `C103_constructor_violated`, `C103_missing_method_violated`, `C103_unserializable_result_violated`, `C103_unserializable_exception_violated`, `C103_exit_violated`, `C103_negative_returns_violated`, `C103_no_returns_violated`, `C103_well_behaved_partial`, `C103_exact_partial`.
* **C104 References given to an actor's constructor are replaced like those of functions** (partial). Model/Robust: `constructorGets` against `Args.directOnly`; `knownRun` follows which references a worker knows. Both partial theorems are equivalences, by induction over the lists.
  Result: Violated by the code: constructors get references instead of values, and on MPI a get of such a reference ends the worker if it does not know the owner. Partial: exactly which argument lists are treated alike and exactly when the worker survives.
  Theorems in `Props/Robust.lean`: `C104_values_violated`, `C104_unknown_owner_violated`, `C104_values_partial`, `C104_known_references_partial`.
* **C105 The loops read exactly the requests that were sent** (partial). Dispatch model: numbers of operations and tags, messages of each request, queues by source and tag, reading of a request by both loops; witness with an argument that cannot be serialized; partial by induction over the rounds (`workerLoop_spec`, `monitorLoop_spec` in Lemmas/Dispatch), each round consumes exactly the messages of one request.
  Result: Violated by the code: isend_complex_operation sends the operation type before it serializes the data, so a call whose arguments cannot be serialized leaves an operation without data; the worker waits for data of that process, takes the data of its next request for it, or fails on it. Partial: up to such a call every request is read exactly, for any sources, interleavings and rounds; fully proved for monitors.
  Theorems in `Props/Dispatch.lean`: `C105_violated`, `C105_stuck_violated`, `C105_malformed_violated`, `C105_worker_partial`, `C105_monitor`, `C105_shutdown`, `C105_distinct`.
* **C106 is_initialized tells whether the backend runs, and init can be called at any time** (partial). Lifecycle model: flags and singletons of each backend, outcome of every call; witnesses for MPI and the sequential backend; partial by an invariant that ties the state to the calls before (`life_split`, `LifeMpi`).
  Result: Violated by the code: with MPI a second init hangs, after shutdown is_initialized stays true, init raises and put starts nothing; shutdown of the sequential backend has no effect. Partial: proved for Ray, Dask and multiprocessing with all lists of calls, for the sequential backend without shutdown, and for MPI exactly what every call does after any list of calls, with the cases in which all is good.
  Theorems in `Props/Lifecycle.lean`: `C106_libraries_partial`, `C106_sequential_partial`, `C106_mpi_partial`, `C106_mpi_once_partial`, `C106_processes`, `C106_twice_violated`, `C106_again_violated`, `C106_put_violated`, `C106_sequential_violated`, `C106_violated`.
* **C107 An actor exists as long as it is needed and no longer** (partial). ActorLife model: queues, running jobs, manager processes of the multiprocessing backend; channels, `actor_map`, cleanup lists of MPI. Witnesses are short histories; partial by invariants over the steps (`PympCareful`, `MpiLife`). For all histories an invariant relates queues, running jobs and results to the moments at which handles were dropped (Props/ActorLost).
  Result: Violated by the code: on the multiprocessing backend the process that holds the actor ends with the last handle, so queued calls (`Actor.remote().m.remote()`) are lost and end the worker, which also loses tasks submitted to it later, and running calls raise; on MPI the actor stays in `actor_map` of its worker for ever. Partial: on multiprocessing an actor exists exactly as long as its handle, and for all histories it is said exactly which calls and tasks get no result, an exception or their value (`C107_lost_partial`); all get their values if no handle is dropped before its calls are finished. On MPI all calls get their values in all histories, and no history removes an actor. `C107_alone_partial`: on multiprocessing an actor with a handle has its worker to itself. After any history exactly the workers of actors with a handle are taken, on both backends (`C107_freed_partial`, `C107_mpi_freed_partial`).
  Theorems in `Props/ActorLife.lean`, `Props/ActorLost.lean`: `C107_object_partial`, `C107_alone_partial`, `C107_calls_partial`, `C107_dropped_violated`, `C107_running_violated`, `C107_others_violated`, `C107_mpi_partial`, `C107_mpi_violated`, `C107_mpi_forever`, `C107_freed_partial`, `C107_mpi_freed_partial`, `C107_lost_partial`.
* **C108 The shared store starts or says why not** (partial). SegmentSizes model extended by the filling of the service buffer; three witnesses; the partial theorem is an equivalence, by integer arithmetic on top of C12.
  Result: Violated by the code: if the service memory has no room for one record of 32 bytes, `fill` raises an `IndexError` in the monitor (object store smaller than the threshold, or as large as the allowed memory, or a tiny service memory). Partial: exactly which configurations start, for all sizes below 64 TiB. `C108_exactly_partial`: exactly when the start is refused and when it fails without an explanation.
  Theorems in `Props/SegmentStart.lean`: `C108_violated`, `C108_all_violated`, `C108_service_violated`, `C108_starts_partial`, `C108_exactly_partial`.
* **C109 A remote function can be called wherever it arrives** (partial). FunctionTravel model: remote function objects, known and kept references of each process; witnesses are short histories; partial by an invariant (`TravelOwn`) and by a characterisation of the known references (`TravelKnown`), induction over the history from its end.
  Result: Violated by the code: a copy of a called remote function holds a reference only, and a call in a worker that has not received the function raises `ValueError`. Partial: no call raises if objects are copied only before their first call (drops and cleanups allowed); as long as no process drops an object whose reference it made, exactly which calls raise, whatever other processes drop. `C109_held_partial`: a process to which a call was sent, and which then keeps its object, can always call it, whatever is dropped elsewhere.
  Theorems in `Props/FunctionTravel.lean`: `C109_violated`, `C109_dropped_violated`, `C109_unused_partial`, `C109_when_partial`, `C109_held_partial`.
* **C110 No task ends a worker of the multiprocessing backend** (partial). PympRobust model: the loop of a worker process over its queue; results are described by whether they can be pickled and iterated. Case analysis of one turn (`turn_fine`, `turn_fills`), induction over the queue.
  Result: Violated by the code: results and exceptions that cannot be pickled, `sys.exit()`, a value that cannot be iterated over for several results, and tasks that cannot be restored end the worker process (six witnesses). Partial: exactly which queues are worked off, which references are filled before and after a call that ends the worker, and methods with at most one result never end it. `C110_returns_partial`: what is filled for every number of results asked for, 0 and negative ones included.
  Theorems in `Props/PympRobust.lean`: `C110_result_violated`, `C110_exception_violated`, `C110_no_returns_violated`, `C110_exit_violated`, `C110_not_iterable_violated`, `C110_loads_violated`, `C110_exact_partial`, `C110_queue_partial`, `C110_methods_partial`, `C110_returns_partial`.
* **C111 Changing an object does not change what was stored, passed or returned** (partial). Isolation model: the objects of every process, the local stores, cached texts and messages of the MPI backend, the store of the sequential backend, the manager and queues of the multiprocessing backend. Invariants over histories (`IsoInv`, `IsoMaker`); `C111_recorded` shows that the values recorded for reference are those at the time a reference was made.
  Result: Violated on the MPI backend: get and tasks receive the object of the local store itself, so changing it changes what later calls in this process find and what it passes on; a returned object that is changed later is found changed in its worker; a large argument changed while the library still reads it arrives as a mixture of both values. Violated on the sequential backend, which stores objects themselves. Proved: on the multiprocessing backend the claim holds without conditions; on the MPI backend it holds if only objects are changed that no store and no incomplete message refers to, the process that made a reference sends the original value to others whatever is changed, and the first read in it gives the original value; on the sequential backend it holds if only objects are changed that the store does not hold. The shared store is not part of this model (see C91). `C111_pymp_made`, `C111_pymp_tasks`, `C111_pyseq_made_partial`: which stored object a `get` shows and which arguments the started tasks found.
  Theorems in `Props/Isolation.lean`: `C111_recorded`, `C111_get_violated`, `C111_task_violated`, `C111_result_violated`, `C111_forward_violated`, `C111_submit_violated`, `C111_pyseq_violated`, `C111_mpi_partial`, `C111_sent_partial`, `C111_first_partial`, `C111_pyseq_partial`, `C111_pymp`, `C111_pymp_made`, `C111_pymp_tasks`, `C111_pyseq_made_partial`.
* **C112 No request of a program ends a monitor** (partial). `Model/Monitor.lean` models the whole loop of a monitor: every operation with its data, the task counter, the wait handler (`Verif.Wait.Monitor`), the memory manager with the shared metadata words (`Verif.Shm.Host`), the regular end and the exceptions that leave the loop. Histories interleave messages of all processes with arbitrary writes to the metadata. The exact condition for every exception is stated by gaps between live reservations and by the contents of metadata slots, not by the free lists of the model; it is proved with the invariants of C02 and C03 along the loop. The result of the collective of a clean-up is an argument, as in C06; MPI delivery is assumed.
  Result: The code violates the property: a reservation that does not fit (an object larger than the memory, no free metadata slot, only scattered free memory), a request for a reclaimed object and a clean-up of an object that is being copied raise in the loop of the monitor, which has no handler. Proved: exactly which event ends the monitor with which exception after any history, that every other request that asks for an answer gets exactly one, that nothing is sent after an exception, and that a program whose shared objects fit together is served as long as nothing is reclaimed. `C112_messages_partial`: what a running monitor sends, to whom, and that it fits the requests so far.
  Theorems in `Props/Monitor.lean`: `C112_exact_partial`, `C112_large_violated`, `C112_slots_violated`, `C112_scattered_violated`, `C112_fetch_violated`, `C112_copying_violated`, `C112_silent`, `C112_answer_partial`, `C112_fits_partial`, `C112_messages_partial`.
* **C113 A get from shared memory ends with the bytes that were put** (partial). `Model/SharedGet.lean` models the steps of `get` for one object with any number of hosts and processes: package received, look at the metadata cell, request to the monitor, copy from the monitor of the sender's host, publication, waiting loop, registration, finalizers, and clean-ups on all monitors. A monitor sends the bytes of a reservation whether or not they are written, as in the code. Metadata cells are chosen freely; the numbering of cells is C03, refused reservations are C112, the update of one cell is C10. Invariant: a cell that carries the object belongs to its reservation and to right bytes, a reservation without metadata has exactly one copier, and packages name hosts that have the object. Termination by a measure on phases.
  Result: The code violates both halves if the object is reclaimed while a get is under way: a process copies bytes that nobody has written (from its own new reservation or from one of another host) and returns them, and a process that waits for another one never ends because the cell it looks at stays empty. Proved: if the object is not reclaimed during a get, all values are right, no get is stuck, and one process per host copies; in every state at most four effective steps per process are possible. `C113_reclaim`: memory is reclaimed only by a clean-up that finds no references anywhere, and then everywhere.
  Theorems in `Props/SharedGet.lean`: `C113_garbage_violated`, `C113_mutual_violated`, `C113_waits_violated`, `C113_right_partial`, `C113_ends_partial`, `C113_bounded`, `C113_one_copy_partial`, `C113_reclaim`.
* **C114 Methods of an actor with the same references start in call order, coroutines included** (partial). Event loop of a worker: the queue of ready coroutines, sleeping coroutines, waiting calls and the log of the parts that have run. Witnesses for the violations; invariants over all runs for the order (`Regular`) and for the parts (`Live` in Lemmas/EventLoop).
  Result: Violated by the code: when the argument for which a coroutine method and a later regular method wait arrives, the regular one runs first; the end of a coroutine does not continue calls that wait for its result, so a later call overtakes them or they are left waiting. Partial: calls whose references have values on arrival start in the order of arrival, coroutines included; with regular methods only the order holds whenever the values arrive and no call with all values is left. Proved: the parts of every call run in order and once, and its result is there exactly when it has ended.
  Theorems in `Props/EventLoop.lean`: `C114_batch_violated`, `C114_result_violated`, `C114_start_partial`, `C114_regular_partial`, `C114_none_left_partial`, `C114_left_violated`, `C114_parts`.
* **C115 Deserialization leaves the garbage collector as it was** (partial). Course of a deserialization as a small language (allocation, exception, switching, nested deserialization); witnesses and inductions over it.
  Result: Violated by the code: after an exception the collector stays off; a program that switched it off finds it on; a nested deserialization switches it on during the outer one. Partial: every successful deserialization leaves it on; without user code the collector is off during the deserialization and the state is restored exactly if it was on and there was no exception or off and there was one. Proved: after several deserializations the collector is on exactly if the last one succeeded. In general user code is obeyed while the deserialization runs (C115_user_code_partial), and a nested one runs with the collector off and leaves it on for the rest of the outer one (C115_nested_partial).
  Theorems in `Props/GcState.lean`: `C115_exception_violated`, `C115_switched_off_violated`, `C115_nested_violated`, `C115_success_partial`, `C115_exact_partial`, `C115_user_code_partial`, `C115_nested_partial`, `C115_last`.
* **C116 The version of a checkout tells its commit** (partial). Model of get_versions on texts as lists of characters, the pattern of git describe with its greedy search; soundness, completeness and uniqueness of the match; first and last separators are unique for injectivity; for tags with `+` the text is compared from its end.
  Result: Violated by the code: a tag with `+` can equal the version of another commit (tag 1 after 5 commits at gab, tag 1+5.gab). Partial: two working trees with the same version are at the same commit, or one is exactly at a tag that is the version text of the other, or one has the tag 0+untagged and the other none (`C116_collision_partial`); with tags without `+` they are the same. The version text itself and the reading of the output of git describe are proved for all tags. The date, an unreadable output of git describe and abbreviated output without a tag are characterized.
  Theorems in `Props/PackageVersion.lean`: `C116_version_of_checkout`, `C116_describe_round_trip`, `C116_describe_short`, `C116_date`, `C116_unparsable`, `C116_version_identifies_partial`, `C116_collision_partial`, `C116_violated`.
* **C117 The version of an archive is a tag of its commit** (partial). Model of the keywords in archives: strip, split, sorted, first fitting tag. Decorations as git prints them are read back by induction over the list; the first of a sorted list is the smallest.
  Result: Violated by the code: without tags a branch whose name starts with a digit is taken for a version tag; a tag with a comma is cut at the comma. Partial: for names without comma and parentheses exactly which name is taken for the version (`C117_names_partial`), which is a tag if there is one or no such branch. Agreement of archive and checkout and the source distribution are proved. The revision, the date and the search for the directory by its name are characterized.
  Theorems in `Props/PackageVersion.lean`: `C117_names_partial`, `C117_archive_partial`, `C117_archive_and_checkout_agree`, `C117_date`, `C117_revision`, `C117_directory_search`, `C117_source_directory`, `C117_branch_violated`, `C117_comma_violated`.
* **C118 Metadata packages cannot be changed and arrive as they were sent** (partial). All operations of dict and of the class derived from it; case analysis and induction over sequences; unpickling sets the items one by one.
  Result: Violated by the code: `|=` is not replaced and changes the dictionary (Python 3.9 and later). Partial: all other operations leave it as it is. Arrival of packages is proved; without wrapping to dict no package would arrive. The result of `|` is the union with the values of the right operand.
  Theorems in `Props/MetadataDict.lean`: `C118_violated`, `C118_unchanged_partial`, `C118_or_eq_exact_partial`, `C118_union_partial`, `C118_package_arrives`, `C118_wrapping_needed`.
* **C119 Logging is switched by its configuration** (partial). One logger, the root logger and the file as a state machine; induction over histories with the invariant that there is exactly one file handler.
  Result: Violated by the code: with handlers of the application in place before, nothing is written to the file; with the root logger at level DEBUG everything is written although logging is off (level NOTSET). Partial: applications that configure logging later and log above DEBUG. In any case nothing is written twice. `C119_exactly_partial` says in all cases exactly what the file contains.
  Theorems in `Props/Logging.lean`: `C119_nothing_written_violated`, `C119_written_violated`, `C119_log_partial`, `C119_exactly_partial`, `C119_at_most_once_partial`.
* **C120 The lines of the communication log show who sent what to whom** (partial). The line as a list of characters; the character at each position computed from repetitions of four characters.
  Result: Violated by the code: the names READY_TO_SHUTDOWN, RESERVE_SHARED_MEMORY and REQUEST_SHARED_DATA are longer than the 15 characters reserved, so their columns are moved. Partial: all other operations, exactly. Every line, moved or not, determines operation, sender and receiver (C120_line_determines).
  Theorems in `Props/Logging.lean`: `C120_line_partial`, `C120_violated`, `C120_operations_exact_partial`, `C120_names`, `C120_names_unique`, `C120_line_determines`.
* **C121 Everything that can be pickled can be stored and sent** (partial). Verif.Model.Packing: the choice of the library for each object, with the assumed limits of pickle and msgpack. The refused objects are described by two relations between an object and what is inside of it (through lists and dictionaries only, through everything); induction over objects.
  Result: Violated by the code: a tuple, set or data frame with a local function or class in it is given to plain pickle, which refuses it, although the same object in a list goes to cloudpickle; a text with a surrogate is refused by msgpack unless it is in a tuple. Proved: exactly which objects are refused (C121_refused_exactly_partial), that every other object comes back unchanged, and that without local objects and surrogates nothing is refused. Which objects pickle, cloudpickle and msgpack accept is assumed. Missing: the refused objects.
  Theorems in `Props/Packing.lean`: `C121_tuple_violated`, `C121_frame_violated`, `C121_text_violated`, `C121_refused_exactly_partial`, `C121_comes_back_partial`, `C121_importable_partial`.
* **C122 What can be given to a function can be given to a method and to the constructor of an actor** (partial). Verif.Model.CallMessages: the dictionaries of the three messages as objects of Verif.Model.Packing; the characterizations follow from those of C121.
  Result: Violated by the code: the constructor's positional arguments are sent as a tuple, which goes to plain pickle as a whole, so a local function or class (or an instance of one) cannot be given to a constructor, although it can be stored, given to functions and methods, and to constructors by keyword; a text with a surrogate can be given to constructors only. The other two places make a list of the arguments, with a comment telling why. Proved: functions and methods accept exactly what can be stored; constructors exactly the arguments without local objects (positional) that can be stored (keyword); what is sent arrives unchanged. Which objects the libraries accept is assumed as in C121. The keys of each message are different and the arguments are under `args` and `kwargs` (`C122_keys`).
  Theorems in `Props/CallMessages.lean`: `C122_functions_partial`, `C122_constructors_partial`, `C122_local_violated`, `C122_text_violated`, `C122_arrives`, `C122_keys`.
* **C123 Objects come back with the same references among them** (partial). Verif.Model.Sharing: objects as addresses in a heap, msgpack as unfolding with a limit on the depth, pickle as copying the graph, decoding into an arbitrary heap. Spec: paths. Induction over the depth with an invariant for copies (extends the heap, closed, fresh, looks the same, same exactly).
  Result: Violated by the code: msgpack writes a list or dictionary each time it meets it, so what is contained twice becomes two objects (also two equal arguments of one call), and a list that contains itself through lists and dictionaries only is refused, as are lists nested deeper than msgpack's limit. Proved: exactly which paths lead to the same object afterwards (those that did and are equal or go through one pickled object reached in the same way), that values along all paths are kept, that everything made is new, exactly which objects are refused, and that everything is kept of a pickled object. Assumed: msgpack's limit and that pickle keeps references. The multiprocessing backend pickles everything and the sequential one copies nothing, so the backends differ here. Missing: what is lost through lists and dictionaries. Lists inside each other are refused exactly from 513 on.
  Theorems in `Props/Sharing.lean`: `C123_looks_partial`, `C123_same_exactly_partial`, `C123_new`, `C123_refused_exactly_partial`, `C123_cycle_violated`, `C123_shared_violated`, `C123_depth_violated`, `C123_pickled_partial`, `C123_levels_partial`.
* **C124 Objects of every size and address are written into shared memory exactly** (partial). `_write_to_shared_buffer` with the real copy: bounds check of `&dst[0]`, then the copies of the threads of `memory.cpp` in any order, applied to a window of shared memory.
  Result: The code violates it: an empty buffer raises `IndexError`, and a buffer of 1 to 62 bytes between two multiples of 64 is undefined behaviour (`C124_empty_violated`, `C124_short_violated`; `C124_sharp_violated` for every length below 63). Proved: which objects are written is decided exactly (`C124_exactly_partial`), and with a threshold of at least 63 bytes, as by default, all objects that fit are written exactly.
  Theorems in `Props/SharedWrite.lean`: `C124_empty_violated`, `C124_short_violated`, `C124_violated`, `C124_good_partial`, `C124_exactly_partial`, `C124_threshold_partial`, `C124_sharp_violated`.
* **C125 Only large objects occupy shared memory, so that metadata do not run out first** (partial). The decision between the two stores at every place that stores an object, and the reservations of the shared ones at the memory manager of a host.
  Result: The code violates it: `put` never asks for the size, so that small objects use up the metadata records, after which the next one ends the monitor; this is shown for every size (`C125_exhausted_violated`) and for the default configuration with 10^9 bytes. Proved: all other places compare with the threshold, and without `put` the records suffice.
  Theorems in `Props/Placement.lean`: `C125_put_violated`, `C125_put_partial`, `C125_others_partial`, `C125_suffice_partial`, `C125_exhausted_violated`, `C125_default_violated`.
* **C126 Started processes form one program** (partial). Which communicator each started and each spawned process passes to the collective operations of `init`, when these return, and what each process does after its loop.
  Result: The code violates it: with `mpiexec -n N`, N > 1, and spawning left on (the default), the process of rank 0 spawns its own processes and runs the script with them, and all other started processes wait for it for ever (`C126_spawning_violated`, for every N). The documentation asks for `UNIDIST_MPI_SPAWN=False` here, nothing checks it. Proved for one started process, and with spawning switched off for any number. `C126_exactly_partial`: the processes come together exactly when one process is started or spawning is off.
  Theorems in `Props/Launch.lean`: `C126_spawning_violated`, `C126_violated`, `C126_starts_partial`, `C126_exactly_partial`, `C126_size`.
* **C127 Results do not depend on the schedule, whatever is cleaned up** (proved). Model `Verif.Model.Valued`: the model of C94 with values in stores, messages and arguments. Specification: the values of all references when each call is made directly. Invariant: every value in a store, in a message or given by `get` is the right one, and the results of every unfinished task are the direct results for its arguments, whose references may already be replaced. Forgetting the values gives exactly the model of C94 (`bare_run`), which carries over that programs do not hang (C98).
  Result: Proved for the calls of the main process, methods of actors that do not change their actor included; that all gets are answered is proved for programs without method calls that name no reference twice in a `get` (see C98).
  Theorems in `Props/Valued.lean`: `C127_right_values`, `C127_right_everywhere`, `C127_same_program`, `C127_all_gets_answered`.
* **C128 The same program gives the same results on every backend** (partial). Model `Verif.Model.Backends`: one program written as calls of the models of C127 (a function is put at its first call, so references are numbered differently), C65 and C71. Specification: direct calls. MPI by following the values of C127, multiprocessing by showing that the record of calls is the program (no submission is refused without actors) and evaluating its meaning (C65, C66), the sequential backend by induction over the program.
  Result: Violated by the code: when a failed result is passed on, the sequential backend raises at the call whereas the others raise when the result is fetched. Partial: MPI and multiprocessing give the results and errors of direct calls for all programs, and all of them; the sequential backend runs to the end exactly if no argument is a failed result, and then does so too; so for these programs any two backends agree. Objects are numbers: for byte strings and exception objects see C65 and C71. On the sequential backend the first call with a failed argument raises the error of the first failed argument, and what was made before stays as it is (`C128_pyseq_first_partial`).
  Theorems in `Props/Backends.lean`: `C128_violated`, `C128_mpi_partial`, `C128_pymp_partial`, `C128_pyseq_partial`, `C128_pyseq_first_partial`, `C128_same_partial`.
* **C129 Getting a list of references gives the same on every backend** (partial). `Model/GetList.lean`: the loop of `request_worker_data` over messages in any order, `get` of the three backends and programs of puts and gets. `C129_violated`, `C129_falsy_violated` and `C129_put_violated` give witnesses; `C129_pymp_partial` and `C129_pyseq_partial` say that the other backends answer exactly right; `C129_exact_partial` is an equivalence (a list is answered rightly in every order iff …), whose necessity builds an order of arrival for each unwanted exception; `C129_program_partial` follows a whole program.
  Result: Violated by the code: on the MPI backend the error that arrives first is raised, not that of the first reference; an exception whose truth value is false, or that was put, is returned as a value. Partial: the other two backends always give the right answer; on the MPI backend exactly the lists for which the answer is right in every order of arrival are characterised, and all programs agree in which a list has at most one failed reference, asked for once.
  Theorems in `Props/GetList.lean`: `C129_violated`, `C129_falsy_violated`, `C129_put_violated`, `C129_pymp_partial`, `C129_pyseq_partial`, `C129_exact_partial`, `C129_program_partial`.
* **C130 References in containers of any class reach a task** (partial). `Model/Derived.lean`: objects as trees whose containers may be of a derived class; the three traversals of the code. `C130_violated` gives a named tuple with one reference. `C130_positions_partial` says position by position what is found, `C130_exactly_partial` is an equivalence (everything is replaced iff no reference is below a container of a derived class) and `C130_arrives_partial` characterises the references sent along, by mutual structural induction over trees and their elements.
  Result: Violated: `unwrap_object_refs` and `materialize_data_ids` compare the class itself, so references in a named tuple, an `OrderedDict` or a `defaultdict` are neither replaced nor sent along. `C130_positions_partial` and `C130_exactly_partial` say at which positions references are replaced, `C130_arrives_partial` which are sent along.
  Theorems in `Props/Derived.lean`: `C130_violated`, `C130_positions_partial`, `C130_exactly_partial`, `C130_arrives_partial`.
* **C131 Actors behave like local objects on every backend** (partial). `Spec/Actors.lean` says what calls on local objects with states give. `Model/ActorBackends.lean` translates the calls of a program to the models of the multiprocessing (`Model/Pymp.lean`) and the sequential backend (`Model/Pyseq.lean`), whose actors are represented by the calls they executed. `C131_pymp_partial` goes through the sequential meaning of C65 and the progress of C66, `C131_pymp_states_partial` through C69; `C131_pyseq_partial` is an induction over the program; `C131_mpi_partial` follows from C44 for one actor of one worker (`Model/Worker.lean`).
  Result: Violated on each backend: a function cannot be called when every worker of the multiprocessing backend is kept by an actor (`C131_room_violated`); a failed argument raises at the call on the sequential backend (`C131_failed_violated`); a call whose argument comes late is overtaken on MPI (`C131_overtaken_violated`). The rest: `C131_pymp_partial`, `C131_pymp_states_partial`, `C131_pyseq_partial` (an equivalence), `C131_mpi_partial` (one actor on one worker, calls without references).
  Theorems in `Props/ActorBackends.lean`: `C131_room_violated`, `C131_failed_violated`, `C131_pymp_partial`, `C131_pymp_states_partial`, `C131_pyseq_partial`, `C131_overtaken_violated`, `C131_violated`, `C131_mpi_partial`.
* **C132 An actor does what a local object does, in some order** (proved). Invariant over histories: the calls that arrived are a permutation of those executed and those held back; what is kept of a call, with the references already replaced, still means what was sent (`Waits`); the state and the stored results are those of `localCalls` (Spec/LocalObject.lean). References that will still be written have no value, so no value ever changes and arguments keep their meaning.
  Result: For every history of a worker: tasks, coroutine tasks, methods of other actors, data and owners arrive in any order, arguments may be missing. The order of execution is not always that of the calls (C44). Methods of the actor are no coroutine functions (their effect on the state between awaits is not modelled here), results contain no references, and every reference is given a value once (C20, C48).
  Theorems in `Props/ActorOrder.lean`: `C132_local_object`.
* **C133 All processes start the shared store together** (partial). The end of `init` as steps of all processes: the check of the sizes, the collective allocation on a host, the initialization of the service memory, the communicator of the monitors and the barrier. A collective call returns when all members have called it. Invariant over all orders of the steps; a measure bounds their number.
  Result: The code violates it: every process compares the configured sizes with the memory it reads itself, so that the processes of a small host refuse while the others, the main process among them, wait for ever (`C133_violated`). Without room for a record they wait even on a single host (`C133_no_room_violated`). Proved exactly: who refuses, breaks down, waits and gets ready, for all numbers of hosts and processes and all orders (`C133_exactly_partial`); nobody waits exactly if all can start or all refuse; without configured sizes nobody refuses.
  Theorems in `Props/StoreStart.lean`: `C133_violated`, `C133_exactly_partial`, `C133_together_partial`, `C133_no_room_violated`, `C133_ends`, `C133_default_partial`, `C133_same_partial`.
* **C134 A program that a signal interrupts while it sends a request ends all processes** (partial). The loops of worker and monitor of C105 on inboxes where the request under way is cut after any number of messages. A reader that finds fewer messages of one tag than it needs waits. Frame lemmas: reading requests of others does not touch the messages of this process. Together with the model of the shutdown (C50) for the end of the program.
  Result: The code violates it: a request is sent as several messages, and a signal between two of them leaves the worker waiting for the rest, so that it never reads `CANCEL` and `shutdown` never returns (`C134_violated`, `C134_program_violated`). A monitor waits in the same way and then serves nobody (`C134_monitor_violated`). If the program goes on, the data of a later request is taken for the missing data: a method call runs as a task (`C134_other_data_violated`). Proved: calls of which nothing or everything was sent do no harm (`C134_whole_partial`), and for the last call before the end this is exactly the condition (`C134_exactly_partial`).
  Theorems in `Props/Interrupt.lean`: `C134_whole_partial`, `C134_exactly_partial`, `C134_violated`, `C134_monitor_violated`, `C134_other_data_violated`, `C134_program_violated`.
* **C135 A get after an interrupted get returns the values of its references** (partial). The root inside and outside of `get`, the queues of information packages and buffers of each owner, the record of sent data, and a signal as a step that leaves the call. Invariant: the buffers in the queue of an owner are those of its packages, and `data_count` counts the references that arrived. A weaker invariant holds whatever was interrupted and gives the lost objects.
  Result: The code violates it: a signal between the information package of an object and its data makes the next get of an object of the same owner return the data of the first (`C135_violated`), and the object itself can never be obtained again (`C135_lost_violated`, for every history). After one call interrupted while it waits, all later calls for new references can raise a `RuntimeError` (`C135_forever_violated`). Proved: without signals all calls return the right values (`C135_uninterrupted_partial`); with signals that arrive only while the root waits for an object all values are right (`C135_values_partial`), and a call raises only if a reply for an earlier call was outstanding when it began (`C135_raises_partial`). Equal references in one call are excluded, see C34.
  Theorems in `Props/InterruptGet.lean`: `C135_uninterrupted_partial`, `C135_values_partial`, `C135_raises_partial`, `C135_violated`, `C135_forever_violated`, `C135_lost_violated`.
* **C136 Every request to the monitor receives its own reply, whatever was interrupted** (partial). The root with its calls numbered, the queues of requests and replies, and the monitor with task count, table of reservations (for any way to place objects) and the wait handler of C39; a signal leaves the call with the reply under way, or after its reception. Invariant: without wait the outstanding requests and replies are numbered without gaps, as many as there were signals.
  Result: The code violates it: replies carry no hint of the request, so that one signal between a request and its reply shifts all later replies by one for ever (`C136_forever_violated`): an object is written into the memory of another one (`C136_violated`) and shutdown raises instead of ending MPI (`C136_shutdown_violated`). The monitor keeps what was ready for an interrupted wait, so that a later wait never returns (`C136_wait_forever_violated`). Proved: without such signals all replies belong to their requests, also if signals arrive after a reply was received (`C136_received_partial`); exactly by how many calls the replies are shifted in programs without wait (`C136_exactly_partial`); ranges in replies are always those recorded for their identity (`C136_ranges_partial`). Whatever was interrupted, a number of tasks that is received is the one at the time of the question it answers (`C136_count_partial`), and the monitor reads nothing after the request for the end (`C136_end_partial`).
  Theorems in `Props/InterruptReply.lean`: `C136_received_partial`, `C136_ranges_partial`, `C136_count_partial`, `C136_end_partial`, `C136_exactly_partial`, `C136_forever_violated`, `C136_violated`, `C136_shutdown_violated`, `C136_wait_forever_violated`.
* **C137 wait for finished references gives the same on every backend** (partial). The four implementations are composed of the models of C39, C67, C74 and the Sequential backend for references that have all finished; each is brought to a closed form (stored references first, every second reference, the order of the set), from which the equivalences follow.
  Result: The code violates it: MPI gives the references in the store of the process first (`C137_order_violated`), the multiprocessing backend raises (`C137_raises_violated`) or gives every second reference (`C137_skips_violated`), Dask gives them in the order of a set (`C137_set_violated`). Proved: for every number exactly which backend returns, raises or waits for ever (`C137_ends_exactly_partial`); exactly when each backend gives the same as the Sequential one (`C137_mpi_exactly_partial`, `C137_pymp_exactly_partial`, `C137_dask_exactly_partial`); and that every returned pair is a partition with the wanted number of ready references (`C137_contract_partial`).
  Theorems in `Props/WaitBackends.lean`: `C137_order_violated`, `C137_raises_violated`, `C137_skips_violated`, `C137_set_violated`, `C137_ends_exactly_partial`, `C137_mpi_exactly_partial`, `C137_pymp_exactly_partial`, `C137_dask_exactly_partial`, `C137_contract_partial`.
* **C138 An interrupted put or get leaves shared memory usable** (partial). The root with its call in progress and the phases of put and get, objects with reservation, metadata, counted references and finalizers, and the clean-up of the monitor with its list of references to try again. Invariant: an object is reserved without metadata exactly if its call is at that point or was ended there; counted references exceed finalizers exactly if a call is or was ended between the two; the monitor is lost exactly if an object of the first kind was listed.
  Result: The code violates it: a put that is ended while the bytes are written ends the monitor at the clean-up of its reference (`C138_monitor_violated`); a get that is ended while the bytes are copied makes the next get of the same reference wait for ever (`C138_waits_violated`); a call that is ended between counting a reference and registering its finalizer keeps the memory until the end of the program (`C138_kept_violated`). Proved: these are the only bad moments (`C138_partial`), and exactly when each of the three happens (`C138_monitor_exactly_partial`, `C138_waits_exactly_partial`, `C138_kept_exactly_partial`).
  Theorems in `Props/InterruptPut.lean`: `C138_monitor_violated`, `C138_waits_violated`, `C138_kept_violated`, `C138_partial`, `C138_monitor_exactly_partial`, `C138_waits_exactly_partial`, `C138_kept_exactly_partial`.
* **C139 Values remain usable after shutdown** (partial). Model/SharedEnd: one process with its references, cached values, finalizers and values, and the stages of shutdown. The invariant `Inv` determines every part of the state from the history.
  Result: Violated with shared memory: the value is a view into a window that shutdown frees, so using it after shutdown touches memory that does not exist any more; a reference that the collector finds between the release of the windows and the detaching of the finalizers does the same. Proved exactly which step of which history ends the process (`C139_exactly_partial`): also a first `get` after the end, and a `put` calls MPI after its end because `is_allocated` stays true. Proved: without shared memory, for values without out-of-band buffers and for copies, values can be used at any time, and references can be forgotten before and after shutdown.
  Theorems in `Props/SharedEnd.lean`: `C139_exactly_partial`, `C139_usable_partial`, `C139_forgotten_partial`, `C139_values_violated`, `C139_violated`, `C139_collected_violated`.
* **C140 Calls from several threads do not disturb each other** (partial). Model/Threads: the counter with reads and writes as separate steps, and operations, data and replies as queues shared by all calls. The invariant ties the queues to the orders in the history (`Handled`).
  Result: The code violates it, although it demands an MPI library for several threads: it has no locks. Two calls can make the same reference (`C140_ids_violated`), and an increment that was overtaken sets the counter back, so that even calls that do not overlap make equal references (`C140_back_violated`). Replies go to the thread that asks MPI first, so that two threads write into each other's memory (`C140_swapped_violated`); data that overtake those of another request end the monitor (`C140_monitor_violated`). Proved for all interleavings: exactly which call is answered by each reply (`C140_replies_exactly_partial`) and when the monitor ends (`C140_monitor_exactly_partial`); calls that do not overlap are right (`C140_serial_partial`, `C140_ids_partial`), and so are overlapping ones if data and receptions keep the order of the operations (`C140_orders_partial`).
  Theorems in `Props/Threads.lean`: `C140_replies_exactly_partial`, `C140_answered_partial`, `C140_monitor_exactly_partial`, `C140_orders_partial`, `C140_serial_partial`, `C140_swapped_violated`, `C140_monitor_violated`, `C140_ids_violated`, `C140_back_violated`, `C140_violated`, `C140_ids_partial`, `C140_numbers_partial`.
* **C141 Submitted tasks are executed before the program ends** (partial). Model: workers of the MPI backend with inboxes that hold EXECUTE messages and then CANCEL, pending tasks, stores, and arrivals of results at any time; a separate small model of the queues of the multiprocessing backend. Invariants over all histories: executed tasks have no duplicates; for each worker the tasks read form a prefix of its tasks, and the local ones among them are executed (dependencies come earlier at the same worker). The violations come from a complete history without arrivals, in which only local tasks are executed; the possible schedule is constructed by induction over the tasks, delivering missing results one by one.
  Result: Violated (C141_violated; C141_cancelled_violated: in every program with a task that depends on a task of another worker there is a schedule in which that task is cancelled; C141_pymp_violated: on the multiprocessing backend the program can end at any moment and nothing is executed afterwards). What holds: no task is executed twice and nothing else is (C141_once_partial), a task all of whose dependencies, direct or not, were sent to its own worker is always executed (C141_local_partial), a task is not executed exactly if it was pending for a missing result when its worker read CANCEL (C141_lost_exactly_partial), there is a schedule in which exactly the tasks with dependencies on their own worker are executed (C141_least_exactly_partial) and one in which all are executed (C141_possible_partial); on the multiprocessing backend every worker has executed a prefix of its tasks, after their dependencies (C141_pymp_partial), and as long as the program has not ended all of them can still be executed, whatever was executed before (C141_pymp_possible_partial).
  Theorems in `Props/LastTasks.lean`: `C141_once_partial`, `C141_local_partial`, `C141_least_exactly_partial`, `C141_cancelled_violated`, `C141_violated`, `C141_lost_exactly_partial`, `C141_possible_partial`, `C141_pymp_partial`, `C141_pymp_violated`, `C141_pymp_possible_partial`.
* **C142 A result that cannot be restored harms only the call that uses it** (partial). Model: executed tasks, transfers of results between workers, requests, replies in the mailbox of the main process and its `get` calls; a predicate tells which results cannot be restored. Invariant for `get` of other results: the references counted, the replies in the mailbox and the open requests together are the requested list, and nothing that is requested was sent before; a measure gives the end of every `get`. The violations are invariants of all continuations of concrete histories in arbitrary programs.
  Result: Violated (C142_violated): after the first `get` of a result that cannot be restored the worker does not send it again, and the second `get` waits for ever (C142_again_violated, C142_second_violated: in every program, for every task without arguments); the other results of the list stay in the mailbox, and the next `get` fails with 'DataID ... isn't in the requested list' (C142_stray_violated); given to a task of another worker the result ends that worker, and everything it has computed is lost (C142_lost_violated). What holds: while only other results are asked for, every `get` has got its values and can end (C142_good_partial); what the main process has was computed and can be restored (C142_root_partial); a worker ends exactly if such a result was sent to it (C142_dead_exactly_partial), so never if such results are arguments of tasks of their own worker only (C142_own_partial). Tasks are executed once and in the order of their arguments (C142_order_partial); a task is executed whatever cannot be restored, if its arguments from other workers can be and their workers run (C142_executed_partial); a worker that has ended executes, receives and sends nothing more (C142_ended_partial).
  Theorems in `Props/Unrestorable.lean`: `C142_good_partial`, `C142_root_partial`, `C142_dead_exactly_partial`, `C142_own_partial`, `C142_again_violated`, `C142_second_violated`, `C142_stray_violated`, `C142_lost_violated`, `C142_violated`, `C142_order_partial`, `C142_executed_partial`, `C142_ended_partial`.
* **C143 Options are honoured or refused** (partial). Model: decision logic of decorator, `options` and `_remote` per backend over keyword lists; the theorems are case distinctions with lemmas about looking up a name in a list with distinct names and in a filtered list.
  Result: Violated (C143_violated): positional arguments of `options` and all names that its signature does not have are dropped without a word (C143_dropped_violated), so are unknown names in the decorator (C143_decorator_violated), and CPUs and resources given for a method (C143_method_violated), which functions and constructors refuse. What holds: the named options are honoured if the call is not refused (C143_named_partial), and a call is refused exactly if it asks for CPUs or resources on another backend than Ray or the decorator of a class gives `num_returns` (C143_refused_exactly_partial). What nobody asked for has no effect: no reservation, one result (C143_default_partial).
  Theorems in `Props/Options.lean`: `C143_named_partial`, `C143_refused_exactly_partial`, `C143_default_partial`, `C143_dropped_violated`, `C143_decorator_violated`, `C143_method_violated`, `C143_violated`.
* **C144 Data are released when nothing needs them any more** (partial). Model: dictionary with keys that are references or `None`, references held by the program, queue of tasks; executions in any order, which write to the entries made at submission. Invariant: the keys that are references are exactly those made so far in order, all keys are distinct, entries of unexecuted tasks are `Delayed` and belong to one task each.
  Result: Violated (C144_violated): neither store ever removes an entry, and the end of a reference has no effect. A program that holds at most one reference at any time fills the store without bound on both backends (C144_unbounded_violated); values that the sequential backend has put before it raises `IndexError` for a missing one stay although no reference to them was ever given (C144_orphan_violated). What holds: the data of everything needed are there, under one key (C144_needed_partial); what is there stays, and a finished entry does not change, whatever is dropped or executed (C144_kept_partial, C144_put_partial); the store has exactly one entry per reference asked for on the multiprocessing backend, and not more on the sequential one (C144_size_partial). The MPI backend releases unreachable data (C82).
  Theorems in `Props/Retention.lean`: `C144_needed_partial`, `C144_kept_partial`, `C144_put_partial`, `C144_size_partial`, `C144_unbounded_violated`, `C144_violated`, `C144_orphan_violated`.
* **C145 Calls inside remote functions and methods work on the multiprocessing backend** (partial). Model: queues of the workers, the process manager of the main process and its copies in the processes of the actors. Invariant: in the copy of an actor the workers of earlier actors are taken and its own is free, so that a method waits only for calls on its own worker, on those of later actors or on free ones; a chain of waiting methods therefore ends in one that waits for itself. The steps of the workers decrease a weight of the jobs.
  Result: Violated (C145_violated). Functions with a remote call inside fail (C145_function_violated): the workers have no instance of the process manager and, being daemons, cannot start processes. With any number of workers the first method of the first actor that gets the result of a call waits for ever, since the process of an actor is forked before its worker is grabbed and takes that worker for a free one (C145_first_violated); calls are also placed on workers of other actors although a worker is free (C145_foreign_violated). What holds: a call fails exactly if it is one of a function with a call inside (C145_result_exactly_partial); calls inside methods are always accepted, never on the worker of an actor made before (C145_placed_partial); the workers come to a stop (C145_ends_partial), and then something is left exactly if a method waits for a call that is behind it in the queue of its own worker (C145_stuck_exactly_partial), which is for ever (C145_self_partial); if no method gets a result of its calls, everything is executed (C145_noget_partial). Actors made inside methods and dropped handles are in C146; start methods other than `fork` are not modelled.
  Theorems in `Props/PympNested.lean`: `C145_result_exactly_partial`, `C145_placed_partial`, `C145_ends_partial`, `C145_stuck_exactly_partial`, `C145_self_partial`, `C145_noget_partial`, `C145_first_violated`, `C145_function_violated`, `C145_foreign_violated`, `C145_violated`.
* **C146 An actor keeps its worker to itself on the multiprocessing backend, wherever it is made** (partial). Model: one process manager per process, copied when the process of an actor is forked, before its worker is grabbed. Invariant: in the copy of an actor all workers before its own are taken, and its own is free or held by an actor that its process made; the workers of the actors the maker had before are taken in the copies at every depth below and never freed there.
  Result: Violated (C146_violated). A process that makes an actor while it has no other one is given the worker of its own actor, in every history (C146_first_violated), so that with any number of workers any number of live actors are on the first worker (C146_all_violated); calls of functions in a method may go to the worker of the actor (C146_calls_violated). What holds: live actors made by the same process have different workers, and its calls avoid them (C146_siblings_partial); actors made in the process of an actor, at any depth, and calls there avoid the workers of the live actors which the maker of that actor had made before it (C146_earlier_partial); if only the main process makes actors, everything holds for its calls (C146_main_partial). Modelled for the start method `fork`; an actor is dropped after those made in its process. An actor made in the process of an actor gets the worker of that actor exactly if no live actor made by that process has it, otherwise a later one (C146_own_exactly_partial).
  Theorems in `Props/PympPlaces.lean`: `C146_first_violated`, `C146_all_violated`, `C146_violated`, `C146_calls_violated`, `C146_siblings_partial`, `C146_earlier_partial`, `C146_main_partial`, `C146_own_exactly_partial`.
* **C147 Calls from several threads do not disturb each other on the multiprocessing backend** (partial). Model: a program counter per call, one step per read or write of `_worker_id`, of the flags and of the registry of `BaseManager`. Invariants over all interleavings; the disagreements are histories for every number of workers.
  Result: Violated (C147_violated). With any number of workers two overlapping calls can move the counter beyond the workers, after which every call of a function ends with IndexError in every continuation (C147_index_violated); an actor may be an object of the class of another thread's actor (C147_class_violated); two actors may have the same worker (C147_worker_violated); a call may be refused although a worker is free (C147_refused_violated), or be about to go to a worker that an actor has (C147_grabbed_violated). What holds: no IndexError and only existing workers if the counter is not read between another call's increment and the end of its `_next` (C147_index_partial), and then every call that ends was given to a worker if there are no actors (C147_functions_partial); the class of an actor is exactly that of the creation begun last before the fork (C147_class_exactly_partial); actors have different workers if no flag is looked at while another creation is about to set one (C147_worker_partial); a creation is refused only if all workers are grabbed (C147_room_partial); an uninterrupted call goes to the next free worker by turns, or is refused if there is none (C147_alone_partial). The project does not say that it may be used from several threads; dropped actors are left out.
  Theorems in `Props/PympThreads.lean`: `C147_index_violated`, `C147_class_violated`, `C147_worker_violated`, `C147_refused_violated`, `C147_grabbed_violated`, `C147_violated`, `C147_index_partial`, `C147_functions_partial`, `C147_class_exactly_partial`, `C147_worker_partial`, `C147_room_partial`, `C147_alone_partial`.
* **C148 Methods can make actors and use their results on the multiprocessing backend** (partial). Model: the tree of processes of C146 with the queues of the workers and methods as small programs. Invariant: what a method waits for is finished or in the queue of its own worker or of a later one, because in the process of an actor all workers before its own are taken; the last worker with something to do therefore waits for itself. The first actor of a process has the worker of the process's own actor, so that afterwards nothing else of that process is placed there.
  Result: Violated (C148_violated). In every history a method that gets the result of a method of the first actor of its process waits for a call behind itself in the queue of its worker (C148_first_violated); with any number of workers the shortest program of this kind hangs (C148_hangs_violated). What holds: when no worker can go on, something is left exactly if a method waits for a call on its own worker, so workers never wait for each other in a circle, however deep actors are nested (C148_stuck_exactly_partial); such a method waits for ever and nothing in its queue is executed (C148_self_partial); the workers come to a stop (C148_ends_partial); everything is executed if methods get results of functions only after they have made an actor, and results of methods only of actors other than the first of their process (C148_careful_partial), and then each call has exactly one result (C148_results_partial). In every history each call has exactly one result or is in exactly one queue (C148_once_partial); a method that gets the result of a failed call fails, and goes on after a successful one (C148_fails_partial), and it fails if it makes an actor and no worker is free (C148_no_worker_partial). Modelled for the start method `fork`; functions and constructors make no calls; no actor is dropped.
  Theorems in `Props/PympTree.lean`: `C148_first_violated`, `C148_hangs_violated`, `C148_violated`, `C148_stuck_exactly_partial`, `C148_self_partial`, `C148_ends_partial`, `C148_careful_partial`, `C148_once_partial`, `C148_results_partial`, `C148_fails_partial`, `C148_no_worker_partial`.
* **C149 The references that `wait` returns are those that were given** (partial). Model: `ObjectRef` objects numbered in the order in which they are made, with the reference inside each and the values of the references; equality of objects is equality of numbers. Induction over histories: objects and values are only added, and every object is around a reference with a value. The objects that `wait` makes have numbers that none had before.
  Result: Violated (C149_violated). `ObjectRef` defines neither `__eq__` nor `__hash__` and `wait` makes new objects, so that no reference it returns is ever found in a dictionary, or can be removed from a list, of references made before (C149_never_violated); the same holds for a reference taken out of stored data (C149_copy_violated). What holds: the returned references have the data of the given ones (C149_data_partial), a single reference comes back in exactly one of the two lists (C149_one_partial), a dictionary by `ref._ref` finds all of them (C149_inner_partial; it needs the references of the backend to be compared by value, as in the model), earlier references keep their data (C149_kept_partial), and the loop `while refs: done, refs = wait(refs)` hands out every reference exactly once (C149_loop_partial), in every order that the backend may choose (C149_orders_partial). That a backend divides the references into two lists is assumed here and shown in C39, C67 and C74; a `wait` that does not end is left out.
  Theorems in `Props/RefObjects.lean`: `C149_violated`, `C149_never_violated`, `C149_copy_violated`, `C149_data_partial`, `C149_one_partial`, `C149_inner_partial`, `C149_kept_partial`, `C149_loop_partial`, `C149_orders_partial`.

## Disagreements between property and code

Every item is confirmed by a Lean witness theorem (`_violated`) of the named property; line numbers are those of `/repo/unidist/...`.

* **C04** `SharedMemoryManager.put` takes memory and slot before checking either, and the loser is not given back (monitor/shared_memory_manager.py:176-181).
* **C07** `clear` runs a collective over lists whose order depends on the arrival order at each monitor; two cleanup requests in different orders free a referenced object (194-228).
* **C11** checking the identity of a slot and incrementing its reference number are two steps; a cleanup and re-use between them moves the reference to another object (shared_object_store.py:282-316).
* **C15** blocking and non-blocking packages use one tag for their bodies, so a receiver can pair a header with the wrong body (communication.py:634-661, 714-754).
* **C16** `parallel_memcopy` of a short buffer without aligned address inside gives right < left, a huge unsigned chunk (memory.cpp:30-41).
* **C17, C18** a dictionary with one of the three marker keys is taken for an encoded object; `bytearray` comes back as `bytes` (serialization.py:233-257).
* **C19** reading an object empties the stored list of raw buffers, later forwards lose them (serialization.py:124, 254; object_store.py:79-84).
* **C26** each process has its own list of reserved ranks (controller/common.py:23-51).
* **C34** `get([r, r])` of a remote reference waits for two replies, one is sent (controller/common.py:217-227, 256).
* **C35** the second `get` of a failed reference returns the exception object (controller/api.py:417-428).
* **C37** data already sent is not sent again although a blocking request waits for it (controller/common.py:256, 314).
* **C37** `process_task_request` looks at the kept requests for the outputs also when it only *started* a coroutine, and `check_pending_get_requests` deletes what it looked at (task_store.py:455-457, request_store.py:134-166): `x = slow.remote(); y = actor.async_method.remote(x); get(y)` waits for ever if the request for `y` arrives before `x`.
* **C38, C81** outputs of actor methods and coroutines do not wake plain tasks, and tasks that became ready during a scan are left (worker/loop.py:113-122, 195-201; task_store.py:318).
* **C40** `wait` on a failed task, with `num_returns=0` or with more than the list never returns (task_store.py:346-404; monitor/loop.py:146; controller/api.py:467-476).
* **C42** a missing output is never stored, `get` hangs (`zip` truncation, task_store.py:364).
* **C43** a failing task with `num_returns=0` ends its worker (`put(None, e)`, task_store.py:356; local_object_store.py:84).
* **C44** a pending actor call is overtaken by a later ready one (task_store.py:107-121; loop.py:195-201).
* **C45, C47** actor calls and tasks of other processes count as executed but not as submitted; cleanup comes too early or stops for ever; a failed coroutine is never counted (actor.py:36-64; garbage_collector.py:138).
* **C46** a reference finalized between serializing the cleanup list and clearing it is never broadcast (garbage_collector.py:59, 139-140).
* **C50** shutdown hangs or strands processes if the root's monitor is not rank 1, if two workers finish with rendezvous sends, without workers, with stray messages, with unfinished coroutines (controller/api.py:305-340; worker/loop.py:210-229; monitor/loop.py:261-287).
* **C51** a signal during shutdown sends CANCEL twice, and the handler raises `TypeError` (controller/api.py:305-340, 588-589).
* **C53** methods get references inside containers unreplaced; a value containing a reference is replaced inside when another argument is late; a reference of unknown owner ends the worker (task_store.py:168-206, 442-454).
* **C54** "4.2" counts as older than 4.2.0; a library text without "MPICH Version:" raises `IndexError` (common.py:443-517).
* **C55** the source of the pickle threshold is overwritten when the shared store is enabled (config/backends/mpi/envvars.py:48-62).
* **C56, C57** `put("false")` turns a flag on; `put` ignores the declared choices (config/parameter.py).
* **C61** keyword names used by functions on the way to the user's function are captured (`num_returns`, `num_cpus`, `resources`, `task`, ...).
* **C64** a call before `init` fixes the backend; Dask outside the main thread raises `UnboundLocalError` (base/backend.py:192-220; base/utils.py).
* **C65, C68** multiprocessing `get` unpickles user bytes and raises stored exception objects (pymp/core/object_store.py:69-104).
* **C66, C70** a short result or a non-iterable result kills a multiprocessing worker (pymp/core/process_manager.py:42-58).
* **C67** multiprocessing `wait` pops by a stale index, cannot handle 0, duplicates or failed references (pymp/core/api.py).
* **C71** the sequential `get` raises exception objects that are values (pyseq/core/object_store.py).
* **C72** the sequential `submit` raises the error of a failed argument at once (pyseq/core/api.py).
* **C73** nested references are values on MPI and references elsewhere (`base/common.py` calls this "a user's burden").
* **C74** Dask `wait` of a repeated reference loses one or never ends (dask/backend.py:100-131).
* **C75, C84** Dask resources: the localhost entry overwrites the entry of the own address; threads are not counted (dask/backend.py).
* **C78** references inside stored objects do not keep their data alive, received ones have no owner (local_object_store.py): a reference returned by a task cannot be used by the caller (`KeyError`, controller/common.py:193), references in a set or an instance given to a task cannot be used by the task (`push_data` looks only into lists, tuples and dictionary values, controller/common.py:389-394).
* **C79** the two identity words are read separately and can mix an old and a new object (shared_object_store.py:385-408).
* **C80** topology entries are keyed by address, so hosts reporting the same one are merged (communication.py:131-179).
* **C85** Ray resources: nodes without CPU raise `KeyError`, nodes with equal addresses are counted once (ray/backend.py).
* **C88** a worker that waits in `get` inside a task answers nothing, so a recursion of remote calls as deep as there are workers never finishes, under no schedule (controller/common.py:216-227; worker/loop.py:103-122).
* **C89** the monitor has one slot for `wait` requests and sends all replies to rank 0: `wait` in a task never returns, and its reply reaches the next `wait` of the main process, which raises `KeyError` (monitor/loop.py:118-159, the code has a TODO there).
* **C90** a handle passed to another worker can be used before the `ACTOR_CREATE` message has arrived; `actor_map[handler]` raises `KeyError` and ends the owner (controller/actor.py:90-180; worker/loop.py:192).
* **C91** values got from shared memory are windows into it, but the finalizer that keeps the memory is attached to the reference; `x = unidist.get(f.remote())` changes silently when the memory is reused after a cleanup (shared_object_store.py:312-316, 448-460).
* **C93** cleanup of an object that another host is copying raises `RuntimeError` and ends that monitor (shared_object_store.py:719-723; monitor/loop.py:254-259).
* **C94** calls of actor methods are not counted by `increment_task_counter` (controller/api.py:578 is the only caller), but their reports are counted by the monitor; a cleanup may run while a method call is pending and remove its arguments, and `get` of its result never returns (controller/garbage_collector.py:138; controller/actor.py:36-63).
* **C95** a worker asks the owner for a result, gets its value from the main process in the meantime, and the answer arrives after the cleanup: the object is stored again and never removed (worker/loop.py:131-150; controller/common.py:397-413).
* **C96** hosts are written between quotes without escaping; a user's pickle threshold is not passed on if the shared store was enabled and read in between; the default number of CPUs is the one of the host of the spawned process (controller/api.py:157-182; config/backends/mpi/envvars.py:48-62).
* **C97** values of environment variables are written between quotes without escaping: a quote is a syntax error in all spawned processes and `init` never returns, a backslash changes the value in the spawned process of rank 0, and what follows a quote in a value is run as a program (controller/api.py:188-191, 243-247).
* **C99** with `num_returns = k > 1` MPI and Multiprocessing iterate over the result, Sequential and Dask subscript it: a dictionary gives keys or values, a generator works or raises; too few items give a `get` that never returns (MPI, Multiprocessing), an `IndexError` of `get` (Dask) or of the call (Sequential); a result that cannot be iterated ends the worker on MPI and Multiprocessing; an exception instance as result is returned by Dask and raised by the others (task_store.py:364-378; process_manager.py:51-56; pyseq/core/api.py:119; dask/remote_function.py:88-92).
* **C100** `get(put(x))` on Dask raises `AttributeError` for a tuple, set or dictionary, because `scatter` gives a container of futures and only lists are gathered (dask/backend.py:77-98).
* **C101** the native handles have names of their own that hide methods: `submit` (pymp/core/actor.py), `actor_methods` (mpi/core/controller/actor.py); the proxy of multiprocessing exposes public names only.
* **C102** `PyMpActor` inherits `__reduce__` but its constructor needs three arguments, so a handle given to a task cannot be unpickled; a constructor keyword `owner_rank` is taken by `Actor.__init__` on MPI and no actor is created (controller/actor.py:90-128).
* **C103** an exception in a constructor, a missing method (worker/loop.py:183, 192), a result that cannot be serialized (task_store.py:367, 380), `sys.exit()` in a task (346), a stored exception that cannot be serialized when it is asked for, `options(num_returns=-1)` (local_object_store.py:220-231) end the worker, and with it the program hangs.
* **C104** `ActorClass.remote` does not call `filter_arguments` and `ACTOR_CREATE` is sent without pushing the owners of references; a constructor that calls `get` raises `KeyError` and ends its worker (base/actor.py:237; controller/actor.py:111-128).
* **C105** `isend_complex_operation` (communication.py:962-984) sends the operation type and only then serializes the arguments. If they cannot be serialized, the caller gets the exception, but the worker has received `EXECUTE`, `ACTOR_CREATE` or `ACTOR_EXECUTE` and waits for the data, without serving anybody else; if the caller sends another request, its data is taken for that of the failed call (`C105_violated`, `C105_stuck_violated`, `C105_malformed_violated`).
* **C106** `init` of the MPI backend (controller/api.py:117-289) does not check whether it was called before: a second call waits forever at the barrier of the first communicator, where no other process comes, and in spawn mode also starts another set of processes that wait in the constructor of `MPIState` (`C106_twice_violated`). `shutdown` (305-340) does not reset `is_mpi_initialized`, so `is_initialized` stays true, `init` afterwards calls MPI after `MPI.Finalize`, and `put` starts nothing (`C106_again_violated`, `C106_put_violated`). `PySeqBackend` inherits an empty `shutdown`, so its `is_initialized` stays true as well (`C106_sequential_violated`).
* **C107** On the multiprocessing backend the object of an actor lives in a manager process that only the handle keeps alive (pymp/core/actor.py:104-111, 141-148). In `Actor.remote().method.remote()` the handle is gone before the call is executed; the worker then fails to unpickle the call outside of its `try` (process_manager.py:39), ends, and `get` waits for ever; tasks submitted to this worker later are lost too. A call that runs while the handle is dropped returns an exception. On MPI the opposite: `actor_map` of a worker never shrinks (worker/loop.py:39, 183, 203-208), so actors are never destroyed (`C107_dropped_violated`, `C107_running_violated`, `C107_others_violated`, `C107_mpi_violated`, `C107_mpi_forever`).
* **C108** The sizes are checked from above only (shared_object_store.py:211-227). A service segment without room for one record is passed to `fill`, which takes the address of its first element and raises `IndexError` in the monitor (262-263; memory/_memory.pyx:41), while the other processes wait for it. This happens if `MpiSharedObjectStoreMemory` is smaller than the threshold (100 KB by default) or leaves less than 32 bytes, or if `MpiSharedServiceMemory` is below 32 (`C108_violated`, `C108_all_violated`, `C108_service_violated`).
* **C109** A remote function that has been called cannot be used inside another remote function: `_remote` replaces the function by a reference (remote_function.py:75-76), a copy made later carries the reference only, and a worker that has not received the function raises `ValueError("Unknown DataID!")` (controller/common.py:415). Whether it works depends on which workers ran the function before.
* **C110** On the multiprocessing backend a result or an exception that cannot be pickled, `sys.exit()` in a function, or a value that cannot be iterated over for several results ends the worker process (process_manager.py:41-58): the `else` branch is outside the `try`. Later tasks are still put into its queue and their references stay delayed for ever.
* **C111** On the MPI backend `get` and the start of a task give out the object that the local store keeps (`object_store.py:73-90`, `worker/task_store.py:189-195`). A task that changes its argument changes it for all later tasks in the same worker, so that results depend on the schedule, and a nested call passes the changed value on (`C111_get_violated`, `C111_task_violated`, `C111_forward_violated`). A result is kept as the object that was returned (`worker/task_store.py:368, 381`); an actor that changes it later changes the result for tasks in this worker (`C111_result_violated`). Large buffers of arguments are sent by `Isend` from the memory of the argument (`communication.py:747-752`); if the program changes it before the transfer is complete, the task finds the new buffer with the old rest (`C111_submit_violated`). The sequential backend stores the objects themselves (`C111_pyseq_violated`).
* **C112** The loop of a monitor (`monitor/loop.py:188-287`) handles no exception. `put` of the memory manager raises `MemoryError` if an object is larger than the free memory, if free memory is scattered or if no metadata slot is free (`shared_memory_manager.py:176-181`); a request for the bytes of a reclaimed object raises (`monitor/loop.py:242-244`); a clean-up of an object whose reservation exists but whose metadata are not written yet raises (`shared_object_store.py:723`). Each of them ends the monitor, the process that asked waits for ever for its answer, and so does every later request of the host (`C112_large_violated`, `C112_slots_violated`, `C112_scattered_violated`, `C112_fetch_violated`, `C112_copying_violated`, `C112_silent`).
* **C113** `get` asks the monitor of the sender's host for the bytes of its reservation (`shared_object_store.py:526-565`), and that monitor sends them without looking whether they have been written (`monitor/loop.py:235-253`). If the object was reclaimed after the package was sent, the receiver makes a new reservation and, if the sender is on the same host, asks its own monitor: it gets back the contents of its own empty reservation, publishes them as the object and returns them (`C113_garbage_violated`, between hosts `C113_mutual_violated`). A process that waits for the copy of another one (`shared_object_store.py:813-816`) looks at one cell for ever; if the object is reclaimed before it looks again, it never returns (`C113_waits_violated`).
* **C61** (Dask) `_remote` passes the user's keywords together with its own `pure=False` or `actor=True` to `Client.submit`, and calls methods through a lambda with parameters `actor_cls` and `method`; user keywords with these names raise `TypeError`, and names of `submit` itself (`key`, `workers`, ...) are captured by it (dask/remote_function.py:82-84, dask/actor.py:70-79, 218-220).
* **C114** `check_pending_actor_tasks` only schedules a coroutine method but runs a regular one at once, so a later regular call overtakes an earlier coroutine call that waited for the same argument (task_store.py:115-121, 318-324); the end of a coroutine does not check the waiting calls (task_store.py:304-316), so a later call with the same argument overtakes them.
* **C115** `deserialize` calls `gc.disable()` and `gc.enable()` without `try/finally` and without looking at the previous state (serialization.py:277-281): an exception leaves the garbage collector off for the rest of the program, and a collector that the user switched off is switched on.
* **C116** `unidist/_version.py:413-441`: a tag that contains `+` can be equal to the version of another commit.
* **C117** `unidist/_version.py:222-247`: without tags, a branch whose name starts with a digit is reported as the version (`1.x`); names of tags are cut at commas.
* **C118** `mpi/utils.py:15-37`: `ImmutableDict` does not replace `__ior__`, so `d |= {...}` changes it.
* **C119** `mpi/core/common.py:357, 367-368`: `hasHandlers` also sees the handlers of the application, so no log file is written; `NOTSET` takes the level of the application, so the file is written although logging is off.
* **C120** `mpi/core/communication.py:51-67`: three names of operations are longer than the 15 characters reserved for names, so the columns of their lines are moved.
* **C88** two tasks that each wait for a further call block each other on two workers if each one's call is placed at the other's worker; the round robin does not look at who waits (controller/common.py:53-75, 216-227; worker/loop.py:103-122).
* **C121** `_encode_custom` (serialization.py:195-211) gives tuples, sets and other built-in containers to plain `pickle` and data frames to `pickle` with protocol 5, so a local function, a class of a notebook or an instance of it inside of them cannot be stored (`unidist.put((lambda: 1, 2))` raises), while in a list or dictionary it can. A text with a surrogate, such as a file name that is not UTF-8, is refused by `msgpack` (231). `C121_tuple_violated`, `C121_frame_violated`, `C121_text_violated`.
* **C122** The constructor of an actor cannot be given a local function: `Actor.__init__` sends `"args": args` (controller/actor.py:116), a tuple, which `pickle` serializes as a whole; `submit` (api.py:563) and `ActorMethod.__call__` (actor.py:50) send `list(args)` and have a comment telling why. Since the operation type is sent before the data is serialized (C105), the worker is then out of step.
* **C123** A list contained twice in what is stored, or given twice as an argument (`f.remote(x, x)`), arrives as two lists, since `msgpack` does not keep references (serialization.py:231); a list that contains itself cannot be stored. In a tuple both work, because tuples are pickled.
* **C95** The monitor never forgets a reference: `DataIDTracker.completed_data_ids` (monitor/loop.py:88) only grows, no cleanup removes anything from it.
* **C124** `_write_to_shared_buffer` copies every raw buffer with `parallel_memcopy` (shared_object_store.py:510-514). For an empty buffer, as that of an empty array when the threshold is 0, `&dst[0]` raises `IndexError` (_memory.pyx:23-24); for a buffer shorter than 63 bytes between two multiples of 64 the copy is undefined behaviour (memory.cpp:30-41). The default thresholds avoid both.
* **C125** `put` stores every object in shared memory without asking `should_be_shared` (controller/api.py:390-391), unlike all other places. The number of metadata records is computed for objects above the threshold (shared_object_store.py:169-209), so that many small objects, for example 9497 integers with 10^9 bytes of free memory, use them up and the next `put` ends the monitor (`C125_exhausted_violated`, `C125_default_violated`).
* **C58** `ComplexDataSerializer.PICKLE_THRESHOLD` is read when the module is imported (serialization.py:121), that is at the first call of unidist, for example a decorator; a shared store enabled or a threshold set after that does not change it (`C58_late_violated`).
* **C126** (controller/api.py:148, communication.py:127-133): under `mpiexec -n N`, N > 1, with `MpiSpawn` left on, the process of rank 0 merges with the processes it spawned while the other started processes call the collective operations of `COMM_WORLD`, which never return. The documentation asks for `UNIDIST_MPI_SPAWN=False` in this mode; the code neither checks nor reports it.
* **C95** a method of an actor is called and its result ignored; the call waits for an argument from another worker. The dropped reference is cleaned up before the method runs (method calls are not counted, controller/api.py:578), then the worker stores the result and nothing ever removes it (worker/task_store.py:381; local_object_store.py:165-180).
* **C98** when data arrives a worker checks its pending tasks and then its pending actor tasks, each once (worker/loop.py:144-146, 164-167), `EXECUTE` only checks tasks (worker/loop.py:122) and `ACTOR_EXECUTE` only methods (worker/loop.py:201). `x = A.remote().m.remote(slow)` and then a task `f.remote(x)` scheduled on the worker of the actor, whose rank was released with the handle (controller/actor.py:196-200): the method runs when `slow` arrives, but the task was looked at before, the owner of `x` is the worker itself so it is never requested (task_store.py:200), and `get` of the result waits until some other data happens to arrive.
* **C99** `bytes` returned by a remote function are unpickled by `get` on the Python Multiprocessing backend (object_store.py:104) and returned as they are on the others; if they are no pickle, `get` raises (`C99_bytes_violated`).
* **C128** (pyseq/core/api.py:103-109): the same program raises at different places: `g.remote(f.remote())` with a failing `f` raises at the call of `g` on the sequential backend, and at `get` on MPI and multiprocessing.
* **C129** `if exception_raised:` (controller/common.py:232) tests the truth value of the exception: one whose class defines `__len__` or `__bool__` as false is returned by `get` as a value, with every exception that arrived after it. With several failed references the error that arrives first is raised, so that the error depends on the schedule; the other backends raise that of the first reference of the list.
* **C130** `type(obj_refs) in (list, tuple, dict)` (backends/common/utils.py:22, mpi/core/common.py:423) leaves out derived classes while `push_data` asks `isinstance` (controller/common.py:389-394): a reference in a named tuple, an `OrderedDict` or a `defaultdict` reaches the function as a reference, and its owner is not sent, so the function cannot get it either.
* **C131** On the multiprocessing backend every actor keeps a worker for itself and a function called when none is left raises `RuntimeError` (process_manager.py:181), while the same program runs on the sequential backend.
* **C133** (shared_object_store.py:160-227, communication.py:159-166): each process checks the configured sizes against the memory of its own host and raises alone. The other processes wait in `Allocate_shared`, `Create_group` or the barrier for ever, `init` of the main process does not return. The same happens if the monitor fails to fill an empty service memory (C108), and if the root refuses a host with a single process.
* **C134** A request to a worker or monitor consists of several messages (communication.py:857-1025). The signal handler of the root takes no arguments (api.py:264-265, 588), so that a signal raises a `TypeError` out of the call that is under way. Between two messages this leaves the receiver waiting for the rest for ever; `shutdown` at exit does not return. If the program goes on, data of a later request is taken for the missing data.
* **C135** The same exception out of `get` leaves replies behind that later calls take for their own: a `RuntimeError` in every later call (controller/common.py:228-231), or, if the information package was received and the data was not (communication.py:835-847), the value of another reference. The owner records the object as sent (controller/common.py:256, 294), so that it is never sent again.
* **C136** The root receives the replies of its monitor to all kinds of requests with one tag and without a check (communication.py:440-461, api.py:484-492, 328-332, garbage_collector.py:123-138, shared_object_store.py:741-750). If the signal handler raises (api.py:588) between a request and its reply, the reply is taken by the next call, and so on: wrong ranges of shared memory, wrong partitions, `ValueError` in `shutdown`. `WaitHandler.add_wait_request` (monitor/loop.py:117-129) does not reset `ready`.
* **C137** `wait` of finished references differs between the backends: the order on MPI depends on which objects are in the store of the process (api.py:467-473), the multiprocessing backend removes by an index that is not adjusted (pymp/core/object_store.py:134-139) and raises `IndexError` or skips every second reference, Dask iterates sets (dask/backend.py:126). For a number larger than the list the Sequential backend returns (pyseq/backend.py:121), MPI and Dask wait for ever.
* **C138** If `put` or `get` is ended by a signal or an error after `send_reserve_operation` and before `_put_service_info` (shared_object_store.py:738-751, 788-811), the reservation stays without metadata: `clear` then raises `RuntimeError` in the monitor (shared_object_store.py:723, monitor/shared_memory_manager.py:234), and a later `get` waits for ever for metadata that nobody writes (shared_object_store.py:813-816). If it is ended between the counting of a reference and `weakref.finalize` (369-383, 302-316), the memory is never released.
* **C139** a value from shared memory cannot be used after `shutdown`: `finalize` frees the window that the value points into (shared_object_store.py:448-460, 839-840), so `x = unidist.get(ref); unidist.shutdown(); print(x)` touches memory that was freed. The finalizers are detached only after the windows were freed (839-845), so that the collector can run one of them in between. `is_allocated` stays true after `finalize` (592), so a later `put` calls MPI after its end and a later first `get` reads freed memory.
* **C140** the backend demands `MPI.THREAD_MULTIPLE` (controller/api.py:124-139) but has no locks: two threads can make references with equal identities (local_object_store.py:196-199), receive each other's replies of the monitor (communication.py:1080-1086) and end the monitor if the data of a `wait` and of a reservation overtake each other (monitor/loop.py:207-211, 222-225).
* **C141** tasks that wait for results of other workers are dropped at the end of the program: `shutdown`, also called at exit, sends `CANCEL` right after the tasks, and a worker that reads it clears its pending tasks (`worker/loop.py` 210-222, `task_store.py` 99-105) although the results they wait for may still come. Neither an error nor a warning appears. On the multiprocessing backend the workers are daemons (`process_manager.py` 31), and all tasks that are still in the queues are lost. The Python backend executes every task at its submission. `C141_cancelled_violated`, `C141_pymp_violated`.
* **C142** exceptions with a constructor of their own can often be pickled but not unpickled. `pull_data` has received the whole message when the restoration raises (`controller/common.py` 113-168), and the worker remembers that it was sent (256-298): the first `get` raises a `TypeError`, the second never returns; the other replies for the same list are read by later `get` calls, which raise `RuntimeError`. If the result is an argument of a task of another worker, the restoration raises in the loop of that worker (`worker/loop.py` 131-146) and ends it. `C142_second_violated`, `C142_stray_violated`, `C142_lost_violated`.
* **C143** `options(*args, num_returns=None, **kwargs)` ignores its `*args` and `**kwargs` (`base/remote_function.py` 64-100, `base/actor.py` 26-54, 184-218), and `remote` reads three names from its keywords and ignores the others (`api.py` 136-141): `f.options(num_return=2)`, `@unidist.remote(num_gpus=1)` and `actor.m.options(num_cpus=4)` are accepted and have no effect. `C143_dropped_violated`, `C143_decorator_violated`, `C143_method_violated`.
* **C144** the stores of the sequential and the multiprocessing backend never remove anything (pyseq/core/object_store.py:35-54, pymp/core/object_store.py:51-70; `DataID` has no finalizer, common/data_id.py:10-29): `while True: unidist.get(f.remote(x))` fills the memory, whereas the MPI, Ray and Dask backends release results whose references are gone. A task of the multiprocessing backend without results that raises adds an entry with the key `None` (pymp/core/process_manager.py:49).
* **C145** on the multiprocessing backend the process of an actor is forked before the worker of the actor is grabbed (pymp/core/actor.py:105-110), so its copy of `ProcessManager` takes that worker for free. A method that calls `unidist.get(f.remote())` hangs as soon as the copied counter points to the worker that executes the method, in a fresh program at the first call. Inside remote functions `f.remote()` raises `AssertionError: daemonic processes are not allowed to have children`, because the workers are forked before `ProcessManager` has an instance (process_manager.py:31, 90-115).
* **C146** an actor made in a method or constructor of another actor is given the worker of that actor, if the process of that actor has made no other: the process is forked before the worker is grabbed (pymp/core/actor.py:105-110). Nested actors thus all share one worker while the others are idle, and one that waits for a method of an actor it made hangs.
* **C147** `_next` of the multiprocessing backend increments `_worker_id` and compares it with `==` without a lock (pymp/core/process_manager.py:125-129): if two threads increment it before either compares, it passes the number of workers, is never set to 0 again, and every later call of a remote function raises `IndexError`. `BaseManager.register("WrappedClass", cls)` (pymp/core/actor.py:105-107) is shared, so an actor may be made of the class of another thread. `>=` in place of `==` and a lock around both places would do.
* **C148** on the multiprocessing backend a method that makes an actor and gets the result of one of its methods hangs, if this actor is the first one of its process (same cause as C146: pymp/core/actor.py:105-110 forks the process before the worker is grabbed): the call is placed on the worker that executes the method.
* **C149** `unidist/core/base/object_ref.py:8-19`, `unidist/core/base/backend.py:333-334`: `ObjectRef` has no `__eq__` and no `__hash__`, and `wait` wraps the references anew. In `tasks = {f.remote(i): i for i in range(2)}; done, _ = unidist.wait(list(tasks)); tasks[done[0]]` the lookup raises `KeyError`, where it works with the references of Ray or the futures of Dask themselves. In the same way `refs.remove(done[0])` raises `ValueError`. The data are not affected.

## Axioms each theorem depends on

Computed with `Lean.collectAxioms` over every theorem of the manifest (`tools/axioms.sh`). No theorem depends on anything else.

* no axioms (10 theorems): C04_memory_lost_violated, C46_late_violated, C64_thread_violated, C79_violated, C85_missing_violated, C85_address_violated, C102_arrives_partial, C115_exception_violated, C115_switched_off_violated, C120_names_unique
* propext (97 theorems): C11_violated, C15_wrong_body_violated, C17_violated, C17_silently_replaced_violated, C17_bytearray_violated, C18_violated, C19_violated, C22_possible, C53_method_violated, C53_value_violated, C53_missing_violated, C55_values, C57_read_partial, C57_set_exactly_partial, C58_own_variables, C60_other, C60_bare, C60_bare_errors, C61_library_violated, C62_positions, C62_none_left, C64_full_violated, C64_noticed_partial, C67_index_violated, C67_zero_violated, C67_failed_violated, C74_lost_violated, C74_endless_violated, C75_violated, C84_violated, C99_too_few_violated, C99_dictionary_violated, C99_generator_violated, C99_not_iterable_violated, C99_exception_value_violated, C99_bytes_violated, C99_agreement_violated, C100_containers_violated, C100_put_get_violated, C100_put_get_partial, C102_multiprocessing_violated, C103_constructor_violated, C103_missing_method_violated, C103_unserializable_result_violated, C103_unserializable_exception_violated, C103_exit_violated, C103_negative_returns_violated, C103_no_returns_violated, C104_values_violated, C104_unknown_owner_violated, C104_values_partial, C105_malformed_violated, C105_shutdown, C105_distinct, C106_twice_violated, C106_again_violated, C106_put_violated, C106_sequential_violated, C106_violated, C110_result_violated, C110_exception_violated, C110_no_returns_violated, C110_exit_violated, C110_not_iterable_violated, C110_loads_violated, C111_pyseq_violated, C113_mutual_violated, C115_nested_violated, C115_success_partial, C115_user_code_partial, C115_nested_partial, C116_violated, C117_source_directory, C117_branch_violated, C117_comma_violated, C118_violated, C118_or_eq_exact_partial, C118_wrapping_needed, C119_nothing_written_violated, C119_written_violated, C120_violated, C121_tuple_violated, C121_frame_violated, C121_text_violated, C122_keys, C124_empty_violated, C124_short_violated, C125_put_violated, C125_put_partial, C125_others_partial, C126_size, C130_violated, C143_method_violated, C146_calls_violated, C147_refused_violated, C147_grabbed_violated, C148_no_worker_partial
* Quot.sound, propext (267 theorems): C04_violated, C04_refused_put_partial, C05_reservations_idempotent, C07_referenced_object_freed_violated, C16_violated, C23_only_free_workers, C26_violated, C28_agreement, C29_common_monitor, C30_sum, C31_slots, C34_violated, C35_violated, C36_not_called, C37_violated, C37_coroutine_violated, C38_actor_violated, C38_coroutine_violated, C38_overtaken_violated, C40_failed_violated, C40_zero_violated, C40_many_violated, C42_violated, C43_violated, C44_overtaken_partial, C44_held_partial, C44_woken_partial, C45_method_violated, C45_processes_violated, C45_single_partial, C45_count_partial, C46_exactly_once_partial, C46_onTime_partial, C46_receivers, C47_method_violated, C47_processes_violated, C47_coroutine_violated, C47_progress_partial, C48_owner, C49_sent_once, C50_monitor_violated, C50_finish_violated, C50_no_workers_violated, C50_stray_violated, C50_coroutine_violated, C50_returns_partial, C51_violated, C51_crash_violated, C51_once_partial, C51_bound_partial, C52_kept, C52_released, C52_finish, C54_other_libraries, C55_program_first, C55_environment_second, C55_default_last, C55_stable, C55_source_partial, C55_threshold_source_partial, C58_follows, C58_out_of_band_shared, C58_serializer_partial, C58_shared_partial, C58_first_partial, C59_best_installed, C59_read, C62_sent, C64_one_partial, C64_init_first_partial, C64_which_partial, C65_bytes_violated, C65_exception_violated, C67_wrong_reference_violated, C67_exactly_partial, C67_zero_exactly_partial, C68_bytes_violated, C68_exception_violated, C70_short_violated, C70_not_iterable_violated, C71_exception_violated, C71_put_violated, C71_wait, C72_sequential_violated, C72_sequential_exactly_partial, C72_pymp_submit_partial, C73_full_violated, C78_dropped_violated, C78_received_violated, C78_returned_violated, C78_inside_violated, C80_violated, C80_foreign_monitor_violated, C80_roles_exactly_partial, C80_monitor_exactly_partial, C81_coroutine_violated, C81_short_violated, C82_no_garbage, C82_own, C83_sum, C83_even, C83_nonzero, C84_partial, C85_partial, C86_initialize, C87_nested_calls_are_direct_calls, C87_any_program, C87_nested_schedule_independent, C87_copies_agree, C87_second_get_tells, C88_progress_violated, C89_stolen_reply_violated, C89_task_waits_forever_violated, C89_wait_in_task_never_returns, C90_call_before_creation_violated, C91_value_outlives_reference_violated, C91_lookup_overtaken_violated, C93_cleanup_during_copy_violated, C94_method_argument_violated, C94_hang_violated, C95_late_answer_violated, C95_monitor_violated, C98_method_violated, C98_get_twice_violated, C98_task_behind_method_violated, C99_results_partial, C99_errors_partial, C99_no_wrong_item_partial, C99_one_exactly_partial, C99_iterable_partial, C100_put_get_list_partial, C100_put_get_exactly_partial, C100_put_get_list_exactly_partial, C102_owner_rank_violated, C104_known_references_partial, C105_stuck_violated, C106_libraries_partial, C106_sequential_partial, C107_object_partial, C107_dropped_violated, C107_running_violated, C107_others_violated, C107_mpi_partial, C107_mpi_violated, C107_mpi_forever, C109_violated, C109_dropped_violated, C109_unused_partial, C111_get_violated, C111_task_violated, C111_result_violated, C111_forward_violated, C111_submit_violated, C111_mpi_partial, C111_sent_partial, C111_first_partial, C111_pyseq_partial, C111_pymp, C111_pymp_made, C111_pymp_tasks, C111_pyseq_made_partial, C112_slots_violated, C112_scattered_violated, C112_fetch_violated, C112_silent, C112_answer_partial, C113_garbage_violated, C113_waits_violated, C113_right_partial, C113_ends_partial, C113_bounded, C113_one_copy_partial, C113_reclaim, C114_left_violated, C115_exact_partial, C115_last, C116_unparsable, C117_revision, C117_directory_search, C118_unchanged_partial, C118_package_arrives, C119_log_partial, C119_at_most_once_partial, C120_names, C121_comes_back_partial, C122_functions_partial, C122_constructors_partial, C122_text_violated, C122_arrives, C123_looks_partial, C123_same_exactly_partial, C123_new, C123_shared_violated, C123_pickled_partial, C124_violated, C124_sharp_violated, C126_spawning_violated, C126_violated, C126_starts_partial, C128_violated, C128_pyseq_partial, C128_pyseq_first_partial, C129_violated, C129_falsy_violated, C129_put_violated, C129_pymp_partial, C129_pyseq_partial, C130_positions_partial, C130_exactly_partial, C130_arrives_partial, C131_room_violated, C131_failed_violated, C131_overtaken_violated, C131_violated, C133_ends, C134_other_data_violated, C135_violated, C135_lost_violated, C136_ranges_partial, C136_count_partial, C136_end_partial, C136_exactly_partial, C136_forever_violated, C136_violated, C136_shutdown_violated, C136_wait_forever_violated, C137_order_violated, C137_raises_violated, C137_skips_violated, C137_set_violated, C138_monitor_violated, C138_waits_violated, C139_violated, C140_replies_exactly_partial, C140_answered_partial, C140_monitor_exactly_partial, C140_orders_partial, C140_serial_partial, C140_swapped_violated, C140_monitor_violated, C140_ids_violated, C140_back_violated, C140_violated, C140_ids_partial, C140_numbers_partial, C141_pymp_partial, C141_pymp_violated, C142_root_partial, C142_dead_exactly_partial, C142_again_violated, C142_order_partial, C142_executed_partial, C142_ended_partial, C143_default_partial, C144_violated, C145_ends_partial, C145_self_partial, C145_first_violated, C145_foreign_violated, C147_class_violated, C147_worker_violated, C147_class_exactly_partial, C147_worker_partial, C147_room_partial, C147_alone_partial, C149_violated, C149_copy_violated
* Classical.choice, Quot.sound, propext (402 theorems): C01_live_ranges_disjoint, C01_reserve_grants_exact_size, C01_object_ranges_disjoint, C02_first_fit_complete, C02_whole_segment_after_release, C02_manager_serves_fitting_request, C03_cleanup_keeps_other_metadata, C03_metadata_slots_disjoint, C04_lost_partial, C06_reclaims_only_published, C06_reclaim_only_unreferenced, C07_violated, C07_same_order_partial, C07_own_references_partial, C08_write_read_roundtrip, C08_stable_under_other_writes, C08_other_host_roundtrip, C09_oversized_write_refused, C10_accepted_object_is_published, C11_refcount_partial, C11_never_below_partial, C12_segments_fit, C12_refused_iff_does_not_fit, C13_slots_suffice, C13_slots_suffice_configured, C14_known_length_roundtrip, C14_sized_roundtrip, C15_violated, C15_packages_in_order_partial, C15_exactly_partial, C16_exact_copy_partial, C16_exactly_partial, C16_defined_exactly, C16_bounds_partial, C17_roundtrip_partial, C17_exactly_partial, C17_as_bytes_partial, C18_buffers_partial, C18_bytearrays_partial, C18_markers_partial, C19_small_objects_partial, C19_reads_partial, C19_exactly_partial, C20_references_unique, C20_request_served, C21_parse_exact, C21_metadata_injective, C22_one_live_object, C22_reported_exactly_once, C22_report_at_last_drop, C22_last_drop_reports, C23_fails_only_if_all_blocked, C24_fair, C24_full_round, C25_actor_keeps_worker, C25_released_worker_used_again, C26_own_actors_partial, C26_one_creator_partial, C27_only_free_workers, C27_actors_exclusive_and_released, C27_programs, C28_one_role, C29_same_host, C29_lone_host_rejected, C30_any_hosts, C30_configured, C32_results_sequential, C32_schedule_independent, C33_once_with_values, C34_order_partial, C34_repeated_partial, C34_exact_partial, C35_first_partial, C35_exact_partial, C36_same_error, C36_transitive, C37_answered_partial, C37_once_partial, C37_coroutine_partial, C38_remote_partial, C38_cluster_partial, C39_partition, C40_succeeded_partial, C40_exact_partial, C41_shape, C41_values, C42_no_wrong_value_partial, C42_never_partial, C43_crash_partial, C44_violated, C44_order_partial, C44_available_partial, C47_stops, C48_data, C49_known_before_task, C49_never_missing, C50_no_early_leave, C50_root_last, C50_no_stray_protocol, C50_ends_partial, C50_bounded, C53_function_partial, C53_method_partial, C53_method_exactly_partial, C54_version_read, C54_mpich_partial, C54_short_violated, C54_no_version_line_violated, C54_exactly_partial, C55_threshold_violated, C56_flag_violated, C56_full_violated, C56_flag_texts, C56_agrees_partial, C56_flag_exactly_partial, C57_set_violated, C58_late_violated, C58_unshared_violated, C60_function, C60_cases, C60_class, C61_other_names_partial, C61_reserved_violated, C61_resources_refused_partial, C61_full_violated, C61_exact_partial, C61_nothing_invented, C61_library_partial, C61_refused_partial, C63_own_options, C63_stored_once, C65_read_partial, C65_same_program_partial, C65_schedule_partial, C66_worker_dies_violated, C66_upto_partial, C66_progress_partial, C67_partial, C68_partial, C68_exactly_partial, C69_order, C69_history_read, C69_history, C70_position_partial, C70_partial, C70_forever_partial, C71_read_partial, C71_get_partial, C71_submit_read_partial, C71_submit_partial, C71_get_list, C72_pymp_read_partial, C72_pymp_get_partial, C72_mpi_partial, C73_direct_partial, C73_nested_partial, C73_exactly_partial, C74_partial, C74_exactly_partial, C75_partial, C75_exactly_partial, C76_memory, C76_bounds, C77_round_trip, C78_held_partial, C78_usable_exact_partial, C78_open_partial, C79_check_partial, C79_exactly_partial, C80_single_host_partial, C81_exact_partial, C81_no_deadlock_partial, C81_bounded, C81_terminates_partial, C84_exactly_partial, C85_exactly_partial, C88_recursion_deadlocks, C88_nested_get_violated, C88_cycle_lasts, C88_deadlock_is_cycle_partial, C88_one_waiting_task_partial, C88_no_deadlock_without_nested_get_partial, C88_can_finish_without_nested_get_partial, C88_can_finish_within_workers_partial, C88_can_finish_with_enough_workers_partial, C88_recursion_finishes_iff, C89_main_process_only_partial, C89_main_process_returns_partial, C90_confirmed_handles_partial, C90_overtaken_partial, C91_registered_values_intact_partial, C91_until_reuse_partial, C92_unused_objects_reclaimed, C92_used_objects_kept, C93_cleanup_completes_partial, C93_exact_partial, C94_needed_objects_survive_partial, C94_kept_arguments_partial, C94_tasks_keep_arguments_partial, C95_nothing_left_partial, C95_kept_forever_violated, C95_kept_calls_partial, C95_tasks_keep_results_partial, C95_ignored_result_violated, C96_threshold_violated, C96_hosts_violated, C96_cpus_violated, C96_variable_violated, C96_settings_partial, C96_configuration_partial, C96_defaults, C97_quote_violated, C97_backslash_violated, C97_runs_value_violated, C97_backslashes_partial, C97_variables_partial, C98_no_hang_partial, C98_returns_partial, C98_actors_partial, C98_actors_return_partial, C99_sequence_exactly_partial, C101_submit_violated, C101_actor_methods_violated, C101_private_violated, C101_public_names_partial, C101_private_names_partial, C101_no_other_method, C101_exact_partial, C101_otherwise_partial, C102_all_partial, C102_one_actor_partial, C102_creation_partial, C102_passing_partial, C103_well_behaved_partial, C103_exact_partial, C105_violated, C105_worker_partial, C105_monitor, C106_mpi_partial, C106_mpi_once_partial, C106_processes, C107_alone_partial, C107_calls_partial, C107_freed_partial, C107_mpi_freed_partial, C107_lost_partial, C108_violated, C108_all_violated, C108_service_violated, C108_starts_partial, C108_exactly_partial, C109_when_partial, C109_held_partial, C110_exact_partial, C110_queue_partial, C110_methods_partial, C110_returns_partial, C111_recorded, C112_exact_partial, C112_large_violated, C112_copying_violated, C112_fits_partial, C112_messages_partial, C114_batch_violated, C114_result_violated, C114_start_partial, C114_regular_partial, C114_none_left_partial, C114_parts, C116_version_of_checkout, C116_describe_round_trip, C116_describe_short, C116_date, C116_version_identifies_partial, C116_collision_partial, C117_names_partial, C117_archive_partial, C117_archive_and_checkout_agree, C117_date, C118_union_partial, C119_exactly_partial, C120_line_partial, C120_operations_exact_partial, C120_line_determines, C121_refused_exactly_partial, C121_importable_partial, C122_local_violated, C123_refused_exactly_partial, C123_cycle_violated, C123_depth_violated, C123_levels_partial, C124_good_partial, C124_exactly_partial, C124_threshold_partial, C125_suffice_partial, C125_exhausted_violated, C125_default_violated, C126_exactly_partial, C127_right_values, C127_right_everywhere, C127_same_program, C127_all_gets_answered, C128_mpi_partial, C128_pymp_partial, C128_same_partial, C129_exact_partial, C129_program_partial, C131_pymp_partial, C131_pymp_states_partial, C131_pyseq_partial, C131_mpi_partial, C132_local_object, C133_violated, C133_exactly_partial, C133_together_partial, C133_no_room_violated, C133_default_partial, C133_same_partial, C134_whole_partial, C134_exactly_partial, C134_violated, C134_monitor_violated, C134_program_violated, C135_uninterrupted_partial, C135_values_partial, C135_raises_partial, C135_forever_violated, C136_received_partial, C137_ends_exactly_partial, C137_mpi_exactly_partial, C137_pymp_exactly_partial, C137_dask_exactly_partial, C137_contract_partial, C138_kept_violated, C138_partial, C138_monitor_exactly_partial, C138_waits_exactly_partial, C138_kept_exactly_partial, C139_exactly_partial, C139_usable_partial, C139_forgotten_partial, C139_values_violated, C139_collected_violated, C141_once_partial, C141_local_partial, C141_least_exactly_partial, C141_cancelled_violated, C141_violated, C141_lost_exactly_partial, C141_possible_partial, C141_pymp_possible_partial, C142_good_partial, C142_own_partial, C142_second_violated, C142_stray_violated, C142_lost_violated, C142_violated, C143_named_partial, C143_refused_exactly_partial, C143_dropped_violated, C143_decorator_violated, C143_violated, C144_needed_partial, C144_kept_partial, C144_put_partial, C144_size_partial, C144_unbounded_violated, C144_orphan_violated, C145_result_exactly_partial, C145_placed_partial, C145_stuck_exactly_partial, C145_noget_partial, C145_function_violated, C145_violated, C146_first_violated, C146_all_violated, C146_violated, C146_siblings_partial, C146_earlier_partial, C146_main_partial, C146_own_exactly_partial, C147_index_violated, C147_violated, C147_index_partial, C147_functions_partial, C148_first_violated, C148_hangs_violated, C148_violated, C148_stuck_exactly_partial, C148_self_partial, C148_ends_partial, C148_careful_partial, C148_once_partial, C148_results_partial, C148_fails_partial, C149_never_violated, C149_data_partial, C149_one_partial, C149_inner_partial, C149_kept_partial, C149_loop_partial, C149_orders_partial
