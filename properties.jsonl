{"id": "C01", "title": "Live shared-memory reservations never overlap", "statement": "Whatever sequence of reservations and releases a host's monitor serves, any two objects that hold shared memory at the same time occupy disjoint byte ranges, and every range lies inside the allocated segment.", "quantifier": "all segment sizes and all finite histories of reserve / release requests with positive sizes", "why_tests_cant": "The number of histories is unbounded and the free list is split and merged differently by each; a test exercises a handful of orders.", "anchors": ["unidist/core/backends/mpi/core/monitor/shared_memory_manager.py:FreeMemoryRange.occupy", "unidist/core/backends/mpi/core/monitor/shared_memory_manager.py:FreeMemoryRange.release"]}
{"id": "C02", "title": "Free shared memory is fully coalesced and every fitting request is served", "statement": "A reservation of n bytes is refused only if no n consecutive free bytes exist; when all objects have been released the whole segment is again available as one block, so no history of puts and drops fragments the segment permanently.", "quantifier": "all segment sizes, all histories, all request sizes n >= 1", "why_tests_cant": "Fragmentation bugs only show after particular interleavings of frees; completeness is a statement about all of them.", "anchors": ["unidist/core/backends/mpi/core/monitor/shared_memory_manager.py:FreeMemoryRange.occupy", "unidist/core/backends/mpi/core/monitor/shared_memory_manager.py:FreeMemoryRange.release"]}
{"id": "C03", "title": "Two live shared objects never share metadata cells", "statement": "The four metadata words of every object stored in shared memory are aligned to a multiple of four, lie inside the metadata area and are disjoint from those of every other live object.", "quantifier": "all metadata area sizes and all histories of puts and cleanups", "why_tests_cant": "A clash needs a specific history of frees; it silently corrupts reference counts instead of failing.", "anchors": ["unidist/core/backends/mpi/core/monitor/shared_memory_manager.py:SharedMemoryManager.put", "unidist/core/backends/mpi/core/monitor/shared_memory_manager.py:SharedMemoryManager.clear"]}
{"id": "C04", "title": "A refused shared-memory reservation does not consume capacity", "statement": "If storing an object fails with a memory overflow error, the amount of shared memory and metadata space available to later puts is the same as before the failed attempt.", "quantifier": "all monitor states and all request sizes", "why_tests_cant": "The leak shows only in near-full states and only through later failures; it is a statement about every state.", "anchors": ["unidist/core/backends/mpi/core/monitor/shared_memory_manager.py:SharedMemoryManager.put"]}
{"id": "C05", "title": "Reservations are idempotent with exactly one first request", "statement": "Between two cleanups of an object, all reservation requests for it from any processes of a host receive the same memory range and metadata slot, and exactly one of them is told that it is the first and must fill the range.", "quantifier": "all request sequences from any number of processes, any interleaving with requests and cleanups of other objects", "why_tests_cant": "Depends on the order in which processes' requests reach the monitor; tests see one order.", "anchors": ["unidist/core/backends/mpi/core/monitor/loop.py:monitor_loop", "unidist/core/backends/mpi/core/monitor/shared_memory_manager.py:SharedMemoryManager.get", "unidist/core/backends/mpi/core/monitor/shared_memory_manager.py:SharedMemoryManager.put"]}
{"id": "C06", "title": "Shared memory is not reclaimed while any host holds references", "statement": "When every monitor processes the cleanup requests in the same order, a cleanup frees an object's memory on a host only if at that moment no host has a positive reference count for it; objects that are still referenced are kept for the next cleanup and never forgotten.", "quantifier": "any number of hosts, all reference-count states, all sequences of cleanup lists", "why_tests_cant": "Reclaiming live memory corrupts user data only if a racing reader exists at that time; all hosts and histories have to be considered.", "anchors": ["unidist/core/backends/mpi/core/monitor/shared_memory_manager.py:SharedMemoryManager.clear"]}
{"id": "C07", "title": "Hosts agree on what to reclaim for any delivery order", "statement": "All monitors take the same reclaim decision for every object no matter in which order the cleanup requests of different processes are delivered to each of them.", "quantifier": "all delivery orders of cleanup lists sent by two or more processes to two or more monitors", "why_tests_cant": "Needs two clean-up senders and two hosts with different arrival orders; timing dependent and multi-host.", "anchors": ["unidist/core/backends/mpi/core/monitor/shared_memory_manager.py:SharedMemoryManager.clear", "unidist/core/backends/mpi/core/controller/garbage_collector.py:GarbageCollector._send_cleanup_request"]}
{"id": "C08", "title": "Data written to shared memory is read back unchanged", "statement": "Reading an object from its shared memory range returns exactly the serialized body and raw buffers that were written, in order, and the write changes no byte outside the object's reserved range.", "quantifier": "all bodies, all lists of raw buffers of any lengths that are copied exactly (C124), all reservations and all prior memory contents", "why_tests_cant": "Offsets accumulate over arbitrary buffer lists; boundary errors would corrupt neighbouring objects silently.", "anchors": ["unidist/core/backends/mpi/core/shared_object_store.py:SharedObjectStore._write_to_shared_buffer", "unidist/core/backends/mpi/core/shared_object_store.py:SharedObjectStore._read_from_shared_buffer"]}
{"id": "C09", "title": "Oversized writes are refused without touching other objects", "statement": "If an object does not fit into the reserved range the write fails with an error and no byte outside the reserved range is modified; if it fits the write succeeds.", "quantifier": "all objects, reservations and memory contents", "why_tests_cant": "Error paths with partially written buffer lists are unbounded in number.", "anchors": ["unidist/core/backends/mpi/core/shared_object_store.py:SharedObjectStore._write_to_shared_buffer"]}
{"id": "C10", "title": "Lock-free readers never accept a half-published object", "statement": "At every point of the publication of a shared object, a process that checks the metadata without the lock and finds the object's identity also finds its valid start offset and a reference count of at least the publisher's reference.", "quantifier": "every instruction-level interleaving of one publisher with readers (sequentially consistent memory), every previous slot content of a free slot", "why_tests_cant": "A race window of a few instructions cannot be hit reliably by tests.", "anchors": ["unidist/core/backends/mpi/core/shared_object_store.py:SharedObjectStore._put_service_info", "unidist/core/backends/mpi/core/shared_object_store.py:SharedObjectStore._check_service_info", "unidist/core/backends/mpi/core/shared_object_store.py:SharedObjectStore.delete_service_info"]}
{"id": "C11", "title": "Shared reference count equals the number of outstanding holders", "statement": "For a published object the shared reference count always equals the number of holder registrations that have not been finalized yet, so it is positive while any process of the host can still use the object and zero once all of them dropped it.", "quantifier": "all interleavings of publish, get and drop by any number of processes on a host", "why_tests_cant": "Under- or over-counting depends on the schedule and leads to a leak or to use-after-free much later.", "anchors": ["unidist/core/backends/mpi/core/shared_object_store.py:SharedObjectStore._increment_ref_number", "unidist/core/backends/mpi/core/shared_object_store.py:SharedObjectStore._decrement_ref_number", "unidist/core/backends/mpi/core/shared_object_store.py:SharedObjectStore._put_service_info"]}
{"id": "C12", "title": "Shared segment sizes respect the allowed memory", "statement": "If start-up succeeds, the object segment and the metadata segment both have non-negative sizes and together fit in the allowed memory, for every combination of set and unset size options; a combination that cannot fit is refused.", "quantifier": "all available memory sizes below 64 TiB, thresholds and option combinations with non-negative sizes", "why_tests_cant": "Integer divisions over all sizes; tests run on the sizes of one machine.", "anchors": ["unidist/core/backends/mpi/core/shared_object_store.py:SharedObjectStore._allocate_shared_memory"]}
{"id": "C13", "title": "Metadata space is never the bottleneck with default sizing", "statement": "With neither size option set and a sharing threshold of more than 99 metadata records, a set of live objects each larger than the threshold that fits in the object segment also has metadata slots for all of them.", "quantifier": "all available memory sizes below 64 TiB, thresholds and all multisets of object sizes above the threshold", "why_tests_cant": "A statement about all sizes and object mixes; filling real shared memory in a test is impractical.", "anchors": ["unidist/core/backends/mpi/core/shared_object_store.py:SharedObjectStore._allocate_shared_memory", "unidist/core/backends/mpi/core/monitor/shared_memory_manager.py:SharedMemoryManager.put"]}
{"id": "C14", "title": "Buffers of any length survive chunked transfer", "statement": "A buffer sent in blocks and received in blocks arrives byte for byte equal, for every length including zero and exact multiples of the block size, using the same number of messages on both sides.", "quantifier": "all buffer lengths and all positive block sizes", "why_tests_cant": "The real block size is about 2 GiB; tests never send more than one block.", "anchors": ["unidist/core/backends/mpi/core/communication.py:mpi_send_buffer", "unidist/core/backends/mpi/core/communication.py:mpi_isend_buffer", "unidist/core/backends/mpi/core/communication.py:mpi_recv_buffer"]}
{"id": "C15", "title": "Composite messages are reassembled exactly", "statement": "A data package sent as metadata, body and raw buffers is reassembled by the receiver into the same body, buffers and metadata, even if messages of other senders arrive in between and several packages of the same sender are queued.", "quantifier": "all packages, all numbers of queued packages, all interleavings of senders (per-sender order preserved)", "why_tests_cant": "Interleavings of many senders on one mailbox are schedule dependent.", "anchors": ["unidist/core/backends/mpi/core/communication.py:_send_complex_data_impl", "unidist/core/backends/mpi/core/communication.py:_isend_complex_data_impl", "unidist/core/backends/mpi/core/communication.py:recv_complex_data"]}
{"id": "C16", "title": "Parallel memory copy copies exactly the requested bytes", "statement": "Copying n bytes with the multi-threaded copy makes the destination equal to the source on exactly n bytes, with no access outside either buffer, whatever the address alignment.", "quantifier": "all lengths n >= 1, all source alignments, all thread counts >= 1", "why_tests_cant": "Depends on the address alignment chosen by the allocator at run time; wrong results are memory corruption.", "anchors": ["unidist/core/backends/mpi/core/memory/memory.cpp:parallel_memcopy"]}
{"id": "C17", "title": "Objects survive serialization unchanged", "statement": "De-serializing a serialized object gives an equal object for every nesting of lists, tuples, dictionaries, scalars, arrays and arbitrary picklable leaves.", "quantifier": "all finite nested objects", "why_tests_cant": "Infinitely many shapes; marker keys and container kinds interact.", "anchors": ["unidist/core/backends/mpi/core/serialization.py:ComplexDataSerializer.serialize", "unidist/core/backends/mpi/core/serialization.py:ComplexDataSerializer.deserialize", "unidist/core/backends/mpi/core/serialization.py:ComplexDataSerializer._decode_custom"]}
{"id": "C18", "title": "Out-of-band buffers return to the object they came from", "statement": "When several arrays or data frames are nested in one object, each gets back its own large buffers, whatever the mixture of buffers above and below the out-of-band threshold.", "quantifier": "all nested objects, all buffer sizes and thresholds", "why_tests_cant": "A mix-up needs particular combinations of sizes; the failing result has plausible shape but wrong content.", "anchors": ["unidist/core/backends/mpi/core/serialization.py:ComplexDataSerializer._buffer_callback", "unidist/core/backends/mpi/core/serialization.py:ComplexDataSerializer._dataframe_encode", "unidist/core/backends/mpi/core/serialization.py:ComplexDataSerializer._decode_custom"]}
{"id": "C19", "title": "A stored object can be read and forwarded any number of times", "statement": "Reading an object from the process that put it does not change what later readers or remote tasks receive: every later de-serialization of the stored form gives the same object.", "quantifier": "all stored objects and all sequences of local reads and forwards", "why_tests_cant": "Needs read-then-forward histories with large buffers on a configuration without shared memory.", "anchors": ["unidist/core/backends/mpi/core/object_store.py:ObjectStore.get", "unidist/core/backends/mpi/core/serialization.py:deserialize_complex_data", "unidist/core/backends/mpi/core/serialization.py:ComplexDataSerializer._decode_custom"]}
{"id": "C20", "title": "Object references are globally unique", "statement": "No two different put or submit results, from any processes at any times, have the same reference identity.", "quantifier": "all numbers of processes and all interleavings of id generation", "why_tests_cant": "Uniqueness quantifies over all processes and whole program histories.", "anchors": ["unidist/core/backends/mpi/core/local_object_store.py:LocalObjectStore.generate_data_id", "unidist/core/backends/mpi/core/local_object_store.py:LocalObjectStore.generate_output_data_id"]}
{"id": "C21", "title": "Shared metadata identifies exactly one object", "statement": "The pair of numbers written into shared metadata for a reference determines the reference: different references are never mistaken for each other, whatever textual form of the reference is parsed.", "quantifier": "all ranks and all data numbers", "why_tests_cant": "Statement over all naturals and their decimal texts.", "anchors": ["unidist/core/backends/mpi/core/shared_object_store.py:SharedObjectStore._parse_data_id", "unidist/core/backends/mpi/core/common.py:MpiDataID"]}
{"id": "C22", "title": "Each dropped reference is reported for cleanup exactly once", "statement": "In the process that created a reference, copies that travel to other processes and back are the same object while any is alive, and dropping the last one reports the reference for cleanup exactly once; processes that only received it never report it.", "quantifier": "all sequences of create, receive copy, drop in one process", "why_tests_cant": "Copy/drop histories are unbounded and dropping is driven by the garbage collector.", "anchors": ["unidist/core/backends/mpi/core/common.py:MpiDataID.__new__", "unidist/core/backends/mpi/core/common.py:MpiDataID.__init__", "unidist/core/backends/mpi/core/common.py:MpiDataID.__del__"]}
{"id": "C23", "title": "Tasks are only scheduled on free workers", "statement": "The scheduler returns only worker processes that are not the calling process and not reserved for an actor, and reports that all are blocked only if every other worker is reserved.", "quantifier": "all worker sets, all reservation sets, all positions of the rotation", "why_tests_cant": "State space of reservations times rotation position is unbounded.", "anchors": ["unidist/core/backends/mpi/core/controller/common.py:RoundRobin.schedule_rank"]}
{"id": "C24", "title": "Task placement is fair", "statement": "Without reserved workers, the numbers of tasks placed on any two workers by one process differ by at most one after any number of submissions; with reservations every free worker is used at least once in each full round.", "quantifier": "all numbers of workers and submissions", "why_tests_cant": "Statement over unbounded submission sequences.", "anchors": ["unidist/core/backends/mpi/core/controller/common.py:RoundRobin.schedule_rank"]}
{"id": "C25", "title": "An actor keeps its worker to itself", "statement": "From creation of an actor until all its handles in the creating process are dropped, that process places no task and no other actor on the actor's worker; afterwards the worker is used again.", "quantifier": "all histories of task submissions, actor creations, handle copies and drops in one process", "why_tests_cant": "Histories are unbounded; a wrong release order shows only in some.", "anchors": ["unidist/core/backends/mpi/core/controller/actor.py:Actor.__init__", "unidist/core/backends/mpi/core/controller/actor.py:Actor.__del__", "unidist/core/backends/mpi/core/controller/common.py:RoundRobin.reserve_rank", "unidist/core/backends/mpi/core/controller/common.py:RoundRobin.release_rank"]}
{"id": "C26", "title": "An actor keeps its worker to itself across processes", "statement": "No process of the cluster places a task or another actor on a worker that is reserved for an actor of any process.", "quantifier": "all histories of submissions and actor creations by all processes", "why_tests_cant": "Needs several submitting processes (nested tasks) with particular rotations.", "anchors": ["unidist/core/backends/mpi/core/controller/common.py:RoundRobin"]}
{"id": "C27", "title": "Multiprocessing scheduler uses only free workers", "statement": "On the multiprocessing backend a task never goes to a worker occupied by an actor, two live actors never share a worker, submission fails only if all workers are occupied, and releasing an actor makes its worker usable again.", "quantifier": "all numbers of workers and all histories of submit / create actor / drop actor", "why_tests_cant": "Unbounded histories.", "anchors": ["unidist/core/backends/pymp/core/process_manager.py:ProcessManager.submit", "unidist/core/backends/pymp/core/process_manager.py:ProcessManager.grab_worker", "unidist/core/backends/pymp/core/process_manager.py:ProcessManager.free_worker"]}
{"id": "C28", "title": "Every process has exactly one role", "statement": "After start-up on hosts that report different addresses each MPI process is exactly one of root, monitor or worker, the worker list has no duplicates, and all processes agree on the roles.", "quantifier": "all host layouts (any number of hosts and processes per host, any rank placement) accepted at start-up, with and without shared memory", "why_tests_cant": "Layouts are unbounded; CI uses one host.", "anchors": ["unidist/core/backends/mpi/core/communication.py:MPIState"]}
{"id": "C29", "title": "Workers use the monitor of their own host", "statement": "With shared memory enabled the monitor assigned to a process runs on the same host as the process; without it all processes use one common monitor; a layout where some host has no monitor is rejected.", "quantifier": "all host layouts", "why_tests_cant": "Multi-host layouts are not available to unit tests.", "anchors": ["unidist/core/backends/mpi/core/communication.py:MPIState.get_monitor_by_worker_rank"]}
{"id": "C30", "title": "Reported cluster resources match the workers", "statement": "The CPU counts reported per host add up to the number of worker processes, and when the library starts the processes itself and they run on as many hosts as configured this number equals the configured CPU count; on fewer or more hosts it is larger or smaller by the difference.", "quantifier": "all host layouts and CPU counts", "why_tests_cant": "Statement over all layouts.", "anchors": ["unidist/core/backends/mpi/core/controller/api.py:cluster_resources", "unidist/core/backends/mpi/core/controller/api.py:init"]}
{"id": "C31", "title": "Slots are balanced over hosts", "statement": "With several hosts under Open MPI the slots requested per host add up exactly to the number of processes (including the root) and differ by at most one between hosts.", "quantifier": "all CPU counts and host counts >= 1", "why_tests_cant": "Arithmetic over all pairs; no multi-host tests.", "anchors": ["unidist/core/backends/mpi/core/controller/api.py:init"]}
{"id": "C32", "title": "Results do not depend on the schedule", "statement": "For a program of pure tasks, every value returned by get equals the value obtained by evaluating the tasks sequentially in submission order, for every message delivery order and worker speed.", "quantifier": "all programs (DAGs of tasks over references and plain values), all numbers of workers, all schedules", "why_tests_cant": "The number of schedules is unbounded.", "anchors": ["unidist/core/backends/mpi/core/worker/loop.py:worker_loop", "unidist/core/backends/mpi/core/worker/task_store.py:TaskStore.process_task_request", "unidist/core/backends/mpi/core/worker/task_store.py:TaskStore.check_pending_tasks", "unidist/core/backends/mpi/core/worker/request_store.py:RequestStore.process_get_request"]}
{"id": "C33", "title": "Each submitted task runs at most once and only with resolved arguments", "statement": "Every submitted task is executed at most once over the whole run, and at its execution every reference among its arguments has been replaced by the referenced value.", "quantifier": "all programs and schedules", "why_tests_cant": "Double execution or early execution needs particular message orders.", "anchors": ["unidist/core/backends/mpi/core/worker/task_store.py:TaskStore.process_task_request", "unidist/core/backends/mpi/core/worker/task_store.py:TaskStore.check_pending_tasks"]}
{"id": "C34", "title": "get of a list returns the values in order", "statement": "get of a list of references returns a list of the same length whose i-th element is the value of the i-th reference, whatever order the values arrive in, including lists that mention a reference several times.", "quantifier": "all reference lists, all arrival orders", "why_tests_cant": "Arrival orders and duplicate patterns are unbounded.", "anchors": ["unidist/core/backends/mpi/core/controller/api.py:get", "unidist/core/backends/mpi/core/controller/common.py:request_worker_data"]}
{"id": "C35", "title": "get of a failed task raises every time", "statement": "If the task of a reference failed, every get of this reference raises the task's exception, the first time and every later time.", "quantifier": "all sequences of get calls over all mixes of failed and successful references", "why_tests_cant": "Behaviour depends on the history of earlier gets.", "anchors": ["unidist/core/backends/mpi/core/controller/common.py:request_worker_data", "unidist/core/backends/mpi/core/controller/api.py:get"]}
{"id": "C36", "title": "A failed argument fails the dependent task without running it", "statement": "If a reference passed as a direct argument refers to a failed task, the dependent task's function is not called and the dependent reference carries the same exception, transitively along every chain.", "quantifier": "all task graphs", "why_tests_cant": "Quantifies over all graphs.", "anchors": ["unidist/core/backends/mpi/core/worker/task_store.py:TaskStore.execute_received_task"]}
{"id": "C37", "title": "Every data request is answered exactly once", "statement": "Each blocking data request of a process receives exactly one reply once the data exists; requests that arrive before the data are kept and answered when it appears, none is dropped or answered twice.", "quantifier": "all interleavings of requests from all ranks with data production", "why_tests_cant": "A dropped reply shows as a hang for one particular interleaving.", "anchors": ["unidist/core/backends/mpi/core/worker/request_store.py:RequestStore.process_get_request", "unidist/core/backends/mpi/core/worker/request_store.py:RequestStore.check_pending_get_requests", "unidist/core/backends/mpi/core/controller/common.py:push_data", "unidist/core/backends/mpi/core/controller/common.py:_push_local_data"]}
{"id": "C38", "title": "A task whose arguments are all available is not left waiting", "statement": "Whenever a worker is idle, no task it holds back has all its arguments available in that worker, for plain and actor tasks.", "quantifier": "all programs and schedules", "why_tests_cant": "A lost wake-up appears only for specific orders of arrival and completion.", "anchors": ["unidist/core/backends/mpi/core/worker/task_store.py:TaskStore.check_pending_tasks", "unidist/core/backends/mpi/core/worker/task_store.py:TaskStore.check_pending_actor_tasks", "unidist/core/backends/mpi/core/worker/loop.py:worker_loop"]}
{"id": "C39", "title": "wait returns a correct partition", "statement": "When wait returns, ready and not-ready together contain exactly the given references, ready has exactly num_returns elements and every ready reference has been computed.", "quantifier": "all reference lists, all num_returns with 1 <= num_returns <= length, all completion orders", "why_tests_cant": "Completion order is schedule dependent.", "anchors": ["unidist/core/backends/mpi/core/controller/api.py:wait", "unidist/core/backends/mpi/core/monitor/loop.py:WaitHandler.process_wait_requests"]}
{"id": "C40", "title": "wait returns once enough tasks have finished", "statement": "wait with any num_returns from 0 to the number of references returns after at least num_returns of the awaited tasks have finished, whether they succeeded or failed; asking for more than there are does not block forever.", "quantifier": "all reference lists, num_returns values, outcomes and completion orders", "why_tests_cant": "Non-termination cannot be observed by a test, only suspected.", "anchors": ["unidist/core/backends/mpi/core/monitor/loop.py:WaitHandler.process_wait_requests", "unidist/core/backends/mpi/core/worker/task_store.py:TaskStore.execute_received_task"]}
{"id": "C41", "title": "num_returns determines the shape of the result", "statement": "A task submitted with num_returns n gives None for 0, one reference for 1 and a list of n distinct references for n > 1, and the i-th reference of the list carries the i-th value returned by the function.", "quantifier": "all n and all returned sequences with n elements", "why_tests_cant": "Statement over all n.", "anchors": ["unidist/core/backends/mpi/core/local_object_store.py:LocalObjectStore.generate_output_data_id", "unidist/core/backends/mpi/core/worker/task_store.py:TaskStore.execute_received_task"]}
{"id": "C42", "title": "A task returning too few values reports it", "statement": "If a function submitted with num_returns n > 1 returns fewer than n values, getting the missing references terminates with an error.", "quantifier": "all n and all shorter results", "why_tests_cant": "Failure mode is a hang.", "anchors": ["unidist/core/backends/mpi/core/worker/task_store.py:TaskStore.execute_received_task"]}
{"id": "C43", "title": "A failing fire-and-forget task does not harm its worker", "statement": "A task submitted with num_returns 0 that raises leaves the worker process able to serve all later tasks and requests.", "quantifier": "all failing tasks and subsequent workloads", "why_tests_cant": "The effect is on later, unrelated operations.", "anchors": ["unidist/core/backends/mpi/core/worker/task_store.py:TaskStore.execute_received_task", "unidist/core/backends/mpi/core/local_object_store.py:LocalObjectStore.put"]}
{"id": "C44", "title": "Actor methods run in call order", "statement": "Method calls made by one process on one actor are executed in the order in which they were called, so the actor's state evolves as in a sequential program.", "quantifier": "all call sequences, all argument availabilities and schedules", "why_tests_cant": "Reordering needs an argument that becomes available late.", "anchors": ["unidist/core/backends/mpi/core/worker/task_store.py:TaskStore.check_pending_actor_tasks", "unidist/core/backends/mpi/core/worker/loop.py:worker_loop"]}
{"id": "C45", "title": "Cleanup is not broadcast while submitted tasks are outstanding", "statement": "When a process broadcasts a cleanup, every task and actor method submitted before has finished, so no outstanding task can still need a cleaned reference.", "quantifier": "all histories of submissions, completions and cleanup attempts by all processes", "why_tests_cant": "Depends on the race between task completion and cleanup triggers.", "anchors": ["unidist/core/backends/mpi/core/controller/garbage_collector.py:GarbageCollector.regular_cleanup", "unidist/core/backends/mpi/core/monitor/loop.py:TaskCounter"]}
{"id": "C46", "title": "Every dropped reference is cleaned up exactly once", "statement": "Each reference reported for cleanup is contained in at most one broadcast; it stays queued until it is broadcast, and a broadcast reaches every worker and monitor except the sender.", "quantifier": "all histories of drops and cleanup triggers, all clock readings", "why_tests_cant": "Clock- and counter-dependent trigger logic over unbounded histories.", "anchors": ["unidist/core/backends/mpi/core/controller/garbage_collector.py:GarbageCollector.collect", "unidist/core/backends/mpi/core/controller/garbage_collector.py:GarbageCollector.regular_cleanup"]}
{"id": "C47", "title": "Cleanup keeps happening", "statement": "A process that keeps dropping references and making API calls, with all its submitted work finished, eventually broadcasts the dropped references.", "quantifier": "all workloads, including ones that use actors or several submitting processes", "why_tests_cant": "Liveness over unbounded histories.", "anchors": ["unidist/core/backends/mpi/core/controller/garbage_collector.py:GarbageCollector.regular_cleanup", "unidist/core/backends/mpi/core/controller/actor.py:ActorMethod.__call__"]}
{"id": "C48", "title": "Received data stays available until its owner releases it", "statement": "Data or location information that a process received for a reference of another process remains available in it until the reference's owner broadcasts its cleanup, no matter which local copies of the reference are dropped.", "quantifier": "all sequences of receive, drop and cleanup", "why_tests_cant": "Lifetime depends on the garbage collector's timing.", "anchors": ["unidist/core/backends/mpi/core/local_object_store.py:LocalObjectStore.maybe_update_data_id_map", "unidist/core/backends/mpi/core/local_object_store.py:LocalObjectStore.put", "unidist/core/backends/mpi/core/local_object_store.py:LocalObjectStore.clear"]}
{"id": "C49", "title": "A task's references are known to its worker before the task arrives", "statement": "When a worker processes a task, for each reference nested anywhere in its arguments the worker already has the data or knows which process owns it; no task fails because a reference is missing, and each datum is sent to a worker at most once.", "quantifier": "all argument shapes and all submission histories of one process", "why_tests_cant": "Argument shapes and the already-sent history are unbounded.", "anchors": ["unidist/core/backends/mpi/core/controller/common.py:push_data", "unidist/core/backends/mpi/core/controller/common.py:_push_local_data", "unidist/core/backends/mpi/core/controller/common.py:_push_data_owner", "unidist/core/backends/mpi/core/worker/task_store.py:TaskStore.unwrap_local_data_id"]}
{"id": "C50", "title": "Shutdown is orderly", "statement": "During shutdown no worker leaves its loop before every worker has announced that it is ready, every worker and monitor leaves, the root returns only after all were told to stop, and no process receives a message after it left.", "quantifier": "all numbers of workers and hosts and all message delivery orders", "why_tests_cant": "Delivery orders are unbounded; failures are crashes at exit.", "anchors": ["unidist/core/backends/mpi/core/controller/api.py:shutdown", "unidist/core/backends/mpi/core/monitor/loop.py:monitor_loop", "unidist/core/backends/mpi/core/worker/loop.py:worker_loop"]}
{"id": "C51", "title": "Shutdown can be called repeatedly", "statement": "Calling shutdown any number of times has the effect of calling it once: the stop requests are sent once and later calls do nothing.", "quantifier": "all numbers of calls", "why_tests_cant": "Statement about every repetition, including the implicit call at exit.", "anchors": ["unidist/core/backends/mpi/core/controller/api.py:shutdown"]}
{"id": "C52", "title": "Buffers of unfinished sends are kept alive", "statement": "Data handed to a non-blocking send stays referenced until that send has completed, whatever the completion order, and is released after completion at the next check; finishing leaves no unfinished send.", "quantifier": "all sequences of sends, checks and completion patterns", "why_tests_cant": "Completion order is decided by the MPI library.", "anchors": ["unidist/core/backends/mpi/core/async_operations.py:AsyncOperations.extend", "unidist/core/backends/mpi/core/async_operations.py:AsyncOperations.check", "unidist/core/backends/mpi/core/async_operations.py:AsyncOperations.finish"]}
{"id": "C53", "title": "References in nested arguments are replaced by values", "statement": "A task receives its arguments with every reference, at any depth of lists, tuples and dictionaries, replaced by its value and everything else unchanged; attempts made while some values are missing do not change the final result.", "quantifier": "all argument structures, all orders in which values become available", "why_tests_cant": "Argument shapes and availability orders are unbounded.", "anchors": ["unidist/core/backends/mpi/core/common.py:materialize_data_ids", "unidist/core/backends/mpi/core/worker/task_store.py:TaskStore.process_task_request"]}
{"id": "C54", "title": "Shared memory support is decided by configuration and MPI version", "statement": "Shared memory is used exactly if it is enabled, the MPI standard version is at least 3 and the library is not an MPICH older than 4.2.0 with spawned processes, where versions are compared numerically component by component.", "quantifier": "all configurations and version strings of numeric components", "why_tests_cant": "All versions; a CI job has one.", "anchors": ["unidist/core/backends/mpi/core/common.py:is_shared_memory_supported", "unidist/core/backends/mpi/core/common.py:check_mpich_version"]}
{"id": "C55", "title": "Configuration sources have a fixed precedence", "statement": "The value of a parameter is the one set by the program if any, otherwise the one from the environment variable if set, otherwise the default, and the reported source agrees; later reads return the same until it is set again.", "quantifier": "all parameters and all sequences of reads and sets, all environments", "why_tests_cant": "Unbounded operation sequences; caching can break precedence.", "anchors": ["unidist/config/parameter.py:Parameter.get", "unidist/config/parameter.py:Parameter.put", "unidist/config/parameter.py:Parameter.get_value_source"]}
{"id": "C56", "title": "Setting a parameter by text agrees with the environment", "statement": "Setting a parameter in the program to a textual value has the same effect as giving that text in the environment variable.", "quantifier": "all parameter types and all texts", "why_tests_cant": "All texts per type.", "anchors": ["unidist/config/parameter.py:_TYPE_PARAMS", "unidist/config/parameter.py:Parameter.put", "unidist/config/parameter.py:Parameter.get"]}
{"id": "C57", "title": "A parameter with choices never yields another value", "statement": "A read of a parameter with a fixed set of choices either returns one of the choices (or the default) or raises an error, and an invalid value is rejected when it is set.", "quantifier": "all values and operation sequences", "why_tests_cant": "All values and histories.", "anchors": ["unidist/config/parameter.py:Parameter.get", "unidist/config/parameter.py:Parameter.put"]}
{"id": "C58", "title": "The out-of-band threshold follows the shared store", "statement": "With the shared object store enabled the threshold at which the serializer keeps buffers out of band equals the shared store's threshold, otherwise its own value; in the first case every object with an out-of-band buffer is large enough to be shared.", "quantifier": "all programs that set and read the three parameters, in any order with calls of unidist", "why_tests_cant": "All combinations of settings.", "anchors": ["unidist/config/backends/mpi/envvars.py:MpiPickleThreshold.get", "unidist/core/backends/mpi/core/serialization.py:ComplexDataSerializer._buffer_callback"]}
{"id": "C59", "title": "The default backend is the best installed one", "statement": "Without a configured backend the library picks MPI if installed, else Ray, else Dask, else multiprocessing, and refuses an installed but too old version instead of silently falling back.", "quantifier": "all combinations of installed packages and versions", "why_tests_cant": "One environment has one combination.", "anchors": ["unidist/config/backends/common/envvars.py:Backend._get_default"]}
{"id": "C60", "title": "Decorator arguments are validated", "statement": "Decorating a function accepts exactly the non-negative integers (or nothing) as num_returns, decorating a class accepts no num_returns, and anything else is rejected with an error at decoration time.", "quantifier": "all decorated objects and num_returns values", "why_tests_cant": "All values.", "anchors": ["unidist/api.py:make_decorator"]}
{"id": "C61", "title": "User arguments reach the function unchanged", "statement": "Positional and keyword arguments given to a remote call reach the user function with the same names and values (references replaced as documented), whatever the keyword names are.", "quantifier": "all keyword names and argument lists", "why_tests_cant": "All names; a clash needs a particular one.", "anchors": ["unidist/core/base/remote_function.py:RemoteFunction", "unidist/core/backends/mpi/core/controller/api.py:submit", "unidist/core/backends/pymp/core/api.py:submit"]}
{"id": "C62", "title": "Reference wrappers are stripped at every depth", "statement": "Before a task is submitted on MPI every reference wrapper at any depth of lists, tuples and dictionaries is replaced by the underlying reference, and nothing else changes.", "quantifier": "all nested structures", "why_tests_cant": "All shapes.", "anchors": ["unidist/core/backends/common/utils.py:unwrap_object_refs"]}
{"id": "C63", "title": "Per-call options do not leak", "statement": "Options given for one call through options() apply to that call only; calls without options use the values of the decorator, in any interleaving.", "quantifier": "all sequences of calls with and without options", "why_tests_cant": "Unbounded call sequences.", "anchors": ["unidist/core/base/remote_function.py:RemoteFunction.options"]}
{"id": "C64", "title": "All API calls go to one backend", "statement": "Once a backend is initialized all later API calls of the process use it; selecting another backend afterwards does not redirect calls.", "quantifier": "all sequences of API calls and configuration changes", "why_tests_cant": "Unbounded sequences.", "anchors": ["unidist/core/base/backend.py:BackendProxy.get_instance", "unidist/core/base/utils.py:get_backend_proxy", "unidist/core/base/utils.py:init_backend"]}
{"id": "C65", "title": "Multiprocessing results do not depend on the schedule", "statement": "On the multiprocessing backend every get returns the value obtained by sequential evaluation, for every interleaving of the workers.", "quantifier": "all programs of tasks with references as top-level arguments, all worker counts and interleavings", "why_tests_cant": "Interleavings are unbounded.", "anchors": ["unidist/core/backends/pymp/core/process_manager.py:Worker.run", "unidist/core/backends/pymp/core/process_manager.py:Task.__call__", "unidist/core/backends/pymp/core/object_store.py:ObjectStore.get"]}
{"id": "C66", "title": "Multiprocessing task graphs never deadlock", "statement": "On the multiprocessing backend, as long as some submitted task is unfinished some worker can make progress, so every submitted task eventually finishes although tasks block a worker while waiting for their arguments.", "quantifier": "all programs, worker counts and interleavings", "why_tests_cant": "Deadlock freedom is a property of all schedules.", "anchors": ["unidist/core/backends/pymp/core/process_manager.py:Worker.run", "unidist/core/backends/pymp/core/process_manager.py:ProcessManager.submit"]}
{"id": "C67", "title": "Multiprocessing wait returns a correct partition", "statement": "On the multiprocessing backend wait returns a partition of the given references with exactly num_returns ready ones, all of them computed.", "quantifier": "all lists, num_returns from 0 to the length and all ready patterns", "why_tests_cant": "All ready patterns.", "anchors": ["unidist/core/backends/pymp/core/object_store.py:ObjectStore.wait"]}
{"id": "C68", "title": "Multiprocessing put followed by get is the identity", "statement": "On the multiprocessing backend getting a reference made by put returns the object that was put.", "quantifier": "all objects, including byte strings, callables and exception objects", "why_tests_cant": "All objects.", "anchors": ["unidist/core/backends/pymp/core/object_store.py:ObjectStore.put", "unidist/core/backends/pymp/core/object_store.py:ObjectStore.get"]}
{"id": "C69", "title": "Multiprocessing actor methods run in call order", "statement": "On the multiprocessing backend the methods of an actor run one after the other in call order.", "quantifier": "all call sequences and interleavings with other workers", "why_tests_cant": "Interleavings.", "anchors": ["unidist/core/backends/pymp/core/actor.py:ActorMethod.submit", "unidist/core/backends/pymp/core/process_manager.py:Worker.run"]}
{"id": "C70", "title": "Multiprocessing tasks fill all their references", "statement": "On the multiprocessing backend, after a task has run every reference created for it has a value or an error, so getting it terminates.", "quantifier": "all num_returns and all results or failures", "why_tests_cant": "The failure mode is a hang.", "anchors": ["unidist/core/backends/pymp/core/process_manager.py:Worker.run"]}
{"id": "C71", "title": "The sequential backend behaves like direct calls", "statement": "On the sequential backend submitting and getting gives what calling the function directly gives; a raised error is raised by get of each of its references; wait returns the first num_returns references and the rest.", "quantifier": "all programs", "why_tests_cant": "All programs.", "anchors": ["unidist/core/backends/pyseq/core/api.py:submit", "unidist/core/backends/pyseq/backend.py:PySeqBackend.wait"]}
{"id": "C72", "title": "Backends agree on failed arguments", "statement": "Submitting a task whose argument refers to a failed task succeeds on every backend and the error appears when the result is requested.", "quantifier": "all task graphs with failures, backends MPI, multiprocessing and sequential", "why_tests_cant": "Comparison of backends over all graphs.", "anchors": ["unidist/core/backends/pyseq/core/api.py:submit", "unidist/core/backends/pymp/core/process_manager.py:Task.__call__", "unidist/core/backends/mpi/core/worker/task_store.py:TaskStore.execute_received_task"]}
{"id": "C73", "title": "Backends agree on nested references", "statement": "A reference nested inside a list argument is presented to the function in the same way (value or reference) on every backend.", "quantifier": "all nested arguments, backends MPI, multiprocessing and sequential", "why_tests_cant": "Comparison over all shapes.", "anchors": ["unidist/core/backends/mpi/core/common.py:materialize_data_ids", "unidist/core/backends/pymp/core/process_manager.py:Task.__call__", "unidist/core/backends/pyseq/core/api.py:submit"]}
{"id": "C74", "title": "Dask wait returns a correct partition", "statement": "On Dask wait returns exactly num_returns ready references, all of them finished, and the rest, together exactly the given references, for num_returns between 1 and their number.", "quantifier": "all reference lists, completion patterns and num_returns", "why_tests_cant": "Completion patterns are schedule dependent.", "anchors": ["unidist/core/backends/dask/backend.py:DaskBackend.wait"]}
{"id": "C75", "title": "Dask cluster resources count every worker thread", "statement": "On Dask the reported CPU counts add up to the threads of all workers for every set of worker addresses.", "quantifier": "all maps of worker addresses to threads", "why_tests_cant": "Depends on the host addresses.", "anchors": ["unidist/core/backends/dask/backend.py:DaskBackend.cluster_resources"]}
{"id": "C76", "title": "Ray object store memory is within system memory", "statement": "The object store size passed to Ray is the configured one if set, otherwise at most the configured fraction of the system memory rounded down to whole gigabytes, absent if that is zero, and capped on macOS.", "quantifier": "all memory sizes below 2^52 bytes, settings and platforms", "why_tests_cant": "All sizes.", "anchors": ["unidist/core/backends/ray/utils.py:_get_object_store_memory"]}
{"id": "C77", "title": "Interpreter options are passed on to spawned processes", "statement": "The command line built for spawned processes contains for each interpreter flag (other than interactive mode) the same option the same number of times, and the warning and extended options in order.", "quantifier": "all interpreter flag settings", "why_tests_cant": "All combinations of flags.", "anchors": ["unidist/core/backends/mpi/core/controller/api.py:_get_py_flags"]}
{"id": "C78", "title": "References embedded in stored objects keep their data alive", "statement": "A reference obtained from inside a stored or returned object can be used to get its data even if the original reference was dropped.", "quantifier": "all sequences of put, embed, drop, cleanup and get", "why_tests_cant": "Lifetime depends on cleanup timing.", "anchors": ["unidist/core/backends/mpi/core/common.py:MpiDataID.__del__", "unidist/core/backends/mpi/core/controller/garbage_collector.py:GarbageCollector.regular_cleanup", "unidist/core/backends/mpi/core/local_object_store.py:LocalObjectStore"]}
{"id": "C79", "title": "The lock-free metadata check never takes one object for another", "statement": "A reader that finds in shared metadata the identity of the object it asks for, read without a lock while a metadata cell is being re-used, really reads the metadata of that object.", "quantifier": "all pairs of old and new objects in a metadata cell, all interleavings of the writer's and the reader's word accesses", "why_tests_cant": "The wrong interleaving has a window of a few machine instructions.", "anchors": ["unidist/core/backends/mpi/core/shared_object_store.py:SharedObjectStore._check_service_info", "unidist/core/backends/mpi/core/shared_object_store.py:SharedObjectStore._put_service_info"]}
{"id": "C80", "title": "Hosts reporting the same address are not confused", "statement": "Every started MPI process gets a role, and its monitor is on its own host, even if several hosts report the same address for themselves (for example 127.0.1.1).", "quantifier": "all layouts of processes over hosts and all addresses reported by the hosts", "why_tests_cant": "Needs several machines with an unusual name resolution; tests run on one machine or on correctly configured clusters.", "anchors": ["unidist/core/backends/mpi/core/communication.py:MPIState"]}
{"id": "C81", "title": "Programs of remote function calls do not hang", "statement": "For a program that only calls remote functions, put and get (without repeated references in one get), the processes make only boundedly many steps for the calls made, and when no message can be received and no coroutine is running any more, the main process is not waiting in get and every submitted task has been executed.", "quantifier": "all programs of put, remote calls and get, all task graphs, all numbers of workers, all orders of message delivery", "why_tests_cant": "A deadlock shows only for one order of arrival; a test that does not hang says nothing about other orders.", "anchors": ["unidist/core/backends/mpi/core/worker/loop.py:worker_loop", "unidist/core/backends/mpi/core/worker/task_store.py:TaskStore.check_pending_tasks", "unidist/core/backends/mpi/core/worker/request_store.py:RequestStore.check_pending_get_requests", "unidist/core/backends/mpi/core/controller/common.py:request_worker_data"]}
{"id": "C82", "title": "Data of unreachable references is released", "statement": "After every operation a process keeps data for a reference only if the program holds a copy of the reference, a kept value contains one, or the reference belongs to another process whose cleanup has not arrived yet; in particular data of a process's own references is released as soon as the last copy is gone.", "quantifier": "all sequences of put, submit, receive, hold, drop, get and cleanup", "why_tests_cant": "A leak needs a particular order of receives, drops and cleanups and shows only as memory growth, which functional tests do not measure.", "anchors": ["unidist/core/backends/mpi/core/local_object_store.py:LocalObjectStore.put", "unidist/core/backends/mpi/core/local_object_store.py:LocalObjectStore.maybe_update_data_id_map", "unidist/core/backends/mpi/core/local_object_store.py:LocalObjectStore.clear"]}
{"id": "C83", "title": "Slots of the hosts add up", "statement": "When processes are spawned over several hosts with Open MPI, the slots requested from the hosts add up to the number of processes including the root, differ by at most one between hosts, and no host gets zero slots when there are at least as many processes as hosts.", "quantifier": "all process counts and host counts", "why_tests_cant": "Needs a multi-host installation and holds for all pairs of numbers.", "anchors": ["unidist/core/backends/mpi/core/controller/api.py:init"]}
{"id": "C84", "title": "Dask reports its CPUs", "statement": "On Dask the reported number of CPUs is the number of threads of all workers.", "quantifier": "all sets of workers", "why_tests_cant": "Test clusters have one thread per worker.", "anchors": ["unidist/core/backends/dask/backend.py:DaskBackend.num_cpus"]}
{"id": "C85", "title": "Ray cluster resources add up", "statement": "On Ray the CPU counts reported for the nodes add up to the CPUs of the cluster.", "quantifier": "all sets of nodes", "why_tests_cant": "Test clusters have one node with CPUs.", "anchors": ["unidist/core/backends/ray/backend.py:RayBackend.cluster_resources", "unidist/core/backends/ray/backend.py:RayBackend.num_cpus"]}
{"id": "C86", "title": "Ray is initialized as configured", "statement": "Ray is initialized unless it already is outside a cluster; in a cluster it connects to the configured or automatic address with the password of the user or the default one of Ray, otherwise it is started with the configured CPUs, GPUs, memory and password.", "quantifier": "all settings", "why_tests_cant": "Tests do not run in cluster mode.", "anchors": ["unidist/core/backends/ray/utils.py:initialize_ray"]}
{"id": "C87", "title": "Nested remote calls compute what direct calls compute", "statement": "If tasks submit tasks themselves, put values, pass references on, fail, catch exceptions and wait for results, then the value or exception a program ends with is the one it ends with when every remote call is a direct call, as long as it does not distinguish a raised from a returned exception at a repeated get of one reference (that is C35). For every program the outcome does not depend on the number of workers, the placement of tasks or the order of events, and no two processes hold different values for one reference.", "quantifier": "all function bodies and main programs, all numbers of workers, placements and interleavings", "why_tests_cant": "Tests run a few nested programs under the schedules that happen to occur.", "anchors": ["unidist/core/backends/mpi/core/controller/api.py:submit", "unidist/core/backends/mpi/core/controller/api.py:get", "unidist/core/backends/mpi/core/worker/task_store.py:execute_received_task"]}
{"id": "C88", "title": "Nested remote calls do not deadlock", "statement": "With at least two workers, a program of nested remote calls that has a value can finish, and as long as it has not finished some process can go on.", "quantifier": "all function bodies and main programs, all numbers of workers, placements and interleavings", "why_tests_cant": "Whether all workers are blocked at once depends on placement, recursion depth and timing.", "anchors": ["unidist/core/backends/mpi/core/controller/common.py:request_worker_data", "unidist/core/backends/mpi/core/worker/loop.py:worker_loop", "unidist/core/backends/mpi/core/controller/common.py:RoundRobin"]}
{"id": "C89", "title": "wait works in every process", "statement": "A wait called inside a task returns a correct partition of its list once enough references are computed, also while other processes wait.", "quantifier": "all numbers of processes, reference lists and interleavings", "why_tests_cant": "Tests call wait in the main process only; the reply that goes to the wrong process depends on timing.", "anchors": ["unidist/core/backends/mpi/core/controller/api.py:wait", "unidist/core/backends/mpi/core/monitor/loop.py:WaitHandler"]}
{"id": "C90", "title": "A method call finds its actor", "statement": "A handle of an actor may be passed to tasks on other workers; a method called through it finds the actor, and no worker ends because the actor is not known yet.", "quantifier": "all numbers of processes and actors, all ways of passing handles, all delivery orders between different pairs of processes", "why_tests_cant": "Messages of different senders overtake each other only rarely on one machine.", "anchors": ["unidist/core/backends/mpi/core/controller/actor.py:Actor", "unidist/core/backends/mpi/core/worker/loop.py:worker_loop"]}
{"id": "C91", "title": "A value obtained from shared memory never changes while it is held", "statement": "In every history of puts, copies between hosts, lookups, drops and cleanups, a value that a process has obtained from the shared object store and still holds consists of exactly the bytes that were put under its reference.", "quantifier": "any number of hosts, processes and objects, all interleavings of the steps of put, get, drop and cleanup, all object contents and segment sizes", "why_tests_cant": "The value is a window into memory that is reused only after later puts of suitable sizes; a wrong reuse shows up as silently different numbers.", "anchors": ["unidist/core/backends/mpi/core/shared_object_store.py:SharedObjectStore.get", "unidist/core/backends/mpi/core/shared_object_store.py:SharedObjectStore._read_from_shared_buffer", "unidist/core/backends/mpi/core/shared_object_store.py:SharedObjectStore._increment_ref_number", "unidist/core/backends/mpi/core/monitor/shared_memory_manager.py:SharedMemoryManager.clear"]}
{"id": "C92", "title": "A cleanup reclaims exactly the unused objects", "statement": "In every history in which objects being looked up during a cleanup have a registered user, a completed cleanup that lists an object without registered users leaves no host with memory for it, and never touches the memory of an object with a registered user on any host.", "quantifier": "any number of hosts, processes and objects, all histories and cleanup lists", "why_tests_cant": "Depends on counts accumulated over arbitrary histories on several hosts.", "anchors": ["unidist/core/backends/mpi/core/monitor/shared_memory_manager.py:SharedMemoryManager.clear", "unidist/core/backends/mpi/core/shared_object_store.py:SharedObjectStore._decrement_ref_number"]}
{"id": "C93", "title": "A cleanup never ends a monitor", "statement": "Every cleanup request is processed by all monitors without an exception, whatever the processes of the hosts are doing at that time.", "quantifier": "all histories of all hosts, all cleanup lists", "why_tests_cant": "The failing cases need a cleanup within the short time in which another host copies the object.", "anchors": ["unidist/core/backends/mpi/core/shared_object_store.py:SharedObjectStore.delete_service_info", "unidist/core/backends/mpi/core/monitor/shared_memory_manager.py:SharedMemoryManager.clear"]}
{"id": "C94", "title": "Nothing that is still needed is cleaned up", "statement": "In every history of puts, submissions, method calls, gets, drops and cleanups, every object the program holds a reference to still exists, every argument of an unfinished task is in the worker of the task, on the way to it or at the worker that computes it, and no worker ends because an argument is missing.", "quantifier": "any number of workers, objects and tasks, all programs of the main process, all interleavings of message deliveries and cleanups", "why_tests_cant": "A lost argument needs a cleanup between the submission and the arrival of a request at the owner; the program then hangs instead of failing.", "anchors": ["unidist/core/backends/mpi/core/controller/garbage_collector.py:GarbageCollector.regular_cleanup", "unidist/core/backends/mpi/core/controller/actor.py:ActorMethod.__call__", "unidist/core/backends/mpi/core/controller/common.py:push_data", "unidist/core/backends/mpi/core/worker/task_store.py:TaskStore.process_task_request", "unidist/core/backends/mpi/core/local_object_store.py:LocalObjectStore.clear"]}
{"id": "C95", "title": "A cleanup leaves nothing behind", "statement": "In every history, a worker that has received the cleanup of an object keeps nothing of it: neither the data, nor the reference, nor its owner, nor the record of where it was sent; and neither do the main process and the monitor.", "quantifier": "any number of workers, objects and tasks, all programs of the main process, all interleavings of message deliveries and cleanups", "why_tests_cant": "What is left over only takes memory; it needs an answer that is overtaken by a cleanup.", "anchors": ["unidist/core/backends/mpi/core/local_object_store.py:LocalObjectStore.clear", "unidist/core/backends/mpi/core/worker/request_store.py:RequestStore.check_pending_get_requests", "unidist/core/backends/mpi/core/worker/task_store.py:TaskStore.request_worker_data", "unidist/core/backends/mpi/core/controller/common.py:push_data", "unidist/core/backends/mpi/core/monitor/loop.py:DataIDTracker.add_to_completed"]}
{"id": "C96", "title": "Spawned processes run with the configuration of the main process", "statement": "The program text the main process writes for the spawned processes can be run by the interpreter, and afterwards a spawned process reads for each of the ten passed parameters the value that the main process reads.", "quantifier": "all histories of configuration calls, environments, parameter values and ranks", "why_tests_cant": "All texts and histories; a wrong program text only shows as a hang of the spawned processes.", "anchors": ["unidist/core/backends/mpi/core/controller/api.py:init", "unidist/config/backends/mpi/envvars.py"]}
{"id": "C97", "title": "Variables of the runtime environment reach every spawned process", "statement": "Every environment variable of MpiRuntimeEnv has its value in each spawned process when it enters its loop, and other variables keep their inherited values.", "quantifier": "all dictionaries of names and values, all ranks", "why_tests_cant": "All texts as values, including quotes, backslashes and line ends.", "anchors": ["unidist/core/backends/mpi/core/controller/api.py:init", "unidist/config/backends/mpi/envvars.py:MpiRuntimeEnv"]}
{"id": "C98", "title": "Programs do not hang, whatever is cleaned up", "statement": "Whatever a program has submitted, dropped, cleaned up and asked for, only finitely many messages and reports can arrive while it does nothing, and when no more can arrive no get waits, every task and method call has been executed, and the monitor has counted all of them, so that the next cleanup can run.", "quantifier": "all sets of workers, all histories of put, submit, drop, get, message arrivals and cleanups, all later arrivals in any order", "why_tests_cant": "Whether a cleanup removes something another process still waits for depends on the order of arrivals at all processes; a hang is not observable in finite time.", "anchors": ["unidist/core/backends/mpi/core/worker/task_store.py:process_task_request", "unidist/core/backends/mpi/core/worker/request_store.py:process_get_request", "unidist/core/backends/mpi/core/controller/common.py:request_worker_data", "unidist/core/backends/mpi/core/controller/garbage_collector.py:regular_cleanup"]}
{"id": "C99", "title": "The backends agree on the results of a call", "statement": "A remote call with k results gives k references whose i-th holds the i-th item of what the function returned, or all of which raise what the function raised, and this is the same on the MPI, Python Multiprocessing, Python Sequential and Dask backends.", "quantifier": "all returned objects, all exceptions, all numbers of results, all four backends", "why_tests_cant": "The test-suite runs the same few functions on each backend; where they differ (iteration or subscript, too few items, exception instances as values) is not exercised.", "anchors": ["unidist/core/backends/mpi/core/worker/task_store.py:TaskStore.execute_received_task", "unidist/core/backends/pymp/core/process_manager.py:Worker.run", "unidist/core/backends/pyseq/core/api.py:submit", "unidist/core/backends/dask/remote_function.py:DaskRemoteFunction._remote"]}
{"id": "C100", "title": "What is put on the Dask backend can be read", "statement": "On the Dask backend get of a reference made by put returns the object that was put.", "quantifier": "all objects, containers of any kind and length included, single references and lists of references", "why_tests_cant": "All kinds of objects; a container is scattered element by element.", "anchors": ["unidist/core/backends/dask/backend.py:DaskBackend.put", "unidist/core/backends/dask/backend.py:DaskBackend.get", "unidist/core/base/backend.py:BackendProxy.put"]}
{"id": "C101", "title": "Every method of an actor class can be called through its handle", "statement": "For every method of an actor class, handle.m.remote(...) calls this method of the actor's object on the MPI, Python Multiprocessing and Python Sequential backends, and a call through a handle never runs a method of another name.", "quantifier": "all classes, all method names that do not begin with two underscores, the three backends whose handles unidist implements", "why_tests_cant": "A handle is a chain of objects with their own attributes and __getattr__; which of all names is captured on the way cannot be enumerated by tests.", "anchors": ["unidist/core/base/actor.py:Actor.__getattr__", "unidist/core/backends/mpi/actor.py:MPIActor.__getattr__", "unidist/core/backends/mpi/core/controller/actor.py:Actor.__getattr__", "unidist/core/backends/pymp/actor.py:PyMpActor.__getattr__", "unidist/core/backends/pymp/core/actor.py:Actor.__getattr__"]}
{"id": "C102", "title": "A handle refers to exactly one actor and can be passed on", "statement": "Every created handle refers to an actor that was created on exactly one worker, different handles refer to different actors, and a handle that is passed to another process refers there to the same actor.", "quantifier": "all sequences of creations with any keyword arguments and of passing handles between processes", "why_tests_cant": "All sequences of creations and passings, all keyword names of constructors.", "anchors": ["unidist/core/backends/mpi/core/controller/actor.py:Actor.__init__", "unidist/core/backends/mpi/core/controller/actor.py:Actor._serialization_helper", "unidist/core/base/actor.py:Actor.__reduce__", "unidist/core/backends/pymp/actor.py:PyMpActor.__init__"]}
{"id": "C103", "title": "No request of a program ends a worker", "statement": "Whatever the functions, constructors and methods of a program do and however often results are asked for, no exception leaves the loop of a worker.", "quantifier": "all finite lists of requests, all results and exceptions, all numbers of results", "why_tests_cant": "All orders of requests with all kinds of results; most tests stay with functions that behave.", "anchors": ["unidist/core/backends/mpi/core/worker/loop.py:worker_loop", "unidist/core/backends/mpi/core/worker/task_store.py:TaskStore.execute_received_task", "unidist/core/backends/mpi/core/worker/request_store.py:RequestStore.process_get_request", "unidist/core/backends/mpi/core/local_object_store.py:LocalObjectStore.generate_output_data_id"]}
{"id": "C104", "title": "References given to an actor's constructor are replaced like those of functions", "statement": "The constructor of an actor gets the values of the references it is given, like a function or a method does, and can get the values of the references it is given.", "quantifier": "all argument lists, all sequences of calls and creations on one worker", "why_tests_cant": "All argument lists, and whether a worker knows a reference depends on all calls before.", "anchors": ["unidist/core/base/actor.py:ActorClass.remote", "unidist/core/backends/mpi/core/controller/actor.py:Actor.__init__", "unidist/core/backends/mpi/core/controller/common.py:request_worker_data"]}
{"id": "C105", "title": "The loops read exactly the requests that were sent", "statement": "Whatever processes call, and however their messages interleave, each round of the loop of a worker or monitor reads exactly the next request of its source: the operation with the data that was sent for it. Nothing is left over, taken for something else, or lost; in particular a call that raises an exception in the caller leaves the receiver as it was.", "quantifier": "for all sources, lists of calls (including calls whose arguments cannot be serialized), contents and block sizes, all interleavings of the messages and all orders in which the receiver takes the sources", "why_tests_cant": "Tests send a few well-formed requests; a wrong pairing of operation and data shows only with other requests behind it, from the same process or another one, and every operation has its own way of sending and receiving.", "anchors": ["unidist/core/backends/mpi/core/communication.py:isend_complex_operation", "unidist/core/backends/mpi/core/communication.py:isend_simple_operation", "unidist/core/backends/mpi/core/communication.py:recv_serialized_data", "unidist/core/backends/mpi/core/controller/common.py:pull_data", "unidist/core/backends/mpi/core/worker/loop.py:worker_loop", "unidist/core/backends/mpi/core/monitor/loop.py:monitor_loop"]}
{"id": "C106", "title": "is_initialized tells whether the backend runs, and init can be called at any time", "statement": "Whatever a program calls, `init` returns and no call hangs; `is_initialized` is true exactly if the backend was started by `init` or `put` and not ended by `shutdown` since; after `shutdown` the backend can be started again.", "quantifier": "for all backends and all lists of calls of init, is_initialized, shutdown and put", "why_tests_cant": "Tests call init once at the start of a process and shutdown once at its end; repeated starts, stops and queries in other orders are not tried.", "anchors": ["unidist/api.py:82-111", "unidist/api.py:put", "unidist/core/base/utils.py:init_backend", "unidist/core/backends/mpi/core/controller/api.py:init", "unidist/core/backends/mpi/core/controller/api.py:is_initialized", "unidist/core/backends/mpi/core/controller/api.py:shutdown", "unidist/core/backends/mpi/core/communication.py:get_instance", "unidist/core/backends/dask/utils.py:initialize_dask", "unidist/core/backends/ray/utils.py:initialize_ray", "unidist/core/backends/pymp/core/api.py:init", "unidist/core/backends/pyseq/core/api.py:init"]}
{"id": "C107", "title": "An actor exists as long as it is needed and no longer", "statement": "Once nothing is left to be done, every method call that was made has the value of its method, whatever handles the program dropped in the meantime, and every actor object that still exists has a handle.", "quantifier": "for all numbers of workers and all histories of creating actors, calling, dropping handles, submitting tasks and progress of the workers", "why_tests_cant": "Tests keep the handle until the result has been read, and do not look at what the workers still hold afterwards.", "anchors": ["unidist/core/backends/pymp/core/actor.py:_remote", "unidist/core/backends/pymp/core/actor.py:__del__", "unidist/core/backends/pymp/core/process_manager.py:run", "unidist/core/backends/pymp/core/process_manager.py:grab_worker", "unidist/core/backends/mpi/core/controller/actor.py:_remote", "unidist/core/backends/mpi/core/controller/actor.py:__del__", "unidist/core/backends/mpi/core/worker/loop.py:worker_loop"]}
{"id": "C108", "title": "The shared store starts or says why not", "statement": "For every configuration of the two memory sizes and the threshold, starting the shared store either succeeds or is refused with a `ValueError` that names the option; it never fails in another way.", "quantifier": "for all configured sizes, thresholds and amounts of free memory", "why_tests_cant": "Tests start the store with the default sizes of one machine; the failing combinations are boundary cases of integer divisions.", "anchors": ["unidist/core/backends/mpi/core/shared_object_store.py:_allocate_shared_memory", "unidist/core/backends/mpi/core/memory/_memory.pyx:fill", "unidist/config/backends/mpi/envvars.py:94-110"]}
{"id": "C109", "title": "A remote function can be called wherever it arrives", "statement": "On the MPI backend a remote function object that is sent to another process, as an argument or inside a function that uses it, can be called there: no such call raises. This is violated: the first call replaces the function inside the object by a reference, a later copy carries only the reference, and `push_data` raises `Unknown DataID!` in a worker that has not received the function. It holds if every copy is made before the first call of the copied object, whatever is dropped and cleaned up; while nothing is dropped, a call of an object that holds a reference raises exactly if its process did not make the reference and no earlier call of it was sent to this process.", "quantifier": "all histories of definitions, calls, copies, drops and cleanups over any number of processes", "why_tests_cant": "Whether the call raises depends on which workers happened to execute the function before; with few workers or a lucky distribution every call succeeds.", "anchors": ["unidist/core/backends/mpi/remote_function.py:MPIRemoteFunction._remote", "unidist/core/backends/mpi/core/controller/common.py:push_data", "unidist/core/backends/mpi/core/controller/api.py:submit", "unidist/core/backends/mpi/core/local_object_store.py:LocalObjectStore.clear"]}
{"id": "C110", "title": "No task ends a worker of the multiprocessing backend", "statement": "On the multiprocessing backend a worker process works off its queue whatever the functions and methods in it return or raise. This is violated: a result or an exception that `pickle` cannot serialize, `sys.exit()`, several results of something that cannot be iterated over, and a task that cannot be restored end the worker, and the references of all later tasks in its queue stay delayed for ever. A worker works off its queue exactly if no such call is in it; methods with at most one result never end it.", "quantifier": "all queues of tasks, all results and exceptions, all numbers of results", "why_tests_cant": "The failure mode is a hang of unrelated calls that happen to be queued behind the failing one.", "anchors": ["unidist/core/backends/pymp/core/process_manager.py:Worker.run", "unidist/core/backends/pymp/core/actor.py:ActorMethod.submit", "unidist/core/backends/pymp/core/api.py:submit"]}
{"id": "C111", "title": "Changing an object does not change what was stored, passed or returned", "statement": "Python objects can be changed in place. Whatever objects a program changes after put, after submitting a task, after a task returned them or after reading them: whoever reads a reference finds the value that was stored or returned, and every task finds the arguments that were passed, on every backend.", "quantifier": "All numbers of processes, all objects, all sequences of making and changing objects, put, get, results, pushes, submissions and deliveries, and all moments at which the library transfers a buffer.", "why_tests_cant": "The result depends on which worker runs which task, on which process forwards a value and on when the library reads the memory of a large argument; tests use few schedules and functions that do not change their arguments.", "anchors": ["unidist/core/backends/mpi/core/object_store.py:get", "unidist/core/backends/mpi/core/local_object_store.py:cache_serialized_data", "unidist/core/backends/mpi/core/controller/common.py:push_data", "unidist/core/backends/mpi/core/controller/common.py:_push_local_data", "unidist/core/backends/mpi/core/controller/api.py:submit", "unidist/core/backends/mpi/core/worker/task_store.py:execute_received_task", "unidist/core/backends/pyseq/core/object_store.py:put", "unidist/core/backends/pymp/core/object_store.py:put", "unidist/core/backends/pymp/core/api.py:submit"]}
{"id": "C112", "title": "No request of a program ends a monitor", "statement": "A monitor of the MPI backend that supports shared memory answers every request for memory, for the bytes of a shared object and for the number of tasks, and processes every clean-up, whatever objects the program shares: no request makes the loop of the monitor end with an exception, because then every later request of every process of the host stays without answer.", "quantifier": "for all sizes of the shared memory and of the metadata area and all sequences of messages of all processes to a monitor, interleaved with all writes to the shared metadata", "why_tests_cant": "The tests share a few small objects and never fill the memory or the metadata area, never leave gaps between objects, and never reclaim an object while it is copied or requested; whether a request ends the monitor depends on the whole history of reservations and clean-ups.", "anchors": ["unidist/core/backends/mpi/core/monitor/loop.py:monitor_loop", "unidist/core/backends/mpi/core/monitor/shared_memory_manager.py:put", "unidist/core/backends/mpi/core/monitor/shared_memory_manager.py:get", "unidist/core/backends/mpi/core/monitor/shared_memory_manager.py:clear", "unidist/core/backends/mpi/core/shared_object_store.py:delete_service_info"]}
{"id": "C113", "title": "A get from shared memory ends with the bytes that were put", "statement": "Whenever processes of any hosts get one object from shared memory at the same time, each of these calls ends, exactly one process per host copies the bytes from another host while the others wait for it, and every value that is returned consists of the bytes that were put, whatever references are dropped and whenever the object is reclaimed.", "quantifier": "for all numbers of hosts and processes, all interleavings of the steps of get with dropped references and clean-ups, and all choices of metadata cells by the monitors", "why_tests_cant": "The tests run on one host, where the copy between hosts never happens, and nobody waits for another process; the failures need a clean-up between two particular steps of a get.", "anchors": ["unidist/core/backends/mpi/core/shared_object_store.py:get", "unidist/core/backends/mpi/core/shared_object_store.py:_sync_shared_memory_from_another_host", "unidist/core/backends/mpi/core/monitor/loop.py:monitor_loop", "unidist/core/backends/mpi/core/monitor/shared_memory_manager.py:clear", "unidist/core/backends/mpi/core/controller/common.py:pull_data"]}
{"id": "C114", "title": "Methods of an actor with the same references start in call order, coroutines included", "statement": "Of two method calls on one actor with the same references among their arguments the one that arrived first starts first, whether the methods are regular or coroutine functions and whenever the values arrive; the parts of a coroutine between its awaits run in order, each once, and its result is available exactly when it has ended.", "quantifier": "all sequences of calls, arrivals of values and wake-ups of coroutines", "why_tests_cant": "Needs an interleaving of the event loop with requests whose arguments arrive late.", "anchors": ["unidist/core/backends/mpi/core/worker/task_store.py:TaskStore.execute_received_task", "unidist/core/backends/mpi/core/worker/task_store.py:TaskStore.check_pending_actor_tasks", "unidist/core/backends/mpi/core/worker/loop.py:worker_loop"]}
{"id": "C115", "title": "Deserialization leaves the garbage collector as it was", "statement": "Python's garbage collector is off while data is deserialized, and after the deserialization it is in the state it had before, whether the deserialization succeeded or raised.", "quantifier": "all courses of a deserialization with allocations, exceptions, user code and nested deserializations", "why_tests_cant": "The state of the collector is not visible in the results; needs an exception at the right place.", "anchors": ["unidist/core/backends/mpi/core/serialization.py:ComplexDataSerializer.deserialize"]}
{"id": "C116", "title": "The version of a checkout tells its commit", "statement": "In a git working tree the version of the package is the last version tag, followed by the number of commits since, the hash and a mark for changed files unless the tree is exactly at the tag, whatever characters the tag has; two working trees with the same version are at the same commit.", "quantifier": "all tags, distances, hashes and both states of the tree", "why_tests_cant": "Tags that look like the output of git describe are unusual; tests see one repository.", "anchors": ["unidist/_version.py:git_pieces_from_vcs", "unidist/_version.py:render_pep440", "unidist/_version.py:plus_or_dot", "unidist/_version.py:render_git_describe_long", "unidist/_version.py:get_versions"]}
{"id": "C117", "title": "The version of an archive is a tag of its commit", "statement": "The version in an archive made by git is the first version tag of the archived commit in the order of texts, unknown if the commit has none, and the same as in a checkout of the release; in a source distribution it is the version in the name of its directory.", "quantifier": "all sets of tags and branches of a commit and all their names", "why_tests_cant": "Needs archives of commits with unusual names of tags and branches.", "anchors": ["unidist/_version.py:git_versions_from_keywords", "unidist/_version.py:versions_from_parentdir", "unidist/_version.py:get_versions"]}
{"id": "C118", "title": "Metadata packages cannot be changed and arrive as they were sent", "statement": "No operation changes a metadata package or the record of a reservation once it exists, and the receiver of a package gets the same items.", "quantifier": "all dictionaries and all sequences of operations on them", "why_tests_cant": "Tests call a few of the operations; the interface of dict grows with Python.", "anchors": ["unidist/core/backends/mpi/utils.py:ImmutableDict", "unidist/core/backends/mpi/core/common.py:MetadataPackage", "unidist/core/backends/mpi/core/communication.py:_send_complex_data_impl", "unidist/core/backends/mpi/core/controller/common.py:_push_shared_data"]}
{"id": "C119", "title": "Logging is switched by its configuration", "statement": "The log file of the MPI backend contains exactly the messages written while logging was switched on, each once, whatever the application does with its own logging.", "quantifier": "all interleavings of configuring logging by the application, getting the logger, and writing messages", "why_tests_cant": "Tests run with one configuration of logging, and several modules share loggers.", "anchors": ["unidist/core/backends/mpi/core/common.py:get_logger"]}
{"id": "C120", "title": "The lines of the communication log show who sent what to whom", "statement": "Each line of the communication log names the received operation, has one column for every process at a fixed place, and an arrow from the column of the sender to that of the receiver.", "quantifier": "all operations, numbers of processes, senders and receivers", "why_tests_cant": "The layout depends on the length of names and on the ranks.", "anchors": ["unidist/core/backends/mpi/core/communication.py:log_operation", "unidist/core/backends/mpi/core/common.py:get_op_name"]}
{"id": "C121", "title": "Everything that can be pickled can be stored and sent", "statement": "Every object that cloudpickle can serialize can be put, passed to a remote function or returned by one on the MPI backend, whatever containers it is in, and comes back unchanged.", "quantifier": "all nested objects of integers, texts, lists, dictionaries, tuples, sets, arrays, data frames, importable and local objects", "why_tests_cant": "Which library serializes an object depends on what is around it; tests use a few shapes.", "anchors": ["unidist/core/backends/mpi/core/serialization.py:is_cpkl_serializable", "unidist/core/backends/mpi/core/serialization.py:is_pickle5_serializable", "unidist/core/backends/mpi/core/serialization.py:ComplexDataSerializer._encode_custom", "unidist/core/backends/mpi/core/serialization.py:ComplexDataSerializer.serialize"]}
{"id": "C122", "title": "What can be given to a function can be given to a method and to the constructor of an actor", "statement": "A call of a function, a method or a constructor can be sent exactly if each of its positional and keyword arguments can be stored with put, and then the arguments arrive as they were given.", "quantifier": "all argument lists of all objects, all kinds of calls", "why_tests_cant": "All combinations of arguments, their places and kinds of calls.", "anchors": ["unidist/core/backends/mpi/core/controller/actor.py:Actor.__init__", "unidist/core/backends/mpi/core/controller/actor.py:ActorMethod.__call__", "unidist/core/backends/mpi/core/controller/api.py:submit", "unidist/core/backends/mpi/core/serialization.py:ComplexDataSerializer._encode_custom"]}
{"id": "C123", "title": "Objects come back with the same references among them", "statement": "What is stored, passed or returned comes back with the same values along every path, and two paths within it lead to the same object exactly if they did before, so that a change seen through one of them is seen through the other.", "quantifier": "all objects with any sharing and any cycles, all depths, all pairs of paths", "why_tests_cant": "Equality of values does not show whether parts are the same object; needs all shapes of object graphs.", "anchors": ["unidist/core/backends/mpi/core/serialization.py:ComplexDataSerializer.serialize", "unidist/core/backends/mpi/core/serialization.py:ComplexDataSerializer.deserialize", "unidist/core/backends/mpi/core/controller/api.py:submit"]}
{"id": "C124", "title": "Objects of every size and address are written into shared memory exactly", "statement": "Every object that fits into its reservation is written into shared memory byte by byte, whatever the lengths and the addresses of its buffers and whatever the order of the copying threads, and can be read back; no byte outside the reservation changes.", "quantifier": "all bodies, all lists of raw buffers of any lengths at any addresses, all orders of the threads, all reservations and memory contents", "why_tests_cant": "The failing cases depend on the address the allocator chooses for a short buffer and are undefined behaviour; tests use large arrays.", "anchors": ["unidist/core/backends/mpi/core/shared_object_store.py:SharedObjectStore._write_to_shared_buffer", "unidist/core/backends/mpi/core/memory/_memory.pyx:parallel_memcopy", "unidist/core/backends/mpi/core/memory/memory.cpp:parallel_memcopy"]}
{"id": "C125", "title": "Only large objects occupy shared memory, so that metadata do not run out first", "statement": "Exactly the objects above the configured threshold are put into shared memory; with default sizes, as long as these objects fit into the object memory, there is a metadata record for each of them and no monitor ends.", "quantifier": "all sizes of objects, thresholds, origins of objects, memory sizes and numbers of objects", "why_tests_cant": "The failure needs as many small objects as there are metadata records, thousands with default sizes, all of them alive.", "anchors": ["unidist/core/backends/mpi/core/controller/api.py:put", "unidist/core/backends/mpi/core/controller/common.py:push_data", "unidist/core/backends/mpi/core/worker/task_store.py:TaskStore.execute_received_task", "unidist/core/backends/mpi/core/shared_object_store.py:SharedObjectStore.should_be_shared", "unidist/core/backends/mpi/core/monitor/shared_memory_manager.py:SharedMemoryManager.put"]}
{"id": "C126", "title": "Started processes form one program", "statement": "However the program is started, all its processes become members of one communicator, none of them waits in init for ever, and exactly the process of rank 0 goes on with the script of the user while every other started process never reaches the code after init.", "quantifier": "all numbers of started processes, of processes to spawn and values of the spawn option", "why_tests_cant": "The launcher and the option are combined outside of the test suite: every test job uses one of two fixed combinations, and the failing one is a hang without a message.", "anchors": ["unidist/core/backends/mpi/core/controller/api.py:init", "unidist/core/backends/mpi/core/communication.py:MPIState.__init__"]}
{"id": "C127", "title": "Results do not depend on the schedule, whatever is cleaned up", "statement": "In a program that puts objects, calls remote functions, drops references and lets the collector clean up, every value that get gives is the value the same calls give when they are made directly one after the other; two runs of the same calls give the same values. If no get names a reference twice, every reference asked for is given its value.", "quantifier": "all programs of the main process, all user functions (raising or not), all sets of workers and choices of a worker, all orders of message arrivals, all moments at which references are dropped and cleanups take place", "why_tests_cant": "Which entries of which stores a cleanup removes, and which copies of a value a later task finds, depends on the order of arrivals at all processes; the number of histories is unbounded.", "anchors": ["unidist/core/backends/mpi/core/worker/task_store.py:TaskStore.process_task_request", "unidist/core/backends/mpi/core/worker/task_store.py:TaskStore.unwrap_local_data_id", "unidist/core/backends/mpi/core/worker/request_store.py:RequestStore.check_pending_get_requests", "unidist/core/backends/mpi/core/controller/common.py:push_data", "unidist/core/backends/mpi/core/local_object_store.py:LocalObjectStore.put", "unidist/core/backends/mpi/core/controller/garbage_collector.py:GarbageCollector.regular_cleanup"]}
{"id": "C128", "title": "The same program gives the same results on every backend", "statement": "A program that puts numbers and calls remote functions with numbers and with results of earlier calls gives on the MPI, the multiprocessing and the sequential backend the values and errors that direct calls one after the other give, and does not raise while it makes the calls.", "quantifier": "all programs of puts and calls of functions with any number of results, raising or not; all numbers and choices of workers, all interleavings, all drops and cleanups", "why_tests_cant": "Tests run a few programs on each backend separately; that backends with different data paths agree concerns all programs and all schedules.", "anchors": ["unidist/core/backends/mpi/remote_function.py:MPIRemoteFunction._remote", "unidist/core/backends/pymp/remote_function.py:PyMpRemoteFunction._remote", "unidist/core/backends/pyseq/remote_function.py:PySeqRemoteFunction._remote", "unidist/core/backends/pyseq/core/api.py:submit", "unidist/core/backends/pymp/core/process_manager.py:Worker.run", "unidist/core/backends/mpi/core/worker/task_store.py:TaskStore.process_task_request", "unidist/core/base/common.py:filter_arguments"]}
{"id": "C129", "title": "Getting a list of references gives the same on every backend", "statement": "get of a list returns the results in the order of the list, or raises the error of the first reference of the list that has failed, on the MPI, the multiprocessing and the sequential backend, in whatever order the data arrives and whatever was put and got before.", "quantifier": "all lists of references, all objects and exceptions, all programs of puts and gets, all orders of arrival", "why_tests_cant": "Which error is raised depends on the order in which the workers answer; tests look at lists with one failed reference.", "anchors": ["unidist/core/backends/mpi/core/controller/api.py:get", "unidist/core/backends/mpi/core/controller/common.py:request_worker_data", "unidist/core/backends/pymp/core/object_store.py:ObjectStore.get", "unidist/core/backends/pyseq/core/object_store.py:ObjectStore.get"]}
{"id": "C130", "title": "References in containers of any class reach a task", "statement": "A remote function on the MPI backend finds the values of all references inside its arguments, in containers of any class, and the data or the owner of every reference is sent with the task.", "quantifier": "all nestings of containers, of built-in and derived classes, all positions in them", "why_tests_cant": "Tests pass references in lists, tuples and dictionaries of a small depth, not in instances of derived classes, and cannot try all nestings.", "anchors": ["unidist/core/backends/common/utils.py:unwrap_object_refs", "unidist/core/backends/mpi/core/controller/common.py:push_data", "unidist/core/backends/mpi/core/common.py:materialize_data_ids"]}
{"id": "C131", "title": "Actors behave like local objects on every backend", "statement": "A program that puts numbers, calls remote functions, makes actors and calls their methods with numbers and with results of earlier calls gives the values and errors that the same calls on local objects give, one after the other, and leaves the actors in the states of these objects.", "quantifier": "all programs, all classes and states, all numbers of workers, all interleavings, all orders in which arguments arrive", "why_tests_cant": "Tests use one actor with few calls per backend; the results must agree for all programs and schedules, and the differences need late or failed arguments or as many actors as workers.", "anchors": ["unidist/core/backends/pymp/core/actor.py:ActorMethod.submit", "unidist/core/backends/pymp/core/process_manager.py:ProcessManager.submit", "unidist/core/backends/pyseq/actor.py:PySeqActorMethod._remote", "unidist/core/backends/pyseq/core/api.py:submit", "unidist/core/backends/mpi/core/worker/loop.py:worker_loop"]}
{"id": "C132", "title": "An actor does what a local object does, in some order", "statement": "Whatever requests a worker gets and in whatever order arguments arrive, the state of an actor and the results of its method calls are those of a local object on which the executed calls are made once each, one after the other, with the values of the references; calls that were not executed are exactly those the worker holds back.", "quantifier": "all histories of a worker, all classes and states, all calls with nested references, all orders in which arguments arrive", "why_tests_cant": "Which calls wait and which overtake depends on when data arrives from other processes; a test sees one order of arrivals and cannot tell a wrong state from another legal order.", "anchors": ["unidist/core/backends/mpi/core/worker/loop.py:worker_loop", "unidist/core/backends/mpi/core/worker/task_store.py:process_task_request", "unidist/core/backends/mpi/core/worker/task_store.py:check_pending_actor_tasks", "unidist/core/backends/mpi/core/worker/task_store.py:execute_received_task"]}
{"id": "C133", "title": "All processes start the shared store together", "statement": "Whatever sizes are configured and whatever free memory the processes find on their hosts, init ends in every process: either all processes get ready or all refuse with an explanation, and none waits for ever for another one.", "quantifier": "all numbers of hosts and processes, configured sizes, thresholds, amounts of free memory read by each process, and orders of the steps", "why_tests_cant": "The tests run on one host where every process reads the same amount of memory; hosts of different size or memory that is taken while the program starts do not occur, and the failure is a hang.", "anchors": ["unidist/core/backends/mpi/core/shared_object_store.py:SharedObjectStore._allocate_shared_memory", "unidist/core/backends/mpi/core/shared_object_store.py:SharedObjectStore._get_allowed_memory_size", "unidist/core/backends/mpi/core/controller/api.py:init", "unidist/core/backends/mpi/core/communication.py:MPIState.__init__", "unidist/core/backends/mpi/core/monitor/shared_memory_manager.py:SharedMemoryManager.__init__"]}
{"id": "C134", "title": "A program that a signal interrupts while it sends a request ends all processes", "statement": "Wherever in a call of the program a signal arrives (Ctrl-C or SIGTERM, which the handler of unidist turns into an exception), and whatever the program called before, the worker to which the call was sending a request afterwards reads the requests that were sent whole and then the request to end, so that shutdown at the end of the program returns.", "quantifier": "all sequences of requests of all kinds, all numbers of messages sent before the signal, all serialized data and block sizes, and all messages and orders of other processes", "why_tests_cant": "A signal has to arrive between two particular messages of one request; a test can only send it at some time, and the failure is a hang at the end of the program.", "anchors": ["unidist/core/backends/mpi/core/controller/api.py:_termination_handler", "unidist/core/backends/mpi/core/controller/api.py:init", "unidist/core/backends/mpi/core/controller/api.py:shutdown", "unidist/core/backends/mpi/core/communication.py:isend_complex_operation", "unidist/core/backends/mpi/core/communication.py:isend_simple_operation", "unidist/core/backends/mpi/core/communication.py:recv_complex_data", "unidist/core/backends/mpi/core/worker/loop.py:worker_loop", "unidist/core/backends/mpi/core/monitor/loop.py:monitor_loop"]}
{"id": "C135", "title": "A get after an interrupted get returns the values of its references", "statement": "If a signal interrupts a call of get and the program or the notebook goes on, then every later call of get that ends returns the values of its references: never the data of another reference, and no exception because of replies to the interrupted call; and a reference whose get was interrupted can be obtained later.", "quantifier": "all sequences of calls, references, owners, values with any number of buffers, times at which owners answer, and times of signals", "why_tests_cant": "A signal has to arrive between two receives of one object; tests do not interrupt calls, and the wrong value shows only in a later call.", "anchors": ["unidist/core/backends/mpi/core/controller/api.py:get", "unidist/core/backends/mpi/core/controller/common.py:request_worker_data", "unidist/core/backends/mpi/core/controller/common.py:pull_data", "unidist/core/backends/mpi/core/communication.py:recv_complex_data", "unidist/core/backends/mpi/core/worker/request_store.py:RequestStore.process_get_request", "unidist/core/backends/mpi/core/local_object_store.py:LocalObjectStore.cache_send_info"]}
{"id": "C136", "title": "Every request to the monitor receives its own reply, whatever was interrupted", "statement": "If a signal interrupts a call while it waits for a reply of the monitor and the program goes on or ends, then every later call that receives a reply of the monitor receives the reply to its own request: the number of executed tasks, the range of shared memory of its own object, a partition of its own references, or the confirmation of the end.", "quantifier": "all sequences of requests of the four kinds, reports of finished tasks, ways to place objects in shared memory, orders in which messages are read, and times of signals", "why_tests_cant": "A signal has to arrive between sending a request and receiving its reply; tests do not interrupt calls, and what goes wrong is some later call or the exit.", "anchors": ["unidist/core/backends/mpi/core/controller/api.py:wait", "unidist/core/backends/mpi/core/controller/api.py:shutdown", "unidist/core/backends/mpi/core/controller/api.py:_termination_handler", "unidist/core/backends/mpi/core/communication.py:send_reserve_operation", "unidist/core/backends/mpi/core/communication.py:mpi_recv_object", "unidist/core/backends/mpi/core/controller/garbage_collector.py:GarbageCollector.regular_cleanup", "unidist/core/backends/mpi/core/monitor/loop.py:monitor_loop", "unidist/core/backends/mpi/core/monitor/loop.py:WaitHandler.process_wait_requests"]}
{"id": "C137", "title": "wait for finished references gives the same on every backend", "statement": "For a list of different references that have all finished, and a number of wanted references between one and the length of the list, wait gives the same list of ready references and the same list of the others on the MPI, Python Multiprocessing, Python Sequential and Dask backends.", "quantifier": "all lists of references, all numbers of wanted references, all distributions of the objects between the store of the process and other processes, all orders in which a set is iterated", "why_tests_cant": "The tests of wait use one list and one number; which references come out depends on where the objects are, on the shift of an index and on the order of a set.", "anchors": ["unidist/core/base/backend.py:BackendProxy.wait", "unidist/core/backends/mpi/core/controller/api.py:wait", "unidist/core/backends/mpi/core/monitor/loop.py:WaitHandler.process_wait_requests", "unidist/core/backends/pymp/core/object_store.py:ObjectStore.wait", "unidist/core/backends/pyseq/backend.py:PySeqBackend.wait", "unidist/core/backends/dask/backend.py:DaskBackend.wait"]}
{"id": "C138", "title": "An interrupted put or get leaves shared memory usable", "statement": "If a signal or an error ends a call of put or get between any two of its steps, the monitor stays in its loop, later calls with the same or other references go on, and the memory that was reserved is released when the reference is dropped and cleaned up.", "quantifier": "all sequences of puts, tasks, gets, dropped references and clean-ups, and all moments at which calls are ended", "why_tests_cant": "The call has to end between two particular steps, and what goes wrong shows in a later get, in a clean-up that ends the monitor, or only as memory that is never released.", "anchors": ["unidist/core/backends/mpi/core/shared_object_store.py:SharedObjectStore.put", "unidist/core/backends/mpi/core/shared_object_store.py:SharedObjectStore.get", "unidist/core/backends/mpi/core/shared_object_store.py:SharedObjectStore._put_service_info", "unidist/core/backends/mpi/core/shared_object_store.py:SharedObjectStore._increment_ref_number", "unidist/core/backends/mpi/core/shared_object_store.py:SharedObjectStore.delete_service_info", "unidist/core/backends/mpi/core/monitor/shared_memory_manager.py:SharedMemoryManager.clear", "unidist/core/backends/mpi/core/controller/api.py:put"]}
{"id": "C139", "title": "Values remain usable after shutdown", "statement": "A value obtained by `get` before `shutdown` can be used and copied after it, and references can be forgotten at any time, without ending the process.", "quantifier": "all sequences of put, get, uses and copies of values, collected references and the steps of shutdown; with and without shared memory; any number of out-of-band buffers", "why_tests_cant": "Tests end with shutdown and do not look at values afterwards; whether freed memory is still mapped depends on the MPI library, so a test may pass by luck.", "anchors": ["unidist/core/backends/mpi/core/shared_object_store.py:SharedObjectStore.finalize", "unidist/core/backends/mpi/core/shared_object_store.py:SharedObjectStore._read_from_shared_buffer", "unidist/core/backends/mpi/core/shared_object_store.py:SharedObjectStore._decrement_ref_number", "unidist/core/backends/mpi/core/shared_object_store.py:SharedObjectStore.is_allocated", "unidist/core/backends/mpi/core/controller/api.py:shutdown", "unidist/core/backends/mpi/core/controller/api.py:put", "unidist/core/backends/mpi/core/object_store.py:ObjectStore.get"]}
{"id": "C140", "title": "Calls from several threads do not disturb each other", "statement": "If several threads of the main process make calls at the same time, all references they make are different, the monitor goes on, and every call receives the reply of the monitor to its own request.", "quantifier": "all numbers of threads, sequences of new references and of requests of three kinds, and interleavings of their steps", "why_tests_cant": "Tests call unidist from one thread; a wrong interleaving of a few instructions is rare and leaves no trace but a wrong value later.", "anchors": ["unidist/core/backends/mpi/core/controller/api.py:init", "unidist/core/backends/mpi/core/controller/api.py:wait", "unidist/core/backends/mpi/core/local_object_store.py:LocalObjectStore.generate_data_id", "unidist/core/backends/mpi/core/communication.py:send_reserve_operation", "unidist/core/backends/mpi/core/communication.py:send_simple_operation", "unidist/core/backends/mpi/core/communication.py:mpi_recv_object", "unidist/core/backends/mpi/core/controller/garbage_collector.py:GarbageCollector.regular_cleanup", "unidist/core/backends/mpi/core/monitor/loop.py:monitor_loop"]}
{"id": "C141", "title": "Submitted tasks are executed before the program ends", "statement": "When the program ends, or `shutdown` is called, every task that was submitted before has been executed, also if nobody has got its result.", "quantifier": "All programs with any number of workers and tasks, all dependencies on earlier tasks, all placements on workers, all schedules of the workers and of the messages between them; for the multiprocessing backend all moments at which the program may end.", "why_tests_cant": "Whether the last tasks are executed depends on how fast results travel between workers compared with the CANCEL message; on one machine and with small programs the results are almost always faster. Tests get every result before they end.", "anchors": ["unidist/core/backends/mpi/core/worker/loop.py:worker_loop", "unidist/core/backends/mpi/core/worker/task_store.py:TaskStore.clear_pending_tasks", "unidist/core/backends/mpi/core/worker/task_store.py:TaskStore.check_pending_tasks", "unidist/core/backends/mpi/core/controller/api.py:shutdown", "unidist/core/backends/mpi/core/controller/api.py:submit", "unidist/core/backends/pymp/core/process_manager.py:Worker.run"]}
{"id": "C142", "title": "A result that cannot be restored harms only the call that uses it", "statement": "If the result or the exception of a task can be serialized but raises when it is restored, the `get` of it raises, each time; no worker ends, no other `get` is disturbed, and every `get` of executed tasks ends.", "quantifier": "All programs of tasks with any dependencies and placements, all sets of results that cannot be restored, all sequences of `get` with lists of different references, all schedules of executions, transfers and replies.", "why_tests_cant": "It needs classes whose objects are pickled but not unpickled, such as exceptions with a constructor of their own, and then a second `get`, a list of references, or a task of another worker; tests use built-in exceptions.", "anchors": ["unidist/core/backends/mpi/core/controller/common.py:pull_data", "unidist/core/backends/mpi/core/controller/common.py:request_worker_data", "unidist/core/backends/mpi/core/controller/common.py:_push_local_data", "unidist/core/backends/mpi/core/communication.py:recv_complex_data", "unidist/core/backends/mpi/core/worker/loop.py:worker_loop", "unidist/core/backends/mpi/core/serialization.py:deserialize_complex_data"]}
{"id": "C143", "title": "Options are honoured or refused", "statement": "Every option given to `@unidist.remote(...)` or `.options(...)` has the effect it names or the call is refused with an error; the value of `options` takes precedence over the one of the decorator.", "quantifier": "All backends, functions, constructors and methods, all names, values and positional arguments.", "why_tests_cant": "Names are texts: a misspelled or unsupported option is one of infinitely many, and a call that drops it looks like a successful call.", "anchors": ["unidist/api.py:remote", "unidist/core/base/remote_function.py:RemoteFunction.options", "unidist/core/base/actor.py:ActorMethod.options", "unidist/core/base/actor.py:ActorClass.options", "unidist/core/backends/mpi/remote_function.py:MPIRemoteFunction._remote", "unidist/core/backends/ray/remote_function.py:RayRemoteFunction._remote", "unidist/core/backends/ray/actor.py:RayActor._remote"]}
{"id": "C144", "title": "Data are released when nothing needs them any more", "statement": "On the backends with a dictionary as store, Python sequential and multiprocessing, the data of a reference are in the store exactly as long as the program holds the reference or a submitted task waits for it or is to give it.", "quantifier": "every program of puts, calls with any number of results and any references as arguments, and drops of references; every order in which the workers execute the tasks; both backends", "why_tests_cant": "Tests hold their references or end before the store is full; that an entry stays for ever shows only in the memory of long programs, and depends on no value that a test could look at.", "anchors": ["unidist/core/backends/pyseq/core/object_store.py:put", "unidist/core/backends/pymp/core/object_store.py:put", "unidist/core/backends/common/data_id.py:DataID", "unidist/core/backends/pymp/core/process_manager.py:run", "unidist/core/backends/pymp/core/api.py:submit", "unidist/core/backends/pyseq/core/api.py:submit"]}
{"id": "C145", "title": "Calls inside remote functions and methods work on the multiprocessing backend", "statement": "On the multiprocessing backend a remote call made inside a remote function or inside a method of an actor is like a call of the main process: it does not make the caller fail, it is executed, and a caller that gets its result receives it.", "quantifier": "every number of workers; every sequence of creations of actors, calls of functions with and without calls inside, and calls of methods that make any number of calls and get any of their results; every order in which the workers go on", "why_tests_cant": "The tests make no calls inside tasks on this backend. Whether a method hangs depends on which worker the copied counter of its process points to, that is on all calls made before the actor was created and on how many calls its methods have made.", "anchors": ["unidist/core/backends/pymp/core/process_manager.py:get_instance", "unidist/core/backends/pymp/core/process_manager.py:submit", "unidist/core/backends/pymp/core/process_manager.py:grab_worker", "unidist/core/backends/pymp/core/process_manager.py:run", "unidist/core/backends/pymp/core/actor.py:__init__", "unidist/core/backends/pymp/core/api.py:submit"]}
{"id": "C146", "title": "An actor keeps its worker to itself on the multiprocessing backend, wherever it is made", "statement": "On the multiprocessing backend, as the documentation of `Actor` says, the methods of an actor are executed in a worker grabbed from the pool: as long as the actor exists no other actor has this worker and no call of a function is given to it, whether the actors and calls are made by the main process or inside methods and constructors of actors.", "quantifier": "every number of workers; every sequence of creations of actors and calls of functions by the main process and by the processes of actors, to any depth, and drops of actors", "why_tests_cant": "The tests make actors in the main process only. Two actors on one worker give the same results as long as neither waits for the other.", "anchors": ["unidist/core/backends/pymp/core/actor.py:__init__", "unidist/core/backends/pymp/core/actor.py:__del__", "unidist/core/backends/pymp/core/process_manager.py:grab_worker", "unidist/core/backends/pymp/core/process_manager.py:free_worker", "unidist/core/backends/pymp/core/process_manager.py:submit", "unidist/core/backends/pymp/core/process_manager.py:get_instance"]}
{"id": "C147", "title": "Calls from several threads do not disturb each other on the multiprocessing backend", "statement": "On the multiprocessing backend, when threads of a program call remote functions and make actors at the same time, in whatever way their statements interleave: no call ends with IndexError; every actor is an object of the class it was made of and has a worker of its own; a call is refused only if all workers are kept by actors; no task is given to a worker that is kept by an actor.", "quantifier": "every number of workers; every set of calls of functions and creations of actors; every interleaving of their reads and writes of the shared data", "why_tests_cant": "The tests use one thread. The failing interleavings are a few bytecodes wide, and there are infinitely many of them.", "anchors": ["unidist/core/backends/pymp/core/process_manager.py:_next", "unidist/core/backends/pymp/core/process_manager.py:submit", "unidist/core/backends/pymp/core/process_manager.py:grab_worker", "unidist/core/backends/pymp/core/actor.py:__init__", "unidist/core/backends/pymp/core/api.py:submit"]}
{"id": "C148", "title": "Methods can make actors and use their results on the multiprocessing backend", "statement": "On the multiprocessing backend methods of actors may make actors, call their methods and call functions, and get the results, at any depth of nesting: when no worker can go on any more, everything that was called has been executed.", "quantifier": "every number of workers; every sequence of creations and calls of the main process; all methods, which make actors and calls and get results in any order; every order in which the workers go on", "why_tests_cant": "The tests make no actors inside methods. Whether a program hangs depends on the placement of all actors made before and on the order of execution.", "anchors": ["unidist/core/backends/pymp/core/actor.py:__init__", "unidist/core/backends/pymp/core/actor.py:submit", "unidist/core/backends/pymp/core/process_manager.py:grab_worker", "unidist/core/backends/pymp/core/process_manager.py:submit", "unidist/core/backends/pymp/core/process_manager.py:run", "unidist/core/backends/pymp/core/object_store.py:get"]}
{"id": "C149", "title": "The references that `wait` returns are those that were given", "statement": "The references returned by `unidist.wait` are the given ones, divided into two lists: a dictionary with an entry for each given reference has an entry for each returned one, each returned one can be removed from a list of the given ones, and the returned references have the data of the given ones. Earlier references keep their data, and a loop that waits for what is left until nothing is left hands out every reference exactly once.", "quantifier": "every history of `put`, calls, `wait` and references taken out of stored data; every argument of `wait`, one reference or a list; every division of the references by the backend", "why_tests_cant": "The tests of `wait` look only at the lengths of the two lists and at the data. Whether a returned reference equals a given one is never compared, and the answers of a backend come in few of the possible orders.", "anchors": ["unidist/core/base/object_ref.py:ObjectRef", "unidist/core/base/backend.py:wait", "unidist/core/base/backend.py:put", "unidist/core/base/backend.py:get"]}
