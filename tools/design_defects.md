## Disagreements between property and code

Every item is confirmed by a Lean witness theorem (`_violated`) of the named property; line numbers are those of `/repo/unidist/...`.

* **C04** `SharedMemoryManager.put` takes memory and slot before checking either, and the loser is not given back (monitor/shared_memory_manager.py:176-181).
* **C07** `clear` runs a collective over lists whose order depends on the arrival order at each monitor; two cleanup requests in different orders free a referenced object (194-228).
* **C11** checking the identity of a slot and incrementing its reference number are two steps; a cleanup and re-use between them moves the reference to another object (shared_object_store.py:282-316).
* **C15** blocking and non-blocking packages use one tag for their bodies, so a receiver can pair a header with the wrong body (communication.py:634-661, 714-754).
* **C16** `parallel_memcopy` of a short buffer without aligned address inside gives right < left, a huge unsigned chunk (memory.cpp:30-41).
* **C17, C18** a dictionary with one of the three marker keys is taken for an encoded object; `bytearray` comes back as `bytes` (serialization.py:233-257).
* **C19** reading an object empties the stored list of raw buffers, later forwards lose them (serialization.py:124, 254; object_store.py:79-84).
* **C26** each process has its own list of reserved ranks (controller/common.py:23-51).
* **C34** `get([r, r])` of a remote reference waits for two replies, one is sent (controller/common.py:217-227, 256).
* **C35** the second `get` of a failed reference returns the exception object (controller/api.py:417-428).
* **C37** data already sent is not sent again although a blocking request waits for it (controller/common.py:256, 314).
* **C37** `process_task_request` looks at the kept requests for the outputs also when it only *started* a coroutine, and `check_pending_get_requests` deletes what it looked at (task_store.py:455-457, request_store.py:134-166): `x = slow.remote(); y = actor.async_method.remote(x); get(y)` waits for ever if the request for `y` arrives before `x`.
* **C38, C81** outputs of actor methods and coroutines do not wake plain tasks, and tasks that became ready during a scan are left (worker/loop.py:113-122, 195-201; task_store.py:318).
* **C40** `wait` on a failed task, with `num_returns=0` or with more than the list never returns (task_store.py:346-404; monitor/loop.py:146; controller/api.py:467-476).
* **C42** a missing output is never stored, `get` hangs (`zip` truncation, task_store.py:364).
* **C43** a failing task with `num_returns=0` ends its worker (`put(None, e)`, task_store.py:356; local_object_store.py:84).
* **C44** a pending actor call is overtaken by a later ready one (task_store.py:107-121; loop.py:195-201).
* **C45, C47** actor calls and tasks of other processes count as executed but not as submitted; cleanup comes too early or stops for ever; a failed coroutine is never counted (actor.py:36-64; garbage_collector.py:138).
* **C46** a reference finalized between serializing the cleanup list and clearing it is never broadcast (garbage_collector.py:59, 139-140).
* **C50** shutdown hangs or strands processes if the root's monitor is not rank 1, if two workers finish with rendezvous sends, without workers, with stray messages, with unfinished coroutines (controller/api.py:305-340; worker/loop.py:210-229; monitor/loop.py:261-287).
* **C51** a signal during shutdown sends CANCEL twice, and the handler raises `TypeError` (controller/api.py:305-340, 588-589).
* **C53** methods get references inside containers unreplaced; a value containing a reference is replaced inside when another argument is late; a reference of unknown owner ends the worker (task_store.py:168-206, 442-454).
* **C54** "4.2" counts as older than 4.2.0; a library text without "MPICH Version:" raises `IndexError` (common.py:443-517).
* **C55** the source of the pickle threshold is overwritten when the shared store is enabled (config/backends/mpi/envvars.py:48-62).
* **C56, C57** `put("false")` turns a flag on; `put` ignores the declared choices (config/parameter.py).
* **C61** keyword names used by functions on the way to the user's function are captured (`num_returns`, `num_cpus`, `resources`, `task`, ...).
* **C64** a call before `init` fixes the backend; Dask outside the main thread raises `UnboundLocalError` (base/backend.py:192-220; base/utils.py).
* **C65, C68** multiprocessing `get` unpickles user bytes and raises stored exception objects (pymp/core/object_store.py:69-104).
* **C66, C70** a short result or a non-iterable result kills a multiprocessing worker (pymp/core/process_manager.py:42-58).
* **C67** multiprocessing `wait` pops by a stale index, cannot handle 0, duplicates or failed references (pymp/core/api.py).
* **C71** the sequential `get` raises exception objects that are values (pyseq/core/object_store.py).
* **C72** the sequential `submit` raises the error of a failed argument at once (pyseq/core/api.py).
* **C73** nested references are values on MPI and references elsewhere (`base/common.py` calls this "a user's burden").
* **C74** Dask `wait` of a repeated reference loses one or never ends (dask/backend.py:100-131).
* **C75, C84** Dask resources: the localhost entry overwrites the entry of the own address; threads are not counted (dask/backend.py).
* **C78** references inside stored objects do not keep their data alive, received ones have no owner (local_object_store.py): a reference returned by a task cannot be used by the caller (`KeyError`, controller/common.py:193), references in a set or an instance given to a task cannot be used by the task (`push_data` looks only into lists, tuples and dictionary values, controller/common.py:389-394).
* **C79** the two identity words are read separately and can mix an old and a new object (shared_object_store.py:385-408).
* **C80** topology entries are keyed by address, so hosts reporting the same one are merged (communication.py:131-179).
* **C85** Ray resources: nodes without CPU raise `KeyError`, nodes with equal addresses are counted once (ray/backend.py).
* **C88** a worker that waits in `get` inside a task answers nothing, so a recursion of remote calls as deep as there are workers never finishes, under no schedule (controller/common.py:216-227; worker/loop.py:103-122).
* **C89** the monitor has one slot for `wait` requests and sends all replies to rank 0: `wait` in a task never returns, and its reply reaches the next `wait` of the main process, which raises `KeyError` (monitor/loop.py:118-159, the code has a TODO there).
* **C90** a handle passed to another worker can be used before the `ACTOR_CREATE` message has arrived; `actor_map[handler]` raises `KeyError` and ends the owner (controller/actor.py:90-180; worker/loop.py:192).
* **C91** values got from shared memory are windows into it, but the finalizer that keeps the memory is attached to the reference; `x = unidist.get(f.remote())` changes silently when the memory is reused after a cleanup (shared_object_store.py:312-316, 448-460).
* **C93** cleanup of an object that another host is copying raises `RuntimeError` and ends that monitor (shared_object_store.py:719-723; monitor/loop.py:254-259).
* **C94** calls of actor methods are not counted by `increment_task_counter` (controller/api.py:578 is the only caller), but their reports are counted by the monitor; a cleanup may run while a method call is pending and remove its arguments, and `get` of its result never returns (controller/garbage_collector.py:138; controller/actor.py:36-63).
* **C95** a worker asks the owner for a result, gets its value from the main process in the meantime, and the answer arrives after the cleanup: the object is stored again and never removed (worker/loop.py:131-150; controller/common.py:397-413).
* **C96** hosts are written between quotes without escaping; a user's pickle threshold is not passed on if the shared store was enabled and read in between; the default number of CPUs is the one of the host of the spawned process (controller/api.py:157-182; config/backends/mpi/envvars.py:48-62).
* **C97** values of environment variables are written between quotes without escaping: a quote is a syntax error in all spawned processes and `init` never returns, a backslash changes the value in the spawned process of rank 0, and what follows a quote in a value is run as a program (controller/api.py:188-191, 243-247).
* **C99** with `num_returns = k > 1` MPI and Multiprocessing iterate over the result, Sequential and Dask subscript it: a dictionary gives keys or values, a generator works or raises; too few items give a `get` that never returns (MPI, Multiprocessing), an `IndexError` of `get` (Dask) or of the call (Sequential); a result that cannot be iterated ends the worker on MPI and Multiprocessing; an exception instance as result is returned by Dask and raised by the others (task_store.py:364-378; process_manager.py:51-56; pyseq/core/api.py:119; dask/remote_function.py:88-92).
* **C100** `get(put(x))` on Dask raises `AttributeError` for a tuple, set or dictionary, because `scatter` gives a container of futures and only lists are gathered (dask/backend.py:77-98).
* **C101** the native handles have names of their own that hide methods: `submit` (pymp/core/actor.py), `actor_methods` (mpi/core/controller/actor.py); the proxy of multiprocessing exposes public names only.
* **C102** `PyMpActor` inherits `__reduce__` but its constructor needs three arguments, so a handle given to a task cannot be unpickled; a constructor keyword `owner_rank` is taken by `Actor.__init__` on MPI and no actor is created (controller/actor.py:90-128).
* **C103** an exception in a constructor, a missing method (worker/loop.py:183, 192), a result that cannot be serialized (task_store.py:367, 380), `sys.exit()` in a task (346), a stored exception that cannot be serialized when it is asked for, `options(num_returns=-1)` (local_object_store.py:220-231) end the worker, and with it the program hangs.
* **C104** `ActorClass.remote` does not call `filter_arguments` and `ACTOR_CREATE` is sent without pushing the owners of references; a constructor that calls `get` raises `KeyError` and ends its worker (base/actor.py:237; controller/actor.py:111-128).
* **C105** `isend_complex_operation` (communication.py:962-984) sends the operation type and only then serializes the arguments. If they cannot be serialized, the caller gets the exception, but the worker has received `EXECUTE`, `ACTOR_CREATE` or `ACTOR_EXECUTE` and waits for the data, without serving anybody else; if the caller sends another request, its data is taken for that of the failed call (`C105_violated`, `C105_stuck_violated`, `C105_malformed_violated`).
* **C106** `init` of the MPI backend (controller/api.py:117-289) does not check whether it was called before: a second call waits forever at the barrier of the first communicator, where no other process comes, and in spawn mode also starts another set of processes that wait in the constructor of `MPIState` (`C106_twice_violated`). `shutdown` (305-340) does not reset `is_mpi_initialized`, so `is_initialized` stays true, `init` afterwards calls MPI after `MPI.Finalize`, and `put` starts nothing (`C106_again_violated`, `C106_put_violated`). `PySeqBackend` inherits an empty `shutdown`, so its `is_initialized` stays true as well (`C106_sequential_violated`).
* **C107** On the multiprocessing backend the object of an actor lives in a manager process that only the handle keeps alive (pymp/core/actor.py:104-111, 141-148). In `Actor.remote().method.remote()` the handle is gone before the call is executed; the worker then fails to unpickle the call outside of its `try` (process_manager.py:39), ends, and `get` waits for ever; tasks submitted to this worker later are lost too. A call that runs while the handle is dropped returns an exception. On MPI the opposite: `actor_map` of a worker never shrinks (worker/loop.py:39, 183, 203-208), so actors are never destroyed (`C107_dropped_violated`, `C107_running_violated`, `C107_others_violated`, `C107_mpi_violated`, `C107_mpi_forever`).
* **C108** The sizes are checked from above only (shared_object_store.py:211-227). A service segment without room for one record is passed to `fill`, which takes the address of its first element and raises `IndexError` in the monitor (262-263; memory/_memory.pyx:41), while the other processes wait for it. This happens if `MpiSharedObjectStoreMemory` is smaller than the threshold (100 KB by default) or leaves less than 32 bytes, or if `MpiSharedServiceMemory` is below 32 (`C108_violated`, `C108_all_violated`, `C108_service_violated`).
* **C109** A remote function that has been called cannot be used inside another remote function: `_remote` replaces the function by a reference (remote_function.py:75-76), a copy made later carries the reference only, and a worker that has not received the function raises `ValueError("Unknown DataID!")` (controller/common.py:415). Whether it works depends on which workers ran the function before.
* **C110** On the multiprocessing backend a result or an exception that cannot be pickled, `sys.exit()` in a function, or a value that cannot be iterated over for several results ends the worker process (process_manager.py:41-58): the `else` branch is outside the `try`. Later tasks are still put into its queue and their references stay delayed for ever.
* **C111** On the MPI backend `get` and the start of a task give out the object that the local store keeps (`object_store.py:73-90`, `worker/task_store.py:189-195`). A task that changes its argument changes it for all later tasks in the same worker, so that results depend on the schedule, and a nested call passes the changed value on (`C111_get_violated`, `C111_task_violated`, `C111_forward_violated`). A result is kept as the object that was returned (`worker/task_store.py:368, 381`); an actor that changes it later changes the result for tasks in this worker (`C111_result_violated`). Large buffers of arguments are sent by `Isend` from the memory of the argument (`communication.py:747-752`); if the program changes it before the transfer is complete, the task finds the new buffer with the old rest (`C111_submit_violated`). The sequential backend stores the objects themselves (`C111_pyseq_violated`).
* **C112** The loop of a monitor (`monitor/loop.py:188-287`) handles no exception. `put` of the memory manager raises `MemoryError` if an object is larger than the free memory, if free memory is scattered or if no metadata slot is free (`shared_memory_manager.py:176-181`); a request for the bytes of a reclaimed object raises (`monitor/loop.py:242-244`); a clean-up of an object whose reservation exists but whose metadata are not written yet raises (`shared_object_store.py:723`). Each of them ends the monitor, the process that asked waits for ever for its answer, and so does every later request of the host (`C112_large_violated`, `C112_slots_violated`, `C112_scattered_violated`, `C112_fetch_violated`, `C112_copying_violated`, `C112_silent`).
* **C113** `get` asks the monitor of the sender's host for the bytes of its reservation (`shared_object_store.py:526-565`), and that monitor sends them without looking whether they have been written (`monitor/loop.py:235-253`). If the object was reclaimed after the package was sent, the receiver makes a new reservation and, if the sender is on the same host, asks its own monitor: it gets back the contents of its own empty reservation, publishes them as the object and returns them (`C113_garbage_violated`, between hosts `C113_mutual_violated`). A process that waits for the copy of another one (`shared_object_store.py:813-816`) looks at one cell for ever; if the object is reclaimed before it looks again, it never returns (`C113_waits_violated`).
* **C61** (Dask) `_remote` passes the user's keywords together with its own `pure=False` or `actor=True` to `Client.submit`, and calls methods through a lambda with parameters `actor_cls` and `method`; user keywords with these names raise `TypeError`, and names of `submit` itself (`key`, `workers`, ...) are captured by it (dask/remote_function.py:82-84, dask/actor.py:70-79, 218-220).
* **C114** `check_pending_actor_tasks` only schedules a coroutine method but runs a regular one at once, so a later regular call overtakes an earlier coroutine call that waited for the same argument (task_store.py:115-121, 318-324); the end of a coroutine does not check the waiting calls (task_store.py:304-316), so a later call with the same argument overtakes them.
* **C115** `deserialize` calls `gc.disable()` and `gc.enable()` without `try/finally` and without looking at the previous state (serialization.py:277-281): an exception leaves the garbage collector off for the rest of the program, and a collector that the user switched off is switched on.
* **C116** `unidist/_version.py:413-441`: a tag that contains `+` can be equal to the version of another commit.
* **C117** `unidist/_version.py:222-247`: without tags, a branch whose name starts with a digit is reported as the version (`1.x`); names of tags are cut at commas.
* **C118** `mpi/utils.py:15-37`: `ImmutableDict` does not replace `__ior__`, so `d |= {...}` changes it.
* **C119** `mpi/core/common.py:357, 367-368`: `hasHandlers` also sees the handlers of the application, so no log file is written; `NOTSET` takes the level of the application, so the file is written although logging is off.
* **C120** `mpi/core/communication.py:51-67`: three names of operations are longer than the 15 characters reserved for names, so the columns of their lines are moved.
* **C88** two tasks that each wait for a further call block each other on two workers if each one's call is placed at the other's worker; the round robin does not look at who waits (controller/common.py:53-75, 216-227; worker/loop.py:103-122).
* **C121** `_encode_custom` (serialization.py:195-211) gives tuples, sets and other built-in containers to plain `pickle` and data frames to `pickle` with protocol 5, so a local function, a class of a notebook or an instance of it inside of them cannot be stored (`unidist.put((lambda: 1, 2))` raises), while in a list or dictionary it can. A text with a surrogate, such as a file name that is not UTF-8, is refused by `msgpack` (231). `C121_tuple_violated`, `C121_frame_violated`, `C121_text_violated`.
* **C122** The constructor of an actor cannot be given a local function: `Actor.__init__` sends `"args": args` (controller/actor.py:116), a tuple, which `pickle` serializes as a whole; `submit` (api.py:563) and `ActorMethod.__call__` (actor.py:50) send `list(args)` and have a comment telling why. Since the operation type is sent before the data is serialized (C105), the worker is then out of step.
* **C123** A list contained twice in what is stored, or given twice as an argument (`f.remote(x, x)`), arrives as two lists, since `msgpack` does not keep references (serialization.py:231); a list that contains itself cannot be stored. In a tuple both work, because tuples are pickled.
* **C95** The monitor never forgets a reference: `DataIDTracker.completed_data_ids` (monitor/loop.py:88) only grows, no cleanup removes anything from it.
* **C124** `_write_to_shared_buffer` copies every raw buffer with `parallel_memcopy` (shared_object_store.py:510-514). For an empty buffer, as that of an empty array when the threshold is 0, `&dst[0]` raises `IndexError` (_memory.pyx:23-24); for a buffer shorter than 63 bytes between two multiples of 64 the copy is undefined behaviour (memory.cpp:30-41). The default thresholds avoid both.
* **C125** `put` stores every object in shared memory without asking `should_be_shared` (controller/api.py:390-391), unlike all other places. The number of metadata records is computed for objects above the threshold (shared_object_store.py:169-209), so that many small objects, for example 9497 integers with 10^9 bytes of free memory, use them up and the next `put` ends the monitor (`C125_exhausted_violated`, `C125_default_violated`).
* **C58** `ComplexDataSerializer.PICKLE_THRESHOLD` is read when the module is imported (serialization.py:121), that is at the first call of unidist, for example a decorator; a shared store enabled or a threshold set after that does not change it (`C58_late_violated`).
* **C126** (controller/api.py:148, communication.py:127-133): under `mpiexec -n N`, N > 1, with `MpiSpawn` left on, the process of rank 0 merges with the processes it spawned while the other started processes call the collective operations of `COMM_WORLD`, which never return. The documentation asks for `UNIDIST_MPI_SPAWN=False` in this mode; the code neither checks nor reports it.
* **C95** a method of an actor is called and its result ignored; the call waits for an argument from another worker. The dropped reference is cleaned up before the method runs (method calls are not counted, controller/api.py:578), then the worker stores the result and nothing ever removes it (worker/task_store.py:381; local_object_store.py:165-180).
* **C98** when data arrives a worker checks its pending tasks and then its pending actor tasks, each once (worker/loop.py:144-146, 164-167), `EXECUTE` only checks tasks (worker/loop.py:122) and `ACTOR_EXECUTE` only methods (worker/loop.py:201). `x = A.remote().m.remote(slow)` and then a task `f.remote(x)` scheduled on the worker of the actor, whose rank was released with the handle (controller/actor.py:196-200): the method runs when `slow` arrives, but the task was looked at before, the owner of `x` is the worker itself so it is never requested (task_store.py:200), and `get` of the result waits until some other data happens to arrive.
* **C99** `bytes` returned by a remote function are unpickled by `get` on the Python Multiprocessing backend (object_store.py:104) and returned as they are on the others; if they are no pickle, `get` raises (`C99_bytes_violated`).
* **C128** (pyseq/core/api.py:103-109): the same program raises at different places: `g.remote(f.remote())` with a failing `f` raises at the call of `g` on the sequential backend, and at `get` on MPI and multiprocessing.
* **C129** `if exception_raised:` (controller/common.py:232) tests the truth value of the exception: one whose class defines `__len__` or `__bool__` as false is returned by `get` as a value, with every exception that arrived after it. With several failed references the error that arrives first is raised, so that the error depends on the schedule; the other backends raise that of the first reference of the list.
* **C130** `type(obj_refs) in (list, tuple, dict)` (backends/common/utils.py:22, mpi/core/common.py:423) leaves out derived classes while `push_data` asks `isinstance` (controller/common.py:389-394): a reference in a named tuple, an `OrderedDict` or a `defaultdict` reaches the function as a reference, and its owner is not sent, so the function cannot get it either.
* **C131** On the multiprocessing backend every actor keeps a worker for itself and a function called when none is left raises `RuntimeError` (process_manager.py:181), while the same program runs on the sequential backend.
* **C133** (shared_object_store.py:160-227, communication.py:159-166): each process checks the configured sizes against the memory of its own host and raises alone. The other processes wait in `Allocate_shared`, `Create_group` or the barrier for ever, `init` of the main process does not return. The same happens if the monitor fails to fill an empty service memory (C108), and if the root refuses a host with a single process.
* **C134** A request to a worker or monitor consists of several messages (communication.py:857-1025). The signal handler of the root takes no arguments (api.py:264-265, 588), so that a signal raises a `TypeError` out of the call that is under way. Between two messages this leaves the receiver waiting for the rest for ever; `shutdown` at exit does not return. If the program goes on, data of a later request is taken for the missing data.
* **C135** The same exception out of `get` leaves replies behind that later calls take for their own: a `RuntimeError` in every later call (controller/common.py:228-231), or, if the information package was received and the data was not (communication.py:835-847), the value of another reference. The owner records the object as sent (controller/common.py:256, 294), so that it is never sent again.
* **C136** The root receives the replies of its monitor to all kinds of requests with one tag and without a check (communication.py:440-461, api.py:484-492, 328-332, garbage_collector.py:123-138, shared_object_store.py:741-750). If the signal handler raises (api.py:588) between a request and its reply, the reply is taken by the next call, and so on: wrong ranges of shared memory, wrong partitions, `ValueError` in `shutdown`. `WaitHandler.add_wait_request` (monitor/loop.py:117-129) does not reset `ready`.
* **C137** `wait` of finished references differs between the backends: the order on MPI depends on which objects are in the store of the process (api.py:467-473), the multiprocessing backend removes by an index that is not adjusted (pymp/core/object_store.py:134-139) and raises `IndexError` or skips every second reference, Dask iterates sets (dask/backend.py:126). For a number larger than the list the Sequential backend returns (pyseq/backend.py:121), MPI and Dask wait for ever.
* **C138** If `put` or `get` is ended by a signal or an error after `send_reserve_operation` and before `_put_service_info` (shared_object_store.py:738-751, 788-811), the reservation stays without metadata: `clear` then raises `RuntimeError` in the monitor (shared_object_store.py:723, monitor/shared_memory_manager.py:234), and a later `get` waits for ever for metadata that nobody writes (shared_object_store.py:813-816). If it is ended between the counting of a reference and `weakref.finalize` (369-383, 302-316), the memory is never released.
* **C139** a value from shared memory cannot be used after `shutdown`: `finalize` frees the window that the value points into (shared_object_store.py:448-460, 839-840), so `x = unidist.get(ref); unidist.shutdown(); print(x)` touches memory that was freed. The finalizers are detached only after the windows were freed (839-845), so that the collector can run one of them in between. `is_allocated` stays true after `finalize` (592), so a later `put` calls MPI after its end and a later first `get` reads freed memory.
* **C140** the backend demands `MPI.THREAD_MULTIPLE` (controller/api.py:124-139) but has no locks: two threads can make references with equal identities (local_object_store.py:196-199), receive each other's replies of the monitor (communication.py:1080-1086) and end the monitor if the data of a `wait` and of a reservation overtake each other (monitor/loop.py:207-211, 222-225).
* **C141** tasks that wait for results of other workers are dropped at the end of the program: `shutdown`, also called at exit, sends `CANCEL` right after the tasks, and a worker that reads it clears its pending tasks (`worker/loop.py` 210-222, `task_store.py` 99-105) although the results they wait for may still come. Neither an error nor a warning appears. On the multiprocessing backend the workers are daemons (`process_manager.py` 31), and all tasks that are still in the queues are lost. The Python backend executes every task at its submission. `C141_cancelled_violated`, `C141_pymp_violated`.
* **C142** exceptions with a constructor of their own can often be pickled but not unpickled. `pull_data` has received the whole message when the restoration raises (`controller/common.py` 113-168), and the worker remembers that it was sent (256-298): the first `get` raises a `TypeError`, the second never returns; the other replies for the same list are read by later `get` calls, which raise `RuntimeError`. If the result is an argument of a task of another worker, the restoration raises in the loop of that worker (`worker/loop.py` 131-146) and ends it. `C142_second_violated`, `C142_stray_violated`, `C142_lost_violated`.
* **C143** `options(*args, num_returns=None, **kwargs)` ignores its `*args` and `**kwargs` (`base/remote_function.py` 64-100, `base/actor.py` 26-54, 184-218), and `remote` reads three names from its keywords and ignores the others (`api.py` 136-141): `f.options(num_return=2)`, `@unidist.remote(num_gpus=1)` and `actor.m.options(num_cpus=4)` are accepted and have no effect. `C143_dropped_violated`, `C143_decorator_violated`, `C143_method_violated`.
* **C144** the stores of the sequential and the multiprocessing backend never remove anything (pyseq/core/object_store.py:35-54, pymp/core/object_store.py:51-70; `DataID` has no finalizer, common/data_id.py:10-29): `while True: unidist.get(f.remote(x))` fills the memory, whereas the MPI, Ray and Dask backends release results whose references are gone. A task of the multiprocessing backend without results that raises adds an entry with the key `None` (pymp/core/process_manager.py:49).
* **C145** on the multiprocessing backend the process of an actor is forked before the worker of the actor is grabbed (pymp/core/actor.py:105-110), so its copy of `ProcessManager` takes that worker for free. A method that calls `unidist.get(f.remote())` hangs as soon as the copied counter points to the worker that executes the method, in a fresh program at the first call. Inside remote functions `f.remote()` raises `AssertionError: daemonic processes are not allowed to have children`, because the workers are forked before `ProcessManager` has an instance (process_manager.py:31, 90-115).
* **C146** an actor made in a method or constructor of another actor is given the worker of that actor, if the process of that actor has made no other: the process is forked before the worker is grabbed (pymp/core/actor.py:105-110). Nested actors thus all share one worker while the others are idle, and one that waits for a method of an actor it made hangs.
* **C147** `_next` of the multiprocessing backend increments `_worker_id` and compares it with `==` without a lock (pymp/core/process_manager.py:125-129): if two threads increment it before either compares, it passes the number of workers, is never set to 0 again, and every later call of a remote function raises `IndexError`. `BaseManager.register("WrappedClass", cls)` (pymp/core/actor.py:105-107) is shared, so an actor may be made of the class of another thread. `>=` in place of `==` and a lock around both places would do.
* **C148** on the multiprocessing backend a method that makes an actor and gets the result of one of its methods hangs, if this actor is the first one of its process (same cause as C146: pymp/core/actor.py:105-110 forks the process before the worker is grabbed): the call is placed on the worker that executes the method.
* **C149** `unidist/core/base/object_ref.py:8-19`, `unidist/core/base/backend.py:333-334`: `ObjectRef` has no `__eq__` and no `__hash__`, and `wait` wraps the references anew. In `tasks = {f.remote(i): i for i in range(2)}; done, _ = unidist.wait(list(tasks)); tasks[done[0]]` the lookup raises `KeyError`, where it works with the references of Ray or the futures of Dask themselves. In the same way `refs.remove(done[0])` raises `ValueError`. The data are not affected.
