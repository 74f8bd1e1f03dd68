{
 "C01": "Proved for every history of the range allocator and, at object level, for every history of a monitor (reservations, cleanups with any collective result, arbitrary metadata writes). Requests have at least one byte.",
 "C02": "Proved for every history of the range allocator: first fit serves a request whenever enough consecutive free bytes exist, and the free list is the whole segment once everything is released.",
 "C03": "Proved for every history of a monitor.",
 "C04": "Violated by the code: both resources are taken before either is checked. Negation proved with witnesses; the partial theorem gives exactly what is preserved. `C04_lost_partial`: exactly how much memory a refused `put` consumes.",
 "C05": "Proved for every history of a monitor: the log of answers is legal (first exactly if there is no reservation in force, otherwise the same reservation).",
 "C06": "Proved for any number of hosts and any history in which every monitor processes the cleanup lists in the same order.",
 "C07": "Violated by the code when two cleanup requests are delivered in different orders; negation proved with a two-host witness, also showing that a referenced object is freed. Partial: same delivery order; and for all delivery orders, even of different lists, a host never reclaims an object that it refers to itself (`C07_own_references_partial`), so only references from other hosts are overlooked.",
 "C08": "Proved for every object and reservation: local round trip, stability under writes of other objects into disjoint ranges, and round trip after the copy to another host. Byte contents only; serialization is C17/C18. The copy of a raw buffer is taken as exact here; which buffers are copied exactly is C124.",
 "C09": "Proved: an object larger than its reservation is refused and bytes outside the reservation are untouched.",
 "C10": "Proved for all interleavings of one writer with any number of reader steps, at word granularity and with the code's write order (identity words last).",
 "C11": "Violated by the code: a reader's check and its reference increment are not atomic, so a cleanup and re-use of the cell between them counts the reference on another object. Negation with witness; partial for histories where no cleanup falls between check and increment. For all histories in which no object is published twice the count is never below the number of registrations of the object in the slot, so the race makes an object stay too long and never lets one go too early (`C11_never_below_partial`).",
 "C12": "Proved for all non-negative configured sizes and all amounts of available memory below 64 TiB, with the rounding of the floating point products.",
 "C13": "Proved for the default sizing and for a configured object store, and any list of live objects larger than the sharing threshold; memory below 64 TiB. That all shared objects are larger than the threshold is property C125, which `put` violates.",
 "C14": "Proved for every length and every positive block size, also with other traffic queued.",
 "C15": "Violated by the code: blocking and non-blocking packages share the tag for their bodies, so a blocking receive can take the body of another package from the same sender. Negation with witnesses; partial: packages of one kind arrive in order from any number of senders. Exactly, for one receive: the first package of the awaited kind arrives intact if and only if its byte messages come first among all byte messages of its sender.",
 "C16": "Violated by the code for short buffers without a 64-aligned address inside (a negative chunk size is passed to memcpy). Negation with witness; partial: exact for every buffer of at least 63 bytes, any alignment, any thread count, any order of the copies. Exactly: the copy is made, and is exact, if and only if an address divisible by 64 lies in the buffer or at its end. Copies are defined if and only if none of them has a negative length or leaves one of the buffers (`C16_defined_exactly`), and under the same condition as above none does (`C16_bounds_partial`).",
 "C79": "Violated by the code: the two identity words are read separately and can mix an old and a new object. Negation with witness; partial: the only wrong answer is the one combining the old object's worker with the new object's number. Exactly: for which old, new and looked-for objects some schedule makes the check succeed.",
 "C17": "Violated by the code for dictionaries with one of the three marker keys (KeyError or silent replacement) and for bytearray (comes back as bytes). Negation with witnesses; partial, exactly: an object comes back unchanged if and only if it has none of these at any depth, for every threshold. pickle/msgpack round-trips of leaves are assumed. What comes back for an object without marker keys is the object with every bytearray replaced by bytes.",
 "C18": "Violated by the code when a dictionary with the marker key precedes an array in the same object. Negation with witness; partial: without marker keys the buffers return exactly, none left over. Bytearrays do not disturb the buffers: they come back as bytes and the buffers are the same. Marker keys other than `__pickle5_custom__` disturb no buffer: everything outside of such dictionaries comes back with its own buffers, or the deserialization fails because of the dictionary itself (C18_markers_partial).",
 "C19": "Violated by the code: after a local read of an object with out-of-band buffers the stored buffer list is empty, so forwarding fails. Negation with witness; partial, exactly: all uses agree if and only if no buffer reaches the threshold or no forward follows a local read; for every object forwards before the first read and all reads agree.",
 "C20": "Unbounded over all histories of all processes; a request is always served with data of the same reference.",
 "C21": "Parse of the textual form is exact and the metadata pair is injective.",
 "C22": "Unbounded over all histories of creating, copying, sending, receiving and dropping references; dropping the last reference reports it (`C22_last_drop_reports`). The histories are all that can happen: creations, copies, drops and receptions are always possible (C22_possible).",
 "C23": "For every state of the scheduler and every number of workers.",
 "C24": "For every number of submissions and workers; with reservations every full round visits each free worker.",
 "C25": "Unbounded over histories of submissions, actor creations, handle copies and drops in one process.",
 "C26": "Violated by the code: reservations are local to each process. Negation with witness; partial: holds for actors of the placing process itself. If the other processes only submit work and drop handles, so that one process holds all handles, nothing it places is on the worker of any actor (`C26_one_creator_partial`).",
 "C27": "Unbounded over histories of submissions, actor creations and drops. `C27_programs` says it of the whole multiprocessing system of C65\u2013C70: in every program of functions, actors, method calls and drops exactly the workers of the existing actors are taken, and no function and no new actor gets one of them.",
 "C28": "For every layout of processes over hosts with different addresses, with and without shared memory; all processes compute the same roles.",
 "C29": "Same physical node for every layout with different addresses; common monitor without shared memory; the root refuses exactly the layouts with a lone process on some node.",
 "C30": "The sum holds for every layout; with shared memory the number of workers plus the number of actual hosts is the configured CPU count plus the number of configured hosts, so it is the configured count exactly if the numbers of hosts agree (otherwise the code only warns).",
 "C31": "Float division replaced by exact division (equal below 2^53).",
 "C80": "Violated by the code: topology entries are keyed by address. Negation with witnesses; partial: a single host is always handled correctly. Exactly, for any addresses: which processes get a role, and which process each one takes for its monitor.",
 "C32": "Cluster model: main process, workers, FIFO channels per pair; any interleaving of deliveries, replies, coroutine completions. User functions are pure and neither stored nor returned values contain references (references inside values are C53/C78). Which of several errors a get of several failed references raises depends on arrival order; only that it is one of them is claimed.",
 "C33": "Executions are logged by the model; tags number the submissions of the main process.",
 "C34": "Violated by the code: get([x, x]) hangs because the data is requested twice and sent once. Partial: results are given in order, at the right positions. Exactly for programs that submit no coroutine functions (`C34_exact_partial`): a get returns if and only if all references in its list have values in the sequential evaluation of the program and no output of a task is twice in the list without having been in an earlier list. A get with such a repetition never returns in any program (`C34_repeated_partial`).",
 "C35": "Violated: the first get raises and stores the exception object, the second get returns it as a value. Proved: the first get raises an error of its list. `C35_exact_partial`: exactly when `get` raises.",
 "C36": "Any plain exception object given as direct argument also fails the task (see C61).",
 "C41": "i-th value claimed when the function returns at least num_returns values as list.",
 "C42": "Violated: the missing output is never stored and get hangs. Proved: no wrong value is ever returned for it. `C42_never_partial`: a missing output never gets a value, and no `get` of it ever ends.",
 "C43": "Violated: storing the exception under None raises TypeError in the worker loop. Proved: these and non-iterable results are the only ways for a program of tasks to end a worker.",
 "C49": "Main process as only submitter; sent-once claim is for the main process over all its submissions.",
 "C37": "Full claim refuted: a blocking request after a non-blocking one of the same process and reference is never answered, and a request for the output of a coroutine that starts later is forgotten at the start (C37_coroutine_violated). Proved for all histories of a worker: once the value exists each process that asked was sent it exactly once, never twice, and directly if its requests were blocking. Assumes that the requested output is not made by a coroutine and that the function of the task returns enough values (otherwise kept requests are forgotten, shown by an example). For every history, with coroutines and short results, a process is sent the value at most once, only after asking and only when it exists (C37_once_partial). For the output of a coroutine, exactly the processes that ask after its start get the value (C37_coroutine_partial).",
 "C38": "Violated by the code: three witnesses (actor method output, coroutine output, overtaken consumer). Partial: in programs of the main process that submit no coroutine functions, every task held back has a missing argument in every reachable state, however many values the functions return; in every history of a worker, with actors and coroutines, a request held back although its arguments are there has an argument that this worker made itself (`C38_remote_partial`).",
 "C44": "Violated by the code: a call that waits for an argument is overtaken by a later one. Partial: calls whose references have values when the call arrives (in particular calls without references) run in the order of arrival with these values, and the state is that of a sequential program; coroutine methods excluded. For every state of a worker: a call with available arguments is executed at once before all calls kept (`C44_overtaken_partial`), a call with a missing argument is kept at the end (`C44_held_partial`), and data that arrives lets kept calls run in their order (`C44_woken_partial`).",
 "C81": "Violated by the code: a plain task that needs the output of a coroutine function in the same worker is never woken up, and get of an output that a task did not return waits for ever (two cluster-level witnesses). Exactly what holds without coroutine functions (`C81_exact_partial`): when nothing can be received any more, a task was executed if and only if its arguments have values in the sequential evaluation of the program (outputs a function did not return have none), and a get waits only if it can never return (C34). Hence no deadlock if all outputs have values. The processes make only boundedly many steps for the calls made (all programs), so such programs really come to this end from every reachable state, without crash, if no task without outputs raises and no task with several outputs returns something that is no list.",
 "C39": "Proved for every history of stores, finishing tasks, wait calls and message deliveries (clean-up not modelled): partition, exact number, every ready reference stored locally or computed.",
 "C40": "Violated by the code: wait for a failed task, num_returns 0 and num_returns larger than the list never return (three witnesses). Partial: with num_returns at least 1 a quiescent wait in progress has fewer than num_returns stored or successfully computed references. Exactly (`C40_exact_partial`): when no message is under way the call has returned if and only if num_returns is at least 1 and that many references are stored or successfully computed.",
 "C45": "Violated by the code: the number of executed tasks is compared with the submissions of one collector only, so results of actor methods and of other processes count too and a reference is cleaned while a task that uses it is unfinished (two witnesses). Partial: without actor methods and with a single submitting process no cleanup happens while a submitted task is unfinished. Exactly how far it is off (`C45_count_partial`): at a broadcast by a process, the number of pieces of work still unfinished or unreported is at most the number of actor methods and tasks of other processes so far, and equal to it if no coroutine failed.",
 "C46": "Violated by the code: a reference finalized between serializing the list and clearing it is never broadcast (witness). For all histories (`C46_onTime_partial`): exactly the references finalized while a list is being sent are lost; all others are broadcast exactly once, in the order in which they were dropped, or are still queued. The receivers are every worker and monitor but the sender.",
 "C47": "Violated by the code: after an actor method, a task of another process or a failed coroutine the counts never meet again and cleanup stops for ever (three witnesses). Partial: without these, dropped references are broadcast by later attempts.",
 "C48": "Proved over every operation sequence of the store model.",
 "C50": "Violated by the code in five ways (witnesses): root monitor with a rank other than 1, two workers finishing with rendezvous sends, no workers, stray messages, unfinished coroutine. Partial: otherwise every maximal run ends with every process gone; nobody leaves early and the root is last. `C50_returns_partial`: whatever else happens, the root returns only if its monitor is rank 1 and there is a worker.",
 "C51": "Violated by the code: an interrupted shutdown is repeated by the exit handler and sends CANCEL twice, and the signal handler itself raises TypeError. Partial: without a signal every worker gets CANCEL exactly once; with signals every interrupted call has sent CANCEL to the first of the workers, so a worker gets at most one more than there were signals (`C51_bound_partial`).",
 "C52": "Proved over every history of sends, completions and sweeps.",
 "C78": "Violated by the code: an embedded reference whose original was dropped has lost its data, and a received embedded reference has no known owner (witnesses for one process in Props/LocalStore, for several processes in Props/Reach: a reference returned by a task, a reference in a set given to a task). Partial: data survives while a copy of the reference is held; for several processes exactly the references that a process created, computed or received as visible arguments can be used (C78_usable_exact_partial).",
 "C82": "Proved over every operation sequence of the store model.",
 "C54": "Violated by the code in two ways (witnesses): the version text \"4.2\" counts as older than 4.2.0, and a library that mentions MPICH without the line \"MPICH Version:\" raises IndexError. Partial: versions with at least three components are compared correctly. Also proved: the version is read from its line, and other libraries are not affected. Exactly: the decision is wrong if and only if sharing is enabled, the standard is at least 3, processes are spawned and the version is 4.2 without a third component.",
 "C55": "Violated by the code: the source of the pickle threshold is overwritten while the shared store is enabled. Proved: the order program, environment, default, and that a value stays once read; partial for the reported source.",
 "C56": "Violated by the code: putting the text \"false\" into a flag turns it on. Partial: environment text and program values otherwise agree. Exactly: the two agree for a text if and only if it does not mean false.",
 "C57": "Violated by the code: put ignores the declared choices. Partial: a value read from the environment is always one of the choices. Exactly, for text parameters: put accepts every text, and the next read gives it in lower case and stripped if that is one of the choices, and raises otherwise.",
 "C58": "The configuration follows the shared store after every sequence of operations. The serializer reads it only once, at the first call of unidist: settings made later are ignored (`C58_late_violated`, `C58_unshared_violated`). For all programs the threshold is exactly the one configured at the first call of unidist that finds a readable configuration (`C58_first_partial`). Without settings after that call every object with an out-of-band buffer is large enough to be shared.",
 "C59": "Proved over all combinations of installed packages and backends.",
 "C77": "Proved as a round trip: reading the produced options back gives the flags of the interpreter.",
 "C83": "Proved for all counts of processes and hosts.",
 "C53": "Violated by the code in three ways (witnesses): methods of actors get references inside containers unreplaced; a value that contains a raw reference is replaced inside when another argument arrives later; a reference of unknown owner ends the worker. Partial: functions (any depth) and methods with direct references, for values without raw references and any arrival order. `C53_method_exactly_partial`: with all values at hand a method gets the right arguments exactly when no container has a wrapper inside.",
 "C60": "Proved over all decorated objects and keyword values. Bare and keyword use, the errors of both, and the values that reach the created object are characterized.",
 "C61": "Violated by the code: keyword names used by the functions on the way (task, func, self, num_returns, owner_rank, ...) are captured or raise TypeError; every reserved name is shown to be lost. Partial: exactly the calls without a reserved name deliver the arguments unchanged, on the MPI, multiprocessing and sequential backends, with and without options. Dask and Ray: the same equivalence for every signature of the library's function; on Dask also pure, actor, actor_cls and method are lost. num_cpus and resources are refused by the MPI and multiprocessing backends. `C61_refused_partial`: Dask never ignores `num_cpus` or `resources`.",
 "C62": "Proved over all structures by paths.",
 "C63": "Proved over all sequences of calls and options.",
 "C64": "Violated by the code: a decorator or call before init fixes the proxy to the backend configured at that time, and Dask outside the main thread raises UnboundLocalError. Partial: all calls go to one backend, the one that is selected at the first call, decoration, put or successful initialization (`C64_which_partial`), and to the initialized one if init comes first. An initialization or a put that does neither raises (`C64_noticed_partial`).",
 "C73": "Violated by the code: a nested reference is a value on MPI and a reference on the other backends. Partial: the backends agree if containers hold no references. `C73_exactly_partial`: exactly then.",
 "C65": "Violated: a result that is a byte string is unpickled by get, a result that is an exception object is raised. Proved for all programs, every number of workers and every interleaving: the results are those of sequential evaluation in which reading a reference unpickles byte strings and raises exception objects (`C65_read_partial`), so two runs of the same program agree (`C65_same_program_partial`); without such values they are those of plain sequential evaluation.",
 "C66": "Violated: a task whose result has too few elements kills its worker, and the tasks queued behind it never run. Proved for all programs: the number of worker actions is bounded, and when none is possible the references of every call up to any number b have outcomes if the results of those calls fit (`C66_upto_partial`); when every result fits, no worker is dead and some action is possible while a task is unfinished.",
 "C67": "Violated: duplicates or too large num_returns give IndexError, num_returns = 0 returns a reference, the scan removes the wrong reference, a failed reference is raised. Proved: partition and length for the calls that return. Exactly: which calls return a partition of the wanted length and which raise IndexError, when all references get a value, for num_returns of at least one and for zero.",
 "C68": "Violated: byte strings and exception objects. Proved for all other objects. Exactly: a byte string comes back as what unpickling it gives, an exception object is raised, any other object comes back as it was.",
 "C69": "The log of method executions of an actor is a prefix of its calls in call order, and the state of the actor is that of the sequential meaning, for all programs (`C69_history_read`; reading a reference unpickles byte strings and raises exception objects, see C65).",
 "C70": "Violated: results with too few elements and non-iterable results. Proved position by position: the k-th reference is filled if the task failed, has one result, or gives more than k elements (`C70_position_partial`, `C70_partial`). A reference that is not filled when its task is gone never is (`C70_forever_partial`).",
 "C71": "Violated: exception objects as values (returned or put) are raised by get. Proved for all programs: every reference gives what direct calls give if an exception object counts as raised when it is read, and submissions raise likewise (`C71_read_partial`, `C71_submit_read_partial`); without exception objects these are plain direct calls. wait slices; get of a list gives the values of its references in order, or raises the error of the first that has one.",
 "C72": "Violated on the sequential backend: submit raises the error of the argument. Proved on multiprocessing (for all programs) and MPI (first get of the reference). On the sequential backend a submission raises exactly the error of the first failed argument, and nothing is changed then (`C72_sequential_exactly_partial`).",
 "C74": "Violated for a reference given twice: one occurrence is lost, or the loop never ends. Proved for different references, for all completion times, delays and set iteration orders. Exactly: a reference given twice counts once, and the call returns if and only if num_returns different references finish.",
 "C75": "Violated if workers are registered both with 127.0.0.1 and with the address of the host. Proved otherwise, per address and in total. Exactly: the threads that are not counted are those of the workers registered with the address of the host.",
 "C76": "Proved for memory below 2^52 bytes, with an exact model of the double precision product. The warning about small shared memory is not modelled.",
 "C84": "Violated for workers with several threads. Proved for one thread per worker. Exactly: right if and only if every worker has one thread, too small otherwise.",
 "C85": "Violated for nodes without CPU resource and for nodes with equal addresses. Proved otherwise. Exactly: each address of a node is reported once, with the CPUs of the last node with that address, or 1 if it has none.",
 "C86": "Decision logic of initialize_ray.",
 "C87": "Proved for all programs in which references are used by the task that created them or passed as arguments, with put and failing tasks. A program that calls get again for a failed reference and looks at whether it raises sees the difference of C35 (C87_second_get_tells); for such programs C87_any_program gives the exact result. References inside returned values and keyword arguments are not part of this model.",
 "C88": "The code violates it: a recursion as deep as there are workers never finishes under any schedule (C88_recursion_deadlocks), and with two workers two calls that each wait for a further call can block each other although another placement would finish (C88_progress_violated). Proved: a program whose calls wait for each other at most as deep as there are workers can finish, with the value of direct evaluation (C88_can_finish_within_workers_partial); this bound is exact (C88_recursion_finishes_iff), so every program with a value can finish with enough workers. Every deadlock is a cycle of workers, each waiting for a value that the next one holds back (C88_deadlock_is_cycle_partial), and such a cycle never ends (C88_cycle_lasts); some process can go on as long as at most one task waits (C88_one_waiting_task_partial); if only the main program calls get, every reachable state can be continued to the end. Missing: programs that wait deeper than there are workers, and placements that close a cycle.",
 "C89": "The code violates it: wait in a task never returns and its reply is taken by the main process. Proved for programs in which only the main process waits: the state is consistent, and a wait in progress while nothing is under way really has fewer than num_returns stored or computed references.",
 "C90": "The code violates it: a call through a passed handle can overtake the creation and ends the worker. In every history this is exactly how a worker ends: it takes a call of an actor whose creation is still under way to it, and such a call comes from another process than the creator (`C90_overtaken_partial`). Proved free of this if the creator passes the handle on only after a first method result came back.",
 "C91": "The code violates it: the finalizer belongs to the reference and not to the value, so a value kept after its reference is dropped changes when the memory is reused. Proved for values whose object has a registered user on any host, in histories where objects being looked up during a cleanup have one. A value whose object nobody is registered for any more keeps its bytes until some of them are reserved for another object (`C91_until_reuse_partial`).",
 "C92": "All histories with guarded lookups; without the guard see C11.",
 "C93": "The code violates it: cleaning up an object that is being copied to another host raises RuntimeError in that host's monitor. With guarded lookups a cleanup round ends a monitor if and only if a listed object is being put or copied somewhere and nobody is registered for it (`C93_exact_partial`); in particular it never does if objects in transfer have a registered user.",
 "C94": "The code violates it: method calls are not counted as submitted tasks, so a cleanup can remove their arguments; the program then hangs. Proved for all programs with tasks and method calls that drop no argument of an unfinished call before a cleanup; programs without method calls always satisfy this.",
 "C95": "The code violates it: an answer that arrives after the cleanup puts the object back, for good; so does a method call whose ignored result is cleaned up before the method runs. Proved for programs with tasks and method calls that pass no result to a call after getting its value and drop no argument or result of an unfinished call before a cleanup; programs without method calls always satisfy the latter. A monitor keeps the reference of every result it was told about, whatever is cleaned up (C95_monitor_violated).",
 "C96": "Violated by the code: a quote in the hosts, a pickle threshold whose source was overwritten, default CPU counts of different hosts. For all programs with hosts without quotes, backslashes and line ends and variables without quotes, line ends and codes (`C96_settings_partial`): every setting is read alike, except the default CPU count on another host, and the pickle threshold if its recorded source is the default while the store is disabled; then the spawned processes read 262144. A variable of the runtime environment named like a parameter reaches only the spawned processes (C96_variable_violated). Where nothing is set every parameter has its documented value, however often it is read before (`C96_defaults`).",
 "C97": "Violated by the code: quotes and backslashes in values; what follows a quote is run as a program (`C97_runs_value_violated`). Proved for texts without them, whatever the program set and read before. With backslashes (`C97_backslashes_partial`): rank 0 has the texts that the values stand for in Python, the others have the values. Left out: escape sequences with codes or names.",
 "C98": "Violated by the code: a method call whose argument is cleaned up never runs; get of a list that names a reference twice never returns; a task that waits for the result of a held back method on the same worker is not looked at when the method has run, even in programs that drop nothing. Partial: without actor method calls, if no get names a reference twice, arrivals end and leave nothing waiting; with actors the same holds if the program keeps the arguments of unfinished calls, sends no task to a worker with an unfinished method call, and no get names a reference twice.",
 "C99": "Violated by the code: dictionaries, generators, results that cannot be iterated, too few items and exception instances as values behave differently on the four backends. Partial: functions that raise, and functions that return what they announce; for sequences of any length no backend gives a wrong item. bytes are unpickled by get on the multiprocessing backend. Exactly for one result and for several results in a sequence: the backends agree if and only if there are enough items and those that count are no exception instances and no bytes that unpickle to something else. Iterables that cannot be subscripted: exactly which items can be read on each backend, also if they raise in between (`C99_iterable_partial`).",
 "C100": "Violated by the code: get of the reference of a tuple, set or dictionary raises AttributeError; ranges and iterators come back as lists. Partial: all other objects, and all but ranges and iterators in a list of references. Both exactly.",
 "C101": "Violated by the code: a method named submit of a multiprocessing actor and one named actor_methods on MPI are hidden by attributes of the native handle; private methods are not exposed by the multiprocessing proxy. Partial: for all names and backends exactly which ones work (`C101_exact_partial`), and what happens with the others (`C101_otherwise_partial`).",
 "C102": "Violated by the code: a multiprocessing handle cannot be unpickled; a constructor keyword owner_rank or handler_id on MPI is captured and no actor is created. For all histories on MPI (`C102_all_partial`): every handle refers to exactly one actor, with the class and arguments it was created with, or to none, and the latter exactly if such a keyword is given another value than None (`C102_creation_partial`). Every handle can be passed on and arrives unchanged.",
 "C103": "Violated by the code in seven ways (raising constructor, missing method, results or exceptions that cannot be serialized, SystemExit, negative num_returns, raising with no results). Partial: programs that do none of these; exactly which calls end a fresh worker.",
 "C104": "Violated by the code: constructors get references instead of values, and on MPI a get of such a reference ends the worker if it does not know the owner. Partial: exactly which argument lists are treated alike and exactly when the worker survives.",
 "C105": "Violated by the code: isend_complex_operation sends the operation type before it serializes the data, so a call whose arguments cannot be serialized leaves an operation without data; the worker waits for data of that process, takes the data of its next request for it, or fails on it. Partial: up to such a call every request is read exactly, for any sources, interleavings and rounds; fully proved for monitors.",
 "C106": "Violated by the code: with MPI a second init hangs, after shutdown is_initialized stays true, init raises and put starts nothing; shutdown of the sequential backend has no effect. Partial: proved for Ray, Dask and multiprocessing with all lists of calls, for the sequential backend without shutdown, and for MPI exactly what every call does after any list of calls, with the cases in which all is good.",
 "C107": "Violated by the code: on the multiprocessing backend the process that holds the actor ends with the last handle, so queued calls (`Actor.remote().m.remote()`) are lost and end the worker, which also loses tasks submitted to it later, and running calls raise; on MPI the actor stays in `actor_map` of its worker for ever. Partial: on multiprocessing an actor exists exactly as long as its handle, and for all histories it is said exactly which calls and tasks get no result, an exception or their value (`C107_lost_partial`); all get their values if no handle is dropped before its calls are finished. On MPI all calls get their values in all histories, and no history removes an actor. `C107_alone_partial`: on multiprocessing an actor with a handle has its worker to itself. After any history exactly the workers of actors with a handle are taken, on both backends (`C107_freed_partial`, `C107_mpi_freed_partial`).",
 "C108": "Violated by the code: if the service memory has no room for one record of 32 bytes, `fill` raises an `IndexError` in the monitor (object store smaller than the threshold, or as large as the allowed memory, or a tiny service memory). Partial: exactly which configurations start, for all sizes below 64 TiB. `C108_exactly_partial`: exactly when the start is refused and when it fails without an explanation.",
 "C109": "Violated by the code: a copy of a called remote function holds a reference only, and a call in a worker that has not received the function raises `ValueError`. Partial: no call raises if objects are copied only before their first call (drops and cleanups allowed); as long as no process drops an object whose reference it made, exactly which calls raise, whatever other processes drop. `C109_held_partial`: a process to which a call was sent, and which then keeps its object, can always call it, whatever is dropped elsewhere.",
 "C110": "Violated by the code: results and exceptions that cannot be pickled, `sys.exit()`, a value that cannot be iterated over for several results, and tasks that cannot be restored end the worker process (six witnesses). Partial: exactly which queues are worked off, which references are filled before and after a call that ends the worker, and methods with at most one result never end it. `C110_returns_partial`: what is filled for every number of results asked for, 0 and negative ones included.",
 "C111": "Violated on the MPI backend: get and tasks receive the object of the local store itself, so changing it changes what later calls in this process find and what it passes on; a returned object that is changed later is found changed in its worker; a large argument changed while the library still reads it arrives as a mixture of both values. Violated on the sequential backend, which stores objects themselves. Proved: on the multiprocessing backend the claim holds without conditions; on the MPI backend it holds if only objects are changed that no store and no incomplete message refers to, the process that made a reference sends the original value to others whatever is changed, and the first read in it gives the original value; on the sequential backend it holds if only objects are changed that the store does not hold. The shared store is not part of this model (see C91). `C111_pymp_made`, `C111_pymp_tasks`, `C111_pyseq_made_partial`: which stored object a `get` shows and which arguments the started tasks found.",
 "C112": "The code violates the property: a reservation that does not fit (an object larger than the memory, no free metadata slot, only scattered free memory), a request for a reclaimed object and a clean-up of an object that is being copied raise in the loop of the monitor, which has no handler. Proved: exactly which event ends the monitor with which exception after any history, that every other request that asks for an answer gets exactly one, that nothing is sent after an exception, and that a program whose shared objects fit together is served as long as nothing is reclaimed. `C112_messages_partial`: what a running monitor sends, to whom, and that it fits the requests so far.",
 "C113": "The code violates both halves if the object is reclaimed while a get is under way: a process copies bytes that nobody has written (from its own new reservation or from one of another host) and returns them, and a process that waits for another one never ends because the cell it looks at stays empty. Proved: if the object is not reclaimed during a get, all values are right, no get is stuck, and one process per host copies; in every state at most four effective steps per process are possible. `C113_reclaim`: memory is reclaimed only by a clean-up that finds no references anywhere, and then everywhere.",
 "C114": "Violated by the code: when the argument for which a coroutine method and a later regular method wait arrives, the regular one runs first; the end of a coroutine does not continue calls that wait for its result, so a later call overtakes them or they are left waiting. Partial: calls whose references have values on arrival start in the order of arrival, coroutines included; with regular methods only the order holds whenever the values arrive and no call with all values is left. Proved: the parts of every call run in order and once, and its result is there exactly when it has ended.",
 "C115": "Violated by the code: after an exception the collector stays off; a program that switched it off finds it on; a nested deserialization switches it on during the outer one. Partial: every successful deserialization leaves it on; without user code the collector is off during the deserialization and the state is restored exactly if it was on and there was no exception or off and there was one. Proved: after several deserializations the collector is on exactly if the last one succeeded. In general user code is obeyed while the deserialization runs (C115_user_code_partial), and a nested one runs with the collector off and leaves it on for the rest of the outer one (C115_nested_partial).",
 "C116": "Violated by the code: a tag with `+` can equal the version of another commit (tag 1 after 5 commits at gab, tag 1+5.gab). Partial: two working trees with the same version are at the same commit, or one is exactly at a tag that is the version text of the other, or one has the tag 0+untagged and the other none (`C116_collision_partial`); with tags without `+` they are the same. The version text itself and the reading of the output of git describe are proved for all tags. The date, an unreadable output of git describe and abbreviated output without a tag are characterized.",
 "C117": "Violated by the code: without tags a branch whose name starts with a digit is taken for a version tag; a tag with a comma is cut at the comma. Partial: for names without comma and parentheses exactly which name is taken for the version (`C117_names_partial`), which is a tag if there is one or no such branch. Agreement of archive and checkout and the source distribution are proved. The revision, the date and the search for the directory by its name are characterized.",
 "C118": "Violated by the code: `|=` is not replaced and changes the dictionary (Python 3.9 and later). Partial: all other operations leave it as it is. Arrival of packages is proved; without wrapping to dict no package would arrive. The result of `|` is the union with the values of the right operand.",
 "C119": "Violated by the code: with handlers of the application in place before, nothing is written to the file; with the root logger at level DEBUG everything is written although logging is off (level NOTSET). Partial: applications that configure logging later and log above DEBUG. In any case nothing is written twice. `C119_exactly_partial` says in all cases exactly what the file contains.",
 "C120": "Violated by the code: the names READY_TO_SHUTDOWN, RESERVE_SHARED_MEMORY and REQUEST_SHARED_DATA are longer than the 15 characters reserved, so their columns are moved. Partial: all other operations, exactly. Every line, moved or not, determines operation, sender and receiver (C120_line_determines).",
 "C121": "Violated by the code: a tuple, set or data frame with a local function or class in it is given to plain pickle, which refuses it, although the same object in a list goes to cloudpickle; a text with a surrogate is refused by msgpack unless it is in a tuple. Proved: exactly which objects are refused (C121_refused_exactly_partial), that every other object comes back unchanged, and that without local objects and surrogates nothing is refused. Which objects pickle, cloudpickle and msgpack accept is assumed. Missing: the refused objects.",
 "C122": "Violated by the code: the constructor's positional arguments are sent as a tuple, which goes to plain pickle as a whole, so a local function or class (or an instance of one) cannot be given to a constructor, although it can be stored, given to functions and methods, and to constructors by keyword; a text with a surrogate can be given to constructors only. The other two places make a list of the arguments, with a comment telling why. Proved: functions and methods accept exactly what can be stored; constructors exactly the arguments without local objects (positional) that can be stored (keyword); what is sent arrives unchanged. Which objects the libraries accept is assumed as in C121. The keys of each message are different and the arguments are under `args` and `kwargs` (`C122_keys`).",
 "C123": "Violated by the code: msgpack writes a list or dictionary each time it meets it, so what is contained twice becomes two objects (also two equal arguments of one call), and a list that contains itself through lists and dictionaries only is refused, as are lists nested deeper than msgpack's limit. Proved: exactly which paths lead to the same object afterwards (those that did and are equal or go through one pickled object reached in the same way), that values along all paths are kept, that everything made is new, exactly which objects are refused, and that everything is kept of a pickled object. Assumed: msgpack's limit and that pickle keeps references. The multiprocessing backend pickles everything and the sequential one copies nothing, so the backends differ here. Missing: what is lost through lists and dictionaries. Lists inside each other are refused exactly from 513 on.",
 "C124": "The code violates it: an empty buffer raises `IndexError`, and a buffer of 1 to 62 bytes between two multiples of 64 is undefined behaviour (`C124_empty_violated`, `C124_short_violated`; `C124_sharp_violated` for every length below 63). Proved: which objects are written is decided exactly (`C124_exactly_partial`), and with a threshold of at least 63 bytes, as by default, all objects that fit are written exactly.",
 "C125": "The code violates it: `put` never asks for the size, so that small objects use up the metadata records, after which the next one ends the monitor; this is shown for every size (`C125_exhausted_violated`) and for the default configuration with 10^9 bytes. Proved: all other places compare with the threshold, and without `put` the records suffice.",
 "C126": "The code violates it: with `mpiexec -n N`, N > 1, and spawning left on (the default), the process of rank 0 spawns its own processes and runs the script with them, and all other started processes wait for it for ever (`C126_spawning_violated`, for every N). The documentation asks for `UNIDIST_MPI_SPAWN=False` here, nothing checks it. Proved for one started process, and with spawning switched off for any number. `C126_exactly_partial`: the processes come together exactly when one process is started or spawning is off.",
 "C127": "Proved for the calls of the main process, methods of actors that do not change their actor included; that all gets are answered is proved for programs without method calls that name no reference twice in a `get` (see C98).",
 "C128": "Violated by the code: when a failed result is passed on, the sequential backend raises at the call whereas the others raise when the result is fetched. Partial: MPI and multiprocessing give the results and errors of direct calls for all programs, and all of them; the sequential backend runs to the end exactly if no argument is a failed result, and then does so too; so for these programs any two backends agree. Objects are numbers: for byte strings and exception objects see C65 and C71. On the sequential backend the first call with a failed argument raises the error of the first failed argument, and what was made before stays as it is (`C128_pyseq_first_partial`).",
 "C129": "Violated by the code: on the MPI backend the error that arrives first is raised, not that of the first reference; an exception whose truth value is false, or that was put, is returned as a value. Partial: the other two backends always give the right answer; on the MPI backend exactly the lists for which the answer is right in every order of arrival are characterised, and all programs agree in which a list has at most one failed reference, asked for once.",
 "C130": "Violated: `unwrap_object_refs` and `materialize_data_ids` compare the class itself, so references in a named tuple, an `OrderedDict` or a `defaultdict` are neither replaced nor sent along. `C130_positions_partial` and `C130_exactly_partial` say at which positions references are replaced, `C130_arrives_partial` which are sent along.",
 "C131": "Violated on each backend: a function cannot be called when every worker of the multiprocessing backend is kept by an actor (`C131_room_violated`); a failed argument raises at the call on the sequential backend (`C131_failed_violated`); a call whose argument comes late is overtaken on MPI (`C131_overtaken_violated`). The rest: `C131_pymp_partial`, `C131_pymp_states_partial`, `C131_pyseq_partial` (an equivalence), `C131_mpi_partial` (one actor on one worker, calls without references).",
 "C132": "For every history of a worker: tasks, coroutine tasks, methods of other actors, data and owners arrive in any order, arguments may be missing. The order of execution is not always that of the calls (C44). Methods of the actor are no coroutine functions (their effect on the state between awaits is not modelled here), results contain no references, and every reference is given a value once (C20, C48).",
 "C133": "The code violates it: every process compares the configured sizes with the memory it reads itself, so that the processes of a small host refuse while the others, the main process among them, wait for ever (`C133_violated`). Without room for a record they wait even on a single host (`C133_no_room_violated`). Proved exactly: who refuses, breaks down, waits and gets ready, for all numbers of hosts and processes and all orders (`C133_exactly_partial`); nobody waits exactly if all can start or all refuse; without configured sizes nobody refuses.",
 "C134": "The code violates it: a request is sent as several messages, and a signal between two of them leaves the worker waiting for the rest, so that it never reads `CANCEL` and `shutdown` never returns (`C134_violated`, `C134_program_violated`). A monitor waits in the same way and then serves nobody (`C134_monitor_violated`). If the program goes on, the data of a later request is taken for the missing data: a method call runs as a task (`C134_other_data_violated`). Proved: calls of which nothing or everything was sent do no harm (`C134_whole_partial`), and for the last call before the end this is exactly the condition (`C134_exactly_partial`).",
 "C135": "The code violates it: a signal between the information package of an object and its data makes the next get of an object of the same owner return the data of the first (`C135_violated`), and the object itself can never be obtained again (`C135_lost_violated`, for every history). After one call interrupted while it waits, all later calls for new references can raise a `RuntimeError` (`C135_forever_violated`). Proved: without signals all calls return the right values (`C135_uninterrupted_partial`); with signals that arrive only while the root waits for an object all values are right (`C135_values_partial`), and a call raises only if a reply for an earlier call was outstanding when it began (`C135_raises_partial`). Equal references in one call are excluded, see C34.",
 "C136": "The code violates it: replies carry no hint of the request, so that one signal between a request and its reply shifts all later replies by one for ever (`C136_forever_violated`): an object is written into the memory of another one (`C136_violated`) and shutdown raises instead of ending MPI (`C136_shutdown_violated`). The monitor keeps what was ready for an interrupted wait, so that a later wait never returns (`C136_wait_forever_violated`). Proved: without such signals all replies belong to their requests, also if signals arrive after a reply was received (`C136_received_partial`); exactly by how many calls the replies are shifted in programs without wait (`C136_exactly_partial`); ranges in replies are always those recorded for their identity (`C136_ranges_partial`). Whatever was interrupted, a number of tasks that is received is the one at the time of the question it answers (`C136_count_partial`), and the monitor reads nothing after the request for the end (`C136_end_partial`).",
 "C137": "The code violates it: MPI gives the references in the store of the process first (`C137_order_violated`), the multiprocessing backend raises (`C137_raises_violated`) or gives every second reference (`C137_skips_violated`), Dask gives them in the order of a set (`C137_set_violated`). Proved: for every number exactly which backend returns, raises or waits for ever (`C137_ends_exactly_partial`); exactly when each backend gives the same as the Sequential one (`C137_mpi_exactly_partial`, `C137_pymp_exactly_partial`, `C137_dask_exactly_partial`); and that every returned pair is a partition with the wanted number of ready references (`C137_contract_partial`).",
 "C138": "The code violates it: a put that is ended while the bytes are written ends the monitor at the clean-up of its reference (`C138_monitor_violated`); a get that is ended while the bytes are copied makes the next get of the same reference wait for ever (`C138_waits_violated`); a call that is ended between counting a reference and registering its finalizer keeps the memory until the end of the program (`C138_kept_violated`). Proved: these are the only bad moments (`C138_partial`), and exactly when each of the three happens (`C138_monitor_exactly_partial`, `C138_waits_exactly_partial`, `C138_kept_exactly_partial`).",
 "C139": "Violated with shared memory: the value is a view into a window that shutdown frees, so using it after shutdown touches memory that does not exist any more; a reference that the collector finds between the release of the windows and the detaching of the finalizers does the same. Proved exactly which step of which history ends the process (`C139_exactly_partial`): also a first `get` after the end, and a `put` calls MPI after its end because `is_allocated` stays true. Proved: without shared memory, for values without out-of-band buffers and for copies, values can be used at any time, and references can be forgotten before and after shutdown.",
 "C140": "The code violates it, although it demands an MPI library for several threads: it has no locks. Two calls can make the same reference (`C140_ids_violated`), and an increment that was overtaken sets the counter back, so that even calls that do not overlap make equal references (`C140_back_violated`). Replies go to the thread that asks MPI first, so that two threads write into each other's memory (`C140_swapped_violated`); data that overtake those of another request end the monitor (`C140_monitor_violated`). Proved for all interleavings: exactly which call is answered by each reply (`C140_replies_exactly_partial`) and when the monitor ends (`C140_monitor_exactly_partial`); calls that do not overlap are right (`C140_serial_partial`, `C140_ids_partial`), and so are overlapping ones if data and receptions keep the order of the operations (`C140_orders_partial`).",
 "C141": "Violated (C141_violated; C141_cancelled_violated: in every program with a task that depends on a task of another worker there is a schedule in which that task is cancelled; C141_pymp_violated: on the multiprocessing backend the program can end at any moment and nothing is executed afterwards). What holds: no task is executed twice and nothing else is (C141_once_partial), a task all of whose dependencies, direct or not, were sent to its own worker is always executed (C141_local_partial), a task is not executed exactly if it was pending for a missing result when its worker read CANCEL (C141_lost_exactly_partial), there is a schedule in which exactly the tasks with dependencies on their own worker are executed (C141_least_exactly_partial) and one in which all are executed (C141_possible_partial); on the multiprocessing backend every worker has executed a prefix of its tasks, after their dependencies (C141_pymp_partial), and as long as the program has not ended all of them can still be executed, whatever was executed before (C141_pymp_possible_partial).",
 "C142": "Violated (C142_violated): after the first `get` of a result that cannot be restored the worker does not send it again, and the second `get` waits for ever (C142_again_violated, C142_second_violated: in every program, for every task without arguments); the other results of the list stay in the mailbox, and the next `get` fails with 'DataID ... isn't in the requested list' (C142_stray_violated); given to a task of another worker the result ends that worker, and everything it has computed is lost (C142_lost_violated). What holds: while only other results are asked for, every `get` has got its values and can end (C142_good_partial); what the main process has was computed and can be restored (C142_root_partial); a worker ends exactly if such a result was sent to it (C142_dead_exactly_partial), so never if such results are arguments of tasks of their own worker only (C142_own_partial). Tasks are executed once and in the order of their arguments (C142_order_partial); a task is executed whatever cannot be restored, if its arguments from other workers can be and their workers run (C142_executed_partial); a worker that has ended executes, receives and sends nothing more (C142_ended_partial).",
 "C143": "Violated (C143_violated): positional arguments of `options` and all names that its signature does not have are dropped without a word (C143_dropped_violated), so are unknown names in the decorator (C143_decorator_violated), and CPUs and resources given for a method (C143_method_violated), which functions and constructors refuse. What holds: the named options are honoured if the call is not refused (C143_named_partial), and a call is refused exactly if it asks for CPUs or resources on another backend than Ray or the decorator of a class gives `num_returns` (C143_refused_exactly_partial). What nobody asked for has no effect: no reservation, one result (C143_default_partial).",
 "C144": "Violated (C144_violated): neither store ever removes an entry, and the end of a reference has no effect. A program that holds at most one reference at any time fills the store without bound on both backends (C144_unbounded_violated); values that the sequential backend has put before it raises `IndexError` for a missing one stay although no reference to them was ever given (C144_orphan_violated). What holds: the data of everything needed are there, under one key (C144_needed_partial); what is there stays, and a finished entry does not change, whatever is dropped or executed (C144_kept_partial, C144_put_partial); the store has exactly one entry per reference asked for on the multiprocessing backend, and not more on the sequential one (C144_size_partial). The MPI backend releases unreachable data (C82).",
 "C145": "Violated (C145_violated). Functions with a remote call inside fail (C145_function_violated): the workers have no instance of the process manager and, being daemons, cannot start processes. With any number of workers the first method of the first actor that gets the result of a call waits for ever, since the process of an actor is forked before its worker is grabbed and takes that worker for a free one (C145_first_violated); calls are also placed on workers of other actors although a worker is free (C145_foreign_violated). What holds: a call fails exactly if it is one of a function with a call inside (C145_result_exactly_partial); calls inside methods are always accepted, never on the worker of an actor made before (C145_placed_partial); the workers come to a stop (C145_ends_partial), and then something is left exactly if a method waits for a call that is behind it in the queue of its own worker (C145_stuck_exactly_partial), which is for ever (C145_self_partial); if no method gets a result of its calls, everything is executed (C145_noget_partial). Actors made inside methods and dropped handles are in C146; start methods other than `fork` are not modelled.",
 "C146": "Violated (C146_violated). A process that makes an actor while it has no other one is given the worker of its own actor, in every history (C146_first_violated), so that with any number of workers any number of live actors are on the first worker (C146_all_violated); calls of functions in a method may go to the worker of the actor (C146_calls_violated). What holds: live actors made by the same process have different workers, and its calls avoid them (C146_siblings_partial); actors made in the process of an actor, at any depth, and calls there avoid the workers of the live actors which the maker of that actor had made before it (C146_earlier_partial); if only the main process makes actors, everything holds for its calls (C146_main_partial). Modelled for the start method `fork`; an actor is dropped after those made in its process. An actor made in the process of an actor gets the worker of that actor exactly if no live actor made by that process has it, otherwise a later one (C146_own_exactly_partial).",
 "C147": "Violated (C147_violated). With any number of workers two overlapping calls can move the counter beyond the workers, after which every call of a function ends with IndexError in every continuation (C147_index_violated); an actor may be an object of the class of another thread's actor (C147_class_violated); two actors may have the same worker (C147_worker_violated); a call may be refused although a worker is free (C147_refused_violated), or be about to go to a worker that an actor has (C147_grabbed_violated). What holds: no IndexError and only existing workers if the counter is not read between another call's increment and the end of its `_next` (C147_index_partial), and then every call that ends was given to a worker if there are no actors (C147_functions_partial); the class of an actor is exactly that of the creation begun last before the fork (C147_class_exactly_partial); actors have different workers if no flag is looked at while another creation is about to set one (C147_worker_partial); a creation is refused only if all workers are grabbed (C147_room_partial); an uninterrupted call goes to the next free worker by turns, or is refused if there is none (C147_alone_partial). The project does not say that it may be used from several threads; dropped actors are left out.",
 "C148": "Violated (C148_violated). In every history a method that gets the result of a method of the first actor of its process waits for a call behind itself in the queue of its worker (C148_first_violated); with any number of workers the shortest program of this kind hangs (C148_hangs_violated). What holds: when no worker can go on, something is left exactly if a method waits for a call on its own worker, so workers never wait for each other in a circle, however deep actors are nested (C148_stuck_exactly_partial); such a method waits for ever and nothing in its queue is executed (C148_self_partial); the workers come to a stop (C148_ends_partial); everything is executed if methods get results of functions only after they have made an actor, and results of methods only of actors other than the first of their process (C148_careful_partial), and then each call has exactly one result (C148_results_partial). In every history each call has exactly one result or is in exactly one queue (C148_once_partial); a method that gets the result of a failed call fails, and goes on after a successful one (C148_fails_partial), and it fails if it makes an actor and no worker is free (C148_no_worker_partial). Modelled for the start method `fork`; functions and constructors make no calls; no actor is dropped.",
 "C149": "Violated (C149_violated). `ObjectRef` defines neither `__eq__` nor `__hash__` and `wait` makes new objects, so that no reference it returns is ever found in a dictionary, or can be removed from a list, of references made before (C149_never_violated); the same holds for a reference taken out of stored data (C149_copy_violated). What holds: the returned references have the data of the given ones (C149_data_partial), a single reference comes back in exactly one of the two lists (C149_one_partial), a dictionary by `ref._ref` finds all of them (C149_inner_partial; it needs the references of the backend to be compared by value, as in the model), earlier references keep their data (C149_kept_partial), and the loop `while refs: done, refs = wait(refs)` hands out every reference exactly once (C149_loop_partial), in every order that the backend may choose (C149_orders_partial). That a backend divides the references into two lists is assumed here and shown in C39, C67 and C74; a `wait` that does not end is left out."
}