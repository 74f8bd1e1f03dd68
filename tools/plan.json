{
 "C01": "Model `FreeMemoryRange.occupy/release` branch by branch on lists of (lo,hi) pairs (Model/FreeMemory). Spec: set of live [a,b) intervals. Invariant over op lists: free list canonical (sorted, positive gaps) and its byte set is the complement of the live bytes; disjointness and bounds follow.",
 "C02": "Same invariant; completeness of first fit: if n consecutive bytes are all free then `occupy n` succeeds; if no live range the free list is exactly [[0,len]]. Lifted to the manager in Props/ShmExact: after any history of reservations, cleanups and metadata writes every free byte is on the free list, so a fitting object is served.",
 "C03": "Same allocator with chunk 4 (Model/ShmManager): invariant that all free boundaries are multiples of 4, hence slots aligned, disjoint, in range. Props/ShmExact adds that a cleanup leaves the four words of every surviving reservation unchanged.",
 "C04": "Model `SharedMemoryManager.put` with exceptions as values.",
 "C05": "Monitor handler of RESERVE_SHARED_MEMORY as step function over request histories; spec counts first answers per id between cleanups.",
 "C06": "Model `SharedMemoryManager.clear` for N hosts with Allreduce MAX as list maximum; theorem: freed -> every host count <= 0, and not freed -> in pending list. Props/ShmExact adds that a reservation is dropped only if its slot carries the identity of the object.",
 "C07": "Two-queue model of k-th collective call on each monitor; `_partial` for equal orders. For all orders: the result of the collective is at least the own contribution of a host, and metadata slots of different objects do not overlap.",
 "C08": "Memory = function Nat -> Byte or list; model write/read with running offsets; round trip + frame theorem.",
 "C09": "Same model, error branch with partially written memory returned.",
 "C10": "Word-level step model of `_put_service_info` (4 ordered writes) and readers (2 reads) as interleavings; invariant on program counter.",
 "C11": "State = slot words + multiset of outstanding finalizers; ops publish/get/finalize/cleanup; invariant refs = number of outstanding finalizers while the slot holds the id; without that restriction refs is at least that number.",
 "C12": "Model of `_allocate_shared_memory` with integers, errors as values, and the products with 0.95, 0.99 and 0.01 rounded as double precision does (Model/Float). Below 64 TiB the rounding is shown to give the exact floor (Lemmas/Float), from which the claims follow by integer arithmetic.",
 "C13": "Arithmetic consequence of the default split, and of the split for a configured object store, plus a bound on the number of objects above the threshold.",
 "C14": "Partition model of send/recv loops over lists of bytes; round trip by induction on the length.",
 "C15": "FIFO channel per (source,tag) model, send/recv of packages; round trip for queues of packages with interleaved sources.",
 "C16": "Model with Int addresses and 64-bit wrap-around of the unsigned division; list memory; theorem for n >= block size - 1; negation for small n with witness.",
 "C17": "Abstract object type (scalars, lists, string-key dicts, tuples/opaque leaves, array leaves); encode/decode as in msgpack hooks. `_partial` without marker keys.",
 "C18": "Same model with buffers: encoding appends to buffer list and counts; decoding consumes; round trip theorem for any threshold.",
 "C19": "Stateful model of the cache entry with aliasing of `raw_buffers`. `_partial` for objects without out-of-band buffers.",
 "C20": "Per-process counters; histories of generate ops by all ranks; ids distinct.",
 "C21": "Strings as char lists; decimal printing and parsing; injectivity via round trip.",
 "C22": "Process-level heap model: live instance table and gc handle; history ops.",
 "C23": "Rotation as list position over eligible workers; schedule as in code; spec predicates on the result.",
 "C24": "Count placements over k submissions, difference <= 1.",
 "C25": "Reservation multiset with handles; history invariant.",
 "C26": "Two scheduler states of Model/Scheduler side by side; witness in which one process places a task on the worker of the other's actor; partial: actors of the placing process (C25).",
 "C27": "Model of ProcessManager with grabbed flags and cyclic counter; history invariant. For whole programs the same invariant is carried along the runs of Model/Pymp (Props/PympSystem).",
 "C28": "Topology as list of hosts with ranks; role functions; partition theorem under the well-formedness MPI provides (ranks 0..n-1 each once).",
 "C29": "Monitor lookup in the topology model of C28, compared with the physical node of each rank in the layout.",
 "C30": "Sum over hosts of eligible ranks = number of workers; with spawn counts = CpuCount.",
 "C31": "Quotient and remainder list of slots; sum and balance.",
 "C32": "Transition system: root + workers, FIFO channels per pair, operations EXECUTE/GET/PUT_DATA/PUT_OWNER, nondeterministic delivery. Spec: sequential evaluator over the submission list. Invariant: every stored or travelling value equals the spec value.",
 "C33": "Same system with an execution log; invariant on log multiplicity and argument resolution.",
 "C34": "`get`/`request_worker_data` inside the cluster transition system with all arrival orders; witness for a repeated reference. `C34_repeated_partial`: the references received are distinct, so the replies never suffice for a list with repetitions (invariant of the `get` in progress). Progress comes from the results of C81.",
 "C35": "Cluster transition system; witness with two `get` calls; the first `get` is proved to raise an error of its list.",
 "C36": "Cluster transition system; invariant on the execution log (a call with a failed argument is never logged) and on stored values (its outputs are the same error), transitively through any graph.",
 "C37": "Worker model with request store and `sent` map, histories of one worker; invariant relating requests received, kept and answered.",
 "C38": "Cluster transition system; invariant: every task held back has an argument missing in its worker. Witnesses for actor methods, coroutines and overtaken consumers. For every history of one worker: invariant that each request held back has an argument that is missing or is an output in the log of executions.",
 "C39": "Main process `wait`, monitor handler and workers over arbitrary delivery orders of reports (Model/Wait); invariant of the monitor lists.",
 "C40": "Same model as C39; quiescent states; three witnesses for calls that never return. `C40_exact_partial` combines the quiescent states with C39 and the fact that no reply and no result has an empty list of ready references.",
 "C41": "Cluster transition system; references handed out per submission and the value of the i-th one.",
 "C42": "Cluster transition system; witness with a short result; no value is ever given for the missing reference.",
 "C43": "Worker model with crashes as values; witness, and a characterization of all ways to end a worker.",
 "C44": "Worker model with actor queues; witness with a missing argument; partial: calls whose references have values on arrival, against a sequential program (`arrived`, `avail_run` in Lemmas/WorkerActor): no request of the actor is ever kept, so each call is executed when it arrives. One step of the worker from any state: `processAll_log` splits the requests looked at into those executed and those kept, both in order.",
 "C45": "Counter model of controller, monitor; partial for a single controller without actors. `C45_count_partial`: balance of the counters with the number of results that do not belong to the collector.",
 "C46": "GC list model with arbitrary clock and counter readings; for all histories broadcasts followed by the queue are the drops that did not happen during a send.",
 "C47": "Same model as C45; witnesses for histories in which the counts never meet again; progress otherwise.",
 "C48": "Local store with weak/strong references model.",
 "C49": "push_data model over nested values, channel FIFO, worker store.",
 "C50": "Shutdown transition system with all delivery orders; invariants and termination measure. `C50_returns_partial`: every message that can end the wait of the root comes from its monitor, which answers only to a worker.",
 "C51": "Shutdown calls, exit handler and signals as operations on the `done` flag; counts of CANCEL messages per worker; invariant with the prefixes of the list of workers served by interrupted calls.",
 "C52": "Handler list model with completion oracle.",
 "C53": "Nested argument type, materialize as in code (with double unwrapping), store growth; spec substitution.",
 "C54": "Version texts as character lists, parsing and comparison as in the code; spec: comparison of version numbers as padded lists.",
 "C55": "Parameter state machine with env oracle.",
 "C56": "Type codec functions on strings; partial for others.",
 "C57": "Parameter state machine with declared choices; witness for `put`, invariant for values read.",
 "C58": "`MpiPickleThreshold.get` over every sequence of configuration operations, and the class attribute of the serializer, which is read once at the first call of unidist; an equivalence over all programs says which call that is.",
 "C59": "Decision function over installed packages/versions.",
 "C60": "Decision function over an object kind type.",
 "C61": "Python's binding of keywords through each function on the way to the user's function; a call delivers its arguments unchanged if and only if no keyword has a reserved name. For Dask and Ray the names taken by the library are a parameter of the model.",
 "C62": "Recursion over nested containers; spec by paths into the structure.",
 "C63": "Remote function object model with defaults; call histories.",
 "C64": "BackendProxy singleton model over call histories.",
 "C65": "pymp transition system: queues per worker, shared store; invariant values = sequential spec with the treatment of values by the store (`seen`); without special values `seen` is the plain meaning.",
 "C66": "Same system; progress: the earliest unfinished task is at a queue head and its arguments are finished; plus a decreasing measure. For all programs: a worker is dead only because of a call whose result does not fit, so calls with smaller numbers finish.",
 "C67": "Loop of `wait` on lists with the store at each poll; witnesses; partition for the calls that return.",
 "C68": "Value kinds distinguished by the object store; put then get.",
 "C69": "Queue order invariant of the transition system of C65, with a log of method executions.",
 "C70": "Transition system of C65; every reference of a finished task is stored when the result fits. The liveness invariant is stated per reference (`FitsAt`); `C70_forever_partial`: only the task that owns a reference writes it.",
 "C71": "Direct model; refinement to direct evaluation in which exception objects are raised when read; without such objects this is plain evaluation.",
 "C72": "Sequential, multiprocessing and MPI models; submit and get of a task with a failed argument.",
 "C73": "The MPI substitution of nested references next to the one-level replacement of the other backends, on one argument type (Model/Arguments, Spec/Arguments); agreement theorem and witness.",
 "C74": "Loop of `wait` with `distributed.wait` as oracle given by completion times; sets in any iteration order.",
 "C75": "Dictionary of addresses with the localhost replacement; sum over workers.",
 "C76": "Arithmetic with an exact model of the double precision product.",
 "C77": "List of flags written and read back.",
 "C78": "Lifetime model of C48 with embedded references for one process. Model/Reach for several processes without clean-up: which data and owners each process knows, which references its code holds; values contain references, arguments are visible to push_data or hidden in other objects. Invariant: what a process knows is determined by the calls made.",
 "C79": "Same word-level model as C10 with an old object in the cell. Violated; partial excludes the mixed identity.",
 "C80": "Topology model (Model/Topology) with layouts in which two nodes report the same address; witnesses for lost processes and a foreign monitor; partial for one host.",
 "C81": "Cluster transition system of C32; the state reached is compared with the sequential evaluation of the calls (`meaning`). Progress: every request for a value that exists is answered or under way, so at rest a task that is held back or a `get` that waits has an argument without value. Termination: a potential (weights of messages in flight, references a worker may still ask for, kept requests, held back tasks) decreases with every step that is not a call.",
 "C82": "Local store model of C48; every entry of the data dictionaries belongs to a reference that is held by the program, kept strongly, or inside a live object.",
 "C83": "Arithmetic on the list of slots (sum, difference at most one, no empty host).",
 "C84": "Sum over the scheduler's worker table (Model/Dask).",
 "C85": "Sum over the list of alive nodes with dictionary semantics for addresses (Model/Ray).",
 "C86": "Decision function of `initialize_ray` (Model/Ray).",
 "C87": "Model/Nested: processes with stores, request lists and running programs (end with a value or an exception, put, submit, get with try/except); a worker answers requests only between tasks; a get of a value in the own store returns it, one that had to be requested raises a failed one; a task with a failed argument ends with its exception. Spec/Nested evaluates the program directly with suspended calls; a flag tells whether a second get raises again. Invariant (Lemmas/Nested): a list with the direct call behind every reference and its creator such that every stored value is its value, every running program still computes the value of its output, and the creator has the value exactly if it put it or got it. careful_eval: the flag does not matter for programs that get each reference once or treat raised and returned exceptions alike.",
 "C88": "Same model. Deadlock: an invariant of the recursion get(f.remote(d-1)) shows that callers occupy distinct workers, so by counting no schedule finishes if the depth reaches the number of workers. Progress: every reference has a value, a request or a running program at its owner; arguments are older than the call, so following a missing value through missing arguments ends at a waiting worker, and following waiting workers repeats one: a cycle. No step can change what a cycle consists of. Without nested get a schedule is built that brings every value and then the main program to its end. With nested get a schedule is built from the direct evaluation: calls of depth k go to the k-th worker and run when their value is asked for, so the workers of greater depth are idle whenever a value is needed.",
 "C89": "Model/WaitMany: the monitor of Model/Wait with one call per process and all replies sent to process 0. Witness runs by evaluation; a call of another process is never removed (induction over runs); if only process 0 waits, simulation by Model/Wait and C39.",
 "C90": "Model/ActorNet: one queue per pair of processes with creations, calls, tasks carrying handles and results. Invariant: while the creation of a handle is under way, only its creator has it and every call of it is behind the creation in the same queue. For all histories: the creator's own calls are behind the creation, and every known actor is either created or under way.",
 "C91": "Model/SharedSystem: per host the manager, metadata words, bytes, unfinished transfers, lookups, registrations and values; the steps of put, get and finalizers interleave with cleanups on all hosts. Invariant of a host (`NInv`): reservations are unfinished or complete, complete ones have their bytes, offset and a count equal to the registrations; ranges disjoint (C01). Invariant of the system (`SInv`): a value is at the place of its object or the object is gone on all hosts for good.",
 "C92": "Same model and invariant; a reference flag of a host is 0 exactly if it has no registration.",
 "C93": "Same model and invariant; the loop of `clear` raises only for a reserved object that is not complete, and it does raise for it unless another one ended it first.",
 "C94": "Model/Lifetime: main process, workers with weak stores, held back tasks and data requests, FIFO channels, monitor counter and cleanup broadcast in one system. Invariant `Inv`: submitted = executed + reports under way + tasks under way + held back tasks; every task in a channel finds its arguments known when it is received (`Served`); outputs that are not cleaned up are kept by their owner or still to be computed. A cleanup needs equal counters, so nothing is unfinished then. With method calls (`Kept`, Lemmas/LifetimeKept) the counters say nothing; the same invariant holds if no cleanup names an argument of an unfinished call, which is what `KeepsArguments` says of the program.",
 "C95": "Same model. Invariant `Leak`: for every reference and process, requests under way + requests waiting at the owner + answers under way are at most the number of answers the process waits for, which is zero for a cleaned up object; every value or owner sent by the main process is followed by a task; a cleaned up object is kept only where the cleanup is under way. The negation also shows that the object stays in every continuation (`Stuck`). With method calls (`LeakM`, Lemmas/LifetimeKeptLeak) every value or owner sent by the main process is followed by a call with this argument, and no result of an unfinished call is cleaned up.",
 "C96": "Model/Spawn: the program text is built character by character (`f`-strings, `repr` of dictionaries, `\"; \".join`) and read back by a small lexer and parser with Python's rules for quotes and escapes; a round-trip theorem for every statement. The ten parameter classes are modelled with the override of the pickle threshold; an invariant over all histories of calls (Lemmas/SpawnConfig) says that a class holds its default or a value of its type and tells which; a second one, for histories that do not disable the store, says it of the pickle threshold too.",
 "C97": "The same program; `repr` of any text is read back unchanged, a text between hand-written quotes as the text its backslash sequences stand for. Ranks other than 0 set the variables again in `init`.",
 "C98": "Model of C94. Invariant `Live`: every request is under way, noted at the owner or answered; a noted request is for a value its owner does not have yet; tasks held back come before those that need their results; references are made after the references they are made from. Without messages the smallest missing reference leads to a contradiction. Arrivals end because a weight (requests still possible, requests noted, messages, executions not counted) decreases with each. The code violates it: method calls are not counted by the cleanup, a value is sent once to each process, and tasks are checked before methods. Proved for programs without method calls and without repetitions in `get`. For programs with actors: if tasks precede the unfinished methods of each worker, the system behaves step by step like the one in which all calls are tasks (`Verif.Lemmas.LifetimeFlip`), where only the guard of the cleanup differs, so the invariants carry over.",
 "C99": "Model/Results: what the call returns and what `get` of each reference gives on each backend, with Python's iteration and subscript of the returned object. MPI and Multiprocessing zip ids and items, Sequential and Dask subscript. The code violates it in five ways; proved for raising functions and for sequences with enough items that are neither exception instances nor `bytes`, and, for any sequence, that no reference gives a wrong item.",
 "C100": "Model/Results: `scatter` as documented by `distributed` (containers element by element), `gather` for lists, `result()` for the rest. The behaviour of `scatter` and `gather` is trusted. The code violates it for tuples, sets and dictionaries; proved for the rest.",
 "C101": "Model/Handles: the chain of attribute lookups from the front handle over the backend's handle to the native one, each with the names it has itself. Proved by cases over the names; the names that are taken are written out and the condition is an equivalence.",
 "C102": "Model/Handles: creation, serialization and deserialization of handles over all histories; invariant: every handle belongs to one message that creates an actor, or a keyword argument gave it a name and no message has its name, now or later.",
 "C103": "Model/Robust: one turn of the loop as a function to `Option`, `none` if an exception leaves it. Results are described by whether they can be serialized and iterated. Invariant for well-behaved programs: everything stored can be serialized. `C103_exact_partial` is an equivalence for single calls.",
 "C104": "Model/Robust: `constructorGets` against `Args.directOnly`; `knownRun` follows which references a worker knows. Both partial theorems are equivalences, by induction over the lists.",
 "C105": "Dispatch model: numbers of operations and tags, messages of each request, queues by source and tag, reading of a request by both loops; witness with an argument that cannot be serialized; partial by induction over the rounds (`workerLoop_spec`, `monitorLoop_spec` in Lemmas/Dispatch), each round consumes exactly the messages of one request.",
 "C106": "Lifecycle model: flags and singletons of each backend, outcome of every call; witnesses for MPI and the sequential backend; partial by an invariant that ties the state to the calls before (`life_split`, `LifeMpi`).",
 "C107": "ActorLife model: queues, running jobs, manager processes of the multiprocessing backend; channels, `actor_map`, cleanup lists of MPI. Witnesses are short histories; partial by invariants over the steps (`PympCareful`, `MpiLife`). For all histories an invariant relates queues, running jobs and results to the moments at which handles were dropped (Props/ActorLost).",
 "C108": "SegmentSizes model extended by the filling of the service buffer; three witnesses; the partial theorem is an equivalence, by integer arithmetic on top of C12.",
 "C109": "FunctionTravel model: remote function objects, known and kept references of each process; witnesses are short histories; partial by an invariant (`TravelOwn`) and by a characterisation of the known references (`TravelKnown`), induction over the history from its end.",
 "C110": "PympRobust model: the loop of a worker process over its queue; results are described by whether they can be pickled and iterated. Case analysis of one turn (`turn_fine`, `turn_fills`), induction over the queue.",
 "C111": "Isolation model: the objects of every process, the local stores, cached texts and messages of the MPI backend, the store of the sequential backend, the manager and queues of the multiprocessing backend. Invariants over histories (`IsoInv`, `IsoMaker`); `C111_recorded` shows that the values recorded for reference are those at the time a reference was made.",
 "C112": "`Model/Monitor.lean` models the whole loop of a monitor: every operation with its data, the task counter, the wait handler (`Verif.Wait.Monitor`), the memory manager with the shared metadata words (`Verif.Shm.Host`), the regular end and the exceptions that leave the loop. Histories interleave messages of all processes with arbitrary writes to the metadata. The exact condition for every exception is stated by gaps between live reservations and by the contents of metadata slots, not by the free lists of the model; it is proved with the invariants of C02 and C03 along the loop. The result of the collective of a clean-up is an argument, as in C06; MPI delivery is assumed.",
 "C113": "`Model/SharedGet.lean` models the steps of `get` for one object with any number of hosts and processes: package received, look at the metadata cell, request to the monitor, copy from the monitor of the sender's host, publication, waiting loop, registration, finalizers, and clean-ups on all monitors. A monitor sends the bytes of a reservation whether or not they are written, as in the code. Metadata cells are chosen freely; the numbering of cells is C03, refused reservations are C112, the update of one cell is C10. Invariant: a cell that carries the object belongs to its reservation and to right bytes, a reservation without metadata has exactly one copier, and packages name hosts that have the object. Termination by a measure on phases.",
 "C114": "Event loop of a worker: the queue of ready coroutines, sleeping coroutines, waiting calls and the log of the parts that have run. Witnesses for the violations; invariants over all runs for the order (`Regular`) and for the parts (`Live` in Lemmas/EventLoop).",
 "C115": "Course of a deserialization as a small language (allocation, exception, switching, nested deserialization); witnesses and inductions over it.",
 "C116": "Model of get_versions on texts as lists of characters, the pattern of git describe with its greedy search; soundness, completeness and uniqueness of the match; first and last separators are unique for injectivity; for tags with `+` the text is compared from its end.",
 "C117": "Model of the keywords in archives: strip, split, sorted, first fitting tag. Decorations as git prints them are read back by induction over the list; the first of a sorted list is the smallest.",
 "C118": "All operations of dict and of the class derived from it; case analysis and induction over sequences; unpickling sets the items one by one.",
 "C119": "One logger, the root logger and the file as a state machine; induction over histories with the invariant that there is exactly one file handler.",
 "C120": "The line as a list of characters; the character at each position computed from repetitions of four characters.",
 "C121": "Verif.Model.Packing: the choice of the library for each object, with the assumed limits of pickle and msgpack. The refused objects are described by two relations between an object and what is inside of it (through lists and dictionaries only, through everything); induction over objects.",
 "C122": "Verif.Model.CallMessages: the dictionaries of the three messages as objects of Verif.Model.Packing; the characterizations follow from those of C121.",
 "C123": "Verif.Model.Sharing: objects as addresses in a heap, msgpack as unfolding with a limit on the depth, pickle as copying the graph, decoding into an arbitrary heap. Spec: paths. Induction over the depth with an invariant for copies (extends the heap, closed, fresh, looks the same, same exactly).",
 "C124": "`_write_to_shared_buffer` with the real copy: bounds check of `&dst[0]`, then the copies of the threads of `memory.cpp` in any order, applied to a window of shared memory.",
 "C125": "The decision between the two stores at every place that stores an object, and the reservations of the shared ones at the memory manager of a host.",
 "C126": "Which communicator each started and each spawned process passes to the collective operations of `init`, when these return, and what each process does after its loop.",
 "C127": "Model `Verif.Model.Valued`: the model of C94 with values in stores, messages and arguments. Specification: the values of all references when each call is made directly. Invariant: every value in a store, in a message or given by `get` is the right one, and the results of every unfinished task are the direct results for its arguments, whose references may already be replaced. Forgetting the values gives exactly the model of C94 (`bare_run`), which carries over that programs do not hang (C98).",
 "C128": "Model `Verif.Model.Backends`: one program written as calls of the models of C127 (a function is put at its first call, so references are numbered differently), C65 and C71. Specification: direct calls. MPI by following the values of C127, multiprocessing by showing that the record of calls is the program (no submission is refused without actors) and evaluating its meaning (C65, C66), the sequential backend by induction over the program.",
 "C129": "`Model/GetList.lean`: the loop of `request_worker_data` over messages in any order, `get` of the three backends and programs of puts and gets. `C129_violated`, `C129_falsy_violated` and `C129_put_violated` give witnesses; `C129_pymp_partial` and `C129_pyseq_partial` say that the other backends answer exactly right; `C129_exact_partial` is an equivalence (a list is answered rightly in every order iff \u2026), whose necessity builds an order of arrival for each unwanted exception; `C129_program_partial` follows a whole program.",
 "C130": "`Model/Derived.lean`: objects as trees whose containers may be of a derived class; the three traversals of the code. `C130_violated` gives a named tuple with one reference. `C130_positions_partial` says position by position what is found, `C130_exactly_partial` is an equivalence (everything is replaced iff no reference is below a container of a derived class) and `C130_arrives_partial` characterises the references sent along, by mutual structural induction over trees and their elements.",
 "C131": "`Spec/Actors.lean` says what calls on local objects with states give. `Model/ActorBackends.lean` translates the calls of a program to the models of the multiprocessing (`Model/Pymp.lean`) and the sequential backend (`Model/Pyseq.lean`), whose actors are represented by the calls they executed. `C131_pymp_partial` goes through the sequential meaning of C65 and the progress of C66, `C131_pymp_states_partial` through C69; `C131_pyseq_partial` is an induction over the program; `C131_mpi_partial` follows from C44 for one actor of one worker (`Model/Worker.lean`).",
 "C132": "Invariant over histories: the calls that arrived are a permutation of those executed and those held back; what is kept of a call, with the references already replaced, still means what was sent (`Waits`); the state and the stored results are those of `localCalls` (Spec/LocalObject.lean). References that will still be written have no value, so no value ever changes and arguments keep their meaning.",
 "C133": "The end of `init` as steps of all processes: the check of the sizes, the collective allocation on a host, the initialization of the service memory, the communicator of the monitors and the barrier. A collective call returns when all members have called it. Invariant over all orders of the steps; a measure bounds their number.",
 "C134": "The loops of worker and monitor of C105 on inboxes where the request under way is cut after any number of messages. A reader that finds fewer messages of one tag than it needs waits. Frame lemmas: reading requests of others does not touch the messages of this process. Together with the model of the shutdown (C50) for the end of the program.",
 "C135": "The root inside and outside of `get`, the queues of information packages and buffers of each owner, the record of sent data, and a signal as a step that leaves the call. Invariant: the buffers in the queue of an owner are those of its packages, and `data_count` counts the references that arrived. A weaker invariant holds whatever was interrupted and gives the lost objects.",
 "C136": "The root with its calls numbered, the queues of requests and replies, and the monitor with task count, table of reservations (for any way to place objects) and the wait handler of C39; a signal leaves the call with the reply under way, or after its reception. Invariant: without wait the outstanding requests and replies are numbered without gaps, as many as there were signals.",
 "C137": "The four implementations are composed of the models of C39, C67, C74 and the Sequential backend for references that have all finished; each is brought to a closed form (stored references first, every second reference, the order of the set), from which the equivalences follow.",
 "C138": "The root with its call in progress and the phases of put and get, objects with reservation, metadata, counted references and finalizers, and the clean-up of the monitor with its list of references to try again. Invariant: an object is reserved without metadata exactly if its call is at that point or was ended there; counted references exceed finalizers exactly if a call is or was ended between the two; the monitor is lost exactly if an object of the first kind was listed.",
 "C139": "Model/SharedEnd: one process with its references, cached values, finalizers and values, and the stages of shutdown. The invariant `Inv` determines every part of the state from the history.",
 "C140": "Model/Threads: the counter with reads and writes as separate steps, and operations, data and replies as queues shared by all calls. The invariant ties the queues to the orders in the history (`Handled`).",
 "C141": "Model: workers of the MPI backend with inboxes that hold EXECUTE messages and then CANCEL, pending tasks, stores, and arrivals of results at any time; a separate small model of the queues of the multiprocessing backend. Invariants over all histories: executed tasks have no duplicates; for each worker the tasks read form a prefix of its tasks, and the local ones among them are executed (dependencies come earlier at the same worker). The violations come from a complete history without arrivals, in which only local tasks are executed; the possible schedule is constructed by induction over the tasks, delivering missing results one by one.",
 "C142": "Model: executed tasks, transfers of results between workers, requests, replies in the mailbox of the main process and its `get` calls; a predicate tells which results cannot be restored. Invariant for `get` of other results: the references counted, the replies in the mailbox and the open requests together are the requested list, and nothing that is requested was sent before; a measure gives the end of every `get`. The violations are invariants of all continuations of concrete histories in arbitrary programs.",
 "C143": "Model: decision logic of decorator, `options` and `_remote` per backend over keyword lists; the theorems are case distinctions with lemmas about looking up a name in a list with distinct names and in a filtered list.",
 "C144": "Model: dictionary with keys that are references or `None`, references held by the program, queue of tasks; executions in any order, which write to the entries made at submission. Invariant: the keys that are references are exactly those made so far in order, all keys are distinct, entries of unexecuted tasks are `Delayed` and belong to one task each.",
 "C145": "Model: queues of the workers, the process manager of the main process and its copies in the processes of the actors. Invariant: in the copy of an actor the workers of earlier actors are taken and its own is free, so that a method waits only for calls on its own worker, on those of later actors or on free ones; a chain of waiting methods therefore ends in one that waits for itself. The steps of the workers decrease a weight of the jobs.",
 "C146": "Model: one process manager per process, copied when the process of an actor is forked, before its worker is grabbed. Invariant: in the copy of an actor all workers before its own are taken, and its own is free or held by an actor that its process made; the workers of the actors the maker had before are taken in the copies at every depth below and never freed there.",
 "C147": "Model: a program counter per call, one step per read or write of `_worker_id`, of the flags and of the registry of `BaseManager`. Invariants over all interleavings; the disagreements are histories for every number of workers.",
 "C148": "Model: the tree of processes of C146 with the queues of the workers and methods as small programs. Invariant: what a method waits for is finished or in the queue of its own worker or of a later one, because in the process of an actor all workers before its own are taken; the last worker with something to do therefore waits for itself. The first actor of a process has the worker of the process's own actor, so that afterwards nothing else of that process is placed there.",
 "C149": "Model: `ObjectRef` objects numbered in the order in which they are made, with the reference inside each and the values of the references; equality of objects is equality of numbers. Induction over histories: objects and values are only added, and every object is around a reference with a value. The objects that `wait` makes have numbers that none had before."
}