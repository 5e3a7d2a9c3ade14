# Design: a Lean 4 model of CARV-ICS-FORTH/arax

The code under `/repo` (C library in `src/`, controller in `controller/src/`) is read as text.
Nothing of it is executed here.  The model is written function by function in Lean 4
(`lean/Verif/…`); each definition cites the file and lines it models and says what it simplifies.

## Conventions

* One directory per subsystem: `X/Model.lean` (definitions), `X/Lemmas.lean` (helper lemmas),
  `X/Props.lean` (the property theorems and, next to each, an `example` that a concrete
  non-trivial case meets its hypotheses).  Small subsystems are one file.  Specifications that a reader needs to
  understand a theorem are in `X/Spec.lean` or under a heading "Specification" before the theorem and do not use the
  model's helpers.
* Outcome type `Res α = ok a | abort | ub` (`Outcome.lean`).  `abort` is a failing `arax_assert`/`arax_abort` (both
  unconditional in the code), `ub` is undefined behaviour in C (out of bounds access, dangling iterator, use after
  free…).  They are never conflated with success.
* Machine integers: `BitVec 64`/modular `Nat` where wrap-around matters (bitmap chunks, 16-bit
  queue cursors, throttle counters, alignment arithmetic), `Nat` elsewhere.
* Concurrency: a global state, per-thread program counters, one `step` per shared memory access
  (sequential consistency; `__sync_*` builtins are full barriers). "Every schedule" is a
  `Reach` inductive predicate or a list of actions; proofs are by inductive invariants.  Liveness: an arbitrary finite
  history (`pre`), then an infinite schedule that is fair to every thread; proofs by a measure that every effective step lowers
  (`Live/Fair.lean` is the general form).
* Where the code violates a property, the property's file contains the *negation* with a concrete
  witness (`…_violated`), and a `…_partial` theorem with the strongest statement found that holds; the manifest's note says what is missing.

## Trusted base

* Lean 4.33.0 kernel; axioms: at most `propext`, `Classical.choice`, `Quot.sound` (table at the end, generated by
  `tools/axioms.py` from `#print axioms`).  None added here.  No `native_decide`, no `bv_decide`.
* The reading of the C/C++ code into the model, cited per definition.
* Sequentially consistent memory, except in `Tso` (C83), which shows for spinlock sections and the queue that store buffers make no difference.  POSIX mutexes and condition variables as modelled in `Async/*` and `Throttle/Model.lean`
  (atomic release-and-sleep, broadcast, spurious wake-ups); libc (`strtol`, `sscanf`, `strncat`, `snprintf`) as modelled in
  `Config/Model.lean` and `Path/Model.lean`; libstdc++ streams, containers and regex (greedy `.*`) as modelled in `Ctrl/*`.
* Where one model uses the result of another instead of repeating it (a queue as a list in `Exec`, `Live` and `Accel`; lists in `Orphan`; semaphores in
  `Worker`), the header of the file says which property justifies it.  These links are by reading, except for the queue as a list: C84 is the refinement theorem that covers all programs, and C86 applies it to `Exec`.

## What is modelled

| code | modelled in | not modelled |
|---|---|---|
| `src/utils/bitmap.c` | `Bitmap` (all functions but printing) | printing |
| `src/utils/queue.c` | `Queue` (sequential ring; concurrent step machine; inside the whole task path: `Exec/Real`), `Tso/Queue` (store buffers) | processors that reorder loads, but for the witness of C83 |
| `src/utils/spinlock.h` | `Spinlock`, `Tso/Section` (store buffers) | |
| `src/utils/list.[ch]` | `IList` (pointer heap) | |
| `src/utils/kv.c` | `Kv`, `Tso/Kv` (single accesses, store buffers) | |
| `src/utils/config.c` | `Config`, `Path` (parsing, typed getters, setters, path construction) | stdio buffering, concurrent writers of `~/.arax` |
| `src/utils/timer.[ch]` | `Timer` | breakdown.c (not built by default) |
| `src/async/mutex`, `src/async/spin` | `Async/Completion`, `Async/Semaphore`, `Async/CondLock`, and inlined in `Throttle`, `Ready`, `Worker`, `Orphan` | |
| `src/async/ivshmem` | `Async/Semaphore` (semaphore), `Async/CondLock` (completion and condition lock, interrupt thread) | several virtual machines, device registers |
| `src/core/arax_throttle.c` | `Throttle` | |
| `src/core/arax_object.c` | `Object` (register, reference counts, destructor cascades), `Object/Rename`, `Object/RefConc` (single accesses), `Object/Kinds` (type tables, new objects, exit report) | the object repository's lists beyond membership |
| `src/core/arax_data.c` | `Layout` (placement, `arax_data_deref/ref`), `Exec` (set, get, migrate), `Exec/DataCopy`, `DevMem` (device memory: allocate_remote, set_remote, set_accel, free), `Reclaim` (destructor and free_vaq) | contents of device memory |
| `src/core/arax_task.c` | `Layout` (host area), `Exec/Args`, `Async/Completion`, `Object` | statistics |
| `src/core/arax_proc.c`, `arax_accel_types.c` | `Proc/*` | |
| `src/core/arax_accel.c`, `arax_vaccel.c` | `Accel/*`, `Async/Worker`, `Live`, `Attr` (attributes on byte memory) | — |
| `src/core/arax_pipe.c` | `Pipe/*` (process map, lifecycle, initialisation), `Proc/*` (find), `Async/Orphan`, `Async/Ready` | printing |
| `src/arch/shm/*` | `Pipe/Lifecycle`, `Exec/*`, `Accel/Listing`, `Throttle` | `arax_checkpoint`, networked variants |
| `src/alloc/dlmalloc` | `Dl/*`: boundary tags, segments, designated victim, top, direct mapping, trim, release, create, destroy (malloc.c as compiled), `alloc.c`; the small bins, tree bins and bit maps down to the link fields (`Dl/Links`, `LinkHeap`, `LSys`), refined to a list of free chunks; `Layout` (page partition on top of `Bitmap`) | the link fields are maps of their own, not words of the same memory (any overwriting of what is not a link of a free chunk is an event, `junk`), memalign/realloc/calloc (not called), `magic`, locks (one call is one step) |
| `src/alloc/tlsf` | `Dl/Tlsf` (the build option as it stands) | the TLSF allocator itself (third-party, fetched by the build) |
| `Java/*` | `Java/Bindings` (constants, object header, references, arguments, set/get, hello) | JNA and the Java runtime |
| all locks of `src` and of `accelThread.cpp`, `VacBalancerThread.cpp` | `Locks` (order, exclusion, progress) | locks of libc, C++ streams and drivers; memory order |
| `controller/include/picojson.h`, `Utilities.h` (jsonGet…) | `Json` (reading) | writing JSON, null and default contexts, rounding to `double`, stack depth |
| `controller/src/Core` | `Ctrl/*` (strings, configuration, CPU sets, library loader), `Live` and `Accel/*` (accelThread loop), `Ctrl/Control` (main thread, start, pause, stop, signal), `Async/Orphan` (balancer) | web services, CSV statistics |
| `controller/src/Schedulers` | `Sched` (RoundRobin, Heterogeneous), `Elastic` (assignment and migration; its effect on counters in `Accel/Count`) | schedulers that the build does not compile |
| `controller/src/Cpu` | `Exec/Model` (set, get, memset, memcpy handlers) | |
| `controller/src/{Cuda,OpenCL,ROCm,Sda}` | `Ctrl/Conf` (configuration), `DevMem` (allocation and accounting in alloc_remote and the built-in handlers), `Stream` (built-in handlers, streams, contents of device memory) | devices and drivers (assumed to follow their documentation), Sda's device, sync_to_remote/sync_from_remote |
| `arax_plot`, `araxgrind` | `Plot`, `Grind` | titles and labels; column widths and refresh loop |

## Per-property plan

| id | modelled code | shape of proof |
|----|---------------|----------------|
| C01–C06 | `Bitmap`: `List (BitVec 64)` chunks, exact search order and cursor | chunk-level search lemmas → bit-level effect; ghost list of live allocations; invariant over op sequences.  C04 is false when `size % 64 ≠ 0` (witness) → partial |
| C07 | `Queue`: 16-bit cursors and the physical ring | refinement to bounded `List`, all op sequences, cap = 2^k, k ≤ 15; cap = 65536 is broken (witness) |
| C08 | `Queue/Conc`: one step per memory access, any number of pushers/poppers, lock as in the code | inductive invariant with ghost unbounded cursors; ABA window hypothesis → partial; witness of ABA |
| C09 | `Spinlock` | inductive invariant over all threads |
| C10, C11 | `IList` | refinement to sequence of nodes; separation for disjoint lists |
| C12 | `Kv` | refinement to finite map |
| C13–C15 | `Config` on characters: scanning, `sscanf` tokenising, `strtol` base 0, `%ld` printing | round trip proofs; C13 is false for already present keys (witness) → partial |
| C16 | `Path`: bounded buffer with explicit out-of-bounds outcome | loop invariant; off-by-one witness → partial |
| C17–C19 | `Throttle`: both build options, lock steps; condition variables for mutex and spin back-ends | invariants; C18 false without ENFORCE; C19 false for spin with several waiters (witness), proved for one |
| C20–C24 | `Async/Completion`, `Semaphore`, `Ready` for each back-end as step machines | invariants over all interleavings, fair schedules; violations witnessed by explicit schedules |
| C25–C28, C50, C57 | `Object`: reference operations, cascaded destructors | heap of objects with counts, invariant "count = user refs + structural holders"; violations witnessed |
| C29–C31 | `Proc`: find/get/put (sequential and concurrent), functors, type table | direct / refinement / invariant |
| C32, C33, C58 | `Accel/Count`: counter, queues, worker scan | invariants over histories; violations witnessed |
| C34 | `Accel/Place` | invariant; violations witnessed |
| C35–C37, C56 | `Sched` | list reasoning; rotation measure for starvation; C37 violated from second call on |
| C38–C41 | `Layout`: byte memory, modular 64-bit arithmetic | arithmetic, bitmap theorems for C41 |
| C42–C45 | `Pipe`: process map at byte level, init/exit, pipe init as step machine, CAS of the address | invariants / witnesses |
| C46–C49 | `Exec`: client ∥ worker machine over queues and buffers, handlers as arbitrary programs | simulation to sequential execution |
| C51, C60 | `Ctrl/Conf` | list reasoning; violations witnessed |
| C52, C53, C59 | `Ctrl/Strings`, `Ctrl/Handler`, `Ctrl/CpuSet` | character-level induction |
| C54 | `Timer` | arithmetic |
| C55 | `Accel/Listing` | list reasoning; deadlock witness |
| C61 | `Object/Rename` | byte-level invariant; `va_list` reuse is undefined behaviour (witness) |
| C62 | `Accel/PhysRelease` | invariant; witness |
| C63 | `Async/Worker` | invariant and measure under fair schedules |
| C64 | `Async/Orphan` | same; NULL without stop (witnesses) |
| C65 | `Live`: clients, balancer, workers, bounded queues | same; full-queue deadlock for every capacity (theorem `C65_violated`) |
| C66 | `Async/CondLock`: arbitrary programs of calls, three back-ends | invariant and measure under fair schedules; ivshmem violated (witnesses) |
| C67 | `DevMem`: data objects, virtual accelerators, throttles, queues, workers, clients; three device back-ends | balance invariant (sums over data objects, pending and running tasks); violated by allocate_remote, CUDA handlers, two devices |
| C68 | `DevMem` with ARAX_THROTTLE_ENFORCE | violated: stuck-state invariant over all continuations; partial: sizes fit, so no wait |
| C69 | `Elastic`: assignVac with its static iterator, one-virtual-accelerator migration, data copies on host and devices, throttles | invariants over all histories; violated in seven ways (witnesses for all sizes/addresses) |
| C70 | `Ctrl/Control`: main thread, workers, callers of setJobPreference, balancer, clients, signal; mutex as binary semaphore | call-phase and shutdown invariants, liveness with a rank in a well-founded order and a helpful thread (`Live/LeadsTo`); violated in six ways |
| C71 | `Ctrl/Libs`: `loadFolder`/`loadLibrary` on any file system; inotify queue and loader thread | depth-first search: what a call adds is closed under entries (`LibsProps`), exact set of libraries by induction on reachability; run time: invariant over paced histories, "never loaded" invariants for the violations (`LibsRun`) |
| C72 | `Pipe/Segment`: file, address spaces, mmap/munmap/ftruncate; joins and exits atomic | refinement of one shared memory (`Ref`) for equal sizes; invariant for larger sizes; symbolic witnesses for all sizes |
| C73 | `Dl`: `mspace_malloc`/`mspace_free` on words at addresses, bitmap from `Bitmap/Model`; system of any number of mspaces sharing memory and bitmap, users writing anywhere in their blocks | invariant: every segment is tiled by chunks described by their boundary tags (`Chain`, `Inv`), lemma per operation (`Take`, `Alloc`, `Grow*`, `Prepend*`, `AddSeg`, `Release`, `Free*`), frames between allocators (`World`, `System*`); violated in two points |
| C74 | same | the invariant ties set bits to regions and the rest to other allocators; destroy by induction on the segments; witnesses by kernel evaluation |
| C75 | `Dl/Stats`: both walks over the boundary tags | a chain lemma: the walk visits exactly the chunks of the layout; sums over lists without repetitions; the ranges come from the layout |
| C76 | same | case analysis of `mspace_malloc`: the system is asked only if no bin, victim or top fits; the predecessor flag of the layout's invariant separates free chunks |
| C77 | the allocators with rings, tries and bit maps at the level of link fields (`Dl/Links`, `LinkHeap`, `LSys`), next to the ones with a list of free chunks (C73–C76) | each bin refines the chunks of its size class (`BinsOK`: rings by paths, tries by an inductive tree with its radix property); forward simulation of every function up to `mspace_malloc`/`mspace_free`, then of histories; best fit from the radix order |
| C78 | `Dl/Phases`, `Dl/Conc`: any number of threads; each call takes the allocator's lock, works in phases and gives the lock back; a thread may die between two phases. A phase has at most one operation on the page bitmap (atomic under the bitmap's own spin lock) and otherwise touches only words that the allocator's lock protects, so every finer interleaving is equivalent to one of phases (Lipton reduction; by reading). A death inside a phase leaves the lock taken and so is not seen by others, but for a death that holds the bitmap's own lock, which is not modelled. `destroy_mspace` is one step per segment, with the list of segments read at the start (each record is read before its region is returned) | `C78_alone`: the phases of a call, run without interruption, are the sequential call of C73; an invariant over threads, locks, allocators in the middle of a call and regions about to be returned; a rank for the bound; witnesses by kernel evaluation |
| C79 | `Locks`: what every call does with locks, function by function, as a regular program (choices for conditions, any object for a pointer, loops any number of times: a superset of the code's paths); threads with such programs, lock ownership, events and deaths. The order of the locks is found (`rank`), each function is proved to follow it (`Safe`), and with the invariant that each thread's held locks are those its remaining program still gives back, circles, exclusion and progress follow. Not proved by the model: which object a pointer leads to (any), whether an event comes (C60–C65 prove that for tasks). False in four points, see below. |
| C80 | `Reclaim`: one device accelerator, its worker, any number of clients, data objects and tasks; reference counts, task queues, the bounded queue of `free_vaq`, the pending steps of each destructor cascade. Invariant: each count is the number of holders; unreferenced device memory waits exactly once. Returns: weight of a thread's pending drops decreases at each own step if there is room; there is room if at most `cap` data objects have device memory. Violation: an explicit history for every capacity, then a locked state that no step leaves. |
| C81 | `Stream`: any number of accelerators, each with a worker and a stream of operations (terminating programs, executed byte by byte on one flat device memory), clients, allocation on first use, reuse after free, tasks marked done or freed while their operation is in flight, freed tasks overwritten. Specification (`Stream/Spec`): tasks one after the other on contents of data objects. Invariant: what is left of stream `p`, run to its end, gives on the addresses of `p` what the specification gives (frame lemma for the other streams; simulation of flat memory by contents); ghost initial contents fixed at allocation. Order: log, task in hand and queue together are the issue order. |
| C82 | `Stream`: each built-in request as the program its handler enqueues, per back-end, with C arithmetic (`size_t` wrap-around, `int` truncation). Effects by induction over the program; which tasks are ever marked or freed by an invariant over all histories; violations by explicit histories (for every back-end concerned, every continuation after an abort). |
| C83 | `Tso`: the machine of `Spinlock` and of `Queue/Conc` with a store buffer per thread that writes back in any order per address; sections are arbitrary decision trees of loads and stores (`Sec`), `Kv.c` as an instance down to single loads and stores.  Sections: invariant "what is left of the holder's section, on its view of memory, does what the whole section does on the memory left by the sections before".  Queue: refinement to `Queue/Conc` (a buffered store has not been executed yet), then C08.  False for loads out of order (witness) → partial |
| C84 | `Queue/Lin`: an arbitrary program (`Client`: any state, what each thread calls next, what it does with results, any own steps) around `Queue/Conc`, against the same program around an atomic list (`AStep`: call, effect, return).  Forward simulation with the linearization points queue.c:73 (empty), 82, 100 (full), 116, on top of the invariant of C08.  `Tso/Lin`: the same with store buffers, by refinement to `Queue/Lin` |
| C85 | `Json`: the reader of picojson.h character by character (push-back, line count), `Config::Config` on its result | independent grammar (`Json/Spec`); completeness by induction on derivations, soundness by induction on fuel, with the rest of the text as the state; the object map against `IsMap`; configuration as an iff with a relational description; trailing text and redeclared groups by witness → partial |
| C86 | `Exec/Real`: clients, workers, spinlock and retry loop around a family of queues of `Queue/Conc` (`Queue/Multi`) | C84 for any number of queues (`Queue/Multi`), then a forward simulation from the program with atomic queues to `Exec` (`Exec/RealProps`, `RealQueue`), and an invariant on what has left the queues and what workers were told; C47 and C48 carried over |
| C87 | `Attr`: byte memory, C struct layout with free sizes for platform types, all attribute calls, creation, release, add, del; specification is a map from addresses to records | fields of every struct are disjoint (`off_lt`), then an invariant that memory holds the record of every live object; `accelStat` computed from it; concrete history `demo` |
| C88 | `Queue/Size`: two loads of `Queue/Conc` states, any steps in between | value from the invariant of C08; concrete schedules for the violations |
| C89 | `Plot`: list of samples, `remove_if` with its stateful predicate, the three-iterator loop, the writer; JSON grammar of C85 for the text | induction over the loop (`loop_drawn`, `loop_thin`), numerals and rows against the JSON grammar (`write_doc`) |
| C90 | `Grind/Model`: nested sorted maps, `track`, header sums, `printSize`; `getCertainType` and `ptrType` on the byte memory of `Layout` | lookup lemma for `alter`, invariant `MInv` (the line for a key is the fold over its objects), sums over lines; C39 for addresses inside buffers |
| C91 | `Grind/Args`: `operator ==` of flags, `parseArgs`, reading of numbers | induction over the words, parity; numerals by strong induction |
| C92 | `Proc/Publish`: words of objects, pending stores of the creator, assignments and two-step `|=` of other threads | invariant over runs (newest event first) against `expected`, a fold over the history; concrete runs for the violations |
| C93 | `Pipe/Startup`: `_arax_init` as a function of the answers of configuration and operating system, pointers null/unmapped/mapped | `start e = returns a ↔ CanJoin e a`; case analysis over all environments; environments that crash as witnesses |
| C94 | `Ctrl/KernelMap`: maps of kernels and architectures, merging of rows, printing | the printed rows are parsed by an independent reader (`listed`) and compared with the last registrations; induction over maps |
| C95 | `Ctrl/Run`: `main` of the controller over the users, procedures and accelerators of the segment | induction over folders and accelerators; concrete runs for the violations |
| C96 | `Utils/Assert`: the macros and functions, names as texts with C pointer arithmetic | computation with the root of the tree as a variable; case analysis |
| C97 | `Ctrl/Shown` (on top of `Ctrl/CpuSet`): set/clear, `Formater`, the operators `<<` | fold against "the last call that says something"; round trip through C59; injectivity of the printed text by splitting at separators |
| C98 | `Exec/Noop`: the handler as a program of the model of C47/C48 | induction over the loop; `C48_get_returns` reduces the schedule to the order of the calls |
| C99 | `Ctrl/Faults`: workers with queues of tasks, handlers by what they mark and how they end | invariant over schedules; silence and death of the controller for all continuations |
| C100 | `Tools/Vtop`: siFormat, hbraile_line, toBraile, Graph::addSample/Draw as functions | arithmetic for all values; last-write-wins per column of the screen; induction over observations |
| C101 | `Tools/Kill`: boxes of the click manager; rows as slot references over the process list of C42 | geometry for all tables; invariant over histories without departures; violations for all lists |
| C102 | `Tools/Vdf`: autoRange, minPtr/calcDigits, tag_gen and the table of objects as text; a reader of tags and text as specification | arithmetic; digits of numbers; compositional reading of the page |
| C103 | `Ctrl/Devices`, `Ctrl/OpenCL`: acceleratorInit/Release of the three back-ends with their static variables; the driver as a counter of objects with references | invariant over any sequence of initialisations; the violations of releases for every state |
| C104 | `Async/Ivshmem`: completions, list of waiters, interrupts, interrupt thread, any number of threads | invariants over all interleavings; hangs by invariants over all schedules |
| C105 | `Ctrl/Services`: factory by class name, map of handles, the three providers, the libraries as environment | invariant over all histories; refinement to a held-handles specification |
| C106 | `Async/IvshmemSem`: semaphore, condition, exit and interrupt thread of the ivshmem back-end, any number of threads | invariants over all interleavings |
| C107 | `Ctrl/Migrate`: the two migration phases of every task, the four kinds of device operations, the memory counters | refinement to a flat memory; exact ghost accounting; invariant over all histories |
| C108 | `Ctrl/Helpers`: the four pairs of helpers and kernels that use them, the driver as environment | fold invariants over the buffers of a task |
| C109 | `Object/Killed`: processes over the object model, ghost holders, kills | invariant (holders add up to client references), monotonicity of sizes, rank induction for the objects left |
| C110 | `Object/RefConc`: single instructions on the 32-bit count and the list locks, any threads and objects, references as ghost tokens of threads and objects | inductive invariant (count = tokens, one destroyer, list = objects with tokens); induction over 65536 increments for the violation |
| C111 | `Plot/Palette`: the palette as the set of unused numbers and the map of names, the shuffle as any permutation | invariant over request histories; colour text read back digit by digit |
| C112 | `Tools/VtopRows`: the segment as list of accelerators and memory that may be reused, rows with copied name and maximum and a reference to the value, the keys | the rows are those of the last set-up in every history; witnesses for new and released accelerators |
| C113 | `Ctrl/Registry`: main thread (start, announce, end, delete), workers, the table of workers with its lock, readers without lock | invariant over all interleavings; witnesses for the race, the exception and the deleted worker |
| C114 | `Tools/VdfOpts`: `atoi`, the loop over the arguments, the sections of a page | induction over the command line; `atoi` of decimal digits |
| C115 | `Tools/Watch`: vdf writing a page section by section under the locks of the lists, a connection of any capacity, a browser, any number of applications, death of vdf | invariant; measure of characters to write and read under fair schedules; invariants of the stuck states for the violations |
| C116 | `Tools/Members`: the calls of arax_init/arax_exit of the four tools for every command line and use, their counts, other processes joining, leaving, deleting the name | invariant linking the tool's count to joins minus leaves; balance of each tool's calls by induction over keys and pointers |
| C117 | `Dl/Tlsf`: the wrapper around TLSF, TLSF as a parameter with a contract, any threads calling, inspecting, dying | invariant of the lock; invariant relating the blocks in use of the pool to what callers hold, free and are about to get; replay of the log |
| C118 | `Object/Kinds`: the tables indexed by kind, creation on flat memory, destruction, the report at exit | invariant: each list is a permutation of the objects made as that kind; accounting of created, live and destroyed |
| C119 | `Java/Bindings`: the Java classes around the C calls: constants, references of instances, arguments, set and get | invariant: references = those of others + those of instances; induction over the calls between setArgs and issue |
| C120 | `Ctrl/EndReport`: the printing loop of main and the counters, one step per read | invariant with the three values read per accelerator; measure for the end |
| C121 | `Plot/Record`: arax_plot_register_metric by single stores, the list and the samples of arax_plot by single reads | invariant of the table (keys, names, locations, the half-stored entry); history induction for the samples; measure for the list; concrete runs for the violations |
| C122 | `Accel/Budget`: start and stop of accelerators with their throttles as single steps, any amounts taken and given back, other users of devices and segment | invariant available + held = given, in both builds (modulo 2^64 in the default one); history induction for the first value; concrete runs for the violations |

## Disagreements between code and documentation or intent found on the way

Each with the theorem that shows it, where the model covers it.

* Bitmap: the last chunk of a bitmap whose size is not a multiple of 64 (C04); queue of capacity 65536 (C07), ABA (C08).
* Config: `utils_config_set_str` does not replace a present key (C13); the documentation says a value ends at the newline, the code ends it at white space; path buffer off by one (C16).
* Throttle: without `ARAX_THROTTLE_ENFORCE` the counter can wrap (C18); one token per notify with the spin back-end (C19).
* Device memory: `arax_data_allocate_remote` charges the accelerator twice, CUDA `memset`/`memcpy` handlers allocate without charging, a data object used through two
  not yet assigned virtual accelerators is charged twice (C67); with ENFORCE a worker waiting for memory can never be released (C68).
* The Elastic scheduler keeps an iterator into a vector that is gone, moves virtual accelerators without their data in the default build, forgets all but the last moved one, refunds the wrong device, and aborts when a worker is slow (C69).
* Controller shutdown: queued tasks are dropped, the balancer keeps running and loses virtual accelerators, a second SIGINT throws in the signal handler; startup spins for ever when an accelerator fails to initialise; concurrent `setJobPreference` calls can block a worker (C70).
* Run-time library loader: several events in one read, renamed files, new folders, new versions and long names are missed (`C71_violated_*`).
* Segment: `system_mmap` truncates the file to the joining process's own `shm_size`; `arax_exit` unmaps the size of the segment, not what was mapped (`C72_violated_*`).
* Completion: a second wait on the same completion blocks for ever (C21); ivshmem semaphore (C23) and condition lock (C66).
* Objects: see the notes of C25–C28, C50, C57, C58, C62 in the manifest; `arax_accel`'s destructor asserts a string literal.
* `arax_object_rename` uses its `va_list` twice (`C61_violated`).
* Counter of pending tasks: wraps when a queue is removed in the middle of a submission (`C32_wrap_violated`), starves with the elastic scheduler (`C32_elastic_violated`).
* Round-robin assignment keeps an iterator into a destroyed container (`C37_violated`).
* Layout: sizes near 2^64 are not checked (`C38_wraps`), tiny segments (`C41_too_small_wraps`), default alignment 1.
* Pipe: process map moved by a cell count as bytes (`C42_violated_*`); lifecycle races (`C43_violated_*`); later initialisers do not wait for the whole initialisation (`C44_violated`).
* Exec: argument counts truncated to `int` (`C46_count_truncated`); rebinding breaks read-your-writes (`C48_violated`); `arax_data_memcpy` copies to NULL (`C49_violated`); `memset`/`memcpy` handlers check no bounds (assumed by `Prog.Fits`).
* Controller: duplicate accelerator names are dropped (`C51_violated`); an empty last value of `decodeArgs` is dropped and values keep their case although the header says lower case (C52); `cpu_core` lists with blanks or ranges are misread (`C59_misread`); OpenCL accelerators cannot be configured (`C60_violated`).
* `arax_accel_list` deadlocks when re-listing drops the last reference (`C55_violated_hang`).
* `arax_pipe_get_orphan_vaccel` can return NULL without a stop (`C64_violated_*`), and the balancer passes it to `assignVac`.
* Full queue of an unassigned virtual accelerator: deadlock of client and balancer (`C65_violated`).
* Allocator: out of memory aborts instead of returning NULL (`C73_null_violated`); a block can lie past the end of the segment (`C73_past_end_violated`); exit leaves directly mapped blocks (`C74_destroy_violated`), `mremap` loses trimmed pages (`C74_trim_violated`); directly mapped blocks are counted as used but not in the total and are not inspected (`C75_stats_violated`, `C75_inspect_violated`); seen, not a theorem: exit of a sub allocator does not free its own structure in the parent (alloc.c:163-170), and the ALLOC_STATS fields of a sub allocator are not initialised.
* Allocator locks: `arax_mmap` asserts with the allocator's lock held, so one process that runs out of memory blocks all others in that allocator for ever (`C78_nomem_violated`); so does any death inside a call (`C78_crash_violated`). There is no robust lock or recovery.
* Locks: `arax_vaccel_add_task` spins for room in the queue with the lock of the virtual accelerator (`C79_room_violated`); `arax_accel_list` of virtual accelerators, given an array of an earlier list of accelerators, deadlocks on the list lock when it drops the last reference of one (`C79_relist_violated`), and the other way round it changes the list of virtual accelerators without its lock (`C79_relist_use_violated`); a starting worker sleeps with `print_lock` when throttles are enforced (`C79_space_violated`); `arch_alloc_inspect` holds the allocator's lock while it calls the user's function (`C79_inspect_violated`).
* Drops: the worker issues `free` tasks to its own queue `free_vaq` and spins for room in it: with as many data objects waiting to be freed as the queue has places, the accelerator stands still for ever (`C80_violated`; arax_data.c:380-390, arax_vaccel.c:32-39, accelThread.cpp:436). The worker drops the last reference whenever the client waits for a task, frees it and its data before the worker gets from `arax_task_mark_done` to its own drop.
* Stream: OpenCL `memset` fills the whole buffer with the 4 bytes of the `int`, does nothing if the offset is not 0, and frees the task the user waits for (`C82_violated_opencl_memset`, `_offset`, `_free`); OpenCL `memcpy` copies `sz_src` bytes (`_opencl_memcpy`); OpenCL sizes are `int` (`_opencl_size`, `_opencl_big`); CUDA `memcpy` without `sync` is never marked nor freed (`_cuda_memcpy`); `sz - offset < n` wraps, `memset` is not checked (`_wrap`, `_memset_bounds`: the data of another client is overwritten); failed checks abort the controller (`_abort`).
* Memory order: `utils_queue_pop` loads `bottom` and then the entry without a barrier; where loads are executed out of order a pop returns NULL and loses the element (`C83_violated_load_order`).
* Configuration text: whatever follows the first JSON value is ignored (`C85_violated_trailing`); a group declared twice is meant to be refused but the parser has already dropped the first one (`C85_violated_redeclared`); `cpu_core` as a number is refused.
* C87: `arax_accel_stat` of a virtual accelerator that has no physical one (`arax_accel_list` returns such) dereferences NULL (`arax_vaccel.c:110`); the state is `accel_idle` for ever, nobody writes it (`arax_accel.c:19`), although `arax.h` promises the state at the time of the call.
* C88: `utils_queue_used_slots` may return 65535 for an empty queue, or 0 for one that is never empty (`queue.c:55`; the header's NOTE admits inexactness).
* C89: `arax_plot` crashes if the counters do not change while it records (`arax_plot/main.cpp:98-104` on an empty or one-element list after trimming), and trims the last change with the idle end (`arax_plot/Sample.cpp:30-34`).
* C90: araxgrind's "from N sources" counts sizes (`araxgrind/main.cpp:162`), host data of tasks is not counted (`:31`), inspecting an address inside a buffer prints the bytes there as a name and mostly dies (`:242`).
* C91: options given twice cancel (`araxgrind/Args.cpp:61`), words like `x-h` are options (`:19-21`), a malformed address is 0 (`:77-81`).
* C92: objects are inserted into the repository's list before their fields are initialised (`arax_object.c:116-123`); `canrun |=` is not atomic (`arax_proc.c:28`).
* C93: the label `FAIL` of `_arax_init` reads `vpipe->shm_size` through a pointer that is null or no longer mapped (`impl.c:128`); a failing `ftruncate` is overlooked (`impl.c:76-83`); the size is that of a file of this name in the working directory; the warning of `arax_exit` is unreachable.
* C95: `AraxLibMgr::procs` is never filled, so procedures stay registered; exceptions of `Config` are thrown by value and caught as `exception *`; `main` returns -1 without `arax_exit`.
* C96: `bt_size > 0` should be `<= 0` (`system.c:165`); `arax_assert_obj` is a declaration (`arax_assert.h:12`).
* C97: `operator <<` reads `conf->affinity` before testing `conf` (`Config.cpp:447-449`); `getAccelerator` uses `operator []` (`Config.cpp:311-314`).
* C98: `int l = arax_data_size(…)` (`noop.cpp:67`).
* C99: `executeOperation` neither uses the result of the handler nor marks a task whose handler threw (`deviceBaseOps.h:42-46`).
* C100: `Graph::Draw` compares the row with the dot number (`y != a`, Graph.cpp:62-64) and blanks most points; `hbraile_line` indexes `bar_map` off by one (Utils.h:39-40).
* C101: rows of `vtop` keep a reference to `proc_map[c]` and a copy of the name (MainView.cpp:73-76); `arax_pipe_mark_unmap` moves the later entries up.
* C102: `viewObjects` puts names into the page unquoted (Objects.cpp:48); `viewAllocations` clears its list without printing it (Allocations.cpp:94-98).
* C103: `acceleratorRelease` of CUDA and HIP calls `arax_clean`, which unlinks the segment (CUDAaccelThread.cpp:148, HIPaccelThread.cpp:150); `OpenCLaccelThread::acceleratorRelease` clears the map of kernels and releases program, queue and context inside its loop over kernels (OpenclaccelThread.cpp:225-243).
* C104: with ivshmem `async_completion_wait` never looks at `completed`: a task finished before the wait is waited for until some other interrupt arrives (ivshmem/async.c:135-142).
* C105: `createService` uses the null pointer it gets for a name that is not registered (Services.cpp:20-22), never deletes the provider objects it makes, and `destroyService` forgets a handle without destroying it when the caller is not a GPU worker (40-43).
* C106: with ivshmem `async_semaphore_dec` swaps the operands of its compare-and-swap (ivshmem/async.c:186) and follows `sem->meta`, which is never set (195); `async_meta_exit` clears `meta->fd` (239) while the thread it joins loops on `reg_fd` (46).
* C107: `free_remote` of a CPU accelerator is an assertion that always fails (CPUaccelThread.cpp:105), so nothing can leave a CPU; the device ones credit the accelerator of the buffer's *virtual* accelerator (e.g. HIPaccelThread.cpp:361), which at that point is already the new one.
* C108: `Host2OpenCL` (OpenclaccelThread.cpp:274-280) is a copy of `OpenCL2Host`: it completes the task before the kernel runs. `hip_Host2GPU` sets `state = task_failed` without completing (HIPaccelThread.cpp:229), and `hip_GPU2Host` overwrites it (262).
* C109: nothing looks for dead processes: the references of a process that was killed are never dropped.
* C110: with ARAX_REF_DEBUG the upper half of `ref_count` counts operations (arax_object.c:153, 180), so only 16 bits count references; at 65537 dropping one destroys the object.
* C111: `Pallete::get(id)` reads `colors[id]` unchecked (Pallete.cpp:52): more than 4096 metrics read behind the vector; a number can get the colour a name has (the set of unused colours is consulted for names only).
* C112: vtop makes its rows once (MainView.cpp:38-54): accelerators registered later are not shown, and the row of a released one goes on reading its freed memory (ValueBar.h:19 is a reference).
* C113: `readyToServe` is set before the worker is in `VAQPhys2accelThread` (accelThread.cpp:357-360), `getVAQPhys2accelThread` takes no lock and uses `at` (159); `deleteThreads` deletes a worker while later ones may still run a task (arax_controller.cpp:110-113).
* C114: vdf reads its own name as an argument (vdf.cpp:80) and hands an `int` to a 16-bit port (47).
* C115: vdf writes to the network while it holds the lock of an object list (Objects.cpp:32-84, Throttle.cpp:27-42): a stalled browser, or the death of vdf, blocks applications.
* C116: `vtop -i` calls arax_init twice and arax_exit once (vtop.cpp:30-35, MainView.cpp:24, 96), so (R) does not re-attach either; araxgrind --list returns without arax_exit (main.cpp:270-273); each look at a pointer calls arax_init through arax_ptr_valid (arax_ptr.c:6); arax_plot returns without arax_exit when it has no samples (main.cpp:82-85).
* C117 (tlsf build): `arch_alloc_inspect` takes no lock (tlsf/alloc.c:105-112); `arch_alloc_stats` leaves total and used bytes 0 (77-90); `arax_mmap` is always null (114-117), although alloc.h:100-105 promises pages; no check that the segment is larger than its header (arax_pipe.c:35, tlsf/alloc.c:18).
* C118: `arax_object_repo_exit` keeps the length of a list in an int (arax_object.c:74-80); its `%*s` was meant as `%.*s` (81-84), so that one object is reported in the plural; `arax_pipe_exit` drops its result (arax_pipe.c:246).
* C119 (Java): `Type.ARAX_ACCEL_TYPES` is 7 (AraxAccelerator.java:15) where the library has OPEN_CL; `acquireAccelerator(accel)` ignores the result (Arax.java:60); `status` frees and keeps the pointer (AraxTask.java:125); the constructor with arguments does not call `write` (22-28); `set` and `get` ignore `user_buffer_size` (AraxBuffer.java:43-53); hello.java:54 takes characters for bytes.
* C120 (report): the counters are read three times each without a lock, before the workers are stopped (arax_controller.cpp:203-216, 220); the total is an `int` (:201, 210).
* C121 (metrics): arax_plot reads `metrics_kv` without its lock (arax_plot/main.cpp:70-76), so a name may be there without its location (Kv.c:25-26) and the first sample dereferences NULL (Sample.cpp:7-8); the header asks for calls before arax_plot starts, but any process may register at any time. Keys are compared by address and each call copies its name (arax_plot.c:16-20), so a name registered twice is two metrics. Lines 9 and 12 call `arax_init` (arax_ptr.c:6) and nothing undoes it.
* C122 (budget): each accelerator has its own throttle for the whole of its memory (accelThread.cpp:332-336): two accelerators on one GPU, or a CPU accelerator, whose memory is the segment that `arax_s.throttle` already hands out (CPUaccelThread.cpp:14-22), promise the same bytes twice. `OpenCLaccelThread::getAvailableSize` and `getTotalSize` are the constant 4 GiB (OpenclaccelThread.cpp:257-263). `arax_throttle_init` asserts that something is free (arax_throttle.c:33), so a fully used device ends the controller; SDAaccelThread has neither function, and the base class throws (accelThread.cpp:95-112).
* Seen, not modelled: `arax_proc_get` in `arax_data.c` is never matched by a put; `rr_counter` (a `std::map`) is changed by several threads without a lock; the worker's
  snapshot array is never freed; `arax_object_register` publishes an object before its fields are set; `system_mmap` tests `fd < 0` on the pointer;
  `arax_vaccel_get_stat` of an orphan dereferences NULL; `arax_pipe_delete_accel` unlocks before it drops the reference; `arax_assert_obj` checks nothing.

## Seeded bugs

`seeded/LOG.jsonl` has one line per wrong program tried (definition, edit, claim, theorems that failed, theorems tightened). Edits that only made a definition ill-typed are not
counted and were repeated in another form.

## Axioms per theorem

<!-- axioms -->
| axioms | theorems |
|---|---|
| Classical.choice, Quot.sound, propext | `Bitmap.C01_alloc_exact_run`, `Bitmap.C02_live_disjoint`, `Bitmap.C02_set_iff_live`, `Bitmap.C03_accounting`, `Bitmap.C04_in_bounds_partial`, `Bitmap.C04_in_chunks_partial`, `Bitmap.C04_single_chunk_partial`, `Bitmap.C04_violated`, `Bitmap.C05_alloc_free_restores`, `Bitmap.C05_free_exact`, `Bitmap.C06_fresh_complete`, `Bitmap.C06_one_page_iff`, `Bitmap.C06_run_in_group_succeeds`, `Bitmap.C06_too_large_fails`, `Queue.C07_bounded_fifo_partial`, `Queue.C07_default_capacity`, `Queue.C07_violated_capacity_65536`, `Queue.Conc.C08_fifo_linearizable_partial`, `Queue.Conc.C08_solo_pop`, `Spinlock.C09_free_lock_acquirable`, `Spinlock.C09_mutual_exclusion`, `IList.C10_observations`, `Vtop.C100_amount_partial`, `Vtop.C100_bar_mono`, `Vtop.C100_bar_partial`, `Vtop.C100_reset`, `Vtop.C100_violated_bar`, `Vtop.C100_violated_graph`, `Vtop.C100_violated_idle`, `Vtop.C100_window_partial`, `Kill.C101_cross_dead`, `Kill.C101_kills_partial`, `Kill.C101_slots`, `Kill.C101_violated_name`, `Kill.C101_violated_zero`, `Kill.C101_violated_zombie`, `Kill.C101_where_partial`, `Vdf.C102_amount_partial`, `Vdf.C102_bytes`, `Vdf.C102_labels_partial`, `Vdf.C102_leaks_partial`, `Vdf.C102_table_partial`, `Vdf.C102_throttle`, `Vdf.C102_violated_names`, `Devices.C103_gpu_up_partial`, `Devices.C103_register_agree_partial`, `Devices.C103_register_partial`, `Devices.C103_violated_release`, `OpenCL.C103_cl_single_partial`, `OpenCL.C103_cl_up_partial`, `Ivshmem.C104_returns_partial`, `Services.C105_create_answers_partial`, `Services.C105_give_back_partial`, `Services.C105_handle_fresh_partial`, `Services.C105_handles_exact_partial`, `Services.C105_never_foreign`, `Services.C105_refused_partial`, `Services.C105_violated_providers_leak`, `Services.C105_violated_unknown_name`, `Object.Killed.C109_case`, `Object.Killed.C109_lost_exactly`, `Object.Killed.C109_others_safe_partial`, `Object.Killed.C109_violated_never_comes_back`, `IList.C11_other_lists_intact`, `RefConc.C110_assertions`, `RefConc.C110_count_partial`, `RefConc.C110_destroyed_exactly_partial`, `RefConc.C110_destroyer_goes_on`, `RefConc.C110_lists_partial`, `RefConc.C110_safe_partial`, `Palette.C111_colour`, `Palette.C111_names`, `Palette.C111_new_name_partial`, `Palette.C111_numbers`, `Palette.C111_violated_mixed`, `VtopRows.C112_counts`, `VtopRows.C112_keys`, `VtopRows.C112_violated_released`, `Registry.C113_announced`, `Registry.C113_comes_up`, `Registry.C113_found_partial`, `Registry.C113_goes_down`, `Registry.C113_in_order`, `Registry.C113_right`, `Registry.C113_writers`, `VdfOpts.C114_blanks`, `VdfOpts.C114_parts`, `VdfOpts.C114_port_partial`, `VdfOpts.C114_unknown`, `VdfOpts.C114_violated_big`, `VdfOpts.C114_violated_name`, `Watch.C115_released_partial`, `Watch.C115_violated_stall`, `Members.C116_left_partial`, `Members.C116_once`, `Members.C116_reattach`, `Members.C116_violated_ignore`, `Members.C116_violated_reattach`, `Kinds.C118_destructor`, `Kinds.C118_empty`, `Kinds.C118_lists`, `Kinds.C118_report_partial`, `Kinds.C118_violated_report`, `Java.C119_given_back_partial`, `Java.C119_references_partial`, `Kv.C12_bounded_map`, `Record.C121_accepts`, `Record.C121_full`, `Record.C121_lines_partial`, `Record.C121_lists`, `Record.C121_location`, `Record.C121_sample`, `Record.C121_sigint`, `Record.C121_violated_again`, `Record.C121_violated_exit`, `Record.C121_violated_race`, `Record.C121_waits`, `Budget.C122_promise_partial`, `Config.C13_default_recorded`, `Config.C13_violated`, `Config.C13_write_read_partial`, `Config.C14_needs_newline`, `Config.C14_other_keys`, `Config.C14_other_keys_long`, `Config.C15_long_decimal`, `Config.C15_long_roundtrip_partial`, `Config.C15_long_safe_partial`, `Config.C15_malformed_grows`, `Config.C15_size_default_written`, `Config.C15_violated`, `Throttle.C17_conservation`, `Throttle.C17_exclusion`, `Throttle.C18_limits_partial`, `Throttle.C19_no_stuck_waiter_partial`, `Throttle.C19_spin_partial`, `Semaphore.C23_counting_posix`, `Ready.C24_all_return_mutex_partial`, `Ready.C24_all_return_spin_partial`, `Object.C25_destroyed_exactly_at_zero`, `Object.C25_live_iff_referenced`, `Object.C25_no_use_after_free`, `Object.C25_registered_iff_live`, `Object.C26_accounting_partial`, `Object.C26_leak_check_partial`, `Object.C26_repo_exit_exact`, `Object.C27_all_reclaimed`, `Object.C27_issue_holds`, `Object.C27_targets_live`, `Object.C28_balanced_partial`, `ProcConc.C28_concurrent_partial`, `Object.C29_get`, `Object.C29_lookup_exact`, `Object.C29_unique`, `ProcConc.C29_unique_concurrent_partial`, `Functor.C31_from_str`, `Functor.C31_round_trip`, `Accel.Place.C34_no_failure_partial`, `Accel.Place.C34_one_place_partial`, `Accel.Place.C34_orphan_handed_once_partial`, `Sched.C36_no_starvation`, `Sched.C37_first_partial`, `Sched.C37_violated`, `Layout.C38_buffers_disjoint`, `Layout.C38_live_buffers`, `Layout.C39_offset_partial`, `Layout.C39_outside_partial`, `Layout.C39_round_trip`, `Layout.C40_io_slots`, `Layout.C41_one_page_inside`, `Layout.C41_runs_disjoint`, `Layout.C41_runs_inside_partial`, `Layout.C41_ummap_ok`, `Layout.C41_violated`, `ProcMap.C42_partial`, `ProcMap.C42_unmap_unknown`, `ProcMap.C42_violated_lost`, `ProcMap.C42_violated_stale`, `Life.C43_lifetime_partial`, `Life.C43_unlink_only_unused_partial`, `PipeInit.C44_full_partial`, `PipeInit.C44_header_ready_partial`, `PipeInit.C44_one_initialiser`, `PipeInit.C44_revision_check`, `Args.C46_accepts`, `Args.C46_count_negative`, `Args.C46_count_truncated`, `Args.C46_rejects`, `Args.C46_unusable_aborts`, `Exec.C47_atomic`, `Exec.C47_issue_order`, `Exec.C47_one_queue`, `Exec.C47_program_order`, `Exec.C48_get_returns`, `Exec.C48_memcpy`, `Exec.C48_memset`, `Exec.C48_read_your_writes`, `Exec.C48_set`, `Object.C50_count_exact_partial`, `Ctrl.Conf.C51_complete_partial`, `Ctrl.Conf.C51_default_names_differ`, `Ctrl.Conf.C51_sound`, `Ctrl.Conf.C51_violated`, `Ctrl.C52_trim`, `Ctrl.Handler.C53_decode`, `Ctrl.Handler.C53_load`, `Ctrl.Handler.C53_unknown_arch_aborts`, `Timer.C54_durations`, `Timer.C54_ns`, `Listing.C55_free_later`, `Listing.C55_relist_later_partial`, `Listing.C55_violated_hang_always`, `Sched.C56_assign_complete_partial`, `Object.C57_held_proc_live_partial`, `Ctrl.Cpu.C59_affinity`, `Ctrl.Conf.C60_accepted`, `Ctrl.Conf.C60_pref`, `Ctrl.Conf.C60_violated`, `PhysRelease.C62_invariant_partial`, `PhysRelease.C62_release_partial`, `PhysRelease.C62_violated`, `Worker.C63_exact`, `Worker.C63_woken`, `Orphan.C64_each_once`, `Orphan.C64_null_partial`, `Orphan.C64_woken`, `Live.C65_executed_partial`, `Live.C65_once_in_order`, `Cond.C66_exclusion`, `Cond.C66_locks_return`, `Cond.C66_returns`, `DevMem.C67_violated_cuda`, `DevMem.C67_violated_cuda_abort`, `DevMem.C67_violated_hang`, `DevMem.C67_violated_remote`, `DevMem.C67_violated_two_devices`, `DevMem.C68_violated`, `Elastic.C69_free_vaq_stays`, `Elastic.C69_no_abort_partial`, `Elastic.C69_placement_partial`, `Elastic.C69_round_robin_partial`, `Elastic.C69_violated_iterator`, `Control.C70_pause_partial`, `Control.C70_released_partial`, `Control.C70_resume_partial`, `Control.C70_shutdown_partial`, `Control.C70_start_partial`, `Control.C70_violated_late_pause`, `Control.C70_violated_race`, `Libs.C71_replaced_before_read`, `Libs.C71_runtime_partial`, `Libs.C71_startup`, `Libs.C71_startup_failed`, `Libs.C71_stop_partial`, `Libs.C71_violated_batch`, `Libs.C71_violated_hidden`, `Libs.C71_violated_links`, `Libs.C71_violated_long`, `Libs.C71_violated_rename`, `Libs.C71_violated_stale`, `Libs.C71_violated_stop`, `Segment.C72_contents_partial`, `Segment.C72_own_memory_partial`, `Segment.C72_same_size_partial`, `Segment.C72_violated_rejoin`, `Dl.C73_alloc`, `Dl.C73_blocks_partial`, `Dl.C73_contents`, `Dl.C73_disjoint`, `Dl.C73_free`, `Dl.C73_never_corrupt`, `Dl.C73_write`, `Dl.C74_all_back_partial`, `Dl.C74_destroy_partial`, `Dl.C74_destroy_violated`, `Dl.C74_footprint`, `Dl.C74_lost_forever`, `Dl.C74_pages_partial`, `Dl.C74_trim_violated`, `Dl.C75_inspect_partial`, `Dl.C75_plain_partial`, `Dl.C75_stats_partial`, `Dl.C76_merged`, `Dl.C76_reuse`, `Dl.C77_best_fit`, `Dl.C77_contents`, `Dl.C77_disjoint`, `Dl.C77_never_corrupt`, `Dl.C77_refines`, `Dl.C77_small_fit`, `Dl.C78_alloc`, `Dl.C78_alone`, `Dl.C78_blocks_partial`, `Dl.C78_contents`, `Dl.C78_crash_violated`, `Dl.C78_disjoint`, `Dl.C78_exclusive`, `Dl.C78_free`, `Dl.C78_never_corrupt`, `Dl.C78_nomem_violated`, `Dl.C78_pages`, `Dl.C78_returns`, `Dl.C78_stuck`, `Dl.C78_write`, `Reclaim.C80_not_early`, `Reclaim.C80_once`, `Reclaim.C80_returns_partial`, `Reclaim.C80_violated`, `Stream.C81_get_returns`, `Stream.C81_once`, `Stream.C81_order`, `Stream.C81_outputs`, `Stream.C81_read_back`, `Stream.C82_get_partial`, `Stream.C82_marked_partial`, `Stream.C82_memcpy_partial`, `Stream.C82_memset_partial`, `Stream.C82_others_partial`, `Stream.C82_set_partial`, `Tso.C83_inside_serial`, `Tso.C83_sections_serial`, `Tso.KvC.C83_kv_serial`, `Tso.QueueC.C83_fifo_partial`, `Tso.QueueC.C83_solo_pop`, `Queue.Lin.C84_histories_partial`, `Queue.Lin.C84_linearizable_partial`, `Queue.Lin.C84_one_popper`, `Queue.Multi.C84_many_queues`, `Tso.QueueC.C84_delayed_stores_partial`, `Json.C85_config`, `Json.C85_exact_partial`, `Json.C85_reads`, `Json.C85_unambiguous`, `Json.C85_violated_redeclared`, `Json.C85_violated_trailing`, `Exec.Real.C86_get_returns`, `Exec.Real.C86_order`, `Exec.Real.C86_program_order`, `Exec.Real.C86_read_your_writes`, `Exec.Real.C86_refines`, `Exec.Real.C86_serial`, `Attr.C87_assertions`, `Attr.C87_attributes_partial`, `Attr.C87_setters_return`, `Attr.C87_stat_partial`, `Attr.C87_violated_stat`, `Queue.Conc.C88_poppers_excluded_partial`, `Queue.Conc.C88_pushers_excluded_partial`, `Queue.Conc.C88_top_first_partial`, `Queue.Conc.C88_value_partial`, `Plot.C89_crash_partial`, `Plot.C89_page_partial`, `Plot.C89_violated_end`, `Grind.C90_inspect_inside_partial`, `Grind.C90_inspect_object`, `Grind.C90_print_size`, `Grind.C90_report_partial`, `Grind.C90_sources_partial`, `Grind.C90_violated_name`, `Grind.C91_operand_missing`, `Grind.C91_options_partial`, `Grind.C91_parity`, `Grind.C91_reject`, `Grind.C91_round_trip`, `Grind.C91_violated_junk`, `Grind.C91_violated_twice`, `Publish.C92_functors_partial`, `KernelMap.C94_table`, `Run.C95_no_kernels_partial`, `Run.C95_others_keep_partial`, `Run.C95_violated_clean`, `Run.C95_violated_kernels`, `Run.C95_violated_refusal`, `Assert.C96_assert_partial`, `Assert.C96_objects_partial`, `Assert.C96_violated_objects`, `Assert.C96_violated_outside`, `Assert.C96_violated_stack`, `Assert.C96_violated_stack_lost`, `Ctrl.Shown.C97_cores`, `Ctrl.Shown.C97_read_back`, `Ctrl.Shown.C97_unambiguous_partial`, `Ctrl.Shown.C97_violated_lookup`, `Ctrl.Shown.C97_violated_names`, `Exec.C98_answer_partial`, `Exec.C98_input`, `Faults.C99_isolated_partial`, `Faults.C99_others_partial` |
| Quot.sound, propext | `Bitmap.C06_fail_no_change`, `Queue.Conc.C08_violated_aba`, `IList.C10_calls_follow_spec`, `IList.C10_loose_not_linked`, `Vtop.C100_graph_sound_partial`, `Vtop.C100_memory`, `Kill.C101_violated_strike`, `Vdf.C102_label_text`, `Devices.C103_cuda_index`, `Devices.C103_violated_register`, `OpenCL.C103_violated_cl_context`, `OpenCL.C103_violated_cl_device`, `OpenCL.C103_violated_cl_no_kernels`, `Ivshmem.C104_only_after_partial`, `Ivshmem.C104_violated_complete_first`, `Ivshmem.C104_violated_self_lock`, `Ivshmem.C104_violated_two_waiters`, `Services.C105_violated_cudnn_not_built`, `Services.C105_violated_handle_lost`, `Services.C105_violated_map_race`, `IvshmemSem.C106_inc_returns_partial`, `IvshmemSem.C106_value_counts_partial`, `IvshmemSem.C106_violated_lock_excludes`, `IvshmemSem.C106_violated_never_returns`, `Migrate.C107_aborts_exactly`, `Migrate.C107_books_exact`, `Migrate.C107_books_partial`, `Migrate.C107_task_sees_partial`, `Migrate.C107_violated_books`, `Migrate.C107_violated_default_build`, `Migrate.C107_violated_leaving_cpu`, `Helpers.C108_cuda_partial`, `Helpers.C108_hip_partial`, `RefConc.C110_violated_debug_build`, `Palette.C111_series_partial`, `Palette.C111_violated_many`, `VtopRows.C112_follows_setup`, `VtopRows.C112_reattach`, `VtopRows.C112_truth_partial`, `VtopRows.C112_violated_new`, `Watch.C115_seen`, `Watch.C115_violated_death`, `Members.C116_violated_list`, `Members.C116_violated_nothing`, `Members.C116_violated_pointers`, `Tlsf.C117_area`, `Tlsf.C117_blocks`, `Tlsf.C117_fresh`, `Tlsf.C117_released_partial`, `Tlsf.C117_violated_killed`, `Kinds.C118_names`, `Java.C119_bytes_partial`, `Java.C119_hello_partial`, `Java.C119_violated_arguments`, `Java.C119_violated_bytes`, `Java.C119_violated_hello`, `Kv.C12_slot_stable`, `EndReport.C120_between_partial`, `EndReport.C120_ends`, `EndReport.C120_exact_partial`, `EndReport.C120_violated_late`, `EndReport.C120_violated_total`, `Budget.C122_balance_partial`, `Budget.C122_end`, `Budget.C122_no_overflow`, `Budget.C122_violated_opencl`, `Budget.C122_violated_start`, `Config.C15_get_bool`, `Config.C15_get_int`, `Config.C15_get_long_default`, `Config.C15_get_size`, `Path.C16_expands`, `Path.C16_too_long_partial`, `Path.C16_violated`, `Throttle.C19_violated_spin`, `Completion.C20_returns_marked_state`, `Completion.C20_wait_after_complete`, `Completion.C21_first_wait_partial`, `Completion.C21_violated_twice`, `Completion.C22_mutex_sound_partial`, `Completion.C22_spin_partial`, `Semaphore.C23_counting_spin_partial`, `Semaphore.C23_dec_proceeds_spin_partial`, `Semaphore.C23_violated_ivshmem_dec`, `Semaphore.C23_violated_spin_large`, `Ready.C24_violated_mutex`, `Ready.C24_violated_spin`, `Object.C26_violated_late_join`, `Functor.C30_functor_table`, `Functor.C30_invalid_aborts`, `Functor.C30_null_functor_can_run`, `Accel.Count.C32_elastic_violated`, `Accel.Count.C32_never_under_reports_partial`, `Accel.Count.C32_queued_work_wakes_worker_partial`, `Accel.Count.C32_round_robin`, `Accel.Count.C32_wrap_violated`, `Accel.Count.C33_exact_round_robin_partial`, `Accel.Count.C33_token_finds_task_partial`, `Accel.Count.C33_violated`, `Sched.C35_null_only_when_empty`, `Sched.C35_select_complete`, `Sched.C35_select_sound`, `Sched.C37_cycles_partial`, `Layout.C38_placement`, `Layout.C39_violated`, `Layout.C40_host_area`, `Layout.C41_layout`, `Layout.C41_pipe_layout`, `ProcMap.C42_full_map_not_registered`, `Life.C43_violated_api`, `Life.C43_violated_path`, `PipeInit.C45_same_address`, `Exec.C48_refused`, `Exec.C48_violated`, `DataCopy.C49_empty_partial`, `DataCopy.C49_violated`, `Ctrl.C52_decode_partial`, `Listing.C55_free`, `Listing.C55_list`, `Listing.C55_relist`, `Sched.C56_all_moved_when_null_partial`, `Sched.C56_examined_moved`, `Sched.C56_orphans_only_unrunnable`, `Sched.C56_returns_runnable`, `Object.C57_violated`, `Accel.Count.C58_looks_at_live_partial`, `Accel.Count.C58_violated`, `Rename.C61_rename_partial`, `Rename.C61_violated`, `PhysRelease.C62_not_last`, `Worker.C63_two_workers`, `Orphan.C64_violated_mutex`, `Orphan.C64_violated_spin`, `Orphan.C64_violated_spurious`, `Live.C65_violated`, `Cond.Iv.C66_violated_ivshmem_hang`, `Cond.Iv.C66_violated_ivshmem_self`, `DevMem.C67_balance_partial`, `DevMem.C67_exact_partial`, `DevMem.C67_returned_partial`, `DevMem.C68_never_released`, `DevMem.C68_no_wait_partial`, `Elastic.C69_assigned`, `Elastic.C69_violated_accounting`, `Elastic.C69_violated_default`, `Elastic.C69_violated_none`, `Elastic.C69_violated_stale`, `Elastic.C69_violated_twice`, `Elastic.C69_violated_types`, `Control.C70_release_after_end`, `Control.C70_stop_bound`, `Control.C70_violated_init`, `Control.C70_violated_pending`, `Segment.C72_violated_shrink`, `Segment.C72_violated_small`, `Segment.C72_violated_unmap_own`, `Dl.C73_null_violated`, `Dl.C73_past_end_violated`, `Dl.C73_whole_segment`, `Dl.Seat.layout`, `Dl.C75_inspect_violated`, `Dl.C75_stats_violated`, `Dl.C77_huge_violated`, `Dl.C78_acquire`, `Dl.C78_result`, `Locks.C79_death_violated`, `Locks.C79_exclusive`, `Locks.C79_finite`, `Locks.C79_no_circle`, `Locks.C79_no_deadlock_partial`, `Locks.C79_ordered`, `Locks.C79_quiet_partial`, `Locks.C79_relist_violated`, `Locks.C79_room_violated`, `Locks.C79_space_violated`, `Locks.C79_waits`, `Reclaim.C80_given_back`, `Reclaim.C80_serves`, `Stream.C82_memcpy_checked`, `Stream.C82_opencl_memset_int`, `Stream.C82_valid_partial`, `Stream.C82_violated_abort`, `Stream.C82_violated_cuda_memcpy`, `Stream.C82_violated_memset_bounds`, `Stream.C82_violated_opencl_big`, `Stream.C82_violated_opencl_free`, `Stream.C82_violated_opencl_memcpy`, `Stream.C82_violated_opencl_memset`, `Stream.C82_violated_opencl_offset`, `Stream.C82_violated_opencl_size`, `Stream.C82_violated_wrap`, `Tso.QueueC.C83_push_visible`, `Tso.QueueC.C83_violated_load_order`, `Queue.Conc.C08_violated_aba`, `Exec.Real.C86_lock`, `Plot.C89_violated_crash`, `Grind.C90_print_size_limit`, `Grind.C91_negative`, `Publish.C92_violated_canrun`, `Publish.C92_violated_lost`, `Publish.C92_words_partial`, `Startup.C93_balanced_calls_partial`, `Startup.C93_ends_properly_partial`, `Startup.C93_reason_true_partial`, `Startup.C93_returns_iff_can_join_partial`, `Startup.C93_violated_no_space`, `Startup.C93_violated_old_number`, `Startup.C93_violated_other_file`, `Startup.C93_violated_refusals`, `Startup.C93_violated_waits`, `KernelMap.C94_duplicates`, `KernelMap.C94_width`, `Exec.C98_violated_long`, `Faults.C99_violated_other`, `Faults.C99_violated_silent_witness` |
| propext | `Vtop.C100_glyph`, `Vtop.C100_pages`, `Vtop.C100_violated_bar_edges`, `Vtop.C100_violated_full`, `Vtop.C100_violated_narrow`, `Vtop.C100_violated_order`, `Vdf.C102_violated_labels`, `Vdf.C102_violated_leaks`, `OpenCL.C103_violated_cl_index`, `OpenCL.C103_violated_cl_two_accelerators`, `OpenCL.C103_violated_cl_two_kernels`, `IvshmemSem.C106_violated_exit_never_returns`, `Helpers.C108_cpu`, `Helpers.C108_violated_hip_failure`, `Helpers.C108_violated_opencl`, `Palette.C111_violated_exhausted`, `Registry.C113_violated_end`, `Registry.C113_violated_race`, `Registry.C113_violated_throws`, `Watch.C115_app`, `Tlsf.C117_one_at_a_time`, `Tlsf.C117_order`, `Tlsf.C117_violated_inspect`, `Tlsf.C117_violated_stats`, `Java.C119_arguments_partial`, `Java.C119_bytes_outside_partial`, `Java.C119_constants_partial`, `Java.C119_status`, `Java.C119_violated_acquire`, `Java.C119_violated_constants`, `Java.C119_violated_failed`, `Java.C119_violated_reissue`, `Java.C119_violated_status_twice`, `Budget.C122_start`, `Budget.C122_start_kind`, `Budget.C122_violated_default`, `Budget.C122_violated_shared`, `Throttle.C18_violated`, `Completion.C21_violated_failed`, `Completion.C22_violated_mutex`, `Completion.C22_violated_mutex_unlock`, `Object.C26_violated_failed_alloc`, `Object.C27_violated_phys`, `Object.C28_violated`, `ProcConc.C28_violated_concurrent`, `ProcConc.C29_violated_concurrent`, `Accel.Place.C34_release_violated`, `Accel.Place.C34_set_physical_violated`, `Sched.C37_mixed_types_violated`, `Layout.C38_align_zero`, `Layout.C40_wrong_size`, `Life.C43_violated_race`, `Life.C43_violated_reinit`, `PipeInit.C44_violated`, `PipeInit.C44_violated_mismatch`, `Args.C46_other_device_aborts`, `DataCopy.C49_same`, `Object.C50_violated`, `Ctrl.C52_join`, `Ctrl.C52_values_keep_case`, `Ctrl.C52_violated`, `Listing.C55_violated_hang`, `Sched.C56_assign_runnable_partial`, `Sched.C56_stops_early_violated`, `Ctrl.Cpu.C59_misread`, `Cond.C66_notify_wakes_all`, `Cond.Iv.C66_violated_ivshmem_exclusion`, `Control.C70_violated_balancer`, `Control.C70_violated_twice`, `Segment.C72_violated_place`, `Locks.C79_inspect_violated`, `Locks.C79_relist_use_violated`, `Queue.Conc.C88_violated`, `Grind.C90_inspect_outside`, `Grind.C90_violated_sources`, `Grind.C90_violated_task_bytes`, `Grind.C91_violated_operand`, `Grind.C91_violated_operand_option`, `Publish.C92_violated_garbage`, `Startup.C93_violated_no_name`, `Startup.C93_violated_warning`, `Run.C95_no_argument_partial`, `Run.C95_violated_config`, `Faults.C99_violated_silent` |
| none | `Vdf.C102_violated_allocations`, `Vdf.C102_violated_mib`, `Vdf.C102_violated_time`, `Devices.C103_violated_hip_index`, `Helpers.C108_violated_cuda_unchecked`, `Tlsf.C117_violated_pages`, `Tlsf.C117_violated_small`, `Java.C119_header`, `EndReport.C120_violated_torn`, `Path.C16_null`, `Semaphore.C23_violated_ivshmem_inc`, `DataCopy.C49_mismatch`, `DataCopy.C49_unassigned_source`, `Timer.C54_overflow`, `Startup.C93_violated_extra_exit`, `Exec.C98_violated_empty` |
