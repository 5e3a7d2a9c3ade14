import json
P=[]
def p(title, statement, quantifier, why, anchors):
    P.append(dict(id="C%02d"%(len(P)+1), title=title, statement=statement, quantifier=quantifier, why_tests_cant=why, anchors=anchors))

# ---- page bitmap
p("Page allocation takes exactly one free contiguous run",
  "When utils_bitmap_alloc_bits(n) returns an index s (not BITMAP_NOT_FOUND), every bit of [s,s+n) was free before the call, every one of them is allocated after it, and no other bit of the bitmap changed.",
  "every bitmap content reachable by init/alloc/free, every request size n >= 0, every position of the search cursor",
  "the run can start in any chunk, at any offset, and straddle any number of 64-bit chunks; tests sample a handful of layouts",
  ["src/utils/bitmap.c: utils_bitmap_alloc_bits, find_start_small, find_start_big, find_end_small"])
p("Live page allocations never overlap",
  "After any history of allocations and frees of live allocations, the index ranges of any two live allocations are disjoint, so two arax_mmap callers never share a page.",
  "every finite sequence of alloc and (legal) free calls",
  "needs an invariant over unbounded histories and fragmentation patterns",
  ["src/utils/bitmap.c: utils_bitmap_alloc_bits, utils_bitmap_free_bits", "src/alloc/dlmalloc/alloc.c: arax_mmap, arax_ummap"])
p("Page accounting is exact",
  "utils_bitmap_used() always equals utils_bitmap_count_allocated() and equals the sum of the sizes of the live allocations; used + free = size.",
  "every finite sequence of alloc and (legal) free calls",
  "accounting drift shows only after particular fragmentation histories",
  ["src/utils/bitmap.c: utils_bitmap_used, utils_bitmap_free, utils_bitmap_count_allocated"])
p("Page allocation stays inside the bitmap",
  "Every index range returned by utils_bitmap_alloc_bits lies inside [0,size_bits), so arax_mmap never hands out memory past the end of the shared segment.",
  "every bitmap size, every history, every request size",
  "only particular sizes (not multiple of 64) with particular fragmentation expose the last-chunk boundary",
  ["src/utils/bitmap.c: find_end_small, find_start_small, find_start_big", "src/alloc/dlmalloc/alloc.c: arch_alloc_init_once, arax_mmap"])
p("Freeing undoes an allocation",
  "utils_bitmap_free_bits(s,n) on a live allocation clears exactly the bits [s,s+n), lowers used by n, and alloc followed by free of the result restores the bitmap contents and counters.",
  "every reachable bitmap, every live allocation",
  "masks depend on the 64-bit phase of both ends; there are unboundedly many layouts",
  ["src/utils/bitmap.c: utils_bitmap_free_bits"])
p("A failed page allocation changes nothing; a single page is found whenever one is free",
  "If alloc returns BITMAP_NOT_FOUND then no bit and no counter changed; a request larger than the free count always fails; and a one-bit request succeeds if and only if fewer than size_bits bits are in use.",
  "every reachable bitmap, every request size",
  "completeness is a claim about all layouts",
  ["src/utils/bitmap.c: utils_bitmap_alloc_bits"])
# ---- queue
p("Task queue is a bounded FIFO",
  "Any sequence of push/pop/peek/used_slots calls on a utils_queue behaves like a FIFO list bounded by its capacity: push fails exactly when capacity items are held, pop returns the oldest item or NULL when empty, peek does not remove, used_slots is the number of items - including after the 16-bit cursors wrap around.",
  "every finite sequence of operations, every power-of-two capacity the build allows",
  "wrap-around needs more than 65536 operations and every capacity",
  ["src/utils/queue.c: utils_queue_push, utils_queue_pop, utils_queue_peek, utils_queue_used_slots", "cmake/Options.cmake: UTILS_QUEUE_CAPACITY"])
p("Concurrent queue: every pushed task is popped at most once, in order",
  "With any number of concurrent poppers and any number of producers, for every interleaving of the individual memory accesses, the sequence of values returned by successful pops is a prefix of the sequence of values accepted by successful pushes (no loss, no duplication, no reordering).",
  "every number of threads, every schedule of atomic steps, every length of execution",
  "schedules are unbounded; the stale-cursor (ABA) window needs 65536 operations inside one preemption",
  ["src/utils/queue.c: utils_queue_pop (CAS), utils_queue_push (lock, fence, bottom)"])
# ---- spinlock
p("Spinlock mutual exclusion",
  "At most one thread is between a returned utils_spinlock_lock and its utils_spinlock_unlock on the same lock; unlock of a held lock never trips the double-unlock assertion.",
  "every number of threads, every interleaving",
  "schedules are unbounded",
  ["src/utils/spinlock.h: utils_spinlock_lock, utils_spinlock_unlock"])
# ---- list
p("Intrusive list behaves as a sequence",
  "For every sequence of add/del/pop_head/pop_tail on properly initialised nodes, a utils_list holds exactly the nodes added and not removed, most recently added first; length is their number, to_array and the for_each iteration (forward and reverse) visit exactly their owners in that order, and node_linked is true exactly for members.",
  "every finite operation sequence, any number of nodes and lists sharing one heap",
  "pointer-structure invariant over unbounded heaps",
  ["src/utils/list.c", "src/utils/list.h: utils_list_for_each"])
p("Operations on one list leave every other list intact",
  "add/del/pop on one utils_list never changes the contents, order or length of another list that shares no nodes with it.",
  "every pair of disjoint lists on one heap",
  "framing property over all heaps",
  ["src/utils/list.c: utils_list_node_add, utils_list_del"])
# ---- kv
p("Key-value store behaves as a bounded map",
  "After any sequence of utils_kv_set calls, utils_kv_get(k) yields the last value set for k, or NULL if k was never set; setting one key never changes another; at most ARAX_KV_CAP distinct keys are stored and setting one more aborts instead of corrupting memory.",
  "every sequence of set/get, every capacity",
  "all key collisions/overwrite orders",
  ["src/utils/Kv.c"])
# ---- config
p("Configuration write/read round-trip",
  "After utils_config_write_str(k,v), utils_config_get_str(k) returns v.",
  "every well-formed configuration text, every key and value without whitespace and within the length limits",
  "text of any length and content",
  ["src/utils/config.c: utils_config_write_str, _utils_config_get_str, utils_config_get_str"])
p("Writing one configuration key does not disturb the others",
  "utils_config_write_str(k,v) leaves the value reported for every other key unchanged.",
  "every well-formed configuration text, all key pairs",
  "text of any length and content",
  ["src/utils/config.c: utils_config_write_str, _utils_config_get_str"])
p("Integer configuration round-trip and range checking",
  "utils_config_write_long(k,n) followed by utils_config_get_long(k) yields n for every long n; get_int/get_bool/get_size report success only for values in range and otherwise deliver the default.",
  "every 64-bit integer, every configuration text",
  "2^64 values; base-0 parsing of arbitrary text",
  ["src/utils/config.c: utils_config_write_long, utils_config_get_long, utils_config_get_int, utils_config_get_bool, utils_config_get_size"])
p("Configuration path expansion is exact and bounded",
  "utils_config_alloc_path(p) returns p with every '~' replaced by the home directory when the result fits in 4095 characters, and otherwise returns NULL or aborts without writing outside its buffer.",
  "every path and every home directory string",
  "exact-fit lengths are single points in an unbounded space",
  ["src/utils/config.c: utils_config_alloc_path"])
# ---- throttle
p("Throttle conservation",
  "available size = initial available + total incremented - total decremented, for every interleaving of concurrent arax_throttle_size_inc/dec calls (no lost update).",
  "every number of threads, every schedule, every sizes",
  "schedules are unbounded",
  ["src/core/arax_throttle.c: arax_throttle_size_inc, arax_throttle_size_dec"])
p("Throttle limits",
  "0 <= available <= capacity at all times: a decrement that does not fit blocks until it fits and never makes the counter wrap.",
  "every schedule and every sizes, in both build configurations (ARAX_THROTTLE_ENFORCE on and off)",
  "wrap-around depends on the schedule and on the build option",
  ["src/core/arax_throttle.c"])
p("A throttle waiter whose request fits is not stuck",
  "Whenever a thread is blocked in arax_throttle_size_dec(sz) and sz is available, some schedule of the waiting threads alone lets it proceed (no lost wake-up).",
  "every reachable state of any number of waiters, for each async back-end (mutex, spin)",
  "needs particular interleavings of several waiters with different sizes",
  ["src/core/arax_throttle.c: arax_throttle_size_dec", "src/async/mutex/async.c: async_condition_wait, async_condition_notify", "src/async/spin/async.c: async_condition_wait, async_condition_notify"])
# ---- async
p("Completion: wait returns only after complete, with the marked state",
  "async_completion_wait (arax_task_wait) returns only after a complete/mark_done for that task, and arax_task_wait then returns the state that was marked.",
  "every interleaving of one completer and any number of waiters/checkers",
  "schedules",
  ["src/async/spin/async.c", "src/async/mutex/async.c", "src/core/arax_task.c: arax_task_wait_done, arax_task_mark_done", "src/arch/shm/impl.c: arax_task_wait"])
p("Waiting on a task works for every final state and any number of times",
  "arax_task_wait on a finished task returns its state: also when the task failed, and also when it has been waited on before.",
  "every final state, every number of waits, both async back-ends",
  "the failing/second wait path is timing dependent (it aborts or blocks only if the task finished first)",
  ["src/core/arax_task.c: arax_task_wait_done", "src/async/*/async.c: async_completion_wait"])
p("Completion check agrees with completion state",
  "async_completion_check returns non-zero if and only if the completion has been completed (and not consumed by a wait); checking has no effect on the outcome of concurrent complete/wait/check.",
  "every interleaving, for each back-end",
  "requires particular interleavings of two checkers or a checker and a completer",
  ["src/async/mutex/async.c: async_completion_check, async_completion_complete", "src/async/spin/async.c: async_completion_check"])
p("Semaphore counting",
  "For every interleaving, the number of returned async_semaphore_dec calls never exceeds the number of async_semaphore_inc calls, value = incs - decs, and a dec with positive value can proceed.",
  "every number of threads, every schedule, each back-end",
  "schedules",
  ["src/async/spin/async.c: async_semaphore_inc, async_semaphore_dec", "src/async/ivshmem/async.c: async_semaphore_dec"])
p("Controller-ready notification reaches every application",
  "Every application blocked in arax_init() returns after the controller called arax_controller_init_done().",
  "every number of applications, every interleaving, each back-end",
  "the unlocked flag update races with the waiters; needs a particular schedule",
  ["src/arch/shm/impl.c: _arax_init, arax_controller_init_done"])
# ---- objects
p("Reference counting: an object is destroyed exactly when its last reference goes",
  "arax_object_ref_dec destroys the object (destructor, removal from the repository, memory returned to the throttle) exactly when the count reaches zero; while the count is positive the object stays registered.",
  "every sequence of register/ref_inc/ref_dec, over any number of objects of all types",
  "unbounded histories",
  ["src/core/arax_object.c: arax_object_register, arax_object_ref_inc, arax_object_ref_dec"])
p("Shared-memory accounting of objects",
  "At all times available shared memory + the sum of the sizes of the live objects = total; arax_object_repo_exit reports exactly the number of live objects; when every object has been released the available size is back at its initial value, so arax_exit's leak check passes exactly when nothing leaked.",
  "every sequence of object creation and release, including cascaded destruction",
  "unbounded histories",
  ["src/core/arax_object.c: arax_object_register, arax_object_ref_dec, arax_object_repo_exit", "src/core/arax_pipe.c: arax_pipe_size_inc, arax_pipe_size_dec", "src/arch/shm/impl.c: arax_exit"])
p("Task/data/accelerator references keep their targets alive",
  "While a task is live, its input/output data and the accelerator it was issued to are live; while a data is assigned to an accelerator that accelerator is live; releasing the last user reference of each object (in any order) after the tasks are finished reclaims everything.",
  "every sequence of acquire/buffer/issue/free/release calls",
  "unbounded histories and release orders, cascaded destructors",
  ["src/core/arax_task.c: arax_task_alloc, arax_task_submit, dtor", "src/core/arax_data.c: arax_data_migrate_accel, arax_data_set_accel, dtor", "src/core/arax_vaccel.c"])
p("Procedure register/get/put are balanced",
  "Each arax_proc_register / arax_proc_get gives the caller a reference that a matching arax_proc_put releases; the procedure stays valid until every one of them has been put.",
  "every sequence of register/get/put, every interleaving of two clients",
  "needs repeated registration or particular schedules",
  ["src/arch/shm/impl.c: arax_proc_register, arax_proc_get, arax_proc_put"])
p("Procedure lookup by name is exact",
  "arax_proc_get(name)/arax_pipe_find_proc returns a live procedure with exactly that name if one exists and NULL otherwise; sequentially there is never more than one live procedure per name.",
  "every repository content and every name",
  "all repository contents",
  ["src/core/arax_pipe.c: arax_pipe_find_proc", "src/arch/shm/impl.c: arax_proc_register"])
p("Functor table",
  "arax_proc_get_functor(type) returns the functor most recently set for that type (NULL if none), set returns the previous one, setting one type does not affect another, and arax_proc_can_run_at(type) is true exactly for types that have been set; invalid types abort.",
  "every sequence of set_functor, every type",
  "all sequences",
  ["src/core/arax_proc.c"])
p("Accelerator type names round-trip",
  "arax_accel_type_from_str(s) = t for a valid t exactly when s equals the name of t ignoring case; arax_accel_type_to_str inverts it; any other string gives ARAX_ACCEL_TYPES.",
  "every string",
  "unbounded strings",
  ["src/core/arax_accel_types.c"])
# ---- accel counters
p("Pending-task count never under-reports queued work",
  "For a physical accelerator served by one worker, pending tasks + (1 if the worker holds an unserved token) >= number of tasks queued on its assigned virtual accelerators, and the counter never wraps below zero, so queued work always wakes the worker.",
  "every interleaving of task submission, virtual accelerator assignment/removal and worker steps",
  "unbounded histories and schedules",
  ["src/core/arax_accel.c: arax_accel_add_task, arax_accel_wait_for_task, arax_accel_add_vaccel, arax_accel_del_vaccel", "src/core/arax_vaccel.c: arax_vaccel_add_task", "controller/src/Core/accelThread.cpp: updateVirtAccels"])
p("Pending-task count is exact",
  "arax_accel_pending_tasks equals the number of tasks queued on the assigned virtual accelerators whenever the worker is idle.",
  "every history of submit/assign/remove",
  "unbounded histories",
  ["src/core/arax_accel.c: arax_accel_del_vaccel"])
p("A virtual accelerator is in exactly one place",
  "At every moment a live virtual accelerator is either in the orphan list (no physical accelerator), in the list of exactly the physical accelerator it is assigned to, or being handed over by the scheduler; and an orphan is handed to exactly one caller of arax_pipe_get_orphan_vaccel.",
  "every history of acquire, assignment, removal, orphan hand-out and release",
  "unbounded histories",
  ["src/core/arax_pipe.c: arax_pipe_add_orphan_vaccel, arax_pipe_get_orphan_vaccel, arax_pipe_remove_orphan_vaccel", "src/core/arax_accel.c: arax_accel_add_vaccel, arax_accel_del_vaccel"])
# ---- sched
p("Round-robin task selection is sound and complete",
  "RoundRobinScheduler::selectTask returns the oldest task of some assigned virtual accelerator queue whenever any of them is non-empty, removes exactly that task, and returns NULL only when all are empty.",
  "every assignment list, every queue contents, every value of the round-robin counter",
  "all configurations",
  ["controller/src/Schedulers/RoundRobinScheduler.cpp: selectTask"])
p("Round-robin task selection does not starve a queue",
  "With n assigned virtual accelerators, one that keeps having tasks is served at least once in every n consecutive selections, whatever the other queues do.",
  "every n, every behaviour of the other queues between selections, every starting counter",
  "fairness over unbounded executions",
  ["controller/src/Schedulers/RoundRobinScheduler.cpp: selectTask"])
p("Round-robin assignment of virtual accelerators",
  "RoundRobinScheduler::assignVac assigns each new virtual accelerator to a configured accelerator of its type (any for ANY), cycling through them.",
  "every configuration and every sequence of arrivals",
  "sequences of arrivals of different types; undefined behaviour may look right in a test",
  ["controller/src/Schedulers/RoundRobinScheduler.cpp: assignVac", "controller/src/Core/Config.cpp: getAccelerators"])
# ---- data layout
p("Buffer placement: aligned, inside the allocation, not overlapping the header",
  "arax_data_init_aligned(size,align) places the buffer at an address that is a multiple of align, entirely inside the allocated block, after the header and the 8-byte back pointer.",
  "every base address, every size and alignment whose total does not exceed the address space",
  "all sizes, alignments and addresses",
  ["src/core/arax_data.c: arax_data_init_aligned", "src/core/arax_data.h: ARAX_BUFF_ALLOC_SIZE"])
p("Buffer pointer maps back to its data object",
  "arax_data_ref(arax_data_deref(d)) = d for every live data object, whatever the user stores in the buffers; arax_data_ref_offset maps any address inside the buffer of d to d.",
  "every set of live data objects, all buffer contents written through the buffers",
  "all heap contents; user data adjacent to the back pointer",
  ["src/core/arax_data.c: arax_data_ref, arax_data_deref, arax_data_ref_offset"])
p("Task host data area lies inside the task allocation",
  "arax_task_host_data returns NULL exactly when host_size is 0, aborts when the given size differs, and otherwise addresses host_size bytes that lie inside the task block and do not overlap the header or the in/out array.",
  "every in/out count and host size",
  "all sizes",
  ["src/core/arax_task.c: arax_task_alloc, arax_task_host_data"])
p("Segment layout: allocator metadata and pages fit the segment",
  "arch_alloc_init_once places the page bitmap and the page area inside the segment, page aligned, without overlap; and every page run handed out by arax_mmap lies inside the segment.",
  "every segment base, size (large enough for one page) and every history of arax_mmap/arax_ummap",
  "all sizes",
  ["src/alloc/dlmalloc/alloc.c: arch_alloc_init_once, arax_mmap"])
# ---- process map / lifecycle
p("Process map: mmap once per process",
  "arax_pipe_have_to_mmap(pid) returns 1 the first time for a pid and 0 afterwards until arax_pipe_mark_unmap(pid); unmapping one pid leaves the answer for every other pid unchanged.",
  "every sequence of have_to_mmap/mark_unmap over up to ARAX_PROC_MAP_SIZE processes",
  "needs more than 127 concurrent processes and particular pids",
  ["src/core/arax_pipe.c: arax_pipe_have_to_mmap, arax_pipe_mark_unmap"])
p("Segment lifetime: the last user cleans up",
  "With balanced arax_init/arax_exit calls, the segment is torn down exactly when the last thread of the last process exits; until then it stays; calling any other API function does not change that.",
  "every interleaving of init/exit of any number of processes and threads, and any number of other API calls in between",
  "unbounded histories over several processes",
  ["src/arch/shm/impl.c: _arax_init, arax_exit", "src/core/arax_pipe.c: arax_pipe_init, arax_pipe_exit", "src/core/arax_ptr.c: arax_ptr_valid"])
p("Concurrent pipe initialisation is serialised",
  "Every arax_pipe_init that returns a pipe returns it fully initialised by the first caller, for every interleaving of concurrent callers; a revision mismatch with enforcement yields NULL and leaves the pipe as if the call had not happened.",
  "every number of concurrent callers, every interleaving",
  "schedules",
  ["src/core/arax_pipe.c: arax_pipe_init"])
p("All processes agree on the mapping address",
  "arax_pipe_mmap_address returns the same address to every caller, namely the address of the first caller.",
  "every interleaving of any number of callers with any mapping addresses",
  "schedules",
  ["src/core/arax_pipe.c: arax_pipe_mmap_address"])
# ---- task issue / data semantic
p("Task arguments are validated",
  "arax_task_issue aborts if any input or output is NULL or not a data object and otherwise accepts (given an accelerator, a procedure, memory, and data not bound to another device): the task carries the inputs followed by the outputs; arrays of any length are checked completely.",
  "every argument arrays",
  "all lengths and positions of a bad argument",
  ["src/arch/shm/impl.c: check_semantics, arax_task_issue"])
p("Tasks of one virtual accelerator take effect in issue order",
  "For tasks issued to one virtual accelerator queue and executed by one CPU accelerator thread, the data contents evolve as if every task ran atomically in issue order, whatever the relative speed of client and worker.",
  "every sequence of issued tasks, every interleaving of client and worker, every queue capacity",
  "schedules and unbounded histories",
  ["src/arch/shm/impl.c: arax_task_issue", "src/core/arax_vaccel.c: arax_vaccel_add_task", "controller/src/Core/accelThread.cpp: workFunc", "controller/src/Cpu/CpuBuiltins.cpp"])
p("Read your writes through arax_data_set / arax_data_get",
  "arax_data_get returns the bytes of the latest preceding arax_data_set (as modified by later memset/memcpy/kernel tasks) on that data, although set is non-blocking.",
  "every interleaving of client and worker; any number of data objects and operations",
  "schedules and unbounded histories",
  ["src/core/arax_data.c: arax_data_set, arax_data_get", "controller/src/Cpu/CpuBuiltins.cpp: arax_data_set, arax_data_get, memset, memcpy"])
p("arax_data_memcpy copies",
  "arax_data_memcpy(accel,dst,src) leaves dst with the contents of src, is a no-op when dst = src, and aborts on a size mismatch.",
  "every pair of data objects and contents",
  "the blocking get is called with a NULL destination, observable only by running it against a live controller",
  ["src/core/arax_data.c: arax_data_memcpy, arax_data_get"])
p("Data assignment reference accounting",
  "A data object holds exactly one reference on the accelerator it is assigned to: assigning, re-assigning to a queue of the same device, and destroying it keep the accelerator's count equal to the number of its holders.",
  "every sequence of set_accel/migrate/destroy",
  "unbounded histories",
  ["src/core/arax_data.c: arax_data_migrate_accel, arax_data_set_accel, arax_data_set_remote, dtor"])
# ---- controller config
p("Accelerator configuration lookup",
  "Config::getAccelerators(type) returns exactly the configured accelerators of that type (all of them for ANY), each once; every accelerator listed in the configuration appears.",
  "every configuration",
  "all configurations including duplicate names",
  ["controller/src/Core/Config.cpp: Config, GroupConfig::addAccelerator, getAccelerators"])
p("Argument strings decode to their key/value pairs",
  "decodeArgs(\"k1:v1,k2:v2,...\") returns each trimmed lower-cased key with its trimmed value, later duplicates winning; trim removes exactly the surrounding white space.",
  "every list of key/value pairs without separators, every string",
  "unbounded strings",
  ["controller/src/Core/Utilities.cpp: decodeArgs, trim, join"])
p("Handler symbols decode to their function and architecture",
  "The symbol FN_ARAX_FN_ARCH produced by ARAX_HANDLER(FN,ARCH) is registered by the library loader as procedure FN for architecture ARCH.",
  "every function name and every architecture name",
  "unbounded strings (function names containing the marker)",
  ["include/arax.h: ARAX_HANDLER", "controller/src/Core/araxLibMgr.cpp: loadLibrary"])
p("Timer arithmetic",
  "utils_timer durations are additive and non-negative for stop >= start, and the microsecond duration differs from the exact one by less than one microsecond.",
  "every pair of valid timestamps",
  "all timestamps, sub-microsecond phases",
  ["src/utils/timer.h: utils_timer_tv_time, utils_timer_get_duration_us, utils_timer_get_duration_ns"])
p("Accelerator listing",
  "arax_accel_list(type, physical, &a) returns the number of live accelerators of that kind and type, fills a with exactly these followed by NULL, and takes one reference on each that arax_accel_list_free gives back.",
  "every repository content, every type",
  "all repository contents",
  ["src/arch/shm/impl.c: arax_accel_list, arax_accel_list_free"])
p("Heterogeneous scheduling only runs runnable tasks",
  "HeterogeneousScheduler::selectTask returns only tasks whose procedure can run on the thread's accelerator type, and every assigned queue whose head cannot run there is moved to the orphan list with its tasks intact.",
  "every queue contents, counter values and functor tables",
  "all configurations",
  ["controller/src/Schedulers/HeterogeneousScheduler.cpp: checkForRunnableTask, selectTask"])
p("A queued task's procedure stays valid",
  "While a task is live, the procedure it was issued with is live, so the worker that picks the task up can look up its functor.",
  "every sequence of register/put/issue/free calls",
  "all histories; the procedure may be released between issue and execution",
  ["src/core/arax_task.c: arax_task_alloc, dtor", "src/arch/shm/impl.c: arax_proc_put"])
p("A worker looks only at live virtual accelerators",
  "Between taking its snapshot of the assigned virtual accelerators and having looked at it, an accelerator worker reads only virtual accelerators that have not been released.",
  "every interleaving of the worker with clients that release virtual accelerators",
  "needs a release exactly inside the worker's scan window",
  ["controller/src/Core/accelThread.cpp: updateVirtAccels", "src/core/arax_accel.c: arax_accel_get_assigned_vaccels"])
p("CPU affinity strings",
  "The cpu_core string \"c1,c2,...\" of an accelerator gives its thread exactly the listed cores, every core if a negative number is listed, and is rejected if a listed core does not exist.",
  "every machine size, every list of integers",
  "unbounded lists and numbers",
  ["controller/src/Core/Config.cpp: operator>>(istream&, CpuSet&), CpuSet::set"])
p("Every supported accelerator architecture can be configured",
  "An accelerator object is accepted with the arch of every accelerator back end that is built in, and its job_pref is recognised in any capitalisation.",
  "every arch string, every configuration",
  "needs every combination of back end and spelling",
  ["controller/src/Core/Config.cpp: AccelConfig::AccelConfig, fromString", "src/core/arax_accel_types.c: types_map", "controller/src/OpenCL/OpenclaccelThread.cpp: REGISTER_ACCEL_THREAD"])
p("Renaming an object",
  "After arax_object_rename(obj, fmt, ...) the name of the object is the formatted text, whatever its previous name, and no write leaves the memory of the name.",
  "every history of renames, every format, all name lengths",
  "unbounded histories of growing and shrinking names; undefined behaviour may go unnoticed",
  ["src/core/arax_object.c: arax_object_rename, arax_object_register", "src/core/arax_data.h: arax_data_annotate"])
p("A physical accelerator outlives its virtual accelerators",
  "A physical accelerator is never destroyed while a live virtual accelerator is assigned to it: releasing its last reference then aborts.",
  "every history of creating, assigning and releasing accelerators",
  "depends on the order of releases by different processes",
  ["src/core/arax_accel.c: dtor, arax_accel_init", "src/core/arax_vaccel.c: dtor, arax_vaccel_add_task"])
p("A waiting worker is woken when there is work",
  "With one worker per accelerator, a worker blocked in arax_accel_wait_for_task returns once the accelerator has a pending task, whoever added it (issue, or assignment of a queue with tasks); the number of pending tasks is exactly the number added minus the number handed out, so waits never return more often than tasks were added.",
  "every interleaving of clients, balancer and worker, both notification back-ends, every fair schedule",
  "liveness under every schedule; lost wake-ups are rare interleavings",
  ["src/core/arax_accel.c: arax_accel_wait_for_task, arax_accel_add_task, arax_accel_add_vaccel, arax_accel_del_vaccel"])
p("Orphans are handed to the balancer",
  "Every virtual accelerator put on the orphan list is handed out by arax_pipe_get_orphan_vaccel at most once per registration, no call sleeps while the list is non-empty, and NULL is returned only because of arax_pipe_orphan_stop.",
  "every interleaving of registering, removing, getting and stopping; both notification back-ends; every fair schedule",
  "liveness and exactly-once under every schedule",
  ["src/core/arax_pipe.c: arax_pipe_add_orphan_vaccel, arax_pipe_get_orphan_vaccel, arax_pipe_remove_orphan_vaccel, arax_pipe_orphan_stop", "controller/src/Core/VacBalancerThread.cpp"])
p("Every issued task is executed",
  "Every call of arax_task_issue returns, and every task issued to a virtual accelerator that is or gets assigned to a CPU accelerator is executed to its end exactly once, in the order in which the tasks entered the queue - also when the queue is full.",
  "every interleaving of clients, balancer and workers, every queue capacity, every fair schedule, terminating handlers",
  "liveness under every schedule; needs a full queue at the moment of assignment",
  ["src/core/arax_vaccel.c: arax_vaccel_add_task", "src/core/arax_accel.c: arax_accel_add_vaccel, arax_accel_wait_for_task", "controller/src/Core/accelThread.cpp: workFunc, updateVirtAccels"])
p("Conditions: locking excludes, every call but wait returns",
  "Between the return of async_condition_lock or async_condition_wait and the next async_condition_unlock or async_condition_wait at most one thread of all processes is there; if every thread uses lock and unlock in pairs, every lock and unlock returns, and a thread can be blocked for ever only in a wait that nobody notified; a notification wakes every waiting thread (mutex back-end) or one per notification (spin back-end).",
  "every number of threads, every well-formed program of calls per thread, every interleaving and fair schedule, all three back-ends",
  "exclusion and liveness over all schedules",
  ["src/async/mutex/async.c: async_condition_*", "src/async/spin/async.c: async_condition_*", "src/async/ivshmem/async.c: async_condition_*, async_completion_*, async_thread"])
p("Device memory accounting",
  "At every moment the available size of a physical accelerator is its initial available size minus the sizes of the data objects that have device memory on it or whose device memory has not been given back yet; after all data objects are freed and all tasks executed, everything is available again.",
  "every history of issuing tasks (with memset/memcpy handlers), arax_data_allocate_remote, set_remote, set_accel, free, assignment, and steps of workers and clients; three device back-ends; every size",
  "histories over several processes and devices; needs device hardware",
  ["src/core/arax_data.c: arax_data_allocate_remote, arax_data_migrate_accel, arax_data_set_remote, dtor", "controller/src/Core/accelThread.cpp: workFunc", "controller/src/ROCm/HIPaccelThread.cpp: alloc_remote", "controller/src/Cuda/CUDAaccelThread.cpp: alloc_remote, cuda_alloc_no_throttle", "controller/src/OpenCL/OpenclaccelThread.cpp: alloc_remote", "controller/src/ROCm/HIPBuiltins.cpp", "controller/src/Cuda/CUDABuiltins.cu", "controller/src/OpenCL/OpenclBuiltins.cpp"])
p("Freed device memory reaches the task that waits for it",
  "With ARAX_THROTTLE_ENFORCE, a task that waits for device memory is executed once enough memory has been freed.",
  "every history and every capacity",
  "a deadlock of one interleaving; needs device hardware",
  ["controller/src/Core/accelThread.cpp: workFunc", "src/core/arax_throttle.c: arax_throttle_size_dec", "src/core/arax_data.c: dtor"])
p("Elastic scheduler: spreading and migration",
  "Under the Elastic scheduler virtual accelerators are spread over the accelerators of their type in turn; a virtual accelerator may be moved to another device at any time, and every task still finds each of its arguments on the device it runs on, with the contents written last; moving data leaves the accounting of both devices right; no call aborts.",
  "every history of assignments, submissions, worker steps and frees, every number of accelerators and types, with and without MIGRATION, workers arbitrarily slow",
  "needs several devices and histories of moves; the round-robin iterator depends on where the allocator puts a local vector",
  ["controller/src/Schedulers/ElasticScheduler.cpp: assignVac, selectTask", "controller/src/Core/accelThread.cpp: migrateFromRemote, migrateToRemote", "controller/src/ROCm/HIPaccelThread.cpp: alloc_remote, free_remote, sync_to_remote, sync_from_remote", "src/core/arax_accel.c: arax_accel_add_vaccel, arax_accel_del_vaccel"])
p("Controller: start, pause, resume, stop",
  "After startup every worker serves; after setJobPreference(NoJob) has returned the worker executes at most one more task until another preference is set, and after another preference has been set it goes on with the queued tasks; after SIGINT every worker ends after at most one more task, accelerators are released only when no worker runs, and the controller ends; tasks issued before are executed.",
  "every number of accelerators, every history of calls, tasks and signals, every interleaving of main thread, workers, callers, balancer and clients, every fair schedule, terminating handlers",
  "pausing and shutdown race with the worker at every point of its loop; a lost wake-up is one interleaving",
  ["controller/src/Core/accelThread.cpp: workFunc, setJobPreference, enable, disable, terminate", "controller/src/Core/arax_controller.cpp: spawnThreads, deleteThreads, deRegisterAccel, main, signal_callback_handler", "controller/src/Core/VacBalancerThread.cpp", "src/core/arax_accel.c: arax_accel_wait_for_task, arax_accel_add_task"])
p("Handler libraries are found and loaded",
  "The controller starts exactly when all the configured library folders can be opened, and has then loaded exactly the handler libraries (files with .so in the path and a handler section) reachable from them through entries that are not hidden, each once, also when folders contain links to themselves; a handler library put into a watched folder while the controller runs, or a new version of one, is loaded; the loader ends when the controller stops.",
  "every file system tree, every list of folders, every order of directory entries, every history of files written, renamed and replaced, every timing of the loader thread",
  "file systems and timings of the notification queue are unbounded; the failures need two files within one read or unusual names",
  ["controller/src/Core/araxLibMgr.cpp: loadFolder, loadLibrary, rtld_handler, ~AraxLibMgr", "controller/src/Core/arax_controller.cpp: main"])
p("One whole segment at one address for all processes",
  "Every process that has joined sees the whole segment at the same address; what one process writes the others read; a process that joins or leaves does not change the contents for the others nor touch memory of its own; leaving unmaps the segment, so that the process can join again; no access to the segment kills a process.",
  "every history of joins, exits and accesses of any number of processes, every configured shm_size and shm_trunc of each, every choice of addresses by the kernel",
  "needs several processes with different configurations; the failures appear only with particular sizes or address layouts",
  ["src/arch/shm/impl.c: _arax_init, arax_exit", "src/utils/system.c: system_mmap, system_file_size", "src/core/arax_pipe.c: arax_pipe_init, arax_pipe_mmap_address"])
p("Shared-memory blocks: fresh, disjoint, aligned, intact",
  "arch_alloc_allocate returns a block of the requested size that is aligned to 16 bytes, lies inside the shared segment and after its bookkeeping, and overlaps no other block of any allocator (root or sub allocator); or NULL when there is no room. A block keeps its contents until it is written, freed or its allocator destroyed, whatever the other users do. Freeing a block always works and ends that block only. No history of legal calls makes the allocator abort with a consistency failure.",
  "every history of creating, using and destroying any number of allocators, every request size, every segment address and size, every initial contents of the memory, every choice the allocator's bins leave open",
  "dlmalloc splits, merges, prepends, trims and releases chunks along unboundedly many layouts; a wrong boundary tag shows only several operations later",
  ["src/alloc/dlmalloc/malloc.c: mspace_malloc, mspace_free, sys_alloc, prepend_alloc, add_segment, sys_trim, release_unused_segments, mmap_alloc, create_mspace, destroy_mspace", "src/alloc/dlmalloc/alloc.c: arch_alloc_init_once, arch_alloc_allocate, _arch_alloc_free, arch_alloc_exit, arch_alloc_create_sub_alloc, arax_mmap, arax_ummap", "src/alloc/alloc.h"])
p("Shared-memory pages are held by exactly one allocator and given back",
  "A page of the segment is marked as taken exactly while it is in a segment or a directly mapped block of exactly one existing allocator; an allocator's footprint is the size of these regions; arch_alloc_exit gives all its pages back, so after all allocators are gone all pages are free.",
  "every history of creating, using and destroying any number of allocators, every request size, every segment size",
  "leaks show only after particular histories of trimming and destruction; a test would have to enumerate them",
  ["src/alloc/dlmalloc/alloc.c: arax_mmap, arax_ummap, arch_alloc_exit, arch_alloc_create_sub_alloc", "src/alloc/dlmalloc/malloc.c: destroy_mspace, sys_trim, mspace_footprint", "src/utils/bitmap.c"])
p("Allocator statistics and inspection tell the truth",
  "arch_alloc_stats comes to an end and reports as total_bytes what the allocator has for data and metadata, and as used_bytes what of it is in use: used_bytes covers all blocks and is at most total_bytes, and the difference is what can still be handed out. arch_alloc_inspect comes to an end and reports ranges that do not overlap: every block once, with its address and at least its size; nothing as used that is not a block or allocator metadata; and nothing as unused that is part of a block of any allocator.",
  "every history of creating, using and destroying any number of allocators, every request size, every segment address and size",
  "the numbers are sums over a walk along the boundary tags of a layout that depends on the whole history; a test sees a few layouts only",
  ["src/alloc/dlmalloc/alloc.c: arch_alloc_stats, _arch_alloc_mspace_mallinfo, arch_alloc_inspect", "src/alloc/dlmalloc/malloc.c: internal_mallinfo, internal_inspect_all", "src/alloc/alloc.h: arch_alloc_stats_s", "vdf/Views/Allocations.cpp: viewAllocations"])
p("Freed memory is used again",
  "Memory that is free side by side forms one range: between two unused ranges of a region there is always something in use. Whenever arch_alloc_inspect reports an unused range of at least n bytes, arch_alloc_allocate of n bytes succeeds without taking a page from the segment.",
  "every history of creating, using and destroying any number of allocators, every request size, every choice the allocator's bins leave open",
  "depends on how every earlier free was merged and on which bins are searched; fragmentation appears only over long histories",
  ["src/alloc/dlmalloc/malloc.c: mspace_malloc, mspace_free, internal_inspect_all", "src/alloc/dlmalloc/alloc.c: arch_alloc_allocate, arch_alloc_inspect"])
p("The allocator's bins never lose or confuse a free chunk",
  "In segments of up to 1 TiB the allocator finds free memory through its small bins, tree bins and bit maps exactly as if it looked through all of its free memory: a request of more than 232 bytes that any free chunk can take is served, without taking a page, from the smallest chunk that can; a smaller one from a chunk of the very size, else from the remainder of an earlier request, else from the smallest; no consistency check fires and no search runs on, whatever users, other allocators and boundary tags have left in the words that become links later; and blocks stay disjoint and keep their contents.",
  "every history of creating, using and destroying any number of allocators, every request size, every initial contents of memory, bins and bit maps, every overwriting of words that are not links of free chunks at the time",
  "rings and bitwise tries of unboundedly many shapes; a wrong relinking shows only when the same bin is searched operations later",
  ["src/alloc/dlmalloc/malloc.c: insert_small_chunk, unlink_small_chunk, unlink_first_small_chunk, insert_large_chunk, unlink_large_chunk, replace_dv, tmalloc_large, tmalloc_small, mspace_malloc, mspace_free, init_bins, compute_tree_index, dispose of remainders in prepend_alloc, add_segment, release_unused_segments"])
p("Allocator calls may overlap, and a caller may die",
  "Any number of threads of any number of processes may call the allocators of one segment at the same time. Whatever the interleaving: no consistency check fires; the blocks the users hold are aligned, in the segment, disjoint, and keep their contents; a call does what it does when nobody else runs; pages are taken exactly while an allocator has them; at most one thread is in an allocator at a time; a thread in a call returns after a bounded number of its own steps, and a thread that waits for a free allocator gets it. If a thread dies in a call, or has to abort because there is no memory, the others go on.",
  "every interleaving of creating, allocating, freeing, inspecting, writing and destroying by any number of threads, every point between two phases of a call at which a thread dies, every request size, every segment address and size",
  "interleavings and crash points cannot be enumerated; a test sees the few schedules the machine happens to produce",
  ["src/alloc/dlmalloc/malloc.c: mspace_malloc, mspace_free, destroy_mspace, PREACTION, POSTACTION, spin_acquire_lock, sys_trim, release_unused_segments", "src/alloc/dlmalloc/alloc.c: arch_alloc_allocate, _arch_alloc_free, arch_alloc_exit, arch_alloc_create_sub_alloc, arax_mmap, arax_ummap", "src/utils/bitmap.c"])
p("The library's locks never lock callers out",
  "Any number of threads of any number of processes, and the controller's threads, may call any functions of the library at the same time. What a lock protects (a list of objects, the queue and links of a virtual accelerator, the counters of an accelerator, a throttle, an allocator, the page bitmap) is used by one thread at a time. Every call returns with no lock taken. Threads never wait for each other's locks in a circle, and a thread that waits for an event (a task to end, work to arrive, room in a queue, space to become free) or dies keeps nobody else from going on: as long as no thread waits for an event, some thread that has not finished can do its next step, and between events only finitely many steps are possible.",
  "every number of threads and processes, every sequence of calls by each, every path through each call, every interleaving of their steps, every point at which a thread dies, both settings of ARAX_THROTTLE_ENFORCE",
  "a deadlock needs one schedule among infinitely many, and a combination of calls nobody thought of; a test sees the schedules the machine happens to produce",
  ["src/utils/spinlock.h", "src/async/mutex/async.c: async_condition_lock, async_condition_wait", "src/core/arax_object.c: arax_object_register, arax_object_ref_dec, arax_object_ref_dec_pre_locked", "src/core/arax_accel.c", "src/core/arax_vaccel.c: arax_vaccel_add_task", "src/core/arax_pipe.c", "src/core/arax_throttle.c", "src/core/arax_data.c", "src/core/arax_task.c", "src/arch/shm/impl.c: arax_accel_list", "src/alloc/dlmalloc/malloc.c: mspace_malloc, mspace_free, mspace_inspect_all, init_mparams", "src/utils/bitmap.c", "controller/src/Core/accelThread.cpp: workFunc", "controller/src/Core/VacBalancerThread.cpp"])
p("Dropping data gives device memory back, and the drop returns",
  "The device memory of a data object is freed after the last reference is gone (the user's and those of all tasks that have it as an argument), never earlier, exactly once, in the order of the drops. The call that drops the last reference, arax_data_free or arax_task_free of a client or the worker's own drop of an executed task, returns, whatever the other threads do, and the accelerator goes on executing.",
  "every number of clients, data objects and tasks with any arguments, every interleaving of issuing, executing, marking done, waiting, freeing and dropping, every queue capacity",
  "who drops the last reference is a race between client and worker; the failure needs a full queue and the worker as the last one",
  ["src/core/arax_data.c: arax_data_free, arax_data_s destructor", "src/core/arax_task.c: arax_task_issue, arax_task_msg_s destructor", "src/core/arax_vaccel.c: arax_vaccel_add_task", "src/core/arax_object.c: arax_object_ref_dec", "controller/src/Core/accelThread.cpp: workFunc", "controller/src/ROCm/HIPBuiltins.cpp: free"])
p("Asynchronous execution on devices cannot be seen",
  "On accelerators with memory and streams of their own (CUDA, HIP, OpenCL) memsets, copies and kernels are still in flight when their tasks are marked as done, and device memory is allocated on first use and reused. Nevertheless arax_data_get, and every task that gives something back, returns exactly what executing the tasks one after the other leaves, in the order in which they were taken, which for one virtual accelerator is the order of issue; a client that uses its data with one virtual accelerator reads what it wrote; no task is executed twice.",
  "every number of accelerators, streams, virtual accelerators, clients, data objects and tasks, every terminating kernel, every interleaving of clients, workers and single device steps of all streams, every placement of device memory, every reuse of freed memory",
  "the failure would be a race between a stream and the host, on real hardware, in the one schedule in which the device is slow enough",
  ["controller/src/ROCm/HIPBuiltins.cpp", "controller/src/Cuda/CUDABuiltins.cu", "controller/src/OpenCL/OpenclBuiltins.cpp", "controller/src/OpenCL/CLHelper.h", "controller/src/Core/accelThread.cpp: workFunc", "src/core/arax_data.c: arax_data_set, arax_data_get"])
p("Built-in tasks mean the same on every accelerator, and a wrong one hurts nobody else",
  "On every back-end arax_data_set and arax_data_get transfer all bytes; memset and memcpy change exactly the bytes asked for, as asked for; the task is marked as done and stays valid until the user frees it. A memset or memcpy that does not fit its data objects is refused, and does not touch the data of others or keep them from going on.",
  "every back-end, size, offset, value, contents; every history of requests of several clients",
  "needs three kinds of hardware, and the failures depend on where the driver places data objects of other clients",
  ["controller/src/ROCm/HIPBuiltins.cpp: memcpy, memset, arax_data_set, arax_data_get", "controller/src/Cuda/CUDABuiltins.cu: memcpy, memset", "controller/src/OpenCL/OpenclBuiltins.cpp: memcpy, memset", "controller/src/OpenCL/CLHelper.h: _clMallocRW, _clMemcpyH2D, _clMemcpyD2H, _clMemcpyD2D, _clMemset", "controller/include/AraxLibUtilsMemOps.h"])
p("The queue and the locks work on processors that delay stores",
  "Processors do not make stores visible at once, nor necessarily in order. Nevertheless the task queues lose, duplicate and reorder nothing, a push that has returned can be popped by everybody, and code under a spinlock (the key/value store for example) has the results it has when the calls are executed one after the other, in the order in which the lock is released.",
  "every number of threads, every sequence of calls, every interleaving, every delay and order in which buffered stores reach memory, every program between lock and unlock",
  "a missing barrier shows on other processors than the test machine, once in millions of runs",
  ["src/utils/spinlock.h", "src/utils/queue.c: utils_queue_push, utils_queue_pop", "src/utils/Kv.c: utils_kv_set, utils_kv_get"])
p("A program cannot tell the task queue from an atomic queue",
  "Whatever a program does with utils_queue_push and utils_queue_pop from any number of threads, it could also observe with a queue whose operations take effect at one instant between call and return: a push appends or, if the queue is full at that instant, returns NULL; a pop takes the oldest element or returns NULL, which it does only if the queue is empty at an instant of the call or another pop has succeeded during the call; while no two threads pop at the same time, only if it is empty.",
  "every program with any shared and private state around the queue, every number of threads, every interleaving of single memory accesses, every capacity 2^k up to 32768, every length of execution; also with delayed stores",
  "linearizability is a statement about all interleavings of all client programs",
  ["src/utils/queue.c: utils_queue_push, utils_queue_pop", "src/utils/spinlock.h"])
p("The controller's configuration means what its JSON text says",
  "The controller accepts every JSON document (RFC 8259: white space, escapes, surrogate pairs, nesting, numbers) as the value it denotes, accepts nothing else, and starts if and only if the document describes a configuration: accelerators, schedulers, paths and clean_shm are those written there, a group is declared once. ARAXCNTRL_CONF replaces the text of the file.",
  "every text (sequence of bytes of any length and nesting), every set of back-ends and schedulers, every number of cores",
  "the language is infinite; tests have a dozen configuration files",
  ["controller/include/picojson.h: parse, _parse, _parse_string, _parse_codepoint, _parse_number, _parse_array, _parse_object, input", "controller/include/Utilities.h: jsonGetSafe, jsonGetSafeOptional, jsonCast", "controller/src/Core/Config.cpp: Config, GroupConfig, AccelConfig"])
p("Tasks and data end to end, down to the instructions of the queue",
  "With arax_task_issue, arax_data_set, arax_data_get and arax_task_wait called by any number of threads and workers that take tasks with utils_queue_pop: every task whose issue has returned has entered the queue of its virtual accelerator, once, in its thread's call order; workers are handed the tasks of a queue in the order in which they entered it, none twice and none skipped; data bound to an accelerator whose worker is between tasks has the contents of running those tasks one at a time; and a get of data that only one virtual accelerator uses returns the contents after exactly the tasks that entered the queue before it.",
  "every number of clients, workers, virtual accelerators, data objects and tasks, every kernel, every queue length 2^k up to 32768, every interleaving of the single memory accesses of queue, spinlocks, binding of arguments and task execution",
  "combines all interleavings of four mechanisms, each with windows of a few instructions",
  ["src/core/arax_vaccel.c: arax_vaccel_add_task", "src/core/arax_task.c: arax_task_issue", "src/core/arax_data.c: arax_data_set, arax_data_get", "src/utils/queue.c: utils_queue_push, utils_queue_pop", "src/utils/spinlock.h", "controller/src/Schedulers/RoundRobinScheduler.cpp"])
p("An accelerator's attributes are what was set",
  "Customer id, job priority, ordering and metadata pointer of a virtual accelerator read as the value last set (initially all ones, all ones, sequential, NULL), on that accelerator and no other, and setting returns the value set; arax_accel_type returns the type an accelerator, physical or virtual, was created with; arax_accel_get_revision counts the additions and removals of virtual accelerators; arax_accel_stat returns the state of the accelerator; releasing accelerators, and everything else the library writes, does not change them.",
  "every number of accelerators, every history of creations, assignments, removals, releases and attribute changes, every value, every other store between them, every size of the platform's locks, conditions and queues",
  "a field overlapping another one, or a call reading through the wrong struct (arax_accel_type reads a virtual accelerator through the physical one's struct), shows only for some layouts and histories",
  ["src/core/arax_vaccel.c: arax_vaccel_init, arax_vaccel_set_cid, arax_vaccel_get_cid, arax_vaccel_set_job_priority, arax_vaccel_set_ordering, arax_vaccel_set_meta", "src/core/arax_accel.c: arax_accel_init, arax_accel_get_stat, arax_accel_inc_revision, arax_accel_add_vaccel, arax_accel_del_vaccel", "src/arch/shm/impl.c: arax_accel_type, arax_accel_stat", "src/core/arax_vaccel.h", "src/core/arax_accel.h", "include/arax.h: arax_accel_stat"])
p("The reported length of a queue was its length",
  "arax_vaccel_queue_size (utils_queue_used_slots) returns a number of tasks that were in the queue at some moment of the call, however many threads push and pop meanwhile; it never exceeds the queue's capacity, and 0 means that the queue was empty.",
  "every number of threads, every interleaving between the two loads, either order of the loads, every capacity 2^k up to 32768",
  "the window is between two adjacent loads",
  ["src/utils/queue.c: utils_queue_used_slots", "src/core/arax_vaccel.c: arax_vaccel_queue_size", "src/core/arax_accel.c: arax_accel_add_vaccel, arax_accel_del_vaccel"])
p("A plot shows what was recorded",
  "arax_plot writes a page whose data is JSON and denotes, column by column, times and metric values of recorded samples in order; the drawn lines pass through every recorded sample, up to where the recording ends in samples that do not change any more (which are left out), and constant stretches are reduced to their ends. It does so for every recording.",
  "every number of samples and metrics, every value, every time stamp",
  "recordings have millions of samples; which ones are left out depends on all of them",
  ["arax_plot/main.cpp", "arax_plot/Sample.cpp", "arax_plot/Metric.cpp"])
p("A leak report is about the objects that leaked",
  "araxgrind's report on the registered objects of a type has in its header their number, their bytes and the number of lines that follow; one line for every size and name that occurs, in order, with the exact number, bytes, instances, smallest and largest reference count of these objects; the lines add up to the header; sizes are printed as the whole units they contain. Asked about an address, it names an object of a type and name exactly if such an object is registered there, whatever the bytes at other addresses look like; an address inside a data buffer is reported as so many bytes inside that data object, with its name.",
  "every number of objects of every type, size, name and reference count, every content of memory, every address",
  "grouping depends on all objects at once; inspected addresses hold arbitrary user bytes",
  ["araxgrind/main.cpp: leak_check, Leak::track, printSize, getSizeOfAraxObject, getNameOfAraxObject, getCertainType, ptrType, inspectPointer", "src/core/arax_data.c: arax_data_ref_offset"])
p("araxgrind obeys its command line",
  "Every documented command line (short options alone or joined, long options, -i with an address) is accepted, with exactly the options given in force and exactly the addresses given inspected; an address that the tool printed is read back as that address; anything else on the command line is refused.",
  "every number and combination of options, every word, every address",
  "words and combinations are unbounded",
  ["araxgrind/Args.cpp: parseArgs, operator ==, flags"])
p("An object that can be found is complete",
  "A procedure, accelerator, data object or task that another thread finds (arax_proc_register, arax_proc_get, arax_accel_list, arax_data_ref_offset, the monitoring tools) has the contents its creator gives it, and keeps what is set on it since: after arax_proc_set_functor has returned, arax_proc_get_functor returns the functor set last and arax_proc_can_run_at is true, and for types nobody set it is false.",
  "every number of threads, procedures and types, every interleaving of single loads and stores of creation, lookup and updates, every former content of the memory block",
  "the windows are a few instructions long and need memory that was used before",
  ["src/core/arax_object.c: arax_object_register", "src/core/arax_proc.c: arax_proc_set_functor, arax_proc_get_functor, arax_proc_can_run_at", "src/core/arax_accel.c: arax_accel_init", "src/core/arax_data.c: arax_data_init_aligned, arax_data_ref_offset", "src/core/arax_task.c: arax_task_alloc", "src/arch/shm/impl.c: arax_accel_list, arax_proc_register"])
p("arax_init joins, or says why not and ends the process",
  "arax_init and arax_controller_init_start either return with the segment of the configured name mapped at the address all its users use, or print the reason and end the process with status 1. No configuration and no answer of the operating system makes them crash, hang, or go on without the segment. An arax_exit without a matching arax_init prints a warning and changes nothing.",
  "every configuration, every answer of the operating system to each call, every content of an existing segment, every sequence of arax_init and arax_exit of a process",
  "most branches need failing system calls, full disks or segments left by other versions",
  ["src/arch/shm/impl.c: _arax_init, arax_exit", "src/utils/system.c: system_mmap, system_file_size", "src/core/arax_pipe.c: arax_pipe_init"])
p("The printed table of kernels tells the truth",
  "After loading its libraries the controller prints a table with one column per architecture. Every registered kernel is listed in it exactly once, nothing else is; the cell of a kernel and an architecture says GOOD or FAIL as the last registration of the two, and ---- if there was none. Kernels may share a row: `a, b` lists the two, `p_<x,y>` lists p_x and p_y; rows are put together only while they stay below 75 characters. A registration that repeats an earlier one is reported, others are not.",
  "every sequence of registrations of any number of kernels and architectures",
  "rows are merged by the set of architectures and by common prefixes of all names",
  ["controller/src/Core/araxLibMgr.cpp", "controller/include/AraxLibMgr.h"])
p("A run of the controller leaves the segment as it found it",
  "However a run of the controller ends (wrong call, wrong configuration, missing folder, unknown accelerator, SIGINT) it ends with a status, 0 exactly if it served, and the segment is as before: what the controller registered is gone, it is not counted as a user, others who use the segment keep it with all that is in it, and a segment nobody uses is removed.",
  "every command line, configuration, content of the library folders and prior state of the segment",
  "every point of failure is another path through main, each with its own state of the segment",
  ["controller/src/Core/arax_controller.cpp: main", "controller/src/Core/araxLibMgr.cpp: unloadLibraries", "src/arch/shm/impl.c: arax_exit"])
p("A broken assumption is reported and ends the process",
  "If the condition of an arax_assert is false, one report is printed, with the call stack, the text of the condition, the file (relative to the source tree) and the line, and the process aborts; if it is true nothing happens. A call with something that is not an object of the expected type (null, an address outside the segment, an object of another type) is reported this way before any of its memory is interpreted.",
  "every condition, file, line, call stack, source tree, pointer and segment",
  "aborts end the test process; the texts depend on where and how the library was compiled",
  ["src/utils/arax_assert.c", "src/utils/arax_assert.h", "src/utils/system.c: system_backtrace", "src/core/arax_ptr.c: arax_ptr_valid"])
p("The configuration the controller shows is the one it uses",
  "A set of cores after any set and clear calls has exactly the cores whose last call was a set (a call for a core that does not exist is refused and changes nothing). The printed form of a set of cores, used as cpu_core, is read as the same set. Two configurations that are printed alike have the same paths, the same accelerators with the same types, names and cores, and the same groups; looking an accelerator up does not change the configuration.",
  "every machine, every sequence of calls, every configuration of any number of paths, accelerators and groups",
  "configurations and names are unbounded",
  ["controller/src/Core/Config.cpp: CpuSet, operator <<, getAccelerator", "controller/include/Formater.h"])
p("The example program gets its answer",
  "`noop <text>`, the example program, prints the text reversed, whatever else runs on the accelerators at the same time: arax_data_get of its output returns the reversed text with a terminating zero, and its input is unchanged.",
  "every text, every number of other clients, tasks, virtual and physical accelerators, every schedule of clients and workers",
  "the answer depends on the order in which queues, workers and clients are scheduled",
  ["noop/noop.cpp: noop_op, ARAX_HANDLER(noop, CPU), main", "noop/noop_stress.cpp: vac_per_thread"])
p("A task's failure is its own",
  "A handler may fail: report task_failed, or throw an exception. Whoever waits for that task is told that it failed; every other task is executed and reported as if the failing one had succeeded, and the controller goes on.",
  "every number of workers and tasks, every behaviour of every handler, every schedule",
  "handlers are foreign code; which task fails when depends on the schedule",
  ["controller/include/deviceBaseOps.h: USES_DEFAULT_EXECUTE_HOST_CODE", "controller/src/Core/accelThread.cpp: workFunc", "src/core/arax_task.c: arax_task_mark_done", "noop/noop.cpp"])
p("vtop's amounts, bars and graph tell the truth",
  "The amount vtop prints for a memory is the amount in use, rounded down a little and with the right unit; the bar beside it is filled in the proportion of the used to the whole; the graph has the last observations of the chosen counter, in order, each at the height of its value.",
  "every 64-bit amount, every width of the bar, every size of the window, every history of observations",
  "a test looks at a few amounts; which dots are overwritten depends on the value, the height of the window and the neighbouring sample",
  ["vtop/Utils.h: siFormat, hbraile_line", "vtop/ValueBar.h: Draw, Memory", "vtop/Graph.cpp: toBraile, Draw, addSample"])
p("A click in vtop's table of processes kills the process of that row",
  "The table has one row for every process attached to the segment, with its name and its number. A click on the number in a row kills exactly the process this row names and numbers and strikes it off the segment's list; a click on the name starts a debugger on it; a click elsewhere does nothing.",
  "every number of attached processes, every history of attaching, detaching, redrawing and clicking, every place of a click",
  "which process a row means depends on who detached since the table was built; the wrong one is killed only then",
  ["vtop/ProcessBar.h", "vtop/ProcessBar.cpp: KillProcess::OnClick", "vtop/ClickManager.cpp: Click", "vtop/MainView.cpp: Setup", "src/core/arax_pipe.c: arax_pipe_mark_unmap"])
p("vdf's page shows what is in the segment",
  "The page vdf serves has, for every object of the segment, one row with its (shortened) address, its name and its references; different objects have different addresses there; amounts of memory have a unit and are right to one part in a thousand; the bar of a throttle is as wide as its share in use; the allocations are listed.",
  "every list of objects with every name, every segment address and size, every 64-bit amount",
  "names are chosen by applications; whether two shortened addresses collide depends on where the segment is mapped",
  ["vdf/Misc.cpp: autoRange, tag_gen, minPtr, calcDigits", "vdf/Views/Objects.cpp: viewObjects", "vdf/Views/Throttle.cpp: printThrotle", "vdf/Views/Allocations.cpp: viewAllocations"])
p("Accelerators with a device of their own come up and go down",
  "For every set of CUDA, HIP or OpenCL accelerators: each works on the device its configuration names, with a stream of its own from which the accelerator is found again, and can use its kernels; the segment is registered with the driver once if an accelerator asks for it; when the accelerators are released, everything obtained from the driver is given back exactly once, the process does not end, and the segment that applications use is not touched.",
  "every number of accelerators with every device number, kernels and binaries, in every order of coming up and going down",
  "needs the devices, and a fault shows only for particular combinations: two kernels, two accelerators of one device, numbers above 2^32",
  ["controller/src/Cuda/CUDAaccelThread.cpp: acceleratorInit, acceleratorRelease", "controller/src/ROCm/HIPaccelThread.cpp: acceleratorInit, acceleratorRelease", "controller/src/OpenCL/OpenclaccelThread.cpp: acceleratorInit, acceleratorRelease, OpenCLGetKernel"])
p("Waiting for tasks over ivshmem",
  "With the ivshmem back-end of the synchronisation primitives, a wait for a task returns only after the task was completed, and a wait for a task that has been or is completed returns, whatever else is waited for.",
  "every interleaving of any number of waiting and completing threads and of the interrupt thread, for any number of tasks",
  "the outcome depends on whether the task is finished before or after its user waits, and on when interrupts arrive",
  ["src/async/ivshmem/async.c: async_completion_init, async_completion_complete, async_completion_wait, async_thread, _add_completion"])
p("Services: library handles for kernels",
  "A kernel that asks the controller for a library service by name (cuBLAS, cuDNN, cuRAND) gets a handle of that library that nobody else holds, or is told that there is none; a handle is given back to the library that made it, once; nothing is destroyed that is not held, nothing leaks, and workers may call at the same time.",
  "every history of requests and returns by workers of any accelerator type, with any answers of the libraries, for any set of linked-in services",
  "whether a handle is fresh, owned and still known depends on the whole history of requests, returns and library failures",
  ["controller/src/Core/Services.cpp: ServiceProvider::createService, ServiceProvider::destroyService, Service::createNewInstance", "controller/include/Factory.h: constructType", "controller/src/Cuda/CublasService.cpp", "controller/src/Cuda/CudnnService.cpp", "controller/src/Cuda/CurandService.cpp"])
p("Semaphores, conditions and shutdown over ivshmem",
  "With the ivshmem back-end, taking from a semaphore that has something returns, a wait for a condition that is notified returns, the lock of a condition excludes, the value of a semaphore is its increments minus what was taken, and leaving arax returns.",
  "every interleaving of any number of threads incrementing, decrementing, waiting, notifying and leaving",
  "a call that never returns, or two holders of one lock, show only under particular interleavings, and 'never' cannot be tested",
  ["src/async/ivshmem/async.c: async_semaphore_inc, async_semaphore_dec, async_semaphore_init, async_condition_init, async_condition_lock, async_condition_wait, async_condition_notify, async_meta_init_always, async_meta_exit, async_thread"])
p("Buffers follow their tasks across accelerators",
  "When the heterogeneous scheduler gives a virtual accelerator from one physical accelerator to another, of whatever kinds, its tasks go on as if nothing had happened: every task finds in its buffers what the tasks before it left there, and the available memory of every accelerator is what it has minus the buffers that are on it.",
  "every sequence of tasks and re-assignments, over any number of accelerators of any kind, virtual accelerators and buffers",
  "which accelerator holds the latest contents of a buffer depends on the whole history of tasks and re-assignments",
  ["controller/src/Core/accelThread.cpp: migrateFromRemote, migrateToRemote", "controller/src/Schedulers/HeterogeneousScheduler.cpp: selectTask", "controller/src/Cpu/CPUaccelThread.cpp: alloc_remote, free_remote", "controller/src/ROCm/HIPaccelThread.cpp: alloc_remote, sync_to_remote, sync_from_remote, free_remote", "controller/src/Cuda/CUDAaccelThread.cpp: alloc_remote, sync_to_remote, sync_from_remote, free_remote"])
p("Helpers for kernel writers",
  "A kernel written with the helpers of its kind of accelerator gets, for every buffer of its task, inputs first, the address at which that accelerator finds it, not null and no two buffers at one address; its task is marked done exactly once, after it has computed, and as completed only when the buffers could be had.",
  "every task with any buffers, some of them already in device memory, and every sequence of answers of the driver",
  "the addresses depend on what the driver answers to any number of allocations",
  ["controller/src/Cpu/CPUaccelThread.cpp: Host2CPU, CPU2Host", "controller/src/Cuda/CUDAaccelThread.cpp: Host2GPU, GPU2Host, cuda_alloc_no_throttle", "controller/src/ROCm/HIPaccelThread.cpp: hip_Host2GPU, hip_GPU2Host, hip_alloc_gpu", "controller/src/OpenCL/OpenclaccelThread.cpp: Host2OpenCL, OpenCL2Host"])
p("A killed application",
  "An application that is killed between two calls hurts nobody else, and what it held comes back: the objects of the others are there and their calls work, and when the others have given everything back nothing is left.",
  "every number of processes, every history of their calls and every set of moments at which some of them are killed",
  "who holds what depends on the whole history, and the kill may come after any call",
  ["src/core/arax_object.c: arax_object_ref_inc, arax_object_ref_dec", "src/arax.c: arax_task_issue, arax_accel_release, arax_task_free", "src/core/arax_data.c: arax_data_init, arax_data_free"])
p("References taken and dropped at the same time",
  "Threads of any processes may take, drop and pass on references to the same objects, create objects, and look through the lists of objects at the same time. Nobody who has a reference (or the list lock, for the objects of that list) ever touches freed memory and no assertion fails; an object is destroyed once, by the thread that drops the last reference to it, which waits for nobody; arax_object_refs returns the number of references; and whoever has the lock of a list finds in it exactly the objects that have references.",
  "every number of threads, objects and references, every interleaving of the single instructions on the counts and locks, both settings of ARAX_REF_DEBUG",
  "a race on a count needs one interleaving among infinitely many, and an overflow needs more references than a test takes",
  ["src/core/arax_object.c: arax_object_register, arax_object_ref_inc, arax_object_ref_dec, arax_object_ref_dec_pre_locked, arax_object_refs, arax_object_list_lock, arax_object_list_unlock", "src/arch/shm/impl.c: arax_accel_list, arax_accel_list_free"])
p("Every series of a plot has a colour of its own",
  "In the page arax_plot writes for a trace, every metric has a stroke colour, and no two metrics have the same one. The palette answers equal numbers and equal names with equal colours, different ones with different colours, and a name asked for the first time with a colour nobody was given before; every answer is a colour of HTML with the opacity asked for.",
  "every number of metrics, every history of requests by number and by name, every order the colours were shuffled into",
  "a test sees a few series; collisions and exhaustion need particular histories of thousands of requests",
  ["arax_plot/Pallete.cpp: Pallete::init, Pallete::get", "arax_plot/Metric.cpp: operator<<(Trace)"])
p("vtop shows the accelerators there are",
  "Whatever happens to the segment while vtop runs, its upper table has one row for every physical accelerator, with the name and the memory of that accelerator, the table of counts has the number of objects of each type, and the keys keep the delay between pictures within 10 to 500 ms.",
  "every history of accelerators registered and released, memory used, objects made, and keys pressed",
  "a test attaches vtop to a segment that stays as it is; accelerators that come and go while it runs, and reuse of their memory, are not tried",
  ["vtop/MainView.cpp: MainView::Setup, Draw, Update, Show", "vtop/ValueTable.h: addRow, Draw", "vtop/ValueBar.h: ValueBar, Draw"])
p("A worker finds the worker that holds a buffer",
  "From the moment the controller announces that it is ready until the last of its workers has ended, a worker that is about to run a task finds, for every buffer on an accelerator of this controller, the worker that serves that accelerator, which still exists; it never gets another one, and the search neither fails nor collides with a change of the table it searches.",
  "every number of workers and every interleaving of their start and end with the controller's main thread and the searches",
  "the windows are a few instructions wide, between a worker saying it is ready and its entry, and between the deletion of one worker and the last task of another",
  ["controller/src/Core/accelThread.cpp: workFunc, getVAQPhys2accelThread, addVAQPhys2accelThread, migrateToRemote, migrateFromRemote", "controller/src/Core/arax_controller.cpp: spawnThreads, deleteThreads, main"])
p("vdf obeys its command line",
  "vdf listens at the port named on its command line, or at 8888 if none is named, and its pages have exactly the sections that no word of the command line turns off, in their order.",
  "every command line: any number of words, known, unknown and repeated, in any order",
  "there are infinitely many command lines",
  ["vdf/vdf.cpp: main", "vdf/WebUI.cpp: WebUI::handleRequest"])
p("Watching a segment does not stop its users",
  "While vdf serves a page, every application that makes or drops an object goes on after a finite time, whatever the browser at the other end does and even if vdf dies; the browser gets a beginning of the page, and all of it if it reads on.",
  "every page and number of objects, every size of the connection's buffers, every interleaving of vdf, the browser and any number of applications, every moment of death",
  "tests read the whole page at once; a browser that stalls in the middle, and the size at which the buffers no longer take a table, are not tried",
  ["vdf/Views/Objects.cpp: viewObjects", "vdf/Views/Throttle.cpp: viewThrottles", "src/core/arax_object.c: arax_object_list_lock, arax_object_register, arax_object_ref_dec"])
p("The tools leave the segment as they found it",
  "When vtop, vdf, arax_plot or araxgrind ends by itself, no segment counts it any more, whatever its command line and use; while it runs at most one segment counts it, once; vtop's (R) takes it to the segment that has the name at that moment.",
  "every command line, every sequence of keys, every list of pointers, every interleaving with other processes that join, leave and delete the segment",
  "a count that is too high shows only when the last application leaves and the segment stays, long after the tool was used",
  ["vtop/vtop.cpp: main", "vtop/MainView.cpp: MainView::Setup, MainView::Cleanup", "vdf/vdf.cpp: Server::main", "arax_plot/main.cpp: main", "araxgrind/main.cpp: main", "src/core/arax_ptr.c: arax_ptr_valid", "src/arch/shm/impl.c: arax_init, arax_exit"])
p("The other allocator keeps the allocator's promises",
  "Built with SHM_ALLOCATOR=tlsf, threads of any processes may allocate, free, inspect and ask for statistics at the same time: what callers hold lies in the segment behind its header, is aligned, as long as asked for and overlaps nothing else that is held; the answers are those of some order of the calls; every call returns, even if another caller dies; statistics, pages and inspection tell of what is there.",
  "every history of allocations, frees, inspections and deaths of any number of threads, every interleaving, every allocator library that manages a pool correctly when its calls do not overlap, every size of the segment",
  "the project's tests are built with the default allocator; an inspection that meets an allocation and a death inside a call need particular moments",
  ["src/alloc/tlsf/alloc.c: arch_alloc_init_once, arch_alloc_allocate, _arch_alloc_free, arch_alloc_stats, arch_alloc_inspect, arax_mmap, arch_alloc_get_bitmap", "src/alloc/CMakeLists.txt", "src/core/arax_pipe.c: arax_pipe_init"])
p("An object is treated as what it was created as",
  "Whatever is created (accelerator, virtual accelerator, procedure, data, task), the library lists it under its own kind, shows it under that kind's name, destroys it with that kind's destructor, once, and hands it out with all its fields zero, without touching anything else; and when the last process leaves, the report names each kind of which objects are left, with their number.",
  "every history of creations, references taken and dropped, all contents of memory before, all sizes of objects and of the platform's types",
  "a wrong entry in one of the tables shows only for the kind concerned; memory is mostly zero in a test, and leftovers of earlier objects appear after particular histories",
  ["src/core/arax_object.c: type2str, dtor_table, arax_object_register, arax_object_ref_dec, arax_object_ref_dec_pre_locked, arax_object_repo_exit, arax_object_type_to_str", "src/core/arax_object.h: arax_object_type_e", "src/core/arax_pipe.c: arax_pipe_exit"])
p("A Java program gets what a C program would get",
  "The classes of /repo/Java do what they say by way of the C calls: a type asks for the accelerators it names, a state is the task's state, the arguments of a task are the fields of the structure given, set and get move exactly the bytes of the array, names are those of the object; each instance is given one reference and release, free and status give it back, once; nothing freed is used.",
  "every program and every history of calls of the Java classes and of other users of the segment; all arguments, arrays and buffer sizes",
  "the repository has no tests for the Java classes; lost references and bytes behind an array show only in particular sequences of calls and lengths",
  ["Java/Arax.java", "Java/AraxAccelerator.java", "Java/AraxBuffer.java", "Java/AraxInterface.java", "Java/AraxObject.java", "Java/AraxProcedure.java", "Java/AraxTask.java", "Java/hello.java"])
p("The report at the end of a run of the controller",
  "After SIGINT the controller prints, for each accelerator of its configuration in order, how many tasks it has served in the run, then the total of these numbers, then how many accelerators have served a task, out of how many.",
  "every number of accelerators, all counts, every interleaving of the printing with workers that go on taking tasks",
  "whether a task is taken between two reads of a counter is a matter of a few instructions, and no test issues 2^31 tasks",
  ["controller/src/Core/arax_controller.cpp:main", "controller/src/Core/accelThread.cpp:workFunc, getServedTasks"])
p("Metrics of programs, and what arax_plot records",
  "arax_plot_register_metric(name, m) returns a location in the segment: m if it is not NULL (and then m is in the segment), otherwise a new one that no other such call has been given. arax_plot then records, for each metric registered, under its name, values that its location really has while it records, besides the counters of the accelerators and the objects. Registering has no other effect: a process that balances arax_init and arax_exit still leaves.",
  "every number of processes and threads, every interleaving of the calls, of stores to the metrics and of the steps of arax_plot, every size of the table",
  "the window between the store of the name and of the location is one instruction, and the table, which arax_plot reads without its lock, is shared by all processes",
  ["src/utils/arax_plot.c:arax_plot_register_metric", "src/utils/arax_plot.h", "src/utils/Kv.c:utils_kv_set", "arax_plot/main.cpp:main", "arax_plot/Metric.cpp:Trace::start", "arax_plot/Sample.cpp:Sample", "src/core/arax_ptr.c:arax_ptr_valid"])
p("What the throttle of an accelerator stands for",
  "When the controller has started an accelerator, its throttle says how much device memory the accelerator has and how much of it is free; tasks can hold that much and no more (arax_throttle_size_dec waits otherwise); and when the controller has stopped the accelerator and everything has been given back, the throttle says that all of its memory is free. Giving back what was taken never fails.",
  "every number and kind of accelerators, every size below 2^64, every interleaving of starts, stops, amounts taken and given back and changes of what others use of the devices and of the segment",
  "what is free when an accelerator starts depends on the other programs on the machine, and the sum at the end depends on the whole history",
  ["controller/src/Core/accelThread.cpp:accelThread::operator()", "src/core/arax_accel.c:arax_accel_init", "src/core/arax_throttle.c:arax_throttle_init", "src/core/arax_throttle.c:arax_throttle_size_inc", "src/core/arax_throttle.c:arax_throttle_size_dec", "controller/src/Cuda/CUDAaccelThread.cpp:CUDAaccelThread::getAvailableSize", "controller/src/Cpu/CPUaccelThread.cpp:CPUaccelThread::getAvailableSize", "controller/src/OpenCL/OpenclaccelThread.cpp:OpenCLaccelThread::getAvailableSize"])
with open('/verif/properties.jsonl','w') as f:
    for x in P: f.write(json.dumps(x)+"\n")
print(len(P))
