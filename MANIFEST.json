{
 "claims": [
  {
   "property": "C01",
   "status": "proved",
   "theorems": [
    "Arax.Bitmap.C01_alloc_exact_run"
   ],
   "note": ""
  },
  {
   "property": "C02",
   "status": "proved",
   "theorems": [
    "Arax.Bitmap.C02_live_disjoint",
    "Arax.Bitmap.C02_set_iff_live"
   ],
   "note": ""
  },
  {
   "property": "C03",
   "status": "proved",
   "theorems": [
    "Arax.Bitmap.C03_accounting"
   ],
   "note": ""
  },
  {
   "property": "C04",
   "status": "partial",
   "theorems": [
    "Arax.Bitmap.C04_in_bounds_partial",
    "Arax.Bitmap.C04_in_chunks_partial",
    "Arax.Bitmap.C04_single_chunk_partial",
    "Arax.Bitmap.C04_violated"
   ],
   "note": "The code violates the property when size_bits is not a multiple of 64 (C04_violated); proved for multiples of 64 and for allocations inside one chunk."
  },
  {
   "property": "C05",
   "status": "proved",
   "theorems": [
    "Arax.Bitmap.C05_free_exact",
    "Arax.Bitmap.C05_alloc_free_restores"
   ],
   "note": ""
  },
  {
   "property": "C06",
   "status": "proved",
   "theorems": [
    "Arax.Bitmap.C06_fail_no_change",
    "Arax.Bitmap.C06_too_large_fails",
    "Arax.Bitmap.C06_one_page_iff",
    "Arax.Bitmap.C06_run_in_group_succeeds",
    "Arax.Bitmap.C06_fresh_complete"
   ],
   "note": ""
  },
  {
   "property": "C07",
   "status": "partial",
   "theorems": [
    "Arax.Queue.C07_bounded_fifo_partial",
    "Arax.Queue.C07_default_capacity",
    "Arax.Queue.C07_violated_capacity_65536"
   ],
   "note": "Proved for every power-of-two capacity up to 2^15 (the shipped capacity is 512); capacity 65536 violates it because the 16-bit cursors cannot tell full from empty."
  },
  {
   "property": "C08",
   "status": "partial",
   "theorems": [
    "Arax.Queue.Conc.C08_fifo_linearizable_partial",
    "Arax.Queue.Conc.C08_solo_pop",
    "Arax.Queue.Conc.C08_violated_aba"
   ],
   "note": "Proved for every interleaving in which no pop is overtaken by 65536 other pops between its read and its CAS; without that condition the 16-bit cursor ABA is a counterexample (C08_violated_aba)."
  },
  {
   "property": "C09",
   "status": "proved",
   "theorems": [
    "Arax.Spinlock.C09_mutual_exclusion",
    "Arax.Spinlock.C09_free_lock_acquirable"
   ],
   "note": ""
  },
  {
   "property": "C10",
   "status": "proved",
   "theorems": [
    "Arax.IList.C10_calls_follow_spec",
    "Arax.IList.C10_observations",
    "Arax.IList.C10_loose_not_linked"
   ],
   "note": ""
  },
  {
   "property": "C100",
   "status": "partial",
   "theorems": [
    "Arax.Vtop.C100_amount_partial",
    "Arax.Vtop.C100_memory",
    "Arax.Vtop.C100_pages",
    "Arax.Vtop.C100_bar_partial",
    "Arax.Vtop.C100_bar_mono",
    "Arax.Vtop.C100_glyph",
    "Arax.Vtop.C100_window_partial",
    "Arax.Vtop.C100_reset",
    "Arax.Vtop.C100_graph_sound_partial",
    "Arax.Vtop.C100_violated_order",
    "Arax.Vtop.C100_violated_bar",
    "Arax.Vtop.C100_violated_full",
    "Arax.Vtop.C100_violated_bar_edges",
    "Arax.Vtop.C100_violated_narrow",
    "Arax.Vtop.C100_violated_graph",
    "Arax.Vtop.C100_violated_idle"
   ],
   "note": "Proved: amounts (all 64-bit values: unit, error below 1/97, never too much), bars up to one dot and monotone, glyphs, the window of samples, no dot without a sample. Violated: a bar that ends inside a cell has one dot too many (a memory used to 7/8 can look full); a dot of the graph is overwritten by blanks unless its row happens to equal a dot number (`y != a`); a narrow terminal ends vtop; 1000 is shown as less than 999."
  },
  {
   "property": "C101",
   "status": "partial",
   "theorems": [
    "Arax.Kill.C101_where_partial",
    "Arax.Kill.C101_cross_dead",
    "Arax.Kill.C101_kills_partial",
    "Arax.Kill.C101_slots",
    "Arax.Kill.C101_violated_name",
    "Arax.Kill.C101_violated_zero",
    "Arax.Kill.C101_violated_strike",
    "Arax.Kill.C101_violated_zombie"
   ],
   "note": "Proved: where a click goes, for every table; and, as long as no process has left since the table was built, that the process killed and struck off is the one named and numbered in the row. Violated: a row refers to a slot of the list but keeps the name: once a process has left, later ones move up and are killed under their predecessors' names, and the last row is `kill -9 0`; the slot is read again after the killing, so another process may be struck off."
  },
  {
   "property": "C102",
   "status": "partial",
   "theorems": [
    "Arax.Vdf.C102_amount_partial",
    "Arax.Vdf.C102_bytes",
    "Arax.Vdf.C102_throttle",
    "Arax.Vdf.C102_leaks_partial",
    "Arax.Vdf.C102_labels_partial",
    "Arax.Vdf.C102_label_text",
    "Arax.Vdf.C102_table_partial",
    "Arax.Vdf.C102_violated_mib",
    "Arax.Vdf.C102_violated_time",
    "Arax.Vdf.C102_violated_leaks",
    "Arax.Vdf.C102_violated_allocations",
    "Arax.Vdf.C102_violated_labels",
    "Arax.Vdf.C102_violated_names"
   ],
   "note": "Proved: amounts for all 64-bit values; shares; shortened addresses are different when both ends of the segment have equally many digits; a page read back shows every object with its data if no text has `<` or `&`. Violated: names are not quoted (a client can close the table), allocations are collected and thrown away, division by zero before the first allocation, shortened addresses can collide, 1 MiB is shown as 1024 Kb."
  },
  {
   "property": "C103",
   "status": "partial",
   "theorems": [
    "Arax.Devices.C103_gpu_up_partial",
    "Arax.Devices.C103_register_partial",
    "Arax.Devices.C103_register_agree_partial",
    "Arax.Devices.C103_cuda_index",
    "Arax.Devices.C103_violated_register",
    "Arax.Devices.C103_violated_release",
    "Arax.Devices.C103_violated_hip_index",
    "Arax.OpenCL.C103_cl_single_partial",
    "Arax.OpenCL.C103_cl_up_partial",
    "Arax.OpenCL.C103_violated_cl_two_kernels",
    "Arax.OpenCL.C103_violated_cl_two_accelerators",
    "Arax.OpenCL.C103_violated_cl_no_kernels",
    "Arax.OpenCL.C103_violated_cl_device",
    "Arax.OpenCL.C103_violated_cl_context",
    "Arax.OpenCL.C103_violated_cl_index"
   ],
   "note": "Proved: CUDA and HIP accelerators on existing devices come up in any number and order, with their own streams; the segment is registered once; OpenCL accelerators of one device come up and can use their kernels; one with one kernel is released completely. Violated: releasing a CUDA or HIP accelerator removes the name of the segment and never unregisters it; registration is lost if only the second accelerator of a device asks; OpenCL: two kernels or two accelerators abort at release, none leaks, the device number is ignored, kernels are mixed up between devices; HIP and OpenCL index arrays with unchecked numbers."
  },
  {
   "property": "C104",
   "status": "partial",
   "theorems": [
    "Arax.Ivshmem.C104_only_after_partial",
    "Arax.Ivshmem.C104_returns_partial",
    "Arax.Ivshmem.C104_violated_complete_first",
    "Arax.Ivshmem.C104_violated_two_waiters",
    "Arax.Ivshmem.C104_violated_self_lock"
   ],
   "note": "Proved: a wait returns only after complete, in every history; if tasks are completed while their one waiter sleeps, the list stays intact and a bell, a ringer or an open mutex is always there, so the wait returns. Violated: a task finished before the wait hangs its user; two waiters corrupt the list of waiters; a waiter that arrives when the mutex was just opened for another locks itself and the other out. The interrupt thread's list operations are atomic in the model; in the code they are not protected by the lock."
  },
  {
   "property": "C105",
   "status": "partial",
   "theorems": [
    "Arax.Services.C105_handle_fresh_partial",
    "Arax.Services.C105_create_answers_partial",
    "Arax.Services.C105_give_back_partial",
    "Arax.Services.C105_refused_partial",
    "Arax.Services.C105_never_foreign",
    "Arax.Services.C105_handles_exact_partial",
    "Arax.Services.C105_violated_providers_leak",
    "Arax.Services.C105_violated_unknown_name",
    "Arax.Services.C105_violated_cudnn_not_built",
    "Arax.Services.C105_violated_handle_lost",
    "Arax.Services.C105_violated_map_race"
   ],
   "note": "Proved for all histories: handles are fresh and of the library asked for, go back to the library that made them, once; what is not held cannot be given back; with GPU workers and libraries that do not refuse, the live handles are exactly those held. Violated: a name that is not linked in crashes the controller; each request leaks a provider object; a return from a worker of another type loses the handle; the map of handles is shared by the workers without a lock."
  },
  {
   "property": "C106",
   "status": "partial",
   "theorems": [
    "Arax.IvshmemSem.C106_value_counts_partial",
    "Arax.IvshmemSem.C106_inc_returns_partial",
    "Arax.IvshmemSem.C106_violated_never_returns",
    "Arax.IvshmemSem.C106_violated_lock_excludes",
    "Arax.IvshmemSem.C106_violated_exit_never_returns"
   ],
   "note": "Proved: the value is the number of increments in every history, increments and notifications return. Violated, for every schedule: no decrement and no wait for a condition ever returns, nor does leaving arax; two threads can hold the lock of a condition."
  },
  {
   "property": "C107",
   "status": "partial",
   "theorems": [
    "Arax.Migrate.C107_task_sees_partial",
    "Arax.Migrate.C107_aborts_exactly",
    "Arax.Migrate.C107_books_exact",
    "Arax.Migrate.C107_books_partial",
    "Arax.Migrate.C107_violated_leaving_cpu",
    "Arax.Migrate.C107_violated_books",
    "Arax.Migrate.C107_violated_default_build"
   ],
   "note": "Proved for all histories with the build option MIGRATION: tasks find what they should unless a buffer leaves a CPU accelerator, the controller aborts exactly then; the exact state of the books; they are right as long as no buffer moves. Violated: leaving a CPU aborts; after a move the books charge the device that used the buffer first; in the default build contents do not move at all."
  },
  {
   "property": "C108",
   "status": "partial",
   "theorems": [
    "Arax.Helpers.C108_cpu",
    "Arax.Helpers.C108_cuda_partial",
    "Arax.Helpers.C108_hip_partial",
    "Arax.Helpers.C108_violated_hip_failure",
    "Arax.Helpers.C108_violated_cuda_unchecked",
    "Arax.Helpers.C108_violated_opencl"
   ],
   "note": "Proved for all tasks: CPU; CUDA when errors are checked; ROCm when no allocation fails. Violated: a failed ROCm allocation ends in a completed task or in one that is never done; CUDA without error checking computes with null pointers; OpenCL marks every task done before its kernel, and again after it, and gives it no pointers."
  },
  {
   "property": "C109",
   "status": "partial",
   "theorems": [
    "Arax.Object.Killed.C109_others_safe_partial",
    "Arax.Object.Killed.C109_lost_exactly",
    "Arax.Object.Killed.C109_violated_never_comes_back",
    "Arax.Object.Killed.C109_case"
   ],
   "note": "Proved for all histories: nobody else is hurt; what is left in the end is exactly what dead processes held and what it refers to. Violated: it is never given back, whatever the others do; C109_case is a history with a kill after which 368 bytes are lost. Kills inside a call are C78 and C79."
  },
  {
   "property": "C11",
   "status": "proved",
   "theorems": [
    "Arax.IList.C11_other_lists_intact"
   ],
   "note": ""
  },
  {
   "property": "C110",
   "status": "partial",
   "theorems": [
    "Arax.RefConc.C110_safe_partial",
    "Arax.RefConc.C110_count_partial",
    "Arax.RefConc.C110_destroyed_exactly_partial",
    "Arax.RefConc.C110_destroyer_goes_on",
    "Arax.RefConc.C110_lists_partial",
    "Arax.RefConc.C110_assertions",
    "Arax.RefConc.C110_violated_debug_build"
   ],
   "note": "Proved at the level of single instructions for all interleavings, as long as no object has 2^31 references (2^16 with ARAX_REF_DEBUG) at a time. Violated in the build with ARAX_REF_DEBUG: the count has 16 bits, and dropping one of 65537 references destroys the object."
  },
  {
   "property": "C111",
   "status": "partial",
   "theorems": [
    "Arax.Palette.C111_numbers",
    "Arax.Palette.C111_names",
    "Arax.Palette.C111_new_name_partial",
    "Arax.Palette.C111_series_partial",
    "Arax.Palette.C111_colour",
    "Arax.Palette.C111_violated_many",
    "Arax.Palette.C111_violated_mixed",
    "Arax.Palette.C111_violated_exhausted"
   ],
   "note": "Proved for every shuffle and every history: equal numbers (names) if and only if equal colours; a new name never has a colour given before; traces of at most 4096 metrics. Violated: from 4097 metrics on the vector is read behind its end; a number asked for after a name can have the name's colour; when all colours are used up, a new name dereferences the end of an empty set."
  },
  {
   "property": "C112",
   "status": "partial",
   "theorems": [
    "Arax.VtopRows.C112_follows_setup",
    "Arax.VtopRows.C112_truth_partial",
    "Arax.VtopRows.C112_reattach",
    "Arax.VtopRows.C112_counts",
    "Arax.VtopRows.C112_keys",
    "Arax.VtopRows.C112_violated_new",
    "Arax.VtopRows.C112_violated_released"
   ],
   "note": "Proved for every history: what the picture shows (the accelerators of the moment the table was made, with what their memory holds now), which is the truth until an accelerator comes or goes and again after (R); the counts are always right; the delay. Violated: the table is made once: a new accelerator is in no row, the row of a released one stays and shows what its memory was reused for."
  },
  {
   "property": "C113",
   "status": "partial",
   "theorems": [
    "Arax.Registry.C113_writers",
    "Arax.Registry.C113_right",
    "Arax.Registry.C113_found_partial",
    "Arax.Registry.C113_announced",
    "Arax.Registry.C113_in_order",
    "Arax.Registry.C113_comes_up",
    "Arax.Registry.C113_goes_down",
    "Arax.Registry.C113_violated_race",
    "Arax.Registry.C113_violated_throws",
    "Arax.Registry.C113_violated_end"
   ],
   "note": "Proved for every number of workers and every interleaving: writers exclude each other; what is found is always the worker of that accelerator; all that serve are found while nobody writes and nobody was deleted; the announcement comes after every worker is ready; under fair schedules all come to serve, and after SIGINT all end. Violated: a worker says it is ready before its entry is made and readers take no lock, so that after the announcement a search can race with the writer, or throw; at the end workers are deleted while others may still search, and entries are never removed."
  },
  {
   "property": "C114",
   "status": "partial",
   "theorems": [
    "Arax.VdfOpts.C114_parts",
    "Arax.VdfOpts.C114_unknown",
    "Arax.VdfOpts.C114_port_partial",
    "Arax.VdfOpts.C114_blanks",
    "Arax.VdfOpts.C114_violated_big",
    "Arax.VdfOpts.C114_violated_name"
   ],
   "note": "Proved for every command line: the sections; the port, if it is one number from 1 to 65535 among words and the program's name begins with no number. Violated: larger and negative numbers are cut to 16 bits, 0 is ignored, and the name of the program is read as a port too."
  },
  {
   "property": "C115",
   "status": "partial",
   "theorems": [
    "Arax.Watch.C115_seen",
    "Arax.Watch.C115_app",
    "Arax.Watch.C115_released_partial",
    "Arax.Watch.C115_violated_stall",
    "Arax.Watch.C115_violated_death"
   ],
   "note": "Proved for every page, buffer size and interleaving: the browser sees a beginning of the page; a lock nobody has is got at once; under every fair schedule in which the browser reads on and vdf lives, vdf gives its locks back. Violated: tables are written to the connection while the lock of the list is held, so a browser that stops reading in a table longer than the buffers stops every application that makes or drops an object of that type, for ever; so does vdf's death in a table."
  },
  {
   "property": "C116",
   "status": "partial",
   "theorems": [
    "Arax.Members.C116_once",
    "Arax.Members.C116_left_partial",
    "Arax.Members.C116_reattach",
    "Arax.Members.C116_violated_ignore",
    "Arax.Members.C116_violated_list",
    "Arax.Members.C116_violated_pointers",
    "Arax.Members.C116_violated_nothing",
    "Arax.Members.C116_violated_reattach"
   ],
   "note": "Proved for every use and interleaving: at most one segment counts the tool, once; vdf, vtop without -i, arax_plot with samples and araxgrind without list and pointers are counted nowhere afterwards; (R) without -i goes to the segment that has the name. Violated: vtop -i joins twice and leaves once, and its (R) does not re-attach; araxgrind asked for a list or a pointer, and arax_plot that recorded nothing, never leave: the segment counts them for ever."
  },
  {
   "property": "C117",
   "status": "partial",
   "theorems": [
    "Arax.Tlsf.C117_one_at_a_time",
    "Arax.Tlsf.C117_order",
    "Arax.Tlsf.C117_blocks",
    "Arax.Tlsf.C117_fresh",
    "Arax.Tlsf.C117_area",
    "Arax.Tlsf.C117_released_partial",
    "Arax.Tlsf.C117_violated_inspect",
    "Arax.Tlsf.C117_violated_killed",
    "Arax.Tlsf.C117_violated_stats",
    "Arax.Tlsf.C117_violated_pages",
    "Arax.Tlsf.C117_violated_small"
   ],
   "note": "TLSF itself is not in the repository and is a parameter with a contract (Good; bump_good shows that it can be met). Proved for every history and interleaving, with deaths: calls of TLSF by allocate and free never overlap; the answers are those of the calls in the order they ended; held blocks are in the pool, aligned, disjoint; new ones overlap nothing held; the pool is in the segment; the lock is given back within three steps of its owner if nobody was killed. Violated: inspection takes no lock; a killed caller locks everybody out; statistics are always zero; there are no pages; a segment no larger than its header gets a pool of nearly 2^64 bytes."
  },
  {
   "property": "C118",
   "status": "partial",
   "theorems": [
    "Arax.Kinds.C118_names",
    "Arax.Kinds.C118_destructor",
    "Arax.Kinds.C118_lists",
    "Arax.Kinds.C118_empty",
    "Arax.Kinds.C118_report_partial",
    "Arax.Kinds.C118_violated_report"
   ],
   "note": "Names, lists, destructors and cleared fields are proved as stated. The report is proved for fewer than 2^31 objects of each kind; the number is converted to int, so that 2^32 objects are reported as none (C118_violated_report)."
  },
  {
   "property": "C119",
   "status": "partial",
   "theorems": [
    "Arax.Java.C119_constants_partial",
    "Arax.Java.C119_header",
    "Arax.Java.C119_references_partial",
    "Arax.Java.C119_given_back_partial",
    "Arax.Java.C119_status",
    "Arax.Java.C119_arguments_partial",
    "Arax.Java.C119_bytes_partial",
    "Arax.Java.C119_bytes_outside_partial",
    "Arax.Java.C119_hello_partial",
    "Arax.Java.C119_violated_constants",
    "Arax.Java.C119_violated_acquire",
    "Arax.Java.C119_violated_status_twice",
    "Arax.Java.C119_violated_reissue",
    "Arax.Java.C119_violated_failed",
    "Arax.Java.C119_violated_arguments",
    "Arax.Java.C119_violated_bytes",
    "Arax.Java.C119_violated_hello"
   ],
   "note": "JNA is not in the repository as source; the few facts used of it are stated in the module. Proved for every history of a careful program (specification Careful): nothing freed is used, references are exact, everything can be given back; types, states and header; arguments that are written; arrays as long as the buffer. Violated: the end marker is OpenCL; acquiring from a virtual accelerator takes no reference; status of a completed task frees it, so asking again uses freed memory; issuing again loses the task; failed tasks are never freed; arguments given to the constructor arrive as zeros; shorter arrays are overrun; hello cuts texts that are not ASCII."
  },
  {
   "property": "C12",
   "status": "proved",
   "theorems": [
    "Arax.Kv.C12_bounded_map",
    "Arax.Kv.C12_slot_stable"
   ],
   "note": ""
  },
  {
   "property": "C120",
   "status": "partial",
   "theorems": [
    "Arax.EndReport.C120_between_partial",
    "Arax.EndReport.C120_exact_partial",
    "Arax.EndReport.C120_ends",
    "Arax.EndReport.C120_violated_torn",
    "Arax.EndReport.C120_violated_late",
    "Arax.EndReport.C120_violated_total"
   ],
   "note": "Proved for every interleaving: one line per accelerator, every number between what had been served at SIGINT and what has been served when the report ends; exact if no task is taken meanwhile; the report ends. Violated: each counter is read three times while its worker runs, so the parts can contradict each other; the workers are stopped only after the report; the total is an int."
  },
  {
   "property": "C121",
   "status": "partial",
   "theorems": [
    "Arax.Record.C121_location",
    "Arax.Record.C121_accepts",
    "Arax.Record.C121_full",
    "Arax.Record.C121_lines_partial",
    "Arax.Record.C121_lists",
    "Arax.Record.C121_waits",
    "Arax.Record.C121_sigint",
    "Arax.Record.C121_sample",
    "Arax.Record.C121_violated_race",
    "Arax.Record.C121_violated_again",
    "Arax.Record.C121_violated_exit"
   ],
   "note": "Proved for every interleaving: what each call returns, at most ARAX_KV_CAP calls return, what each value in a sample is, that arax_plot finishes its list; its list is exact if no call is under way meanwhile. Violated: arax_plot reads the table without its lock and crashes on a name without location; the same name twice gives two metrics; each call is an arax_init that nobody balances (two if a location is given)."
  },
  {
   "property": "C122",
   "status": "partial",
   "theorems": [
    "Arax.Budget.C122_balance_partial",
    "Arax.Budget.C122_promise_partial",
    "Arax.Budget.C122_end",
    "Arax.Budget.C122_no_overflow",
    "Arax.Budget.C122_start",
    "Arax.Budget.C122_start_kind",
    "Arax.Budget.C122_violated_shared",
    "Arax.Budget.C122_violated_opencl",
    "Arax.Budget.C122_violated_start",
    "Arax.Budget.C122_violated_default"
   ],
   "note": "Proved for every history: capacity, the sum of available and held, the sum after the stop, no failing assertion, and what the first value is. Violated: accelerators that share a memory each promise all of it (two on one GPU; a CPU accelerator promises the segment again), OpenCL promises 4 GiB whatever there is, a device with nothing free (or the SDA kind) kills the controller at the start, and without ARAX_THROTTLE_ENFORCE nothing stops tasks from holding more."
  },
  {
   "property": "C13",
   "status": "partial",
   "theorems": [
    "Arax.Config.C13_write_read_partial",
    "Arax.Config.C13_default_recorded",
    "Arax.Config.C13_violated"
   ],
   "note": "False for keys that already have an entry: C13_violated proves the new value is never visible; proved for keys without an entry."
  },
  {
   "property": "C14",
   "status": "proved",
   "theorems": [
    "Arax.Config.C14_other_keys",
    "Arax.Config.C14_other_keys_long",
    "Arax.Config.C14_needs_newline"
   ],
   "note": ""
  },
  {
   "property": "C15",
   "status": "partial",
   "theorems": [
    "Arax.Config.C15_long_roundtrip_partial",
    "Arax.Config.C15_long_decimal",
    "Arax.Config.C15_long_safe_partial",
    "Arax.Config.C15_get_long_default",
    "Arax.Config.C15_size_default_written",
    "Arax.Config.C15_get_int",
    "Arax.Config.C15_get_bool",
    "Arax.Config.C15_get_size",
    "Arax.Config.C15_violated",
    "Arax.Config.C15_malformed_grows"
   ],
   "note": "Round trip proved for keys without an entry; a value of 22 or more digits overruns char cval[22] (C15_violated); safe for values up to 21 characters."
  },
  {
   "property": "C16",
   "status": "partial",
   "theorems": [
    "Arax.Path.C16_expands",
    "Arax.Path.C16_too_long_partial",
    "Arax.Path.C16_null",
    "Arax.Path.C16_violated"
   ],
   "note": "One-byte overflow when a '~' expansion ends exactly at offset 4096 (C16_violated); proved everywhere else."
  },
  {
   "property": "C17",
   "status": "proved",
   "theorems": [
    "Arax.Throttle.C17_conservation",
    "Arax.Throttle.C17_exclusion"
   ],
   "note": ""
  },
  {
   "property": "C18",
   "status": "partial",
   "theorems": [
    "Arax.Throttle.C18_limits_partial",
    "Arax.Throttle.C18_violated"
   ],
   "note": "Proved for the enforcing build (ARAX_THROTTLE_ENFORCE); the default build wraps (C18_violated)."
  },
  {
   "property": "C19",
   "status": "partial",
   "theorems": [
    "Arax.Throttle.C19_no_stuck_waiter_partial",
    "Arax.Throttle.C19_spin_partial",
    "Arax.Throttle.C19_violated_spin"
   ],
   "note": "Proved for the mutex back-end; false for the spin back-end with several waiting threads (one token per notify, C19_violated_spin), proved there for one waiting thread (C19_spin_partial)."
  },
  {
   "property": "C20",
   "status": "proved",
   "theorems": [
    "Arax.Completion.C20_wait_after_complete",
    "Arax.Completion.C20_returns_marked_state"
   ],
   "note": ""
  },
  {
   "property": "C21",
   "status": "partial",
   "theorems": [
    "Arax.Completion.C21_first_wait_partial",
    "Arax.Completion.C21_violated_failed",
    "Arax.Completion.C21_violated_twice"
   ],
   "note": "False of the code: waiting on a failed task aborts (C21_violated_failed) and a second wait never returns (C21_violated_twice). Proved: the first wait on a task that did not fail returns its state."
  },
  {
   "property": "C22",
   "status": "partial",
   "theorems": [
    "Arax.Completion.C22_spin_partial",
    "Arax.Completion.C22_mutex_sound_partial",
    "Arax.Completion.C22_violated_mutex",
    "Arax.Completion.C22_violated_mutex_unlock"
   ],
   "note": "Proved for the spin back-end and, for one completer, soundness of the mutex back-end; overlapping mutex checks report a completed task as not completed (C22_violated_mutex)."
  },
  {
   "property": "C23",
   "status": "partial",
   "theorems": [
    "Arax.Semaphore.C23_counting_spin_partial",
    "Arax.Semaphore.C23_dec_proceeds_spin_partial",
    "Arax.Semaphore.C23_counting_posix",
    "Arax.Semaphore.C23_violated_spin_large",
    "Arax.Semaphore.C23_violated_ivshmem_dec",
    "Arax.Semaphore.C23_violated_ivshmem_inc"
   ],
   "note": "Counting proved for spin and POSIX back-ends; progress for spin needs value < 2^31 (C23_violated_spin_large); the ivshmem dec never succeeds on a positive value (swapped CAS arguments)."
  },
  {
   "property": "C24",
   "status": "partial",
   "theorems": [
    "Arax.Ready.C24_all_return_mutex_partial",
    "Arax.Ready.C24_all_return_spin_partial",
    "Arax.Ready.C24_violated_mutex",
    "Arax.Ready.C24_violated_spin"
   ],
   "note": "False: arax_controller_init_done notifies without the lock (lost wake-up, C24_violated_mutex) and the spin back-end wakes only one application (C24_violated_spin). Proved under every fair schedule when the notification does not fall into the window."
  },
  {
   "property": "C25",
   "status": "proved",
   "theorems": [
    "Arax.Object.C25_live_iff_referenced",
    "Arax.Object.C25_registered_iff_live",
    "Arax.Object.C25_destroyed_exactly_at_zero",
    "Arax.Object.C25_no_use_after_free"
   ],
   "note": ""
  },
  {
   "property": "C26",
   "status": "partial",
   "theorems": [
    "Arax.Object.C26_accounting_partial",
    "Arax.Object.C26_repo_exit_exact",
    "Arax.Object.C26_leak_check_partial",
    "Arax.Object.C26_violated_failed_alloc",
    "Arax.Object.C26_violated_late_join"
   ],
   "note": "The balance holds up to bytes charged for failed allocations, which are never refunded (C26_violated_failed_alloc); the leak check is exact for a process that joined an empty segment and wrong for one that joined later (C26_violated_late_join)."
  },
  {
   "property": "C27",
   "status": "partial",
   "theorems": [
    "Arax.Object.C27_targets_live",
    "Arax.Object.C27_issue_holds",
    "Arax.Object.C27_all_reclaimed",
    "Arax.Object.C27_violated_phys"
   ],
   "note": "Proved for all histories except destroying a physical accelerator that still has virtual accelerators, which the code does not prevent and which makes their release touch freed memory (C27_violated_phys)."
  },
  {
   "property": "C28",
   "status": "partial",
   "theorems": [
    "Arax.Object.C28_balanced_partial",
    "Arax.Object.C28_violated",
    "Arax.ProcConc.C28_concurrent_partial",
    "Arax.ProcConc.C28_violated_concurrent"
   ],
   "note": "False: arax_proc_register on an existing name grants a reference without taking one (C28_violated), and arax_proc_get takes its reference after releasing the list lock (C28_violated_concurrent). Proved: balance when every register creates; and for every interleaving, get is safe exactly when somebody still holds the procedure."
  },
  {
   "property": "C29",
   "status": "partial",
   "theorems": [
    "Arax.Object.C29_lookup_exact",
    "Arax.Object.C29_unique",
    "Arax.Object.C29_get",
    "Arax.ProcConc.C29_unique_concurrent_partial",
    "Arax.ProcConc.C29_violated_concurrent"
   ],
   "note": "Proved as stated for calls one at a time; overlapping registrations of one name create duplicates (C29_violated_concurrent), any other interleaving is proved safe."
  },
  {
   "property": "C30",
   "status": "proved",
   "theorems": [
    "Arax.Functor.C30_functor_table",
    "Arax.Functor.C30_invalid_aborts",
    "Arax.Functor.C30_null_functor_can_run"
   ],
   "note": ""
  },
  {
   "property": "C31",
   "status": "proved",
   "theorems": [
    "Arax.Functor.C31_from_str",
    "Arax.Functor.C31_round_trip"
   ],
   "note": ""
  },
  {
   "property": "C32",
   "status": "partial",
   "theorems": [
    "Arax.Accel.Count.C32_never_under_reports_partial",
    "Arax.Accel.Count.C32_queued_work_wakes_worker_partial",
    "Arax.Accel.Count.C32_round_robin",
    "Arax.Accel.Count.C32_wrap_violated",
    "Arax.Accel.Count.C32_elastic_violated"
   ],
   "note": "False as stated: removal of a queue while a submission is between push and count wraps the counter for good (C32_wrap_violated); removal behind the worker's back starves a queue (C32_elastic_violated). Proved for all other histories, and without side condition for the round-robin scheduler."
  },
  {
   "property": "C33",
   "status": "partial",
   "theorems": [
    "Arax.Accel.Count.C33_exact_round_robin_partial",
    "Arax.Accel.Count.C33_token_finds_task_partial",
    "Arax.Accel.Count.C33_violated"
   ],
   "note": "False when a non-empty queue is removed (the count keeps one extra); proved exact for the round-robin scheduler."
  },
  {
   "property": "C34",
   "status": "partial",
   "theorems": [
    "Arax.Accel.Place.C34_one_place_partial",
    "Arax.Accel.Place.C34_no_failure_partial",
    "Arax.Accel.Place.C34_orphan_handed_once_partial",
    "Arax.Accel.Place.C34_set_physical_violated",
    "Arax.Accel.Place.C34_release_violated"
   ],
   "note": "False when arax_accel_set_physical or a release races with the balancer; proved for all histories with one mover per virtual accelerator at a time."
  },
  {
   "property": "C35",
   "status": "proved",
   "theorems": [
    "Arax.Sched.C35_select_sound",
    "Arax.Sched.C35_select_complete",
    "Arax.Sched.C35_null_only_when_empty"
   ],
   "note": ""
  },
  {
   "property": "C36",
   "status": "proved",
   "theorems": [
    "Arax.Sched.C36_no_starvation"
   ],
   "note": ""
  },
  {
   "property": "C37",
   "status": "partial",
   "theorems": [
    "Arax.Sched.C37_first_partial",
    "Arax.Sched.C37_cycles_partial",
    "Arax.Sched.C37_violated",
    "Arax.Sched.C37_mixed_types_violated"
   ],
   "note": "False: the static iterator points into a container of an earlier call (C37_violated, C37_mixed_types_violated). Proved for the first call and for calls whose container is the same object."
  },
  {
   "property": "C38",
   "status": "proved",
   "theorems": [
    "Arax.Layout.C38_placement",
    "Arax.Layout.C38_live_buffers",
    "Arax.Layout.C38_buffers_disjoint",
    "Arax.Layout.C38_align_zero"
   ],
   "note": "C38_wraps documents that a total that overflows size_t is not rejected (outside the quantifier)."
  },
  {
   "property": "C39",
   "status": "partial",
   "theorems": [
    "Arax.Layout.C39_round_trip",
    "Arax.Layout.C39_offset_partial",
    "Arax.Layout.C39_outside_partial",
    "Arax.Layout.C39_violated"
   ],
   "note": "arax_data_ref is proved as stated, for all buffer contents. arax_data_ref_offset is false as stated: it trusts the user bytes in front of the address (C39_violated); proved when those bytes do not spell the address of a data object."
  },
  {
   "property": "C40",
   "status": "proved",
   "theorems": [
    "Arax.Layout.C40_host_area",
    "Arax.Layout.C40_io_slots",
    "Arax.Layout.C40_wrong_size"
   ],
   "note": ""
  },
  {
   "property": "C41",
   "status": "partial",
   "theorems": [
    "Arax.Layout.C41_layout",
    "Arax.Layout.C41_pipe_layout",
    "Arax.Layout.C41_runs_disjoint",
    "Arax.Layout.C41_runs_inside_partial",
    "Arax.Layout.C41_one_page_inside",
    "Arax.Layout.C41_ummap_ok",
    "Arax.Layout.C41_violated"
   ],
   "note": "Layout proved as stated. Page runs can leave the segment when the page count is not a multiple of 64 (C41_violated, from C04); proved for multiples of 64 and for one-page requests."
  },
  {
   "property": "C42",
   "status": "partial",
   "theorems": [
    "Arax.ProcMap.C42_partial",
    "Arax.ProcMap.C42_unmap_unknown",
    "Arax.ProcMap.C42_full_map_not_registered",
    "Arax.ProcMap.C42_violated_stale",
    "Arax.ProcMap.C42_violated_lost"
   ],
   "note": "arax_pipe_mark_unmap passes a cell count to memmove as a byte count, so with more than 128 processes entries go stale or get lost (C42_violated_stale, C42_violated_lost). Proved for every history with 8*B <= N+3 processes."
  },
  {
   "property": "C43",
   "status": "partial",
   "theorems": [
    "Arax.Life.C43_lifetime_partial",
    "Arax.Life.C43_unlink_only_unused_partial",
    "Arax.Life.C43_violated_api",
    "Arax.Life.C43_violated_race",
    "Arax.Life.C43_violated_reinit",
    "Arax.Life.C43_violated_path"
   ],
   "note": "False as stated (any API call that checks a pointer increments the process count; init racing with the last exit; re-init in an exiting process; absolute path). Proved for relative names when inits and exits of the same scope do not overlap and no API call bumps the counter."
  },
  {
   "property": "C44",
   "status": "partial",
   "theorems": [
    "Arax.PipeInit.C44_one_initialiser",
    "Arax.PipeInit.C44_revision_check",
    "Arax.PipeInit.C44_header_ready_partial",
    "Arax.PipeInit.C44_full_partial",
    "Arax.PipeInit.C44_violated",
    "Arax.PipeInit.C44_violated_mismatch"
   ],
   "note": "Later callers only wait for the revision string, not for the rest of the initialisation (C44_violated); a rejected caller stays counted (C44_violated_mismatch)."
  },
  {
   "property": "C45",
   "status": "proved",
   "theorems": [
    "Arax.PipeInit.C45_same_address"
   ],
   "note": ""
  },
  {
   "property": "C46",
   "status": "proved",
   "theorems": [
    "Arax.Args.C46_rejects",
    "Arax.Args.C46_accepts",
    "Arax.Args.C46_unusable_aborts",
    "Arax.Args.C46_other_device_aborts",
    "Arax.Args.C46_count_truncated",
    "Arax.Args.C46_count_negative"
   ],
   "note": "Acceptance needs counts that fit an int (C46_count_truncated shows what happens to 2^32 inputs) and data that is not bound to another device (documented restriction: C46_unusable_aborts, for any argument anywhere)."
  },
  {
   "property": "C47",
   "status": "proved",
   "theorems": [
    "Arax.Exec.C47_issue_order",
    "Arax.Exec.C47_program_order",
    "Arax.Exec.C47_atomic",
    "Arax.Exec.C47_one_queue"
   ],
   "note": "Any number of clients, virtual accelerators, workers; handlers are arbitrary terminating programs that stay inside their buffers."
  },
  {
   "property": "C48",
   "status": "partial",
   "theorems": [
    "Arax.Exec.C48_get_returns",
    "Arax.Exec.C48_read_your_writes",
    "Arax.Exec.C48_set",
    "Arax.Exec.C48_refused",
    "Arax.Exec.C48_memset",
    "Arax.Exec.C48_memcpy",
    "Arax.Exec.C48_violated"
   ],
   "note": "Proved when the data used with a virtual accelerator is used with no other one; with two virtual accelerators of one device the library rebinds the data and a get overtakes the set (C48_violated)."
  },
  {
   "property": "C49",
   "status": "partial",
   "theorems": [
    "Arax.DataCopy.C49_same",
    "Arax.DataCopy.C49_mismatch",
    "Arax.DataCopy.C49_unassigned_source",
    "Arax.DataCopy.C49_empty_partial",
    "Arax.DataCopy.C49_violated"
   ],
   "note": "The copy itself is undefined behaviour for every pair of distinct non-empty data objects: the blocking get is given a NULL destination."
  },
  {
   "property": "C50",
   "status": "partial",
   "theorems": [
    "Arax.Object.C50_count_exact_partial",
    "Arax.Object.C50_violated"
   ],
   "note": "Exact for migrate/set/set_remote/destroy; arax_data_set_accel on an assigned data leaks the old accelerator's reference (C50_violated)."
  },
  {
   "property": "C51",
   "status": "partial",
   "theorems": [
    "Arax.Ctrl.Conf.C51_sound",
    "Arax.Ctrl.Conf.C51_complete_partial",
    "Arax.Ctrl.Conf.C51_default_names_differ",
    "Arax.Ctrl.Conf.C51_violated"
   ],
   "note": "Only configured accelerators are returned, each once (C51_sound); all of them if their names differ, in particular if no names are given; with equal names accelerators are silently dropped (C51_violated)."
  },
  {
   "property": "C52",
   "status": "partial",
   "theorems": [
    "Arax.Ctrl.C52_trim",
    "Arax.Ctrl.C52_decode_partial",
    "Arax.Ctrl.C52_violated",
    "Arax.Ctrl.C52_values_keep_case",
    "Arax.Ctrl.C52_join"
   ],
   "note": "An empty last value is dropped (C52_violated); everything else is proved."
  },
  {
   "property": "C53",
   "status": "proved",
   "theorems": [
    "Arax.Ctrl.Handler.C53_load",
    "Arax.Ctrl.Handler.C53_decode",
    "Arax.Ctrl.Handler.C53_unknown_arch_aborts"
   ],
   "note": ""
  },
  {
   "property": "C54",
   "status": "proved",
   "theorems": [
    "Arax.Timer.C54_ns",
    "Arax.Timer.C54_durations",
    "Arax.Timer.C54_overflow"
   ],
   "note": "For times before the year 2262."
  },
  {
   "property": "C55",
   "status": "partial",
   "theorems": [
    "Arax.Listing.C55_list",
    "Arax.Listing.C55_free",
    "Arax.Listing.C55_relist",
    "Arax.Listing.C55_free_later",
    "Arax.Listing.C55_relist_later_partial",
    "Arax.Listing.C55_violated_hang",
    "Arax.Listing.C55_violated_hang_always"
   ],
   "note": "Proved for a NULL array pointer, and for an earlier array of accelerators the caller still has references on, whatever happened in between (C55_relist_later_partial); freeing an array works in every such state (C55_free_later). A call that drops the last reference of a physical accelerator while listing virtual ones deadlocks (C55_violated_hang)."
  },
  {
   "property": "C56",
   "status": "partial",
   "theorems": [
    "Arax.Sched.C56_returns_runnable",
    "Arax.Sched.C56_orphans_only_unrunnable",
    "Arax.Sched.C56_all_moved_when_null_partial",
    "Arax.Sched.C56_examined_moved",
    "Arax.Sched.C56_stops_early_violated",
    "Arax.Sched.C56_assign_runnable_partial",
    "Arax.Sched.C56_assign_complete_partial"
   ],
   "note": "selectTask stops its pass at the first runnable task, so later unrunnable tasks stay (C56_stops_early_violated); everything else is proved."
  },
  {
   "property": "C57",
   "status": "partial",
   "theorems": [
    "Arax.Object.C57_held_proc_live_partial",
    "Arax.Object.C57_violated"
   ],
   "note": "False: a task takes no reference on its procedure (C57_violated). A client that keeps its own reference until the tasks are done is safe."
  },
  {
   "property": "C58",
   "status": "partial",
   "theorems": [
    "Arax.Accel.Count.C58_looks_at_live_partial",
    "Arax.Accel.Count.C58_violated"
   ],
   "note": "False: the snapshot takes no references. Proved when no release falls into a scan."
  },
  {
   "property": "C59",
   "status": "proved",
   "theorems": [
    "Arax.Ctrl.Cpu.C59_affinity",
    "Arax.Ctrl.Cpu.C59_misread"
   ],
   "note": "Lists written without blanks; C59_misread shows what happens to others."
  },
  {
   "property": "C60",
   "status": "partial",
   "theorems": [
    "Arax.Ctrl.Conf.C60_accepted",
    "Arax.Ctrl.Conf.C60_pref",
    "Arax.Ctrl.Conf.C60_violated"
   ],
   "note": "OpenCL accelerators cannot be configured at all (C60_violated); the other four back ends can (C60_accepted)."
  },
  {
   "property": "C61",
   "status": "partial",
   "theorems": [
    "Arax.Rename.C61_rename_partial",
    "Arax.Rename.C61_violated"
   ],
   "note": "Formats with conversions use the argument list twice: undefined behaviour."
  },
  {
   "property": "C62",
   "status": "partial",
   "theorems": [
    "Arax.PhysRelease.C62_release_partial",
    "Arax.PhysRelease.C62_invariant_partial",
    "Arax.PhysRelease.C62_not_last",
    "Arax.PhysRelease.C62_violated"
   ],
   "note": "The assertion in the destructor tests a string literal, so it never fires; attached virtual accelerators dangle."
  },
  {
   "property": "C63",
   "status": "proved",
   "theorems": [
    "Arax.Worker.C63_woken",
    "Arax.Worker.C63_exact",
    "Arax.Worker.C63_two_workers"
   ],
   "note": "Both back-ends; C63_two_workers shows that one worker per accelerator (or one task per notification) is needed with the spin back-end."
  },
  {
   "property": "C64",
   "status": "partial",
   "theorems": [
    "Arax.Orphan.C64_woken",
    "Arax.Orphan.C64_each_once",
    "Arax.Orphan.C64_null_partial",
    "Arax.Orphan.C64_violated_spin",
    "Arax.Orphan.C64_violated_mutex",
    "Arax.Orphan.C64_violated_spurious"
   ],
   "note": "Wake-up and at-most-once are proved in full; NULL without a stop is possible (stale spin tokens, removal before wake-up, spurious wake-ups), and the balancer then passes NULL on."
  },
  {
   "property": "C65",
   "status": "partial",
   "theorems": [
    "Arax.Live.C65_executed_partial",
    "Arax.Live.C65_once_in_order",
    "Arax.Live.C65_violated"
   ],
   "note": "False when more tasks than the queue holds are issued before the virtual accelerator is assigned: client and balancer block each other for ever (C65_violated, for every capacity). Proved for all other histories."
  },
  {
   "property": "C66",
   "status": "partial",
   "theorems": [
    "Arax.Cond.C66_exclusion",
    "Arax.Cond.C66_returns",
    "Arax.Cond.C66_locks_return",
    "Arax.Cond.C66_notify_wakes_all",
    "Arax.Cond.Iv.C66_violated_ivshmem_hang",
    "Arax.Cond.Iv.C66_violated_ivshmem_exclusion",
    "Arax.Cond.Iv.C66_violated_ivshmem_self"
   ],
   "note": "Proved in full for the mutex and spin back-ends; with ivshmem a lock of a free condition can hang and two threads can hold it at once (C66_violated_*)."
  },
  {
   "property": "C67",
   "status": "partial",
   "theorems": [
    "Arax.DevMem.C67_balance_partial",
    "Arax.DevMem.C67_exact_partial",
    "Arax.DevMem.C67_returned_partial",
    "Arax.DevMem.C67_violated_remote",
    "Arax.DevMem.C67_violated_hang",
    "Arax.DevMem.C67_violated_cuda",
    "Arax.DevMem.C67_violated_cuda_abort",
    "Arax.DevMem.C67_violated_two_devices"
   ],
   "note": "False: arax_data_allocate_remote charges a second time (C67_violated_remote, all back-ends and sizes; with ENFORCE it can hang, C67_violated_hang), the CUDA memset/memcpy handlers do not charge at all (C67_violated_cuda*), and a data object used on two devices is charged twice (C67_violated_two_devices). Proved exactly for all other histories."
  },
  {
   "property": "C68",
   "status": "partial",
   "theorems": [
    "Arax.DevMem.C68_no_wait_partial",
    "Arax.DevMem.C68_never_released",
    "Arax.DevMem.C68_violated"
   ],
   "note": "False: a worker that waits for memory of its own accelerator is never released, because only it executes the tasks that free memory (C68_never_released, C68_violated for every capacity). Proved: no worker ever waits when the device holds all data objects used with it at once."
  },
  {
   "property": "C69",
   "status": "partial",
   "theorems": [
    "Arax.Elastic.C69_round_robin_partial",
    "Arax.Elastic.C69_assigned",
    "Arax.Elastic.C69_placement_partial",
    "Arax.Elastic.C69_no_abort_partial",
    "Arax.Elastic.C69_free_vaq_stays",
    "Arax.Elastic.C69_violated_iterator",
    "Arax.Elastic.C69_violated_types",
    "Arax.Elastic.C69_violated_none",
    "Arax.Elastic.C69_violated_default",
    "Arax.Elastic.C69_violated_twice",
    "Arax.Elastic.C69_violated_accounting",
    "Arax.Elastic.C69_violated_stale"
   ],
   "note": "False: the static iterator into a local vector dangles (C69_violated_iterator, _types, _none); the default build moves virtual accelerators without their data (C69_violated_default); with MIGRATION only the last moved virtual accelerator's data follows (C69_violated_twice), the bytes are given back to the wrong device (C69_violated_accounting); a slow worker makes the balancer abort (C69_violated_stale). Proved: round robin with a constant address and one type; with MIGRATION, if each move is finished before the next assignment, every task finds its data; no abort with up to date lists."
  },
  {
   "property": "C70",
   "status": "partial",
   "theorems": [
    "Arax.Control.C70_start_partial",
    "Arax.Control.C70_pause_partial",
    "Arax.Control.C70_resume_partial",
    "Arax.Control.C70_stop_bound",
    "Arax.Control.C70_shutdown_partial",
    "Arax.Control.C70_released_partial",
    "Arax.Control.C70_release_after_end",
    "Arax.Control.C70_violated_race",
    "Arax.Control.C70_violated_late_pause",
    "Arax.Control.C70_violated_pending",
    "Arax.Control.C70_violated_balancer",
    "Arax.Control.C70_violated_twice",
    "Arax.Control.C70_violated_init"
   ],
   "note": "Proved for all histories and fair schedules when accelerators initialise, one caller at a time changes a worker's preference and nobody pauses during shutdown. False otherwise: two concurrent callers can block a worker for ever (C70_violated_race), so can a pause during shutdown (C70_violated_late_pause); pending tasks are never executed (C70_violated_pending); the balancer goes on and loses virtual accelerators (C70_violated_balancer); a second SIGINT throws in the handler (C70_violated_twice); a failed initialisation makes the controller spin for ever (C70_violated_init)."
  },
  {
   "property": "C71",
   "status": "partial",
   "theorems": [
    "Arax.Libs.C71_startup",
    "Arax.Libs.C71_startup_failed",
    "Arax.Libs.C71_runtime_partial",
    "Arax.Libs.C71_replaced_before_read",
    "Arax.Libs.C71_stop_partial",
    "Arax.Libs.C71_violated_batch",
    "Arax.Libs.C71_violated_rename",
    "Arax.Libs.C71_violated_stale",
    "Arax.Libs.C71_violated_long",
    "Arax.Libs.C71_violated_hidden",
    "Arax.Libs.C71_violated_links",
    "Arax.Libs.C71_violated_stop"
   ],
   "note": "Startup proved for every file system and every list of folders. Run time: proved when the loader reads after each file; false otherwise: of several events in one read only the first is used (C71_violated_batch), renamed files and new folders give no event (C71_violated_rename), a new version is never loaded (C71_violated_stale), names of 240 or more characters make it use an unread event (C71_violated_long), hidden files are treated differently (C71_violated_hidden); links make one file load under several names (C71_violated_links); a first folder that is not writable blocks the shutdown (C71_violated_stop)."
  },
  {
   "property": "C72",
   "status": "partial",
   "theorems": [
    "Arax.Segment.C72_same_size_partial",
    "Arax.Segment.C72_own_memory_partial",
    "Arax.Segment.C72_contents_partial",
    "Arax.Segment.C72_violated_shrink",
    "Arax.Segment.C72_violated_small",
    "Arax.Segment.C72_violated_unmap_own",
    "Arax.Segment.C72_violated_rejoin",
    "Arax.Segment.C72_violated_place"
   ],
   "note": "Proved for every history when all processes configure the same size and have the place free; contents and accesses also when nobody joins with less than the size of the segment. False otherwise: a smaller process cuts the file under the others (C72_violated_shrink) or, without shm_trunc, is killed itself (C72_violated_small) and unmaps its own memory when it leaves (C72_violated_unmap_own); a larger one cannot join a second time (C72_violated_rejoin); the address is whatever the creator got (C72_violated_place)."
  },
  {
   "property": "C73",
   "status": "partial",
   "theorems": [
    "Arax.Dl.C73_never_corrupt",
    "Arax.Dl.C73_blocks_partial",
    "Arax.Dl.C73_disjoint",
    "Arax.Dl.C73_contents",
    "Arax.Dl.C73_write",
    "Arax.Dl.C73_alloc",
    "Arax.Dl.C73_free",
    "Arax.Dl.Seat.layout",
    "Arax.Dl.C73_whole_segment",
    "Arax.Dl.C73_past_end_violated",
    "Arax.Dl.C73_null_violated"
   ],
   "note": "dlmalloc modelled to the boundary tags; proved for every history of any number of allocators. False in two points: with a number of pages that is not a multiple of 64 a block can reach past the end of the segment (C73_past_end_violated, from C04; C73_blocks_partial proves it for multiples of 64), and when there is no room the call aborts instead of returning NULL (C73_null_violated; C73_alloc says exactly when)."
  },
  {
   "property": "C74",
   "status": "partial",
   "theorems": [
    "Arax.Dl.C74_pages_partial",
    "Arax.Dl.C74_footprint",
    "Arax.Dl.C74_lost_forever",
    "Arax.Dl.C74_destroy_partial",
    "Arax.Dl.C74_all_back_partial",
    "Arax.Dl.C74_destroy_violated",
    "Arax.Dl.C74_trim_violated"
   ],
   "note": "False: arch_alloc_exit leaves the pages of directly mapped blocks taken for ever (C74_destroy_violated, C74_lost_forever), and where CALL_MREMAP is the system's mremap the trimmed pages stay taken (C74_trim_violated). Proved: footprint = regions always; without mremap, pages taken = regions of the existing allocators and what destroyed ones left; destroying gives back exactly the rest; all pages come back if no allocator is destroyed with a directly mapped block."
  },
  {
   "property": "C75",
   "status": "partial",
   "theorems": [
    "Arax.Dl.C75_stats_partial",
    "Arax.Dl.C75_plain_partial",
    "Arax.Dl.C75_inspect_partial",
    "Arax.Dl.C75_stats_violated",
    "Arax.Dl.C75_inspect_violated"
   ],
   "note": "False for directly mapped blocks (256 KiB or more): they are in used_bytes but not in total_bytes, so that vdf's Free is negative (C75_stats_violated), and are not inspected (C75_inspect_violated); both numbers are modulo 2^32 (in the statement of C75_stats_partial). Proved: exact values always; the claim as alloc.h has it for one segment below 4 GiB without direct blocks (C75_plain_partial); everything about inspection but direct blocks."
  },
  {
   "property": "C76",
   "status": "proved",
   "theorems": [
    "Arax.Dl.C76_reuse",
    "Arax.Dl.C76_merged"
   ],
   "note": "For every history of any number of allocators. The choice of the trees among chunks is the parameter pick, over which both theorems quantify."
  },
  {
   "property": "C77",
   "status": "proved",
   "theorems": [
    "Arax.Dl.C77_refines",
    "Arax.Dl.C77_never_corrupt",
    "Arax.Dl.C77_disjoint",
    "Arax.Dl.C77_contents",
    "Arax.Dl.C77_best_fit",
    "Arax.Dl.C77_small_fit",
    "Arax.Dl.C77_huge_violated"
   ],
   "note": "For every history of any number of allocators in segments of up to 1 TiB. Chunks of 2^40 bytes or more go to the wrong tree (C77_huge_violated shows that the limit is needed). C77_refines carries all theorems of C73 to C76 over to the allocator with real bins."
  },
  {
   "property": "C78",
   "status": "partial",
   "theorems": [
    "Arax.Dl.C78_alone",
    "Arax.Dl.C78_never_corrupt",
    "Arax.Dl.C78_exclusive",
    "Arax.Dl.C78_disjoint",
    "Arax.Dl.C78_blocks_partial",
    "Arax.Dl.C78_contents",
    "Arax.Dl.C78_write",
    "Arax.Dl.C78_alloc",
    "Arax.Dl.C78_free",
    "Arax.Dl.C78_pages",
    "Arax.Dl.C78_returns",
    "Arax.Dl.C78_result",
    "Arax.Dl.C78_acquire",
    "Arax.Dl.C78_stuck",
    "Arax.Dl.C78_crash_violated",
    "Arax.Dl.C78_nomem_violated"
   ],
   "note": "Proved for every interleaving: safety, exclusion, contents, exact effects of the calls, pages, bounded return. False: a thread that dies in a call (C78_crash_violated) or aborts for want of memory (C78_nomem_violated: arax_mmap asserts with the allocator's lock held) leaves the lock taken, and every later caller of that allocator, in any process, waits for ever (C78_stuck). Blocks past the end of the segment as in C73."
  },
  {
   "property": "C79",
   "status": "partial",
   "theorems": [
    "Arax.Locks.C79_ordered",
    "Arax.Locks.C79_waits",
    "Arax.Locks.C79_exclusive",
    "Arax.Locks.C79_no_circle",
    "Arax.Locks.C79_no_deadlock_partial",
    "Arax.Locks.C79_finite",
    "Arax.Locks.C79_quiet_partial",
    "Arax.Locks.C79_room_violated",
    "Arax.Locks.C79_death_violated",
    "Arax.Locks.C79_space_violated",
    "Arax.Locks.C79_relist_violated",
    "Arax.Locks.C79_relist_use_violated",
    "Arax.Locks.C79_inspect_violated"
   ],
   "note": "Proved for all calls, paths and interleavings: order, exclusion, no circle, no lock at the end of a call, finitely many steps between events. False: a thread that waits for room in a full task queue keeps the lock of the virtual accelerator (C79_room_violated); a worker that starts with enforced throttles sleeps with the print lock (C79_space_violated); a thread that dies keeps its locks (C79_death_violated); arax_accel_list with the array of an earlier list of the other kind locks itself out or changes a list without its lock (C79_relist_violated, C79_relist_use_violated), as does an inspect function that allocates. The partial theorems say that nothing else goes wrong."
  },
  {
   "property": "C80",
   "status": "partial",
   "theorems": [
    "Arax.Reclaim.C80_not_early",
    "Arax.Reclaim.C80_once",
    "Arax.Reclaim.C80_returns_partial",
    "Arax.Reclaim.C80_given_back",
    "Arax.Reclaim.C80_serves",
    "Arax.Reclaim.C80_violated"
   ],
   "note": "Proved for every history: freed only after the last reference, exactly once, in order; while at most as many data objects have device memory as free_vaq has places, every drop returns after two own steps per reference. False otherwise: with a full free_vaq the worker, who alone empties it, waits for room in it for ever as soon as it drops a last reference itself (C80_violated, for every capacity; the user waited for and freed each task, freed each data object once)."
  },
  {
   "property": "C81",
   "status": "proved",
   "theorems": [
    "Arax.Stream.C81_outputs",
    "Arax.Stream.C81_get_returns",
    "Arax.Stream.C81_order",
    "Arax.Stream.C81_once",
    "Arax.Stream.C81_read_back"
   ],
   "note": "For requests the user may make (memset in bounds, memcpy from offsets inside, kernels inside their buffers that wait if they use the host area). The driver is assumed to be as its documentation says (Stream/Model header). Rebinding of data to another virtual accelerator: see C48; migration: C69."
  },
  {
   "property": "C82",
   "status": "partial",
   "theorems": [
    "Arax.Stream.C82_set_partial",
    "Arax.Stream.C82_get_partial",
    "Arax.Stream.C82_memset_partial",
    "Arax.Stream.C82_memcpy_partial",
    "Arax.Stream.C82_memcpy_checked",
    "Arax.Stream.C82_others_partial",
    "Arax.Stream.C82_marked_partial",
    "Arax.Stream.C82_valid_partial",
    "Arax.Stream.C82_opencl_memset_int",
    "Arax.Stream.C82_violated_opencl_memset",
    "Arax.Stream.C82_violated_opencl_offset",
    "Arax.Stream.C82_violated_opencl_free",
    "Arax.Stream.C82_violated_opencl_memcpy",
    "Arax.Stream.C82_violated_opencl_size",
    "Arax.Stream.C82_violated_opencl_big",
    "Arax.Stream.C82_violated_cuda_memcpy",
    "Arax.Stream.C82_violated_wrap",
    "Arax.Stream.C82_violated_memset_bounds",
    "Arax.Stream.C82_violated_abort"
   ],
   "note": "Proved on CUDA and HIP for requests in bounds, set and get also on OpenCL below 2 GiB, and that legal tasks leave other data alone. False: OpenCL memset ignores its size, writes an int pattern, does nothing with an offset and frees the task the user waits for; OpenCL memcpy copies the whole source; OpenCL sizes are cut to int; CUDA memcpy without sync is never marked nor freed; the bounds check of memcpy wraps for offsets past the end and memset has none, so that another client's data is overwritten; a refused memcpy aborts the controller for everybody."
  },
  {
   "property": "C83",
   "status": "partial",
   "theorems": [
    "Arax.Tso.C83_sections_serial",
    "Arax.Tso.C83_inside_serial",
    "Arax.Tso.KvC.C83_kv_serial",
    "Arax.Tso.QueueC.C83_fifo_partial",
    "Arax.Tso.QueueC.C83_push_visible",
    "Arax.Tso.QueueC.C83_solo_pop",
    "Arax.Tso.QueueC.C83_violated_load_order"
   ],
   "note": "Proved for per-thread store buffers that write back in any order (TSO and PSO), every schedule and any sections. False on processors that execute loads out of order: utils_queue_pop has no barrier between the loads of bottom (queue.c:73) and of the entry (81), so that a pop can take an element out and return NULL (C83_violated_load_order; spinlock.h:6-12 provides for such machines). The window of 65536 pops is that of C08."
  },
  {
   "property": "C84",
   "status": "partial",
   "theorems": [
    "Arax.Queue.Lin.C84_linearizable_partial",
    "Arax.Queue.Lin.C84_one_popper",
    "Arax.Queue.Multi.C84_many_queues",
    "Arax.Queue.Lin.C84_histories_partial",
    "Arax.Tso.QueueC.C84_delayed_stores_partial",
    "Arax.Queue.Conc.C08_violated_aba"
   ],
   "note": "Proved for every program, capacity up to 2^15 and interleaving in which no pop is overtaken by 65536 others during its call (false then, C08_violated_aba); without any restriction for programs that never pop from two threads at once (C84_one_popper). Also with store buffers."
  },
  {
   "property": "C85",
   "status": "partial",
   "theorems": [
    "Arax.Json.C85_reads",
    "Arax.Json.C85_exact_partial",
    "Arax.Json.C85_unambiguous",
    "Arax.Json.C85_config",
    "Arax.Json.C85_violated_trailing",
    "Arax.Json.C85_violated_redeclared"
   ],
   "note": "Proved for every document: it is read as what it denotes (numbers exactly; rounding to double is not modelled), and the controller starts with configuration c iff the document describes c. False: text that follows the first value is ignored (C85_violated_trailing), numbers may have leading zeros or lack digits (C85_exact_partial says exactly what is accepted), and a group declared twice is not refused although Config.cpp:281-284 means to (C85_violated_redeclared)."
  },
  {
   "property": "C86",
   "status": "proved",
   "theorems": [
    "Arax.Exec.Real.C86_refines",
    "Arax.Exec.Real.C86_order",
    "Arax.Exec.Real.C86_program_order",
    "Arax.Exec.Real.C86_serial",
    "Arax.Exec.Real.C86_get_returns",
    "Arax.Exec.Real.C86_read_your_writes",
    "Arax.Exec.Real.C86_lock"
   ],
   "note": "Refinement of the list queues of Exec (C47, C48) by the ring queues at the level of single memory accesses, the spinlock of the virtual accelerator and the retry loop of arax_vaccel_add_task. Virtual accelerators stay on their physical accelerator. The pending-task counter and wake-ups are those of C32, C33 and C63, not part of this model. demo_reaches is a run in which a get, a set of another client and the worker's pop overlap."
  },
  {
   "property": "C87",
   "status": "partial",
   "theorems": [
    "Arax.Attr.C87_attributes_partial",
    "Arax.Attr.C87_setters_return",
    "Arax.Attr.C87_assertions",
    "Arax.Attr.C87_stat_partial",
    "Arax.Attr.C87_violated_stat"
   ],
   "note": "Proved on byte memory with the C struct layout, for every size of the platform's types. arax_accel_stat is wrong: it dereferences NULL for a virtual accelerator without physical one (C87_violated_stat) and returns accel_idle otherwise, whatever the accelerator does (C87_stat_partial)."
  },
  {
   "property": "C88",
   "status": "partial",
   "theorems": [
    "Arax.Queue.Conc.C88_value_partial",
    "Arax.Queue.Conc.C88_pushers_excluded_partial",
    "Arax.Queue.Conc.C88_poppers_excluded_partial",
    "Arax.Queue.Conc.C88_top_first_partial",
    "Arax.Queue.Conc.C88_violated"
   ],
   "note": "False in general, in either order of the loads (C88_violated: 65535 reported for a queue that never held more than one, 0 for one that was never empty, 2 for one with room for 1). Proved: the exact value in all executions; it is a true length while pushes are excluded, which is so where the library uses it to adjust the pending-task counter (arax_accel.c:127, 166), or while pops are. Restricted, as C08, to executions in which no pop is overtaken by 65536 others."
  },
  {
   "property": "C89",
   "status": "partial",
   "theorems": [
    "Arax.Plot.C89_page_partial",
    "Arax.Plot.C89_crash_partial",
    "Arax.Plot.C89_violated_crash",
    "Arax.Plot.C89_violated_end"
   ],
   "note": "Proved for every recording of which at least two samples precede the idle end. Otherwise the program moves an iterator beyond the end of a list and crashes (C89_crash_partial: exactly then; C89_violated_crash). The idle end is cut off together with the change that leads to it, so the final values may not appear at all (C89_violated_end). Title and labels are put into the page without escaping; they are not modelled."
  },
  {
   "property": "C90",
   "status": "partial",
   "theorems": [
    "Arax.Grind.C90_report_partial",
    "Arax.Grind.C90_sources_partial",
    "Arax.Grind.C90_print_size",
    "Arax.Grind.C90_print_size_limit",
    "Arax.Grind.C90_inspect_object",
    "Arax.Grind.C90_inspect_outside",
    "Arax.Grind.C90_inspect_inside_partial",
    "Arax.Grind.C90_violated_sources",
    "Arax.Grind.C90_violated_task_bytes",
    "Arax.Grind.C90_violated_name"
   ],
   "note": "Proved: the whole report except the number of sources, which counts sizes instead of lines (C90_violated_sources), and the bytes of tasks, whose arguments and host data are left out (C90_violated_task_bytes). Addresses: objects exactly; inside buffers object and offset, but the name is taken from the user's bytes at the address and the tool dies if they are zero (C90_violated_name)."
  },
  {
   "property": "C91",
   "status": "partial",
   "theorems": [
    "Arax.Grind.C91_parity",
    "Arax.Grind.C91_options_partial",
    "Arax.Grind.C91_reject",
    "Arax.Grind.C91_operand_missing",
    "Arax.Grind.C91_round_trip",
    "Arax.Grind.C91_negative",
    "Arax.Grind.C91_violated_twice",
    "Arax.Grind.C91_violated_junk",
    "Arax.Grind.C91_violated_operand",
    "Arax.Grind.C91_violated_operand_option"
   ],
   "note": "Proved for every documented command line: exact effect (an option is in force if an odd number of words has it), refusal of unknown words, round trip of addresses. Violated: options given twice cancel, any word with one dash and one known letter is taken for options, malformed operands are read as 0."
  },
  {
   "property": "C92",
   "status": "partial",
   "theorems": [
    "Arax.Publish.C92_words_partial",
    "Arax.Publish.C92_functors_partial",
    "Arax.Publish.C92_violated_lost",
    "Arax.Publish.C92_violated_canrun",
    "Arax.Publish.C92_violated_garbage"
   ],
   "note": "False: arax_object_register inserts the object into the list before setting its fields to zero, so a functor set by a thread that finds it early is erased (C92_violated_lost), stale contents are visible (C92_violated_garbage), and concurrent arax_proc_set_functor calls lose bits of canrun (C92_violated_canrun). Proved for all interleavings in which objects are touched only after their creator is done: assigned words are exact, no bit of canrun is invented, and none is lost if the updates of canrun do not overlap."
  },
  {
   "property": "C93",
   "status": "partial",
   "theorems": [
    "Arax.Startup.C93_returns_iff_can_join_partial",
    "Arax.Startup.C93_reason_true_partial",
    "Arax.Startup.C93_ends_properly_partial",
    "Arax.Startup.C93_balanced_calls_partial",
    "Arax.Startup.C93_violated_refusals",
    "Arax.Startup.C93_violated_no_name",
    "Arax.Startup.C93_violated_no_space",
    "Arax.Startup.C93_violated_other_file",
    "Arax.Startup.C93_violated_waits",
    "Arax.Startup.C93_violated_old_number",
    "Arax.Startup.C93_violated_warning",
    "Arax.Startup.C93_violated_extra_exit"
   ],
   "note": "Proved: arax_init returns exactly if the process can join, the printed reasons are true, where the process ends properly, and balanced sequences of calls. Violated: the common failure path reads the size of the segment through a pointer that is null or unmapped, so most refusals crash before the process ends with status 1; a failing ftruncate is overlooked; the size is taken from a file of the same name in the working directory; the warning of arax_exit cannot be reached and a superfluous arax_exit crashes."
  },
  {
   "property": "C94",
   "status": "proved",
   "theorems": [
    "Arax.KernelMap.C94_table",
    "Arax.KernelMap.C94_duplicates",
    "Arax.KernelMap.C94_width"
   ],
   "note": "For names without the four characters that the table itself uses as separators."
  },
  {
   "property": "C95",
   "status": "partial",
   "theorems": [
    "Arax.Run.C95_no_kernels_partial",
    "Arax.Run.C95_no_argument_partial",
    "Arax.Run.C95_others_keep_partial",
    "Arax.Run.C95_violated_kernels",
    "Arax.Run.C95_violated_config",
    "Arax.Run.C95_violated_refusal",
    "Arax.Run.C95_violated_clean"
   ],
   "note": "Proved: runs that register no kernel and are not refused midway restore the segment; a call without argument does not touch it; others always keep their objects. Violated: procedures registered by libraries are never released, so that the check for leaks aborts the last process; an exception of the configuration is thrown by value and caught as pointer; refusals in main return without arax_exit."
  },
  {
   "property": "C96",
   "status": "partial",
   "theorems": [
    "Arax.Assert.C96_assert_partial",
    "Arax.Assert.C96_objects_partial",
    "Arax.Assert.C96_violated_stack",
    "Arax.Assert.C96_violated_stack_lost",
    "Arax.Assert.C96_violated_outside",
    "Arax.Assert.C96_violated_objects"
   ],
   "note": "Proved: text, place and abort for all files of the source tree, and that the function _arax_assert_obj lets exactly objects of the type pass. Violated: the test in system_backtrace is inverted, so no stack is ever shown; files outside the tree are named by reading outside their names; the macro arax_assert_obj expands to a declaration and checks nothing."
  },
  {
   "property": "C97",
   "status": "partial",
   "theorems": [
    "Arax.Ctrl.Shown.C97_cores",
    "Arax.Ctrl.Shown.C97_read_back",
    "Arax.Ctrl.Shown.C97_unambiguous_partial",
    "Arax.Ctrl.Shown.C97_violated_names",
    "Arax.Ctrl.Shown.C97_violated_lookup"
   ],
   "note": "Proved: sets of cores, reading back, and unambiguity for texts without the characters the form uses itself. Violated: other names (not escaped); Config::getAccelerator of an unknown name inserts a null accelerator, which the printing dereferences before it tests it."
  },
  {
   "property": "C98",
   "status": "partial",
   "theorems": [
    "Arax.Exec.C98_answer_partial",
    "Arax.Exec.C98_input",
    "Arax.Exec.C98_violated_long",
    "Arax.Exec.C98_violated_empty"
   ],
   "note": "Proved for all texts shorter than 2 GiB. The size is converted to int: from 2 GiB on the answer is empty; for data objects of size 0 the handler writes behind the buffer."
  },
  {
   "property": "C99",
   "status": "partial",
   "theorems": [
    "Arax.Faults.C99_others_partial",
    "Arax.Faults.C99_isolated_partial",
    "Arax.Faults.C99_violated_silent",
    "Arax.Faults.C99_violated_silent_witness",
    "Arax.Faults.C99_violated_other"
   ],
   "note": "Proved: with standard exceptions only, every task shows what its own handler marked, and all others are executed; the whole property for handlers that mark their task in every case. Violated: what a handler returns is dropped and a caught exception does not mark the task, so its client waits for ever; an exception not derived from std::exception ends the controller."
  }
 ]
}