Q = "Arax.Queue."
c("C07", "partial", [Q+"C07_bounded_fifo_partial", Q+"C07_default_capacity", Q+"C07_violated_capacity_65536"],
  "Proved for every power-of-two capacity up to 2^15 (the shipped capacity is 512); capacity 65536 violates it because the 16-bit cursors cannot tell full from empty.")
c("C08", "partial", [Q+"Conc.C08_fifo_linearizable_partial", Q+"Conc.C08_solo_pop", Q+"Conc.C08_violated_aba"],
  "Proved for every interleaving in which no pop is overtaken by 65536 other pops between its read and its CAS; without that condition the 16-bit cursor ABA is a counterexample (C08_violated_aba).")
c("C09", "proved", ["Arax.Spinlock.C09_mutual_exclusion", "Arax.Spinlock.C09_free_lock_acquirable"])
c("C10", "proved", ["Arax.IList.C10_calls_follow_spec", "Arax.IList.C10_observations", "Arax.IList.C10_loose_not_linked"])
c("C11", "proved", ["Arax.IList.C11_other_lists_intact"])
c("C12", "proved", ["Arax.Kv.C12_bounded_map", "Arax.Kv.C12_slot_stable"])
F = "Arax.Config."
c("C13", "partial", [F+"C13_write_read_partial", F+"C13_default_recorded", F+"C13_violated"],
  "False for keys that already have an entry: C13_violated proves the new value is never visible; proved for keys without an entry.")
c("C14", "proved", [F+"C14_other_keys", F+"C14_other_keys_long", F+"C14_needs_newline"])
c("C15", "partial", [F+"C15_long_roundtrip_partial", F+"C15_long_decimal", F+"C15_long_safe_partial", F+"C15_get_long_default", F+"C15_size_default_written", F+"C15_get_int", F+"C15_get_bool", F+"C15_get_size", F+"C15_violated", F+"C15_malformed_grows"],
  "Round trip proved for keys without an entry; a value of 22 or more digits overruns char cval[22] (C15_violated); safe for values up to 21 characters.")
c("C16", "partial", ["Arax.Path.C16_expands", "Arax.Path.C16_too_long_partial", "Arax.Path.C16_null", "Arax.Path.C16_violated"],
  "One-byte overflow when a '~' expansion ends exactly at offset 4096 (C16_violated); proved everywhere else.")
T = "Arax.Throttle."
c("C17", "proved", [T+"C17_conservation", T+"C17_exclusion"])
c("C18", "partial", [T+"C18_limits_partial", T+"C18_violated"],
  "Proved for the enforcing build (ARAX_THROTTLE_ENFORCE); the default build wraps (C18_violated).")
c("C19", "partial", [T+"C19_no_stuck_waiter_partial", T+"C19_spin_partial", T+"C19_violated_spin"],
  "Proved for the mutex back-end; false for the spin back-end with several waiting threads (one token per notify, C19_violated_spin), proved there for one waiting thread (C19_spin_partial).")
A = "Arax.Completion."
c("C20", "proved", [A+"C20_wait_after_complete", A+"C20_returns_marked_state"])
c("C21", "partial", [A+"C21_first_wait_partial", A+"C21_violated_failed", A+"C21_violated_twice"],
  "False of the code: waiting on a failed task aborts (C21_violated_failed) and a second wait never returns (C21_violated_twice). Proved: the first wait on a task that did not fail returns its state.")
c("C22", "partial", [A+"C22_spin_partial", A+"C22_mutex_sound_partial", A+"C22_violated_mutex", A+"C22_violated_mutex_unlock"],
  "Proved for the spin back-end and, for one completer, soundness of the mutex back-end; overlapping mutex checks report a completed task as not completed (C22_violated_mutex).")
S = "Arax.Semaphore."
c("C23", "partial", [S+"C23_counting_spin_partial", S+"C23_dec_proceeds_spin_partial", S+"C23_counting_posix", S+"C23_violated_spin_large", S+"C23_violated_ivshmem_dec", S+"C23_violated_ivshmem_inc"],
  "Counting proved for spin and POSIX back-ends; progress for spin needs value < 2^31 (C23_violated_spin_large); the ivshmem dec never succeeds on a positive value (swapped CAS arguments).")
R = "Arax.Ready."
c("C24", "partial", [R+"C24_all_return_mutex_partial", R+"C24_all_return_spin_partial", R+"C24_violated_mutex", R+"C24_violated_spin"],
  "False: arax_controller_init_done notifies without the lock (lost wake-up, C24_violated_mutex) and the spin back-end wakes only one application (C24_violated_spin). Proved under every fair schedule when the notification does not fall into the window.")
O = "Arax.Object."
c("C25", "proved", [O+"C25_live_iff_referenced", O+"C25_registered_iff_live", O+"C25_destroyed_exactly_at_zero", O+"C25_no_use_after_free"])
c("C26", "partial", [O+"C26_accounting_partial", O+"C26_repo_exit_exact", O+"C26_leak_check_partial", O+"C26_violated_failed_alloc", O+"C26_violated_late_join"],
  "The balance holds up to bytes charged for failed allocations, which are never refunded (C26_violated_failed_alloc); the leak check is exact for a process that joined an empty segment and wrong for one that joined later (C26_violated_late_join).")
c("C27", "partial", [O+"C27_targets_live", O+"C27_issue_holds", O+"C27_all_reclaimed", O+"C27_violated_phys"],
  "Proved for all histories except destroying a physical accelerator that still has virtual accelerators, which the code does not prevent and which makes their release touch freed memory (C27_violated_phys).")
c("C50", "partial", [O+"C50_count_exact_partial", O+"C50_violated"],
  "Exact for migrate/set/set_remote/destroy; arax_data_set_accel on an assigned data leaks the old accelerator's reference (C50_violated).")
c("C57", "partial", [O+"C57_held_proc_live_partial", O+"C57_violated"],
  "False: a task takes no reference on its procedure (C57_violated). A client that keeps its own reference until the tasks are done is safe.")
PC_ = "Arax.ProcConc."
FN = "Arax.Functor."
c("C28", "partial", [O+"C28_balanced_partial", O+"C28_violated", PC_+"C28_concurrent_partial", PC_+"C28_violated_concurrent"],
  "False: arax_proc_register on an existing name grants a reference without taking one (C28_violated), and arax_proc_get takes its reference after releasing the list lock (C28_violated_concurrent). Proved: balance when every register creates; and for every interleaving, get is safe exactly when somebody still holds the procedure.")
c("C29", "partial", [O+"C29_lookup_exact", O+"C29_unique", O+"C29_get", PC_+"C29_unique_concurrent_partial", PC_+"C29_violated_concurrent"],
  "Proved as stated for calls one at a time; overlapping registrations of one name create duplicates (C29_violated_concurrent), any other interleaving is proved safe.")
c("C30", "proved", [FN+"C30_functor_table", FN+"C30_invalid_aborts", FN+"C30_null_functor_can_run"])
c("C31", "proved", [FN+"C31_from_str", FN+"C31_round_trip"])

CT = "Arax.Accel.Count."
PL = "Arax.Accel.Place."
c("C32", "partial", [CT+"C32_never_under_reports_partial", CT+"C32_queued_work_wakes_worker_partial", CT+"C32_round_robin", CT+"C32_wrap_violated", CT+"C32_elastic_violated"],
  "False as stated: removal of a queue while a submission is between push and count wraps the counter for good (C32_wrap_violated); removal behind the worker's back starves a queue (C32_elastic_violated). Proved for all other histories, and without side condition for the round-robin scheduler.")
c("C33", "partial", [CT+"C33_exact_round_robin_partial", CT+"C33_token_finds_task_partial", CT+"C33_violated"],
  "False when a non-empty queue is removed (the count keeps one extra); proved exact for the round-robin scheduler.")
c("C34", "partial", [PL+"C34_one_place_partial", PL+"C34_no_failure_partial", PL+"C34_orphan_handed_once_partial", PL+"C34_set_physical_violated", PL+"C34_release_violated"],
  "False when arax_accel_set_physical or a release races with the balancer; proved for all histories with one mover per virtual accelerator at a time.")
c("C58", "partial", [CT+"C58_looks_at_live_partial", CT+"C58_violated"],
  "False: the snapshot takes no references. Proved when no release falls into a scan.")
SC = "Arax.Sched."
c("C35", "proved", [SC+"C35_select_sound", SC+"C35_select_complete", SC+"C35_null_only_when_empty"])
c("C36", "proved", [SC+"C36_no_starvation"])
c("C37", "partial", [SC+"C37_first_partial", SC+"C37_cycles_partial", SC+"C37_violated", SC+"C37_mixed_types_violated"],
  "False: the static iterator points into a container of an earlier call (C37_violated, C37_mixed_types_violated). Proved for the first call and for calls whose container is the same object.")
c("C56", "partial", [SC+"C56_returns_runnable", SC+"C56_orphans_only_unrunnable", SC+"C56_all_moved_when_null_partial", SC+"C56_examined_moved", SC+"C56_stops_early_violated", SC+"C56_assign_runnable_partial", SC+"C56_assign_complete_partial"],
  "selectTask stops its pass at the first runnable task, so later unrunnable tasks stay (C56_stops_early_violated); everything else is proved.")
LY = "Arax.Layout."
c("C38", "proved", [LY+"C38_placement", LY+"C38_live_buffers", LY+"C38_buffers_disjoint", LY+"C38_align_zero"],
  "C38_wraps documents that a total that overflows size_t is not rejected (outside the quantifier).")
c("C39", "partial", [LY+"C39_round_trip", LY+"C39_offset_partial", LY+"C39_outside_partial", LY+"C39_violated"],
  "arax_data_ref is proved as stated, for all buffer contents. arax_data_ref_offset is false as stated: it trusts the user bytes in front of the address (C39_violated); proved when those bytes do not spell the address of a data object.")
c("C40", "proved", [LY+"C40_host_area", LY+"C40_io_slots", LY+"C40_wrong_size"])
c("C41", "partial", [LY+"C41_layout", LY+"C41_pipe_layout", LY+"C41_runs_disjoint", LY+"C41_runs_inside_partial", LY+"C41_one_page_inside", LY+"C41_ummap_ok", LY+"C41_violated"],
  "Layout proved as stated. Page runs can leave the segment when the page count is not a multiple of 64 (C41_violated, from C04); proved for multiples of 64 and for one-page requests.")
PM = "Arax.ProcMap."
c("C42", "partial", [PM+"C42_partial", PM+"C42_unmap_unknown", PM+"C42_full_map_not_registered", PM+"C42_violated_stale", PM+"C42_violated_lost"],
  "arax_pipe_mark_unmap passes a cell count to memmove as a byte count, so with more than 128 processes entries go stale or get lost (C42_violated_stale, C42_violated_lost). Proved for every history with 8*B <= N+3 processes.")
LF = "Arax.Life."
c("C43", "partial", [LF+"C43_lifetime_partial", LF+"C43_unlink_only_unused_partial", LF+"C43_violated_api", LF+"C43_violated_race", LF+"C43_violated_reinit", LF+"C43_violated_path"],
  "False as stated (any API call that checks a pointer increments the process count; init racing with the last exit; re-init in an exiting process; absolute path). Proved for relative names when inits and exits of the same scope do not overlap and no API call bumps the counter.")
PI = "Arax.PipeInit."
c("C44", "partial", [PI+"C44_one_initialiser", PI+"C44_revision_check", PI+"C44_header_ready_partial", PI+"C44_full_partial", PI+"C44_violated", PI+"C44_violated_mismatch"],
  "Later callers only wait for the revision string, not for the rest of the initialisation (C44_violated); a rejected caller stays counted (C44_violated_mismatch).")
c("C45", "proved", [PI+"C45_same_address"])
AG = "Arax.Args."
c("C46", "proved", [AG+"C46_rejects", AG+"C46_accepts", AG+"C46_unusable_aborts", AG+"C46_other_device_aborts", AG+"C46_count_truncated", AG+"C46_count_negative"],
  "Acceptance needs counts that fit an int (C46_count_truncated shows what happens to 2^32 inputs) and data that is not bound to another device (documented restriction: C46_unusable_aborts, for any argument anywhere).")
EX = "Arax.Exec."
c("C47", "proved", [EX+"C47_issue_order", EX+"C47_program_order", EX+"C47_atomic", EX+"C47_one_queue"],
  "Any number of clients, virtual accelerators, workers; handlers are arbitrary terminating programs that stay inside their buffers.")
c("C48", "partial", [EX+"C48_get_returns", EX+"C48_read_your_writes", EX+"C48_set", EX+"C48_refused", EX+"C48_memset", EX+"C48_memcpy", EX+"C48_violated"],
  "Proved when the data used with a virtual accelerator is used with no other one; with two virtual accelerators of one device the library rebinds the data and a get overtakes the set (C48_violated).")
DC = "Arax.DataCopy."
c("C49", "partial", [DC+"C49_same", DC+"C49_mismatch", DC+"C49_unassigned_source", DC+"C49_empty_partial", DC+"C49_violated"],
  "The copy itself is undefined behaviour for every pair of distinct non-empty data objects: the blocking get is given a NULL destination.")

CF = "Arax.Ctrl.Conf."
c("C51", "partial", [CF+"C51_sound", CF+"C51_complete_partial", CF+"C51_default_names_differ", CF+"C51_violated"],
  "Only configured accelerators are returned, each once (C51_sound); all of them if their names differ, in particular if no names are given; with equal names accelerators are silently dropped (C51_violated).")
ST = "Arax.Ctrl."
c("C52", "partial", [ST+"C52_trim", ST+"C52_decode_partial", ST+"C52_violated", ST+"C52_values_keep_case", ST+"C52_join"],
  "An empty last value is dropped (C52_violated); everything else is proved.")
HD = "Arax.Ctrl.Handler."
c("C53", "proved", [HD+"C53_load", HD+"C53_decode", HD+"C53_unknown_arch_aborts"])
c("C54", "proved", ["Arax.Timer.C54_ns", "Arax.Timer.C54_durations", "Arax.Timer.C54_overflow"], "For times before the year 2262.")
LS = "Arax.Listing."
c("C55", "partial", [LS+"C55_list", LS+"C55_free", LS+"C55_relist", LS+"C55_free_later", LS+"C55_relist_later_partial", LS+"C55_violated_hang", LS+"C55_violated_hang_always"],
  "Proved for a NULL array pointer, and for an earlier array of accelerators the caller still has references on, whatever happened in between (C55_relist_later_partial); freeing an array works in every such state (C55_free_later). A call that drops the last reference of a physical accelerator while listing virtual ones deadlocks (C55_violated_hang).")
c("C59", "proved", ["Arax.Ctrl.Cpu.C59_affinity", "Arax.Ctrl.Cpu.C59_misread"], "Lists written without blanks; C59_misread shows what happens to others.")
c("C60", "partial", [CF+"C60_accepted", CF+"C60_pref", CF+"C60_violated"],
  "OpenCL accelerators cannot be configured at all (C60_violated); the other four back ends can (C60_accepted).")
RN = "Arax.Rename."
c("C61", "partial", [RN+"C61_rename_partial", RN+"C61_violated"], "Formats with conversions use the argument list twice: undefined behaviour.")
PR = "Arax.PhysRelease."
c("C62", "partial", [PR+"C62_release_partial", PR+"C62_invariant_partial", PR+"C62_not_last", PR+"C62_violated"],
  "The assertion in the destructor tests a string literal, so it never fires; attached virtual accelerators dangle.")
WK = "Arax.Worker."
c("C63", "proved", [WK+"C63_woken", WK+"C63_exact", WK+"C63_two_workers"],
  "Both back-ends; C63_two_workers shows that one worker per accelerator (or one task per notification) is needed with the spin back-end.")
OR = "Arax.Orphan."
c("C64", "partial", [OR+"C64_woken", OR+"C64_each_once", OR+"C64_null_partial", OR+"C64_violated_spin", OR+"C64_violated_mutex", OR+"C64_violated_spurious"],
  "Wake-up and at-most-once are proved in full; NULL without a stop is possible (stale spin tokens, removal before wake-up, spurious wake-ups), and the balancer then passes NULL on.")
LV = "Arax.Live."
c("C65", "partial", [LV+"C65_executed_partial", LV+"C65_once_in_order", LV+"C65_violated"],
  "False when more tasks than the queue holds are issued before the virtual accelerator is assigned: client and balancer block each other for ever (C65_violated, for every capacity). Proved for all other histories.")
CD = "Arax.Cond."
c("C66", "partial", [CD+"C66_exclusion", CD+"C66_returns", CD+"C66_locks_return", CD+"C66_notify_wakes_all", CD+"Iv.C66_violated_ivshmem_hang", CD+"Iv.C66_violated_ivshmem_exclusion", CD+"Iv.C66_violated_ivshmem_self"],
  "Proved in full for the mutex and spin back-ends; with ivshmem a lock of a free condition can hang and two threads can hold it at once (C66_violated_*).")
DM = "Arax.DevMem."
c("C67", "partial", [DM+"C67_balance_partial", DM+"C67_exact_partial", DM+"C67_returned_partial", DM+"C67_violated_remote", DM+"C67_violated_hang", DM+"C67_violated_cuda", DM+"C67_violated_cuda_abort", DM+"C67_violated_two_devices"],
  "False: arax_data_allocate_remote charges a second time (C67_violated_remote, all back-ends and sizes; with ENFORCE it can hang, C67_violated_hang), the CUDA memset/memcpy handlers do not charge at all (C67_violated_cuda*), and a data object used on two devices is charged twice (C67_violated_two_devices). Proved exactly for all other histories.")
c("C68", "partial", [DM+"C68_no_wait_partial", DM+"C68_never_released", DM+"C68_violated"],
  "False: a worker that waits for memory of its own accelerator is never released, because only it executes the tasks that free memory (C68_never_released, C68_violated for every capacity). Proved: no worker ever waits when the device holds all data objects used with it at once.")
EL = "Arax.Elastic."
c("C69", "partial", [EL+"C69_round_robin_partial", EL+"C69_assigned", EL+"C69_placement_partial", EL+"C69_no_abort_partial", EL+"C69_free_vaq_stays", EL+"C69_violated_iterator", EL+"C69_violated_types", EL+"C69_violated_none", EL+"C69_violated_default", EL+"C69_violated_twice", EL+"C69_violated_accounting", EL+"C69_violated_stale"],
  "False: the static iterator into a local vector dangles (C69_violated_iterator, _types, _none); the default build moves virtual accelerators without their data (C69_violated_default); with MIGRATION only the last moved virtual accelerator's data follows (C69_violated_twice), the bytes are given back to the wrong device (C69_violated_accounting); a slow worker makes the balancer abort (C69_violated_stale). Proved: round robin with a constant address and one type; with MIGRATION, if each move is finished before the next assignment, every task finds its data; no abort with up to date lists.")
CT = "Arax.Control."
c("C70", "partial", [CT+"C70_start_partial", CT+"C70_pause_partial", CT+"C70_resume_partial", CT+"C70_stop_bound", CT+"C70_shutdown_partial", CT+"C70_released_partial", CT+"C70_release_after_end", CT+"C70_violated_race", CT+"C70_violated_late_pause", CT+"C70_violated_pending", CT+"C70_violated_balancer", CT+"C70_violated_twice", CT+"C70_violated_init"],
  "Proved for all histories and fair schedules when accelerators initialise, one caller at a time changes a worker's preference and nobody pauses during shutdown. False otherwise: two concurrent callers can block a worker for ever (C70_violated_race), so can a pause during shutdown (C70_violated_late_pause); pending tasks are never executed (C70_violated_pending); the balancer goes on and loses virtual accelerators (C70_violated_balancer); a second SIGINT throws in the handler (C70_violated_twice); a failed initialisation makes the controller spin for ever (C70_violated_init).")
LB = "Arax.Libs."
c("C71", "partial", [LB+"C71_startup", LB+"C71_startup_failed", LB+"C71_runtime_partial", LB+"C71_replaced_before_read", LB+"C71_stop_partial", LB+"C71_violated_batch", LB+"C71_violated_rename", LB+"C71_violated_stale", LB+"C71_violated_long", LB+"C71_violated_hidden", LB+"C71_violated_links", LB+"C71_violated_stop"],
  "Startup proved for every file system and every list of folders. Run time: proved when the loader reads after each file; false otherwise: of several events in one read only the first is used (C71_violated_batch), renamed files and new folders give no event (C71_violated_rename), a new version is never loaded (C71_violated_stale), names of 240 or more characters make it use an unread event (C71_violated_long), hidden files are treated differently (C71_violated_hidden); links make one file load under several names (C71_violated_links); a first folder that is not writable blocks the shutdown (C71_violated_stop).")
SG = "Arax.Segment."
c("C72", "partial", [SG+"C72_same_size_partial", SG+"C72_own_memory_partial", SG+"C72_contents_partial", SG+"C72_violated_shrink", SG+"C72_violated_small", SG+"C72_violated_unmap_own", SG+"C72_violated_rejoin", SG+"C72_violated_place"],
  "Proved for every history when all processes configure the same size and have the place free; contents and accesses also when nobody joins with less than the size of the segment. False otherwise: a smaller process cuts the file under the others (C72_violated_shrink) or, without shm_trunc, is killed itself (C72_violated_small) and unmaps its own memory when it leaves (C72_violated_unmap_own); a larger one cannot join a second time (C72_violated_rejoin); the address is whatever the creator got (C72_violated_place).")
DL = "Arax.Dl."
c("C73", "partial", [DL+"C73_never_corrupt", DL+"C73_blocks_partial", DL+"C73_disjoint", DL+"C73_contents", DL+"C73_write", DL+"C73_alloc", DL+"C73_free", DL+"Seat.layout", DL+"C73_whole_segment", DL+"C73_past_end_violated", DL+"C73_null_violated"],
  "dlmalloc modelled to the boundary tags; proved for every history of any number of allocators. False in two points: with a number of pages that is not a multiple of 64 a block can reach past the end of the segment (C73_past_end_violated, from C04; C73_blocks_partial proves it for multiples of 64), and when there is no room the call aborts instead of returning NULL (C73_null_violated; C73_alloc says exactly when).")
c("C74", "partial", [DL+"C74_pages_partial", DL+"C74_footprint", DL+"C74_lost_forever", DL+"C74_destroy_partial", DL+"C74_all_back_partial", DL+"C74_destroy_violated", DL+"C74_trim_violated"],
  "False: arch_alloc_exit leaves the pages of directly mapped blocks taken for ever (C74_destroy_violated, C74_lost_forever), and where CALL_MREMAP is the system's mremap the trimmed pages stay taken (C74_trim_violated). Proved: footprint = regions always; without mremap, pages taken = regions of the existing allocators and what destroyed ones left; destroying gives back exactly the rest; all pages come back if no allocator is destroyed with a directly mapped block.")
c("C75", "partial", [DL+"C75_stats_partial", DL+"C75_plain_partial", DL+"C75_inspect_partial", DL+"C75_stats_violated", DL+"C75_inspect_violated"],
  "False for directly mapped blocks (256 KiB or more): they are in used_bytes but not in total_bytes, so that vdf's Free is negative (C75_stats_violated), and are not inspected (C75_inspect_violated); both numbers are modulo 2^32 (in the statement of C75_stats_partial). Proved: exact values always; the claim as alloc.h has it for one segment below 4 GiB without direct blocks (C75_plain_partial); everything about inspection but direct blocks.")
c("C76", "proved", [DL+"C76_reuse", DL+"C76_merged"],
  "For every history of any number of allocators. The choice of the trees among chunks is the parameter pick, over which both theorems quantify.")
c("C77", "proved", [DL+"C77_refines", DL+"C77_never_corrupt", DL+"C77_disjoint", DL+"C77_contents", DL+"C77_best_fit", DL+"C77_small_fit", DL+"C77_huge_violated"],
  "For every history of any number of allocators in segments of up to 1 TiB. Chunks of 2^40 bytes or more go to the wrong tree (C77_huge_violated shows that the limit is needed). C77_refines carries all theorems of C73 to C76 over to the allocator with real bins.")
c("C78", "partial", [DL+"C78_alone", DL+"C78_never_corrupt", DL+"C78_exclusive", DL+"C78_disjoint", DL+"C78_blocks_partial", DL+"C78_contents", DL+"C78_write", DL+"C78_alloc", DL+"C78_free", DL+"C78_pages", DL+"C78_returns", DL+"C78_result", DL+"C78_acquire", DL+"C78_stuck", DL+"C78_crash_violated", DL+"C78_nomem_violated"],
  "Proved for every interleaving: safety, exclusion, contents, exact effects of the calls, pages, bounded return. False: a thread that dies in a call (C78_crash_violated) or aborts for want of memory (C78_nomem_violated: arax_mmap asserts with the allocator's lock held) leaves the lock taken, and every later caller of that allocator, in any process, waits for ever (C78_stuck). Blocks past the end of the segment as in C73.")
LK = "Arax.Locks."
c("C79", "partial", [LK+"C79_ordered", LK+"C79_waits", LK+"C79_exclusive", LK+"C79_no_circle", LK+"C79_no_deadlock_partial", LK+"C79_finite", LK+"C79_quiet_partial", LK+"C79_room_violated", LK+"C79_death_violated", LK+"C79_space_violated", LK+"C79_relist_violated", LK+"C79_relist_use_violated", LK+"C79_inspect_violated"],
  "Proved for all calls, paths and interleavings: order, exclusion, no circle, no lock at the end of a call, finitely many steps between events. False: a thread that waits for room in a full task queue keeps the lock of the virtual accelerator (C79_room_violated); a worker that starts with enforced throttles sleeps with the print lock (C79_space_violated); a thread that dies keeps its locks (C79_death_violated); arax_accel_list with the array of an earlier list of the other kind locks itself out or changes a list without its lock (C79_relist_violated, C79_relist_use_violated), as does an inspect function that allocates. The partial theorems say that nothing else goes wrong.")
RC = "Arax.Reclaim."
c("C80", "partial", [RC+"C80_not_early", RC+"C80_once", RC+"C80_returns_partial", RC+"C80_given_back", RC+"C80_serves", RC+"C80_violated"],
  "Proved for every history: freed only after the last reference, exactly once, in order; while at most as many data objects have device memory as free_vaq has places, every drop returns after two own steps per reference. False otherwise: with a full free_vaq the worker, who alone empties it, waits for room in it for ever as soon as it drops a last reference itself (C80_violated, for every capacity; the user waited for and freed each task, freed each data object once).")
ST = "Arax.Stream."
c("C81", "proved", [ST+"C81_outputs", ST+"C81_get_returns", ST+"C81_order", ST+"C81_once", ST+"C81_read_back"],
  "For requests the user may make (memset in bounds, memcpy from offsets inside, kernels inside their buffers that wait if they use the host area). The driver is assumed to be as its documentation says (Stream/Model header). Rebinding of data to another virtual accelerator: see C48; migration: C69.")
c("C82", "partial", [ST+"C82_set_partial", ST+"C82_get_partial", ST+"C82_memset_partial", ST+"C82_memcpy_partial", ST+"C82_memcpy_checked", ST+"C82_others_partial", ST+"C82_marked_partial", ST+"C82_valid_partial", ST+"C82_opencl_memset_int", ST+"C82_violated_opencl_memset", ST+"C82_violated_opencl_offset", ST+"C82_violated_opencl_free", ST+"C82_violated_opencl_memcpy", ST+"C82_violated_opencl_size", ST+"C82_violated_opencl_big", ST+"C82_violated_cuda_memcpy", ST+"C82_violated_wrap", ST+"C82_violated_memset_bounds", ST+"C82_violated_abort"],
  "Proved on CUDA and HIP for requests in bounds, set and get also on OpenCL below 2 GiB, and that legal tasks leave other data alone. False: OpenCL memset ignores its size, writes an int pattern, does nothing with an offset and frees the task the user waits for; OpenCL memcpy copies the whole source; OpenCL sizes are cut to int; CUDA memcpy without sync is never marked nor freed; the bounds check of memcpy wraps for offsets past the end and memset has none, so that another client's data is overwritten; a refused memcpy aborts the controller for everybody.")
TS = "Arax.Tso."
c("C83", "partial", [TS+"C83_sections_serial", TS+"C83_inside_serial", TS+"KvC.C83_kv_serial", TS+"QueueC.C83_fifo_partial", TS+"QueueC.C83_push_visible", TS+"QueueC.C83_solo_pop", TS+"QueueC.C83_violated_load_order"],
  "Proved for per-thread store buffers that write back in any order (TSO and PSO), every schedule and any sections. False on processors that execute loads out of order: utils_queue_pop has no barrier between the loads of bottom (queue.c:73) and of the entry (81), so that a pop can take an element out and return NULL (C83_violated_load_order; spinlock.h:6-12 provides for such machines). The window of 65536 pops is that of C08.")
LI = "Arax.Queue.Lin."
c("C84", "partial", [LI+"C84_linearizable_partial", LI+"C84_one_popper", "Arax.Queue.Multi.C84_many_queues", LI+"C84_histories_partial", TS+"QueueC.C84_delayed_stores_partial", "Arax.Queue.Conc.C08_violated_aba"],
  "Proved for every program, capacity up to 2^15 and interleaving in which no pop is overtaken by 65536 others during its call (false then, C08_violated_aba); without any restriction for programs that never pop from two threads at once (C84_one_popper). Also with store buffers.")
JS = "Arax.Json."
c("C85", "partial", [JS+"C85_reads", JS+"C85_exact_partial", JS+"C85_unambiguous", JS+"C85_config", JS+"C85_violated_trailing", JS+"C85_violated_redeclared"],
  "Proved for every document: it is read as what it denotes (numbers exactly; rounding to double is not modelled), and the controller starts with configuration c iff the document describes c. False: text that follows the first value is ignored (C85_violated_trailing), numbers may have leading zeros or lack digits (C85_exact_partial says exactly what is accepted), and a group declared twice is not refused although Config.cpp:281-284 means to (C85_violated_redeclared).")
RE = "Arax.Exec.Real."
c("C86", "proved", [RE+"C86_refines", RE+"C86_order", RE+"C86_program_order", RE+"C86_serial", RE+"C86_get_returns", RE+"C86_read_your_writes", RE+"C86_lock"],
  "Refinement of the list queues of Exec (C47, C48) by the ring queues at the level of single memory accesses, the spinlock of the virtual accelerator and the retry loop of arax_vaccel_add_task. Virtual accelerators stay on their physical accelerator. The pending-task counter and wake-ups are those of C32, C33 and C63, not part of this model. demo_reaches is a run in which a get, a set of another client and the worker's pop overlap.")
AT = "Arax.Attr."
c("C87", "partial", [AT+"C87_attributes_partial", AT+"C87_setters_return", AT+"C87_assertions", AT+"C87_stat_partial", AT+"C87_violated_stat"],
  "Proved on byte memory with the C struct layout, for every size of the platform's types. arax_accel_stat is wrong: it dereferences NULL for a virtual accelerator without physical one (C87_violated_stat) and returns accel_idle otherwise, whatever the accelerator does (C87_stat_partial).")
c("C88", "partial", ["Arax.Queue.Conc."+"C88_value_partial", "Arax.Queue.Conc."+"C88_pushers_excluded_partial", "Arax.Queue.Conc."+"C88_poppers_excluded_partial", "Arax.Queue.Conc."+"C88_top_first_partial", "Arax.Queue.Conc."+"C88_violated"],
  "False in general, in either order of the loads (C88_violated: 65535 reported for a queue that never held more than one, 0 for one that was never empty, 2 for one with room for 1). Proved: the exact value in all executions; it is a true length while pushes are excluded, which is so where the library uses it to adjust the pending-task counter (arax_accel.c:127, 166), or while pops are. Restricted, as C08, to executions in which no pop is overtaken by 65536 others.")
PL = "Arax.Plot."
c("C89", "partial", [PL+"C89_page_partial", PL+"C89_crash_partial", PL+"C89_violated_crash", PL+"C89_violated_end"],
  "Proved for every recording of which at least two samples precede the idle end. Otherwise the program moves an iterator beyond the end of a list and crashes (C89_crash_partial: exactly then; C89_violated_crash). The idle end is cut off together with the change that leads to it, so the final values may not appear at all (C89_violated_end). Title and labels are put into the page without escaping; they are not modelled.")

G = "Arax.Grind."
c("C90", "partial", [G+"C90_report_partial", G+"C90_sources_partial", G+"C90_print_size", G+"C90_print_size_limit", G+"C90_inspect_object", G+"C90_inspect_outside", G+"C90_inspect_inside_partial", G+"C90_violated_sources", G+"C90_violated_task_bytes", G+"C90_violated_name"],
  "Proved: the whole report except the number of sources, which counts sizes instead of lines (C90_violated_sources), and the bytes of tasks, whose arguments and host data are left out (C90_violated_task_bytes). Addresses: objects exactly; inside buffers object and offset, but the name is taken from the user's bytes at the address and the tool dies if they are zero (C90_violated_name).")
c("C91", "partial", [G+"C91_parity", G+"C91_options_partial", G+"C91_reject", G+"C91_operand_missing", G+"C91_round_trip", G+"C91_negative", G+"C91_violated_twice", G+"C91_violated_junk", G+"C91_violated_operand", G+"C91_violated_operand_option"],
  "Proved for every documented command line: exact effect (an option is in force if an odd number of words has it), refusal of unknown words, round trip of addresses. Violated: options given twice cancel, any word with one dash and one known letter is taken for options, malformed operands are read as 0.")

PB = "Arax.Publish."
c("C92", "partial", [PB+"C92_words_partial", PB+"C92_functors_partial", PB+"C92_violated_lost", PB+"C92_violated_canrun", PB+"C92_violated_garbage"],
  "False: arax_object_register inserts the object into the list before setting its fields to zero, so a functor set by a thread that finds it early is erased (C92_violated_lost), stale contents are visible (C92_violated_garbage), and concurrent arax_proc_set_functor calls lose bits of canrun (C92_violated_canrun). Proved for all interleavings in which objects are touched only after their creator is done: assigned words are exact, no bit of canrun is invented, and none is lost if the updates of canrun do not overlap.")

SU = "Arax.Startup."
c("C93", "partial", [SU+x for x in ["C93_returns_iff_can_join_partial","C93_reason_true_partial","C93_ends_properly_partial","C93_balanced_calls_partial","C93_violated_refusals","C93_violated_no_name","C93_violated_no_space","C93_violated_other_file","C93_violated_waits","C93_violated_old_number","C93_violated_warning","C93_violated_extra_exit"]],
  "Proved: arax_init returns exactly if the process can join, the printed reasons are true, where the process ends properly, and balanced sequences of calls. Violated: the common failure path reads the size of the segment through a pointer that is null or unmapped, so most refusals crash before the process ends with status 1; a failing ftruncate is overlooked; the size is taken from a file of the same name in the working directory; the warning of arax_exit cannot be reached and a superfluous arax_exit crashes.")
KM = "Arax.KernelMap."
c("C94", "proved", [KM+"C94_table", KM+"C94_duplicates", KM+"C94_width"], "For names without the four characters that the table itself uses as separators.")
RN = "Arax.Run."
c("C95", "partial", [RN+x for x in ["C95_no_kernels_partial","C95_no_argument_partial","C95_others_keep_partial","C95_violated_kernels","C95_violated_config","C95_violated_refusal","C95_violated_clean"]],
  "Proved: runs that register no kernel and are not refused midway restore the segment; a call without argument does not touch it; others always keep their objects. Violated: procedures registered by libraries are never released, so that the check for leaks aborts the last process; an exception of the configuration is thrown by value and caught as pointer; refusals in main return without arax_exit.")

AS = "Arax.Assert."
c("C96", "partial", [AS+x for x in ["C96_assert_partial","C96_objects_partial","C96_violated_stack","C96_violated_stack_lost","C96_violated_outside","C96_violated_objects"]],
  "Proved: text, place and abort for all files of the source tree, and that the function _arax_assert_obj lets exactly objects of the type pass. Violated: the test in system_backtrace is inverted, so no stack is ever shown; files outside the tree are named by reading outside their names; the macro arax_assert_obj expands to a declaration and checks nothing.")
SH = "Arax.Ctrl.Shown."
c("C97", "partial", [SH+x for x in ["C97_cores","C97_read_back","C97_unambiguous_partial","C97_violated_names","C97_violated_lookup"]],
  "Proved: sets of cores, reading back, and unambiguity for texts without the characters the form uses itself. Violated: other names (not escaped); Config::getAccelerator of an unknown name inserts a null accelerator, which the printing dereferences before it tests it.")

EX = "Arax.Exec."
c("C98", "partial", [EX+x for x in ["C98_answer_partial","C98_input","C98_violated_long","C98_violated_empty"]],
  "Proved for all texts shorter than 2 GiB. The size is converted to int: from 2 GiB on the answer is empty; for data objects of size 0 the handler writes behind the buffer.")

FA = "Arax.Faults."
c("C99", "partial", [FA+x for x in ["C99_others_partial","C99_isolated_partial","C99_violated_silent","C99_violated_silent_witness","C99_violated_other"]],
  "Proved: with standard exceptions only, every task shows what its own handler marked, and all others are executed; the whole property for handlers that mark their task in every case. Violated: what a handler returns is dropped and a caught exception does not mark the task, so its client waits for ever; an exception not derived from std::exception ends the controller.")

VT = "Arax.Vtop."
c("C100", "partial", [VT+x for x in ["C100_amount_partial","C100_memory","C100_pages","C100_bar_partial","C100_bar_mono","C100_glyph","C100_window_partial","C100_reset","C100_graph_sound_partial","C100_violated_order","C100_violated_bar","C100_violated_full","C100_violated_bar_edges","C100_violated_narrow","C100_violated_graph","C100_violated_idle"]],
  "Proved: amounts (all 64-bit values: unit, error below 1/97, never too much), bars up to one dot and monotone, glyphs, the window of samples, no dot without a sample. Violated: a bar that ends inside a cell has one dot too many (a memory used to 7/8 can look full); a dot of the graph is overwritten by blanks unless its row happens to equal a dot number (`y != a`); a narrow terminal ends vtop; 1000 is shown as less than 999.")

KI = "Arax.Kill."
c("C101", "partial", [KI+x for x in ["C101_where_partial","C101_cross_dead","C101_kills_partial","C101_slots","C101_violated_name","C101_violated_zero","C101_violated_strike","C101_violated_zombie"]],
  "Proved: where a click goes, for every table; and, as long as no process has left since the table was built, that the process killed and struck off is the one named and numbered in the row. Violated: a row refers to a slot of the list but keeps the name: once a process has left, later ones move up and are killed under their predecessors' names, and the last row is `kill -9 0`; the slot is read again after the killing, so another process may be struck off.")

VD = "Arax.Vdf."
c("C102", "partial", [VD+x for x in ["C102_amount_partial","C102_bytes","C102_throttle","C102_leaks_partial","C102_labels_partial","C102_label_text","C102_table_partial","C102_violated_mib","C102_violated_time","C102_violated_leaks","C102_violated_allocations","C102_violated_labels","C102_violated_names"]],
  "Proved: amounts for all 64-bit values; shares; shortened addresses are different when both ends of the segment have equally many digits; a page read back shows every object with its data if no text has `<` or `&`. Violated: names are not quoted (a client can close the table), allocations are collected and thrown away, division by zero before the first allocation, shortened addresses can collide, 1 MiB is shown as 1024 Kb.")

DV = "Arax.Devices."
CL = "Arax.OpenCL."
c("C103", "partial", [DV+x for x in ["C103_gpu_up_partial","C103_register_partial","C103_register_agree_partial","C103_cuda_index","C103_violated_register","C103_violated_release","C103_violated_hip_index"]] + [CL+x for x in ["C103_cl_single_partial","C103_cl_up_partial","C103_violated_cl_two_kernels","C103_violated_cl_two_accelerators","C103_violated_cl_no_kernels","C103_violated_cl_device","C103_violated_cl_context","C103_violated_cl_index"]],
  "Proved: CUDA and HIP accelerators on existing devices come up in any number and order, with their own streams; the segment is registered once; OpenCL accelerators of one device come up and can use their kernels; one with one kernel is released completely. Violated: releasing a CUDA or HIP accelerator removes the name of the segment and never unregisters it; registration is lost if only the second accelerator of a device asks; OpenCL: two kernels or two accelerators abort at release, none leaks, the device number is ignored, kernels are mixed up between devices; HIP and OpenCL index arrays with unchecked numbers.")

IVS = "Arax.Ivshmem."
c("C104", "partial", [IVS+x for x in ["C104_only_after_partial","C104_returns_partial","C104_violated_complete_first","C104_violated_two_waiters","C104_violated_self_lock"]],
  "Proved: a wait returns only after complete, in every history; if tasks are completed while their one waiter sleeps, the list stays intact and a bell, a ringer or an open mutex is always there, so the wait returns. Violated: a task finished before the wait hangs its user; two waiters corrupt the list of waiters; a waiter that arrives when the mutex was just opened for another locks itself and the other out. The interrupt thread's list operations are atomic in the model; in the code they are not protected by the lock.")

SVC = "Arax.Services."
c("C105", "partial", [SVC+x for x in ["C105_handle_fresh_partial","C105_create_answers_partial","C105_give_back_partial","C105_refused_partial","C105_never_foreign","C105_handles_exact_partial","C105_violated_providers_leak","C105_violated_unknown_name","C105_violated_cudnn_not_built","C105_violated_handle_lost","C105_violated_map_race"]],
  "Proved for all histories: handles are fresh and of the library asked for, go back to the library that made them, once; what is not held cannot be given back; with GPU workers and libraries that do not refuse, the live handles are exactly those held. Violated: a name that is not linked in crashes the controller; each request leaks a provider object; a return from a worker of another type loses the handle; the map of handles is shared by the workers without a lock.")
IVM = "Arax.IvshmemSem."
c("C106", "partial", [IVM+x for x in ["C106_value_counts_partial","C106_inc_returns_partial","C106_violated_never_returns","C106_violated_lock_excludes","C106_violated_exit_never_returns"]],
  "Proved: the value is the number of increments in every history, increments and notifications return. Violated, for every schedule: no decrement and no wait for a condition ever returns, nor does leaving arax; two threads can hold the lock of a condition.")

MIG = "Arax.Migrate."
c("C107", "partial", [MIG+x for x in ["C107_task_sees_partial","C107_aborts_exactly","C107_books_exact","C107_books_partial","C107_violated_leaving_cpu","C107_violated_books","C107_violated_default_build"]],
  "Proved for all histories with the build option MIGRATION: tasks find what they should unless a buffer leaves a CPU accelerator, the controller aborts exactly then; the exact state of the books; they are right as long as no buffer moves. Violated: leaving a CPU aborts; after a move the books charge the device that used the buffer first; in the default build contents do not move at all.")
HLP = "Arax.Helpers."
c("C108", "partial", [HLP+x for x in ["C108_cpu","C108_cuda_partial","C108_hip_partial","C108_violated_hip_failure","C108_violated_cuda_unchecked","C108_violated_opencl"]],
  "Proved for all tasks: CPU; CUDA when errors are checked; ROCm when no allocation fails. Violated: a failed ROCm allocation ends in a completed task or in one that is never done; CUDA without error checking computes with null pointers; OpenCL marks every task done before its kernel, and again after it, and gives it no pointers.")

KIL = "Arax.Object.Killed."
c("C109", "partial", [KIL+x for x in ["C109_others_safe_partial","C109_lost_exactly","C109_violated_never_comes_back","C109_case"]],
  "Proved for all histories: nobody else is hurt; what is left in the end is exactly what dead processes held and what it refers to. Violated: it is never given back, whatever the others do; C109_case is a history with a kill after which 368 bytes are lost. Kills inside a call are C78 and C79.")

RC = "Arax.RefConc."
c("C110", "partial", [RC+x for x in ["C110_safe_partial","C110_count_partial","C110_destroyed_exactly_partial","C110_destroyer_goes_on","C110_lists_partial","C110_assertions","C110_violated_debug_build"]],
  "Proved at the level of single instructions for all interleavings, as long as no object has 2^31 references (2^16 with ARAX_REF_DEBUG) at a time. Violated in the build with ARAX_REF_DEBUG: the count has 16 bits, and dropping one of 65537 references destroys the object.")

PA = "Arax.Palette."
c("C111", "partial", [PA+x for x in ["C111_numbers","C111_names","C111_new_name_partial","C111_series_partial","C111_colour","C111_violated_many","C111_violated_mixed","C111_violated_exhausted"]],
  "Proved for every shuffle and every history: equal numbers (names) if and only if equal colours; a new name never has a colour given before; traces of at most 4096 metrics. Violated: from 4097 metrics on the vector is read behind its end; a number asked for after a name can have the name's colour; when all colours are used up, a new name dereferences the end of an empty set.")

VR = "Arax.VtopRows."
c("C112", "partial", [VR+x for x in ["C112_follows_setup","C112_truth_partial","C112_reattach","C112_counts","C112_keys","C112_violated_new","C112_violated_released"]],
  "Proved for every history: what the picture shows (the accelerators of the moment the table was made, with what their memory holds now), which is the truth until an accelerator comes or goes and again after (R); the counts are always right; the delay. Violated: the table is made once: a new accelerator is in no row, the row of a released one stays and shows what its memory was reused for.")

RG = "Arax.Registry."
c("C113", "partial", [RG+x for x in ["C113_writers","C113_right","C113_found_partial","C113_announced","C113_in_order","C113_comes_up","C113_goes_down","C113_violated_race","C113_violated_throws","C113_violated_end"]],
  "Proved for every number of workers and every interleaving: writers exclude each other; what is found is always the worker of that accelerator; all that serve are found while nobody writes and nobody was deleted; the announcement comes after every worker is ready; under fair schedules all come to serve, and after SIGINT all end. Violated: a worker says it is ready before its entry is made and readers take no lock, so that after the announcement a search can race with the writer, or throw; at the end workers are deleted while others may still search, and entries are never removed.")

VO = "Arax.VdfOpts."
c("C114", "partial", [VO+x for x in ["C114_parts","C114_unknown","C114_port_partial","C114_blanks","C114_violated_big","C114_violated_name"]],
  "Proved for every command line: the sections; the port, if it is one number from 1 to 65535 among words and the program's name begins with no number. Violated: larger and negative numbers are cut to 16 bits, 0 is ignored, and the name of the program is read as a port too.")

WA = "Arax.Watch."
c("C115", "partial", [WA+x for x in ["C115_seen","C115_app","C115_released_partial","C115_violated_stall","C115_violated_death"]],
  "Proved for every page, buffer size and interleaving: the browser sees a beginning of the page; a lock nobody has is got at once; under every fair schedule in which the browser reads on and vdf lives, vdf gives its locks back. Violated: tables are written to the connection while the lock of the list is held, so a browser that stops reading in a table longer than the buffers stops every application that makes or drops an object of that type, for ever; so does vdf's death in a table.")

ME = "Arax.Members."
c("C116", "partial", [ME+x for x in ["C116_once","C116_left_partial","C116_reattach","C116_violated_ignore","C116_violated_list","C116_violated_pointers","C116_violated_nothing","C116_violated_reattach"]],
  "Proved for every use and interleaving: at most one segment counts the tool, once; vdf, vtop without -i, arax_plot with samples and araxgrind without list and pointers are counted nowhere afterwards; (R) without -i goes to the segment that has the name. Violated: vtop -i joins twice and leaves once, and its (R) does not re-attach; araxgrind asked for a list or a pointer, and arax_plot that recorded nothing, never leave: the segment counts them for ever.")

TL = "Arax.Tlsf."
c("C117", "partial", [TL+x for x in ["C117_one_at_a_time","C117_order","C117_blocks","C117_fresh","C117_area","C117_released_partial","C117_violated_inspect","C117_violated_killed","C117_violated_stats","C117_violated_pages","C117_violated_small"]],
  "TLSF itself is not in the repository and is a parameter with a contract (Good; bump_good shows that it can be met). Proved for every history and interleaving, with deaths: calls of TLSF by allocate and free never overlap; the answers are those of the calls in the order they ended; held blocks are in the pool, aligned, disjoint; new ones overlap nothing held; the pool is in the segment; the lock is given back within three steps of its owner if nobody was killed. Violated: inspection takes no lock; a killed caller locks everybody out; statistics are always zero; there are no pages; a segment no larger than its header gets a pool of nearly 2^64 bytes.")

KI = "Arax.Kinds."
c("C118", "partial", [KI+x for x in ["C118_names","C118_destructor","C118_lists","C118_empty","C118_report_partial","C118_violated_report"]],
  "Names, lists, destructors and cleared fields are proved as stated. The report is proved for fewer than 2^31 objects of each kind; the number is converted to int, so that 2^32 objects are reported as none (C118_violated_report).")

JA = "Arax.Java."
c("C119", "partial", [JA+x for x in ["C119_constants_partial","C119_header","C119_references_partial","C119_given_back_partial","C119_status","C119_arguments_partial","C119_bytes_partial","C119_bytes_outside_partial","C119_hello_partial","C119_violated_constants","C119_violated_acquire","C119_violated_status_twice","C119_violated_reissue","C119_violated_failed","C119_violated_arguments","C119_violated_bytes","C119_violated_hello"]],
  "JNA is not in the repository as source; the few facts used of it are stated in the module. Proved for every history of a careful program (specification Careful): nothing freed is used, references are exact, everything can be given back; types, states and header; arguments that are written; arrays as long as the buffer. Violated: the end marker is OpenCL; acquiring from a virtual accelerator takes no reference; status of a completed task frees it, so asking again uses freed memory; issuing again loses the task; failed tasks are never freed; arguments given to the constructor arrive as zeros; shorter arrays are overrun; hello cuts texts that are not ASCII.")

ER = "Arax.EndReport."
c("C120", "partial", [ER+x for x in ["C120_between_partial","C120_exact_partial","C120_ends","C120_violated_torn","C120_violated_late","C120_violated_total"]],
  "Proved for every interleaving: one line per accelerator, every number between what had been served at SIGINT and what has been served when the report ends; exact if no task is taken meanwhile; the report ends. Violated: each counter is read three times while its worker runs, so the parts can contradict each other; the workers are stopped only after the report; the total is an int.")

RC = "Arax.Record."
c("C121", "partial", [RC+x for x in ["C121_location","C121_accepts","C121_full","C121_lines_partial","C121_lists","C121_waits","C121_sigint","C121_sample","C121_violated_race","C121_violated_again","C121_violated_exit"]],
  "Proved for every interleaving: what each call returns, at most ARAX_KV_CAP calls return, what each value in a sample is, that arax_plot finishes its list; its list is exact if no call is under way meanwhile. Violated: arax_plot reads the table without its lock and crashes on a name without location; the same name twice gives two metrics; each call is an arax_init that nobody balances (two if a location is given).")

BU = "Arax.Budget."
c("C122", "partial", [BU+x for x in ["C122_balance_partial","C122_promise_partial","C122_end","C122_no_overflow","C122_start","C122_start_kind","C122_violated_shared","C122_violated_opencl","C122_violated_start","C122_violated_default"]],
  "Proved for every history: capacity, the sum of available and held, the sum after the stop, no failing assertion, and what the first value is. Violated: accelerators that share a memory each promise all of it (two on one GPU; a CPU accelerator promises the segment again), OpenCL promises 4 GiB whatever there is, a device with nothing free (or the SDA kind) kills the controller at the start, and without ARAX_THROTTLE_ENFORCE nothing stops tasks from holding more.")
