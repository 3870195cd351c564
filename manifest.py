#!/usr/bin/env python3
"""Write MANIFEST.json from the claims listed here."""
import json
N = "Umpire."
claims = []
def claim(prop, status, theorems, note):
    claims.append(dict(property=prop, status=status, theorems=[N + t for t in theorems], note=note))
Q = "QuickPool."
claim("C01", "proved", [Q+"quickpool_live_disjoint"], "All histories, all parents, all heuristics bounded away from 2^64; requests with n + 2*align <= 2^64.")
claim("C02", "partial", [Q+"quickpool_aligned_partial", Q+"quickpool_overflow_counterexample"], "Holds for n + 2*align <= 2^64. Beyond, the claim is false: allocate(2^64-1) succeeds with an empty chunk (counterexample proved).")
claim("C03", "partial", [Q+"quickpool_sizes_exact", Q+"quickpool_gaps_exact", Q+"quickpool_actual_hwm_exact", Q+"quickpool_aligned_hwm_partial", Q+"hwm_builtIn", Q+"quickpool_aligned_hwm_counterexample"], "All observers exact except getAlignedHighwaterMark, which coalescing inflates (counterexample proved, with percent_releasable); exact without coalescing and with every _hwm heuristic, in particular the default.")
claim("C04", "proved", [Q+"quickpool_returns_only_free", Q+"quickpool_no_undefined_behaviour", Q+"quickpool_release_exact", Q+"quickpool_release_all"], "")
claim("C05", "partial", [Q+"quickpool_coalesce_diverges", Q+"quickpool_blocks_diverges_counterexample", Q+"quickpool_percent_diverges_counterexample", Q+"quickpool_terminates_partial", Q+"quiet_builtIn"], "The claim is false, and the library heuristics are classified completely. Termination is proved for percentages 0 and 100 (100 is the default), for block counts of at least 2, and for every heuristic firing only under those conditions. For every percentage from 1 to 99 and for block counts 0 and 1, plain and high-watermark variants alike, a reachable state is exhibited in which deallocate recurses without end.")
claim("C06", "partial", [Q+"quickpool_failed_allocate", Q+"quickpool_coalesce_aborts"], "Holds for allocate. For the allocation inside coalesce the program is terminated (counterexample proved).")
claim("C07", "proved", [Q+"quickpool_best_fit", Q+"quickpool_asks_only_when_needed", Q+"quickpool_free_block_usable", Q+"quickpool_gaps_exact"], "")
D = "DynPool."
claim("C08", "partial", [D+"dynpool_live_disjoint", D+"dynpool_aligned_partial", D+"dynpool_overflow_counterexample"], "Holds for n + 2*align <= 2^64. Beyond, the claim is false: allocate(2^64-1) succeeds with an empty piece and the next allocation gets the same pointer (counterexample proved).")
claim("C09", "partial", [D+"dynpool_sizes_exact", D+"dynpool_gaps_exact", D+"dynpool_actual_hwm_exact", D+"dynpool_aligned_hwm_partial", D+"hwm_builtIn", D+"dynpool_aligned_hwm_counterexample"], "All sizes and the mark of the memory held are exact. The mark of the memory in use is exact for heuristics that never suggest more than it (the _hwm ones, among them the default) and never too small; with blocks_releasable and percent_releasable it can be too large, because coalescing allocates and deallocates a block internally (counterexample).")
claim("C10", "proved", [D+"dynpool_returns_only_free", D+"dynpool_no_undefined_behaviour", D+"dynpool_release_exact", D+"dynpool_release_all"], "")
claim("C54", "partial", [D+"dynpool_best_fit", D+"dynpool_failed_allocate", D+"dynpool_coalesce_aborts"], "Best fit and failed allocate proved. The last sentence is false: coalesce (noexcept) terminates the program and deallocate throws when the parent refuses the coalesced block (counterexample proved).")
F = "FixedPool."
claim("C11", "partial", [F+"fixedpool_live_disjoint_partial", F+"fixedpool_exhaustion", F+"fixedpool_deallocate", F+"fixedpool_safe", F+"fixedpool_foreign", F+"fixedpool_release_exact", F+"fixedpool_destroy", F+"fixedpool_overflow_counterexample", F+"fixedpool_zero_diverges_counterexample", F+"fixedpool_create_aborts"], "Holds when object size times objects per pool fits 64 bits and there is at least one object per pool. Otherwise the claim is false: the product overflows, or allocate recurses without end (counterexamples proved).")
claim("C12", "partial", [F+"fixedpool_current_size", F+"fixedpool_actual_size_partial", F+"fixedpool_actual_size_counterexample"], "getCurrentSize, getHighWatermark and numPools are exact. getActualSize is never reduced by release and counts bitmap words (counterexample proved).")
claim("C50", "proved", ["find_first_set_spec", "find_first_set_windows"], "Both platform paths; _BitScanForward is any function meeting its documentation.")
M = "MallocPool."
claim("C13", "partial", [M+"mallocpool_live_disjoint_partial", M+"mallocpool_reuses_first", M+"mallocpool_preserves_contents", M+"mallocpool_deallocate", M+"mallocpool_safe", M+"mallocpool_access", M+"mallocpool_inside", M+"mallocpool_malloc_failure_counterexample", M+"mallocpool_small_objects_counterexample"], "Holds for objects of at least 8 bytes, fewer than 2^32 per pool, while malloc succeeds. Otherwise false: deallocate stores 8 bytes into smaller objects and so overwrites live neighbours, and a null result of malloc is written through (counterexamples proved).")
S = "SlotPool."
claim("C14", "proved", [S+"slotpool_live_disjoint", S+"slotpool_allocate", S+"slotpool_deallocate", S+"slotpool_destroy", S+"slotpool_destroy_counterexample", S+"slotpool_lost_slot_counterexample", S+"slotpool_zero_counterexample"], "Positive request sizes. The counterexamples are defects outside the claim: a slot is lost when the parent refuses, the destructor hands back negative lengths, zero bytes.")
X = "MixedPool."
claim("C15", "proved", [X+"mixedpool_routing", X+"mixedpool_live_disjoint", X+"mixedpool_fresh", X+"mixedpool_safe", X+"mixedpool_failed_allocate", X+"mixedpool_no_leak", X+"mixedpool_create_partial", X+"mixedpool_create_diverges_counterexample", X+"mixedpool_create_ub_counterexample"], "Address reuse between sub-pools included (the sub-pools share one parent). Outside the claim: the constructor loops for ever with multiplier 1 and divides by zero for size 0 or when a size wraps (proved).")
claim("C16", "partial", ["Monotonic.monotonic_disjoint_partial", "Monotonic.monotonic_fits_partial", "Monotonic.monotonic_sizes", "Monotonic.monotonic_failed_request_counterexample", "Monotonic.monotonic_wraparound_counterexample"], "False in two ways (proved): a refused request still consumes capacity, and sizes near 2^64 wrap the counter so that allocations overlap. Proved without wraparound.")
claim("C17", "partial", ["SizeLimiter.sizelimiter_limit_partial", "SizeLimiter.sizelimiter_refuses_partial", "SizeLimiter.sizelimiter_deallocate", "SizeLimiter.sizelimiter_leak_counterexample", "SizeLimiter.sizelimiter_wraparound_counterexample"], "The limit is respected and refusals are exact without 64-bit wraparound. False: a refused or failed request consumes budget for good; wraparound breaks the limit (counterexamples proved).")
A = "Aligned."
claim("C18", "partial", [A+"aligned_create", A+"aligned_live_partial", A+"aligned_deallocate_exact", A+"aligned_safe", A+"aligned_overflow_counterexample"], "Proved for n + 8 + alignment <= 2^64, for any writes by the user in between. Beyond, the block is too small (counterexample proved).")
Z = "SizeArith."
claim("C19", "partial", [Z+"pool_round_partial", Z+"pool_round_counterexample", Z+"aligned_total", Z+"typed_bytes", Z+"typed_bytes_counterexample", Z+"file_bytes", Z+"shmBytes_eq_mask", Z+"shm_bytes_partial", Z+"shm_bytes_counterexample", Q+"quickpool_overflow_counterexample", D+"dynpool_overflow_counterexample", A+"aligned_overflow_counterexample"], "True for the file resource. For pools, AlignedAllocator, TypedAllocator and shared memory the result is exact below 2^64 and the library goes on with a smaller block beyond (counterexamples proved); the shared memory rounding is never the least multiple when the size already is a multiple.")
W = "Forward."
claim("C45", "partial", [W+"namingshim_unique_names", W+"namingshim_count_partial", W+"namingshim_size_counterexample"], "Names are unique until the 64-bit counter wraps; the parent's allocation count stays balanced. Its reported size does not: deallocations announce size 0 (counterexample proved).")
claim("C53", "proved", [W+"forward_exact", W+"forward_deallocate_exact", W+"forward_safe", W+"forward_no_leak", W+"forward_hook_leaks_counterexample"], "One model for all five strategies; the operation applied to a new allocation (advice, prefetch, NUMA move) is arbitrary. If it throws, the memory is lost (proved; outside the claim).")
J = "Judy."
claim("C20", "partial", [J+"allocmap_find_sound", J+"allocmap_find_block_partial", J+"allocmap_find_partial", J+"allocmap_find_large_partial", J+"allocmap_find_counterexample"], "For every history: a record that is found contains the address, and every base address is found. Interior addresses are found when no aligned 256-byte block ever holds more than 56 registered addresses, in particular when every allocation has at least 5 bytes. With more the claim is false (counterexample proved): judy_prv returns the wrong leaf cell.")
claim("C21", "proved", [J+"allocmap_stack", J+"allocmap_clear"], "Includes clear, failed removals and interleaved lookups and iterations.")
claim("C22", "partial", [J+"memorymap_lookup_partial", J+"memorymap_before_sound", J+"memorymap_iterate_partial", J+"memorymap_find_absent_counterexample", J+"memorymap_insert_flag_counterexample", J+"memorymap_null_key_counterexample", J+"memorymap_iterator_copy_counterexample", J+"memorymap_before_none_counterexample", J+"memorymap_past_end_counterexample"], "Lookup, insertion, deletion, clear and iteration proved for the Judy tree with all node types. False at the edges (proved): find of an absent key may differ from end() and erasing it is undefined behaviour; the copying insert reports the opposite; a null key looks like the end; a copied iterator at a reused address skips keys.")
claim("C55", "proved", [J+"allocmap_iterate"], "")
G = "Mgr."
claim("C23", "partial", [G+"introspection_partial", G+"introspection_interior_partial", G+"allocate_registers", G+"deallocate_forgets", G+"allocate_succeeds", G+"deallocate_succeeds"], "Every history of allocations, deallocations, reallocations, moves, copies and memsets on any number of allocators. Base addresses and unknown addresses without further assumption; interior addresses when strategies return multiples of eight and the zero-byte pool lives in pages of its own (otherwise the defect of the Judy tree shown for C20 applies).")
claim("C24", "partial", [G+"statistics_partial", G+"watermark_partial", G+"statistics_drift", G+"statistics_reallocate_counterexample", G+"statistics_failure_counterexample"], "Exact for histories without failed requests of child strategies, mismatched sizes and reallocations on HOST; the general formula states by how much the numbers are off. Counterexamples show that those events do make them wrong.")
claim("C25", "proved", [G+"wrong_deallocate"], "Also for pointers unknown to every allocator.")
claim("C26", "proved", [G+"zero_bytes", G+"allocate_succeeds", G+"deallocate_nullptr"], "")
claim("C27", "proved", [G+"leaks_exact"], "Stated for recordsOf, the model of get_allocator_records and get_leaked_allocations.")
claim("C30", "partial", [G+"copy_partial", G+"copy_unknown", G+"copy_overrun_counterexample", G+"copy_overlap_counterexample"], "Holds when the source range lies in its allocation and is disjoint from the destination range; the code checks neither, counterexamples given.")
claim("C31", "partial", [G+"memset_partial", G+"memset_safe"], "Exact for first addresses, and for interior addresses under the alignment assumption of C23 (they may otherwise be rejected); memset_safe holds for all addresses.")
claim("C32", "partial", [G+"reallocate_partial", G+"reallocate_succeeds", G+"reallocate_zero", G+"reallocate_null", G+"reallocate_rejects", G+"reallocate_any_rejects", G+"reallocate_failure_counterexample"], "Success, rejection and failure for all allocators; when ::realloc fails on HOST memory the record is lost (counterexample).")
claim("C33", "partial", [G+"move_partial", G+"move_succeeds", G+"move_same", G+"move_rejects_partial", G+"move_interior_counterexample", G+"move_untracked_counterexample"], "For tracked targets. Interior addresses are rejected unless they belong to the target (counterexample); moving to an untracked allocator throws and leaks (counterexample).")
K = "Names."
claim("C28", "partial", [K+x for x in ["make_fresh","ids_unique","lookup_name_partial","lookup_id","lookup_name_simple","name_taken","name_reuse_partial","name_free","invalid_id_partial","bad_id","lookup_safe_partial","lookup_name_counterexample","device_name_counterexample","dangling_name_counterexample","invalid_id_counterexample"]], "Fresh ids and names, lookups by id and rejections hold for every history. Lookup by name holds unless a resource whose name minus its suffix collides is created later; the counterexamples show a user's allocator being shadowed, a dangling pointer left by a failed makeResource, and the reserved id being handed out after 2^28 creations.")
claim("C29", "partial", [K+x for x in ["alias_adds","alias_free","alias_taken","alias_taken_unchanged","alias_lasts_partial","unalias_removes","alias_round_trip","unalias_unknown","unalias_own_name","unalias_other","alias_taken_counterexample","unalias_resource_counterexample"]], "False in two corners (proved): addAlias to the name of a resource not created yet creates it before throwing, and removeAlias of such a name dereferences end().")
claim("C43", "partial", [K+x for x in ["name_of_type","type_of_name","types_injective","unknown_reported","unknown_type_reported","device_suffix_partial","device_suffix_too_large","device_suffix_counterexample"]], "Device suffixes: proved for every number for names that end in it; with HIP, DEVICE::N::FINE names yield the current device (counterexample).")
O = "Ops."
claim("C34", "proved", [O+x for x in ["dispatch_exact","dispatch_throws","register_others","host_total","device_total","dispatch_right","host_dispatch","second_registration_counterexample","all_pairs_counterexample"]], "Every build configuration, every registration history. When an operation is registered twice for the same name and pair the first one stays (documented otherwise; proved), and COPY and MEMSET are not registered for FILE memory (documented otherwise; proved).")
claim("C35", "partial", [O+x for x in ["contains_exact","contains_subset","overlaps_partial","overlaps_both","range_unknown","overlaps_order_counterexample","contains_zero_counterexample"]], "Over the model of the allocation map, overlapping registrations included. pointer_overlaps depends on the order of its arguments, so the claim is false for it (counterexample); exact when asked in both orders.")
claim("C44", "partial", [O+x for x in ["fragmentation_partial","fragmentation_diverges","fragmentation_empty_counterexample"]], "False: the loop never ends for two or more records and the empty list is undefined behaviour (proved). Holds for one record.")
claim("C49", "proved", [O+x for x in ["accessible_root","accessible_same_root","accessible_stable"]], "")
claim("C56", "partial", [O+x for x in ["own_platform_partial","host_operation_partial","own_platform_counterexample","host_operation_counterexample"]], "False for NO_OP, FILE and NumaPolicy on device nodes (counterexamples); proved otherwise.")
R = "Replay."
claim("C46", "partial", [R+x for x in ["replay_faithful_partial","keys_distinct","replay_after_failed_reallocate_counterexample","replay_race_counterexample","replay_memset_counterexample","replay_base_name_counterexample"]], "Proved for every program (addresses reused arbitrarily, fewer than 2^31 calls) without a throwing reallocate, without another thread's call during a reallocate, without memset, and with coalesce only on allocators not named *_base. Each exclusion is necessary: after a failed reallocate or during a racing one allocations are dropped, a trace with memset does not compile, and coalesce of my_base is replayed on the first allocator (proved).")
claim("C47", "partial", [R+x for x in ["compare_decides","compare_exact_partial","compare_complete","compare_shorter_left","compare_misses_suffix","compare_longer_left_counterexample"]], "False: a left trace that continues after the right one ends always compares equal (proved in general and by example). Exact when both have the same number of operations; a shorter left trace is reported.")
claim("C48", "proved", [R+x for x in ["bucket_exact","bucket_in_range","histogram_exact_partial","bucket_zero_counterexample","histogram_realloc_counterexample"]], "Outside the claim: zero bytes fall in bucket 63, and since reallocations are not counted the printed watermarks can become 2^64-1 (proved).")
claim("C51", "partial", ["FileRes."+x for x in ["file_mappings_partial","file_deallocate","file_allocate_throws","file_allocate_succeeds","file_destroy","mkName_inj","file_remove_counterexample","file_descriptor_leak"]], "Holds for every history in which removing the backing file succeeds. Otherwise deallocate throws after unmapping and keeps the entry (counterexample); a failing allocate leaks a file descriptor (proved).")
claim("C52", "partial", ["Heur."+x for x in ["quickpool_heuristics_partial","quickpool_percent_early_counterexample","quickpool_percent_late_counterexample","dynpool_heuristics_partial","dynpool_untracked_heuristic_counterexample"]], "Exact for 0 and 100 percent and for the block counts; for other percentages the float threshold is within the proved rounding error and the claim is false at the edge (counterexamples both ways). The heuristic of an untracked DynamicPoolList always fires (counterexample).")
claim("C57", "partial", ["Constant."+x for x in ["constant_stack_partial","constant_stuck_counterexample","constant_wrap_counterexample"]], "Holds for histories in which every request fits. After a request that does not fit the resource is unusable, and sizes near 2^64 wrap so that allocations overlap (counterexamples).")
claim("C58", "partial", ["NullRes."+x for x in ["null_bookkeeping_partial","null_unmap_counterexample","null_failure_unnoticed","freed_cell"]], "The bookkeeping is exact. The length given to munmap is read from the record after it has been freed and is wrong for every reservation whose size modulo 2^32 exceeds 2^20; a failed reservation is not noticed (proved).")
claim("C39", "partial", ["Shm."+x for x in ["shm_layout_partial","shm_contents_partial","shm_safe_partial","shm_room_partial","shm_accounting_partial","shm_small_counterexample","shm_size_counterexample","shm_wrap_counterexample"]], "Every history by any number of processes on a segment of 120 bytes to 2^63, byte-level model of both linked lists; names without null bytes, sizes that do not wrap. Smaller segments hand out memory outside, a live name allocated with a larger size overlaps its neighbour, and sizes near 2^64 wrap (counterexamples).")
claim("C40", "partial", ["Shm."+x for x in ["shm_same_name_partial","shm_refs_partial","shm_find_partial","shm_contents_partial","shm_nul_counterexample"]], "Same histories as C39, fewer than 2^64 references to a name. False for names with a null byte (counterexample).")
claim("C37", "partial", ["Conc."+x for x in ["threadsafe_serial","threadsafe_serial_prefix","threadsafe_serial_each","threadsafe_serial_all","threadsafe_no_deadlock","threadsafe_pool","two_locks_lost_update_counterexample","two_locks_addresses_counterexample","two_locks_same_pointer_counterexample"]], "Proved in full for all handles of one ThreadSafeAllocator (any threads, adaptive programs, schedules, any code in the calls), with an end-to-end corollary for QuickPool; for several, per allocator with the same answers from outside, and for the whole state when they share nothing. False when several share a resource or a pool: its statistics lose updates, addresses need not be those of any sequential order, and two thread-safe allocators over one pool hand out the same memory (counterexamples).")
claim("C38", "partial", ["Conc."+x for x in ["lock_coverage_partial","zero_race_counterexample","zero_dealloc_race_counterexample","resource_race_counterexample","shared_pool_race_counterexample","beneath_race_counterexample","getter_race_counterexample"]], "No race when the thread-safe allocators in use have nothing beneath them in common, not even the resource, and make no zero-byte requests. Otherwise false: zero-byte pool, statistics of a shared resource, a pool beneath two thread-safe allocators, a thread-safe allocator beneath another strategy, and the getters (counterexamples).")
claim("C41", "partial", ["Device."+x for x in ["device_disjoint_partial","device_bounded_partial","device_no_failure_partial","device_reset","device_reset_cas","cuda_out_of_bounds_counterexample","hip_fitting_fails_counterexample","hip_failed_uses_space_counterexample","device_wrap_counterexample","device_large_counterexample"]], "Disjoint as long as fewer than 2^32 bytes were asked for since the last reset; inside the buffer on HIP only. CUDA has no check, failing requests use up space and make others fail, and the 32-bit counter wraps (counterexamples).")
claim("C42", "partial", ["Device."+x for x in ["host_name_found_partial","host_name_unknown_partial","host_id_partial","dev_name_found_partial","dev_name_unknown_partial","device_ids_unique","dev_prefix_counterexample","dev_unknown_counterexample","host_empty_name_counterexample","duplicate_name_counterexample","table_full_counterexample","long_name_counterexample","null_table_id_counterexample","null_table_destroy_counterexample","stale_device_table_counterexample","junk_table_counterexample"]], "On the host exact for distinct non-empty names shorter than 64 characters, at most 64 allocators and zero-filled table memory. In device code names are matched by prefix, unknown names find unused entries, and the table of before a destroy stays in use; the 65th allocator is written behind the table (counterexamples).")
claim("C36", "partial", ["Nest."+x for x in ["nested_safe_partial","nested_step_safe_partial","nested_slotpool_counterexample","nested_overflow_counterexample","nested_fixedpool_counterexample"]], "Every forest of all the library's host strategies over any number of resources, every sequence of commands by users of any of them, every behaviour of the resources; live allocations are those of a ledger of requests and answers. Assumes that sizes fit together down the chain (no overflow, requests to a FixedPool not larger than its objects) and that nothing is built on a SlotPool; the counterexamples show that each of these is needed.")
claim("C59", "partial", ["Nest."+x for x in ["teardown_partial","creation_order","teardown_order_counterexample","teardown_mono_counterexample","teardown_slots_counterexample","teardown_leak_counterexample"]], "Every forest and history as in C36, every prefix of the shutdown, which goes through the list of strategies newest first; that order is proved to be safe (and the reverse unsafe). Unreturned allocations are safe unless a MonotonicAllocationStrategy or SlotPool is involved, whose destructors free them (counterexamples); a failed advice, prefetch or NUMA operation leaks (counterexample). The destructors of the resources are not part of this model; those of FILE and of shared memory are in C51 and C90.")
BP = "BlockPool."
claim("C60", "partial", [BP+"blockpool_live_disjoint_partial", BP+"blockpool_allocate_partial", BP+"blockpool_sizes_partial", BP+"blockpool_deallocate_partial", BP+"blockpool_destroy_partial", BP+"blockpool_null_header_counterexample", BP+"blockpool_null_data_counterexample", BP+"blockpool_double_free_counterexample"], "Everything holds in every history in which malloc grants the requests. Otherwise the claim is false, proved for every state in which all slots are in use: a refused header is a write through a null pointer, and after a refused data block allocate returns the address sizeof(T).")
claim("C61", "partial", [Q+x for x in ["quickpool_coalesce_idle","quickpool_coalesce_consolidates","quickpool_consolidated_serves","quickpool_blocks_releasable","quickpool_blocks_releasable_hwm","quickpool_default_heuristic","quickpool_explicit_coalesce_idle","quickpool_coalesce_grows_counterexample","quickpool_coalesce_shrinks_counterexample"]] + [D+x for x in ["dynpool_coalesce_consolidates","dynpool_deallocate_consolidates","dynpool_blocks_releasable","dynpool_blocks_releasable_hwm","dynpool_default_heuristic","dynpool_explicit_coalesce_idle"]], "What coalescing does to the blocks is proved for all histories. The last sentence is false: a pool can grow (the first-block minimum applies again when everything was free), the suggestion is not always reached (a large enough gap between live allocations replaces the new block), and with blocks_releasable(k >= 2), percent_releasable(100) and their _hwm variants an explicit coalesce never does anything (all proved). Heuristics for which deallocate may not return are C05.")
claim("C62", "partial", [Q+x for x in ["quickpool_poison_exact","quickpool_returns_poisoned","quickpool_poison_counterexample","quickpool_gran_exact","quickpool_gran_whole","quickpool_gran_quiet","quickpool_gran_counterexample","allocateS_erase","deallocateS_erase","coalesceS_erase"]] + [D+x for x in ["dynpool_poison_exact","dynpool_returns_poisoned","dynpool_gran_exact","dynpool_gran_whole","dynpool_gran_quiet","dynpool_gran_counterexample","allocateS_erase","deallocateS_erase","coalesceS_erase"]], "Marking proved exact, byte by byte, for all histories; the functions with sanitizer calls are proved to be the ones of C01-C10 when the calls are left out. The last part is false: memory goes back to the parent marked as inaccessible, and a parent that does not mark memory itself (FixedPool) hands it to the next user in that state. The real sanitizer keeps one state for eight bytes (its runtime library, Base/Gran): with it live allocations are never reported, and with alignments that are multiples of eight all else in whole granules is (in the whole memory if the blocks of the parent are aligned); with smaller alignments accesses to freed memory go unreported (gran_counterexample).")
claim("C63", "partial", ["Events."+x for x in ["event_log_round_trip_partial","event_insert_throws_iff","event_insert_defined","event_first_allocate_counterexample","event_name_quote_counterexample","event_name_injection_counterexample","event_name_backslash_counterexample","event_name_zero_counterexample"]], "Proved byte by byte through the writer, the UTF-8 decoder, the lexer and the parser for every sequence of records in which the names of allocations are UTF-8 without control characters, quotation marks and backslashes. These names are written unescaped: otherwise the whole log can become unreadable or other fields change (counterexamples). A generic record throws exactly when one of its strings is not UTF-8; an allocate, named_allocate or deallocate record as the very first is undefined behaviour (counterexample), afterwards nothing is. Conversion of floating-point values and comments is not modelled, nor are write errors.")
claim("C64", "partial", ["Whole."+x for x in ["whole_ledger_partial","whole_memory_partial","whole_safe_partial","whole_introspection_partial","whole_allocate_partial","whole_deallocate_partial","whole_reallocate_partial","whole_move_partial"]], "The facade of C23-C33 on top of the strategies of C36, by simulation. Assumes that sizes fit together down the chain (as in C36, each assumption shown to be needed there), that the allocators are tracked, no SlotPool directly behind an allocator; the books agree as long as no reallocate has failed (a failed HOST reallocate loses a record, C32), undefined behaviour is excluded for every call but copy (C30). Statistics of requests between strategies are in C24 only.")
claim("C65", "partial", ["Thr."+x for x in ["thr_safe_partial","thr_results_partial","thr_disjoint_partial","thr_one_owner_partial","thr_known_partial","thr_bytes_partial","thr_quiet_partial","thr_alone","thr_wrong_free_counterexample","thr_stale_read_counterexample","thr_host_realloc_counterexample"]], "All interleavings of any number of threads. Each map operation and each request to a strategy is one action (m_mutex, ThreadSafeAllocator); only tracked allocators. False for HOST reallocate, which reads a freed record and may register the memory under the allocator of another thread; without the ownership discipline a thread may disturb another one even by a call that only throws, and may read a freed record.")
claim("C66", "partial", ["Full."+x for x in ["full_safe_partial","full_groups_partial","full_results_partial","full_disjoint_partial","full_one_owner_partial","full_known_partial","full_bytes_partial","full_work_bytes_partial","full_quiet_partial","full_progress_partial","full_ends_partial","full_stuck_partial","full_finishes_partial"]], "C65 with the strategies in place of an arbitrary memory. Requests to the strategies over one resource are serialised, also to the zero-byte pool, which the library does not do by itself (C38 shows the race); requests over different resources interleave at each call to a resource. Only tracked allocators; HOST reallocate (see C65), release from inside a call and untracked allocators are not in the model. Termination is for schedules in which nothing new is begun (full_ends_partial, full_stuck_partial); that a thread waiting for a busy group gets its turn while others keep beginning calls is up to the mutex and not claimed.")
claim("C67", "partial", ["Rebuild."+x for x in ["rebuild_iff_partial","rebuild_unknown_class","replay_registry_partial","replay_registry_text_partial","rebuild_heuristic_counterexample","rebuild_prefetch_device_counterexample","rebuild_advisor_device_counterexample","rebuild_alignment_counterexample","rebuild_use_heuristic_counterexample","replay_resource_counterexample"]], "False in part. rebuild_iff_partial is an equivalence: lost are the heuristics of pools, the device of a prefetcher, negative devices of an advisor, alignments from 2^31, NumaPolicy in a tool built without NUMA, names of 512 bytes or more or with a zero byte; AlignedAllocator and NamingShim end the tool; --use-heuristic does not reach untracked pools; tracking and custom names of memory resources are lost. Demangling is modelled for nested names as the Itanium ABI writes them; aliases, which are not recorded, are not in the registry.")
claim("C68", "partial", ["Trace."+x for x in ["replay_log_partial","table_fits","second_run_silent_counterexample","memset_counterexample","unknown_refused","named_counterexample","stale_counterexample"]], "replay_log_partial composes C46, C63 and C67 on the text of the log, with the keys as texts and std::stoul. False in part: after a run that fails to compile, the next run silently makes the calls of the part before (second_run_silent_counterexample, for all logs; memset_counterexample: every program that calls memset; named_counterexample: every program that allocates by name); a changed log is not looked at without --recompile (stale_counterexample). Programs that are not clean in the sense of C46 are excluded. The slot beyond the counted operations is taken as zero when compiling again over an old file; statistics, dumps and timing are not modelled.")
claim("C69", "partial", ["Bind."+x for x in ["fortran_array_iff_partial","array_elements_disjoint","fortran_1d","fortran_zero","fortran_overflow_counterexample","fortran_negative_counterexample","typed_iff_partial","typed_container","typed_overflow_counterexample"]], "Covered exactly if the array has less than 2^64 bytes (fortran_array_iff_partial, typed_iff_partial): always for one dimension in Fortran and for the containers of the standard library. False otherwise: the product wraps and a block that is too small, even of 0 bytes, is handed out; a negative extent asks for almost all memory. The element-wise constructors of containers are not modelled.")
claim("C70", "partial", ["Bind."+x for x in ["fortran_name_padded","name_back_iff_partial","fortran_roundtrip","fortran_blank_counterexample","c_zero_counterexample","handle_step","handles_partial","handles_misuse","handle_leak_counterexample","c_copy_counterexample"]], "Names come through except for a zero byte (C) and blanks at the end (Fortran), exactly (name_back_iff_partial, fortran_blank_counterexample, c_zero_counterexample). Handles: handles_partial for every proper program, handles_misuse for the rest; false when get or make throws, every such call leaks an object (handle_leak_counterexample, for all programs). Copies: false, the arguments are passed on in order to copy(dst, src), so what the interface calls the source is overwritten (c_copy_counterexample, for all pairs of live allocations).")
claim("C71", "partial", ["Names."+x for x in ["advertised_kind","advertised_device_partial","offered_devices","advertised_id","advertised_grain","advertised_lookup_partial","shared_name_iff","file_name_iff","fine_counterexample","shared_name_counterexample","device0_counterexample","takeover_counterexample"]], "Kind and granularity hold for every name on offer (advertised_kind, advertised_grain) and the lookup for every program that makes no resource whose name takes over one on offer (advertised_lookup_partial). False in part: DEVICE::i::FINE is for the current device (fine_counterexample, all i); DEVICE::0 after DEVICE is the current device (device0_counterexample); a user-made name is of another type if it contains the word of a factory tried earlier, exactly then for SHARED and FILE (shared_name_iff, file_name_iff); a resource FILEX::0SHARED takes over FILE (takeover_counterexample).")
claim("C72", "partial", ["Numa."+x for x in ["placed_partial","move_only","allocate_only","paged_aligned","move_in_place","moved_owner","used_apart","policy_allocate","device_move_throws","make_iff","policy_platform","move_possible","back_does_nothing","offset_move","pool_policy_throws","back_counterexample","offset_counterexample","neighbour_counterexample","lost_counterexample","stale_counterexample"]], "Proved for all histories in which moves name the first byte of an allocation and nothing is moved back to the policy it came from (placed_partial). False otherwise: moving back does nothing (back_does_nothing, back_counterexample); a pointer into an allocation moves what lies behind it (offset_counterexample); pool memory on the same page moves along (neighbour_counterexample); an allocation whose binding fails leaks the memory (policy_allocate, lost_counterexample); released memory keeps its node (stale_counterexample); moves to a HIP device or between devices always throw (device_move_throws).")
claim("C73", "partial", ["Async."+x for x in ["contents_partial","waited_partial","fenced_tidy","fenced_waited","moved_contents","copy_inside","memset_inside","copy_needs_stream","memset_needs_stream","reallocate_needs_stream","wait_possible","copy_possible","memset_possible","pool_counterexample","host_pool_counterexample","leak_counterexample","source_counterexample"]], "Proved for all histories in which the program also keeps away from memory that it reallocated on a stream until it waited (contents_partial, waited_partial); in particular if every reallocation of pool memory has a wait next to it (fenced_waited). False otherwise: a device pool gives the old memory back while the copy is under way (pool_counterexample); a host pool copies without waiting for the stream (host_pool_counterexample); with a wrong resource the new memory leaks (leak_counterexample); the source of a copy is not checked (source_counterexample).")
claim("C74", "partial", ["Log."+x for x in ["level_spec","level_defined","log_file","log_lines","stdout_silent","early_stdout","unset_silent","pick_some","new_file","file_number","other_process","later_process","init_possible","init_again","missing_directory","failed_forever","level_counterexample", "level_wild", "level_unset","unreadable_counterexample","race_counterexample","failed_write_counterexample","forged_counterexample","threads_counterexample"]], "Proved for one thread, messages without ends of lines, files that can be read and processes with different numbers or that start one after the other. False otherwise: a file that cannot be read is truncated (unreadable_counterexample); processes with the same number may have the same file (race_counterexample); after one failed write nothing is logged (failed_write_counterexample); a message with an end of line looks like two (forged_counterexample); messages of threads are mixed (threads_counterexample); some values of the variable are undefined behaviour (level_counterexample). The manual says that the log goes to the standard output, which it does not (stdout_silent).")
claim("C75", "partial", ["Tables."+x for x in ["race_iff","never_blocked","safe","own_memory","make_make","lookups","lookup_counterexample","first_use_counterexample","default_counterexample","make_lookup_counterexample","alias_counterexample","leaks_counterexample","two_leaks_counterexample","stale_counterexample"]], "race_iff says exactly which pairs of calls can race, own_memory that threads which allocate, copy, reallocate and deallocate their own memory through one thread-safe allocator do not. In general the property is false: only makeAllocator locks the tables of allocators, so a lookup beside it races, as do the first uses of a resource or of the default allocator in two threads; going through the allocations takes no lock and moves a cursor, so that even two listings race; a record found is read without the lock. The event recorder and the logger are not in the model.")
claim("C76", "partial", ["Stores."+x for x in ["sqlite_round_trip_partial", "sqlite_insert_partial", "sqlite_overflow", "sqlite_stored_iff", "sqlite_apostrophe_counterexample", "sqlite_two_apostrophes_counterexample", "sqlite_delete_counterexample", "sqlite_overflow_counterexample", "sqlite_exit_counterexample", "quest_line_iff", "quest_line_refused", "quest_lost_counterexample", "quest_number_counterexample", "quest_newline_counterexample"]], "For strings without apostrophes and names that need no JSON escape and have at most 219 bytes, the SQLite store holds and returns exactly the recorded events, also across failing calls and restarts. In general the property is false: an apostrophe in a name ends the program with exit(1), two become one, a crafted name deletes the table; names from 220 (at the latest 288) bytes overflow a buffer; any error of the database ends the program. The QuestDB store says what the event says exactly for events with one numeric argument below 2^31, drops allocations and reads nothing back.")
claim("C77", "partial", ["Mgr."+x for x in ["external_known_partial", "external_interior_partial", "external_register", "external_register_null", "external_deregister", "external_deregister_unknown", "external_copy_partial", "external_memset_partial", "external_statistics_partial", "external_leaks", "external_wrong_deallocate", "external_deallocate_undefined", "external_move_undefined", "external_reallocate_undefined", "external_inside_counterexample", "external_address_counterexample"]], "Proved for registrations of memory that is disjoint from everything held, with the record of that memory: queries, copies, memset, leak reports and statistics are exact, whatever else is called. The last clause is false: deallocating external memory (through its allocator or the manager) is accepted and is undefined, and so are reallocating and moving it whenever the request that precedes can be satisfied; through another allocator it throws. Nothing is checked on registration: inside a live allocation it hides addresses of that, and a record for another address makes queries report it for addresses in between.")
claim("C78", "partial", ["Gpu."+x for x in ["gpu_placed", "gpu_named", "gpu_grain", "gpu_nothing_left_partial", "gpu_current_partial", "gpu_allocate_iff", "gpu_drift", "gpu_wrong_device", "gpu_no_device", "gpu_fine_counterexample", "gpu_retry_counterexample", "gpu_advice_counterexample"]], "Proved for a runtime that is able to tell and change the current device: memory is placed as named, requests succeed exactly when the runtime has memory, and nothing else is held unless a coarse-grained advice fails. The last clause is false: a request or release that throws leaves the thread on the device of the resource, also when a pool then retries with success. Also false: a failing SetDevice is ignored and gives memory of the wrong device, after a failing GetDevice an uninitialised value is used, a failing advice leaks, and DEVICE::i::FINE or COARSE is for the current device. SYCL and OpenMP target resources are in C87.")
claim("C79", "partial", ["Advice."+x for x in ["advice_told_partial", "advice_nothing_left_partial", "advice_alloc_iff", "advice_accepted_iff", "prefetch_exact_partial", "prefetch_within", "prefetch_refused", "advice_leaks", "advice_accessor_counterexample", "advice_host_counterexample", "advice_other_counterexample", "prefetch_skipped", "prefetch_sycl_undefined"]], "Proved for the names of advice and CUDA devices able to prefetch. False: a refused advice leaks the memory; with HIP the accessing allocator counts for nothing; with CUDA the device given for host memory is replaced by the host unless an accessing allocator is given; names of other operations are accepted (MEMSET fills every allocation with the number of the device, COPY and REALLOCATE throw and leak on every allocation); a prefetcher on a device unable to prefetch does nothing; with SYCL each of its allocations dereferences a null pointer. ResourceManager::prefetch is exact on the registries C20 covers, and in every state tells at most about the rest of a live managed allocation.")
claim("C80", "partial", ["Nest."+x for x in ["release_all_partial", "release_empty_partial", "release_other", "release_order_counterexample", "release_wrapper_counterexample", "release_mixed_counterexample", "release_mono_counterexample", "release_slots_counterexample", "release_leak_counterexample"]], "Proved for QuickPool, DynamicPoolList, FixedPool and everything that holds nothing itself, in any nesting. False with a MixedPool (release is not implemented), a MonotonicAllocationStrategy or a SlotPool (no release), after an operation on a new allocation failed, if a pool is released before one built on it, and if only a wrapper around a pool is released: release_other proves that this call does nothing at all.")
claim("C81", "partial", ["Nest."+x for x in ["stats_partial", "stats_clean_partial", "stats_leaf_partial", "fixed_size", "mono_hwm", "pool_actual_partial", "resource_total_partial", "stats_drift_forever", "stats_hwm", "stats_erase", "stats_refused_counterexample", "stats_null_counterexample", "stats_mono_counterexample", "stats_aligned_counterexample"]], "Exact up to what was charged without memory being given; that is never taken back (stats_drift_forever). Allocators with nothing built on them are exact, except a SlotPool. False after a refused request between strategies (charged up to four times in the example; getCurrentSize then exceeds getActualSize), after a null answer of a SlotPool, for the size and high watermark of a MonotonicAllocationStrategy, and below an AlignedAllocator, whose getters do not tell what it holds. Tracked allocators, requests of more than zero bytes, numbers not bounded by 2^64.")
claim("C82", "partial", ["Devops."+x for x in ["copy_partial", "copy_throws_iff", "fill_partial", "fill_throws_iff", "on_same", "copyOn_cases", "fillOn_cases", "sycl_two_resources", "omp_failure", "omp_shared", "numa_gpu", "contract", "contract_host"]], "Bytes, frame, contract and throwing for all resources that go together. False for memory of two SYCL resources (each has a context of its own), for failures of omp_target_memcpy (the return value is not used) and asynchronous errors of SYCL, for SHARED with an OpenMP device (uninitialised device number), and for a NumaPolicy on the node of a GPU (host memory called CUDA). Addresses are distinct between memories; one call at a time; the runtimes are contracts.")
claim("C83", "partial", ["Deny."+x for x in ["deny_safe_partial", "deny_live", "deny_offers", "deny_leak", "deny_release", "deny_destroy", "deny_sizes", "deny_sizes_clean", "deny_first_refusal", "deny_absurd_size", "coalesce_terminates", "deallocate_terminates_counterexample", "Fixed.fixed_refused", "Fixed.fixed_taken", "Fixed.fixed_refused_partial", "Fixed.fixed_refused_ub", "Fixed.fixed_stale_counterexample", "Fixed.fixed_destroy_abort", "Limit.limit_partial", "Limit.limit_exceeded", "Dyn.dyn_safe_partial", "Dyn.dyn_live", "Dyn.dyn_offers", "Dyn.dyn_leak", "Dyn.dyn_release", "Dyn.dyn_destroy", "Dyn.dyn_in_use", "Dyn.dyn_sizes", "Dyn.dyn_sizes_clean", "Dyn.dyn_first_refusal", "Dyn.dyn_absurd_size", "Dyn.dyn_release_can_throw", "Dyn.dyn_coalesce_terminates", "Dyn.dyn_deallocate_throws"]], "QuickPool, DynamicPoolList, FixedPool and SizeLimiter for all histories with refusals. For QuickPool and DynamicPoolList safety, offers, release and the destructor hold; false: what was refused is leaked for good (the base pointer is forgotten, the retry gives back nullptr), the reported sizes are too small by each refusal and wrap around to 2^63 and more, and a refusal while coalescing, also in the deallocate of a user of a QuickPool, ends the program; the deallocate of a DynamicPoolList throws after it has deallocated. FixedPool keeps pools it has already given back: the next release gives them back again. A SizeLimiter exceeds its limit by what was refused. The other pools are not modelled with refusals.")
claim("C84", "partial", ["Process."+x for x in ["hwm_reported","hwm_plus", "hwm_missing","hwm_name","hwm_indeterminate","usage_reported","usage_counterexample","device_reported","device_restored","device_counterexample"]], "holds for every text with the numbers; false: a VmHWM line without a number (hwm_indeterminate) and a statm file that cannot be read or is too short (usage_counterexample) give a value never written; a device that does not exist is reported with the usage of the current one, failing calls give 0 or move the thread to another device, builds without CUDA report 0 (device_counterexample)")
claim("C85", "partial", ["Mpi."+x for x in ["rank_first","rank_no_throw","rank_counterexample","rank_alone","io_exists","io_dir","io_stuck","io_deadlock_counterexample","io_throw_counterexample","io_progress","io_completes","comm_first","comm_progress","comm_right","comm_terminates","comm_stuck","comm_deadlock_counterexample","comm_wrong_counterexample"]], "rank and size are settled by the first umpire::initialize; false if that came before MPI_Init (rank_counterexample). A process past initialisation finds the directory, but if rank 0 creates it before another looks rank 0 waits for ever (io_deadlock_counterexample), which with an exception of rank 0 is the only way to get stuck (io_progress). Communicators are right and nobody waits for ever if every allocator is used with one communicator, in one order (comm_right, comm_progress, comm_terminates); otherwise the first communicator counts (comm_first), and calls may return the wrong one or wait for ever")
claim("C86", "partial", ["Refuse."+x for x in ["safe","account_partial","deallocate_refused","lost_forever_counterexample","deallocate_loses_counterexample","reallocate_refused","reallocate_orphans_counterexample","move_refused","move_orphans_counterexample"]], "no undefined behaviour, allocations, listings and statistics (other than of HOST, C24) agree after any refusals; false: the record is removed before the strategy is asked, so a refused block is never known again and can never be handed back (lost_forever_counterexample, deallocate_loses_counterexample); reallocate and move that throw because the old memory is refused have moved the contents to an address the caller is not told (reallocate_orphans_counterexample, move_orphans_counterexample)")
claim("C87", "partial", ["Usm."+x for x in ["usm_found","usm_queue","usm_offered","usm_offered_plain","usm_named","usm_plain","usm_works_iff","usm_device","usm_exact","usm_outcome","usm_num_partial","omp_named_partial","omp_device","usm_two_platforms_counterexample","usm_num_counterexample","usm_divide_counterexample","omp_host_counterexample"]], "memory of DEVICE::k is that of the k-th GPU of the platform gpu_selector chooses, UM, PINNED and DEVICE go with the first, blocks are exactly those held; false: the registry counts the GPUs of all platforms, so with a GPU shown by two platforms (usm_works_iff) some DEVICE::k on offer has a null queue and every call of it is undefined; getNumDevices counts the parts a GPU can have at most (usm_num_counterexample); a GPU that cannot be divided by NUMA domains makes the registry throw (usm_divide_counterexample); an OpenMP build offers DEVICE without devices (omp_host_counterexample)")
claim("C88", "partial", ["Cast."+x for x in ["try_quick","try_list","cast_try","cast_throws","cast_quick","cast_list","cast_idle","cast_over_counterexample","cast_find_shared","cast_find_without","cast_find_counterexample"]], "which allocators are coalesced, no effect on the others, live allocations stay, names found in the shared memory resource; false: try_coalesce says true also if nothing was coalesced (cast_idle), a pool below ThreadSafeAllocator or another strategy is not coalesced (cast_over_counterexample), and in a build with shared memory find_pointer_from_name casts any strategy to HostSharedMemoryResource: it never throws and is undefined for every other allocator (cast_find_counterexample)")
claim("C89", "partial", ["Oom."+x for x in ["oom_told","oom_decided","oom_zero","oom_all","oom_retry","oom_users","oom_named","oom_unset","oom_unset_counterexample","oom_kind_counterexample"]], "id and size of every out_of_memory_error that leaves allocate, TypedAllocator and the reallocations that allocate, which exception leaves (decided by the last step of the run alone), no lack of host, CUDA or HIP memory shown as anything else; false: allocate(name, n) and making a MonotonicAllocationStrategy leave id -1 and size 0 (oom_unset), and SYCL, OpenMP, file, constant memory, MonotonicAllocationStrategy and ::realloc report a lack of memory as plain runtime_error (oom_kind_counterexample)")
claim("C90", "partial", ["Attach."+x for x in ["attach_ready","attach_safe","attach_once","attach_layout","attach_same","attach_waits","attach_live","attach_throws","attach_path","attach_dead","attach_hang_counterexample","attach_empty_counterexample","attach_split_counterexample","attach_size_counterexample"]], "initialised when attached, no undefined step, one maker, layout of C39 in every process, same segment, who waits waits for a maker that does not wait, and progress in every fair run; false when a call fails in the maker or it asked for size 0 (all others wait for ever, attach_dead), after one process destroyed its resource (the name is gone, attach_split_counterexample), and for the size, which only the first decides (attach_size_counterexample)")
claim("C91", "partial", ["Multi."+x for x in ["multi_sequential_partial","multi_replay_partial","multi_replay","multi_threads","multi_blocks","multi_replay_counterexample"]], "without reallocate the log replays in every interleaving as the calls of the threads (multi_replay); with it, in every interleaving in which no thread writes a record between the two records of a reallocate of another; when one does, its call is not replayed (multi_replay_counterexample): records carry no thread. A reallocate that throws is excluded (C46), names as in C46")
claim("C92", "partial", ["Numa."+x for x in ["host_nodes","device_nodes","nodes_partition","nodes_throw","allocatable_nodes","policy_listed_partial","policy_make","policy_unknown","policy_unknown_counterexample","nodes_leak_counterexample"]], "the lists are exact; the platform of a policy is right for listed nodes (policy_listed_partial), but every number that is no node counts as a device node (policy_unknown), so a policy for a node that does not exist can be made and claims to be device memory; the exception for one node leaks a mask (nodes_throw, nodes_leak_counterexample)")
claim("C93", "partial", ["Replay.Stats."+x for x in ["stats_through","stats_exact","dump_exact_partial","stats_watermark_partial","stats_log","log_dump_partial","stats_wipe_counterexample","dump_fresh_counterexample","stats_grow_counterexample","stats_untracked_counterexample"]], "stats_through says exactly when the options are harmless, stats_exact which calls --stats counts for every allocator; the trace is exact unless a null pointer is reallocated (dump_exact_partial) and the watermarks for allocators without reallocations (stats_watermark_partial). All of it holds for the operations compiled from the log of any program as in C46 (stats_log, log_dump_partial). False: with either option the replay of a log in which an allocator without tracking gets memory back fails (stats_untracked_counterexample); set_default_allocator clears the histogram of the allocator, after which counts wrap (stats_wipe_counterexample); reallocations are not counted (dump_fresh_counterexample, stats_grow_counterexample). Of the trace only the series allocation count is modelled. Sizes of 0 bytes are in C48.")
claim("C94", "partial", ["Backtrace."+x for x in ["backtrace_value","backtrace_exact_partial","backtrace_records_partial","backtrace_one_copy_partial","backtrace_kept","backtrace_value_counterexample","backtrace_ub_counterexample","backtrace_lost_counterexample"]], "Exact for every history and choice of copies as long as nobody changes the variable (backtrace_exact_partial; backtrace_records_partial for the records get_allocator_records lists, of all strategies together), and for every history if both functions get the same copy of the switch (backtrace_one_copy_partial); allocations of at least five bytes, as smaller ones may not be found (C20). False: any value with the letters on in it turns backtraces on, also none (backtrace_value, backtrace_value_counterexample); with a copy of the switch for each translation unit, setting the variable between the first allocation and the first question makes the answer undefined (backtrace_ub_counterexample), removing it loses what was recorded (backtrace_lost_counterexample). The text of the frames is not modelled.")
json.dump({"claims": claims}, open("/verif/MANIFEST.json", "w"), indent=1)
