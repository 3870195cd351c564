{
 "claims": [
  {
   "property": "C01",
   "status": "proved",
   "theorems": [
    "Umpire.QuickPool.quickpool_live_disjoint"
   ],
   "note": "All histories, all parents, all heuristics bounded away from 2^64; requests with n + 2*align <= 2^64."
  },
  {
   "property": "C02",
   "status": "partial",
   "theorems": [
    "Umpire.QuickPool.quickpool_aligned_partial",
    "Umpire.QuickPool.quickpool_overflow_counterexample"
   ],
   "note": "Holds for n + 2*align <= 2^64. Beyond, the claim is false: allocate(2^64-1) succeeds with an empty chunk (counterexample proved)."
  },
  {
   "property": "C03",
   "status": "partial",
   "theorems": [
    "Umpire.QuickPool.quickpool_sizes_exact",
    "Umpire.QuickPool.quickpool_gaps_exact",
    "Umpire.QuickPool.quickpool_actual_hwm_exact",
    "Umpire.QuickPool.quickpool_aligned_hwm_partial",
    "Umpire.QuickPool.hwm_builtIn",
    "Umpire.QuickPool.quickpool_aligned_hwm_counterexample"
   ],
   "note": "All observers exact except getAlignedHighwaterMark, which coalescing inflates (counterexample proved, with percent_releasable); exact without coalescing and with every _hwm heuristic, in particular the default."
  },
  {
   "property": "C04",
   "status": "proved",
   "theorems": [
    "Umpire.QuickPool.quickpool_returns_only_free",
    "Umpire.QuickPool.quickpool_no_undefined_behaviour",
    "Umpire.QuickPool.quickpool_release_exact",
    "Umpire.QuickPool.quickpool_release_all"
   ],
   "note": ""
  },
  {
   "property": "C05",
   "status": "partial",
   "theorems": [
    "Umpire.QuickPool.quickpool_coalesce_diverges",
    "Umpire.QuickPool.quickpool_blocks_diverges_counterexample",
    "Umpire.QuickPool.quickpool_percent_diverges_counterexample",
    "Umpire.QuickPool.quickpool_terminates_partial",
    "Umpire.QuickPool.quiet_builtIn"
   ],
   "note": "The claim is false, and the library heuristics are classified completely. Termination is proved for percentages 0 and 100 (100 is the default), for block counts of at least 2, and for every heuristic firing only under those conditions. For every percentage from 1 to 99 and for block counts 0 and 1, plain and high-watermark variants alike, a reachable state is exhibited in which deallocate recurses without end."
  },
  {
   "property": "C06",
   "status": "partial",
   "theorems": [
    "Umpire.QuickPool.quickpool_failed_allocate",
    "Umpire.QuickPool.quickpool_coalesce_aborts"
   ],
   "note": "Holds for allocate. For the allocation inside coalesce the program is terminated (counterexample proved)."
  },
  {
   "property": "C07",
   "status": "proved",
   "theorems": [
    "Umpire.QuickPool.quickpool_best_fit",
    "Umpire.QuickPool.quickpool_asks_only_when_needed",
    "Umpire.QuickPool.quickpool_free_block_usable",
    "Umpire.QuickPool.quickpool_gaps_exact"
   ],
   "note": ""
  },
  {
   "property": "C08",
   "status": "partial",
   "theorems": [
    "Umpire.DynPool.dynpool_live_disjoint",
    "Umpire.DynPool.dynpool_aligned_partial",
    "Umpire.DynPool.dynpool_overflow_counterexample"
   ],
   "note": "Holds for n + 2*align <= 2^64. Beyond, the claim is false: allocate(2^64-1) succeeds with an empty piece and the next allocation gets the same pointer (counterexample proved)."
  },
  {
   "property": "C09",
   "status": "partial",
   "theorems": [
    "Umpire.DynPool.dynpool_sizes_exact",
    "Umpire.DynPool.dynpool_gaps_exact",
    "Umpire.DynPool.dynpool_actual_hwm_exact",
    "Umpire.DynPool.dynpool_aligned_hwm_partial",
    "Umpire.DynPool.hwm_builtIn",
    "Umpire.DynPool.dynpool_aligned_hwm_counterexample"
   ],
   "note": "All sizes and the mark of the memory held are exact. The mark of the memory in use is exact for heuristics that never suggest more than it (the _hwm ones, among them the default) and never too small; with blocks_releasable and percent_releasable it can be too large, because coalescing allocates and deallocates a block internally (counterexample)."
  },
  {
   "property": "C10",
   "status": "proved",
   "theorems": [
    "Umpire.DynPool.dynpool_returns_only_free",
    "Umpire.DynPool.dynpool_no_undefined_behaviour",
    "Umpire.DynPool.dynpool_release_exact",
    "Umpire.DynPool.dynpool_release_all"
   ],
   "note": ""
  },
  {
   "property": "C54",
   "status": "partial",
   "theorems": [
    "Umpire.DynPool.dynpool_best_fit",
    "Umpire.DynPool.dynpool_failed_allocate",
    "Umpire.DynPool.dynpool_coalesce_aborts"
   ],
   "note": "Best fit and failed allocate proved. The last sentence is false: coalesce (noexcept) terminates the program and deallocate throws when the parent refuses the coalesced block (counterexample proved)."
  },
  {
   "property": "C11",
   "status": "partial",
   "theorems": [
    "Umpire.FixedPool.fixedpool_live_disjoint_partial",
    "Umpire.FixedPool.fixedpool_exhaustion",
    "Umpire.FixedPool.fixedpool_deallocate",
    "Umpire.FixedPool.fixedpool_safe",
    "Umpire.FixedPool.fixedpool_foreign",
    "Umpire.FixedPool.fixedpool_release_exact",
    "Umpire.FixedPool.fixedpool_destroy",
    "Umpire.FixedPool.fixedpool_overflow_counterexample",
    "Umpire.FixedPool.fixedpool_zero_diverges_counterexample",
    "Umpire.FixedPool.fixedpool_create_aborts"
   ],
   "note": "Holds when object size times objects per pool fits 64 bits and there is at least one object per pool. Otherwise the claim is false: the product overflows, or allocate recurses without end (counterexamples proved)."
  },
  {
   "property": "C12",
   "status": "partial",
   "theorems": [
    "Umpire.FixedPool.fixedpool_current_size",
    "Umpire.FixedPool.fixedpool_actual_size_partial",
    "Umpire.FixedPool.fixedpool_actual_size_counterexample"
   ],
   "note": "getCurrentSize, getHighWatermark and numPools are exact. getActualSize is never reduced by release and counts bitmap words (counterexample proved)."
  },
  {
   "property": "C50",
   "status": "proved",
   "theorems": [
    "Umpire.find_first_set_spec",
    "Umpire.find_first_set_windows"
   ],
   "note": "Both platform paths; _BitScanForward is any function meeting its documentation."
  },
  {
   "property": "C13",
   "status": "partial",
   "theorems": [
    "Umpire.MallocPool.mallocpool_live_disjoint_partial",
    "Umpire.MallocPool.mallocpool_reuses_first",
    "Umpire.MallocPool.mallocpool_preserves_contents",
    "Umpire.MallocPool.mallocpool_deallocate",
    "Umpire.MallocPool.mallocpool_safe",
    "Umpire.MallocPool.mallocpool_access",
    "Umpire.MallocPool.mallocpool_inside",
    "Umpire.MallocPool.mallocpool_malloc_failure_counterexample",
    "Umpire.MallocPool.mallocpool_small_objects_counterexample"
   ],
   "note": "Holds for objects of at least 8 bytes, fewer than 2^32 per pool, while malloc succeeds. Otherwise false: deallocate stores 8 bytes into smaller objects and so overwrites live neighbours, and a null result of malloc is written through (counterexamples proved)."
  },
  {
   "property": "C14",
   "status": "proved",
   "theorems": [
    "Umpire.SlotPool.slotpool_live_disjoint",
    "Umpire.SlotPool.slotpool_allocate",
    "Umpire.SlotPool.slotpool_deallocate",
    "Umpire.SlotPool.slotpool_destroy",
    "Umpire.SlotPool.slotpool_destroy_counterexample",
    "Umpire.SlotPool.slotpool_lost_slot_counterexample",
    "Umpire.SlotPool.slotpool_zero_counterexample"
   ],
   "note": "Positive request sizes. The counterexamples are defects outside the claim: a slot is lost when the parent refuses, the destructor hands back negative lengths, zero bytes."
  },
  {
   "property": "C15",
   "status": "proved",
   "theorems": [
    "Umpire.MixedPool.mixedpool_routing",
    "Umpire.MixedPool.mixedpool_live_disjoint",
    "Umpire.MixedPool.mixedpool_fresh",
    "Umpire.MixedPool.mixedpool_safe",
    "Umpire.MixedPool.mixedpool_failed_allocate",
    "Umpire.MixedPool.mixedpool_no_leak",
    "Umpire.MixedPool.mixedpool_create_partial",
    "Umpire.MixedPool.mixedpool_create_diverges_counterexample",
    "Umpire.MixedPool.mixedpool_create_ub_counterexample"
   ],
   "note": "Address reuse between sub-pools included (the sub-pools share one parent). Outside the claim: the constructor loops for ever with multiplier 1 and divides by zero for size 0 or when a size wraps (proved)."
  },
  {
   "property": "C16",
   "status": "partial",
   "theorems": [
    "Umpire.Monotonic.monotonic_disjoint_partial",
    "Umpire.Monotonic.monotonic_fits_partial",
    "Umpire.Monotonic.monotonic_sizes",
    "Umpire.Monotonic.monotonic_failed_request_counterexample",
    "Umpire.Monotonic.monotonic_wraparound_counterexample"
   ],
   "note": "False in two ways (proved): a refused request still consumes capacity, and sizes near 2^64 wrap the counter so that allocations overlap. Proved without wraparound."
  },
  {
   "property": "C17",
   "status": "partial",
   "theorems": [
    "Umpire.SizeLimiter.sizelimiter_limit_partial",
    "Umpire.SizeLimiter.sizelimiter_refuses_partial",
    "Umpire.SizeLimiter.sizelimiter_deallocate",
    "Umpire.SizeLimiter.sizelimiter_leak_counterexample",
    "Umpire.SizeLimiter.sizelimiter_wraparound_counterexample"
   ],
   "note": "The limit is respected and refusals are exact without 64-bit wraparound. False: a refused or failed request consumes budget for good; wraparound breaks the limit (counterexamples proved)."
  },
  {
   "property": "C18",
   "status": "partial",
   "theorems": [
    "Umpire.Aligned.aligned_create",
    "Umpire.Aligned.aligned_live_partial",
    "Umpire.Aligned.aligned_deallocate_exact",
    "Umpire.Aligned.aligned_safe",
    "Umpire.Aligned.aligned_overflow_counterexample"
   ],
   "note": "Proved for n + 8 + alignment <= 2^64, for any writes by the user in between. Beyond, the block is too small (counterexample proved)."
  },
  {
   "property": "C19",
   "status": "partial",
   "theorems": [
    "Umpire.SizeArith.pool_round_partial",
    "Umpire.SizeArith.pool_round_counterexample",
    "Umpire.SizeArith.aligned_total",
    "Umpire.SizeArith.typed_bytes",
    "Umpire.SizeArith.typed_bytes_counterexample",
    "Umpire.SizeArith.file_bytes",
    "Umpire.SizeArith.shmBytes_eq_mask",
    "Umpire.SizeArith.shm_bytes_partial",
    "Umpire.SizeArith.shm_bytes_counterexample",
    "Umpire.QuickPool.quickpool_overflow_counterexample",
    "Umpire.DynPool.dynpool_overflow_counterexample",
    "Umpire.Aligned.aligned_overflow_counterexample"
   ],
   "note": "True for the file resource. For pools, AlignedAllocator, TypedAllocator and shared memory the result is exact below 2^64 and the library goes on with a smaller block beyond (counterexamples proved); the shared memory rounding is never the least multiple when the size already is a multiple."
  },
  {
   "property": "C45",
   "status": "partial",
   "theorems": [
    "Umpire.Forward.namingshim_unique_names",
    "Umpire.Forward.namingshim_count_partial",
    "Umpire.Forward.namingshim_size_counterexample"
   ],
   "note": "Names are unique until the 64-bit counter wraps; the parent's allocation count stays balanced. Its reported size does not: deallocations announce size 0 (counterexample proved)."
  },
  {
   "property": "C53",
   "status": "proved",
   "theorems": [
    "Umpire.Forward.forward_exact",
    "Umpire.Forward.forward_deallocate_exact",
    "Umpire.Forward.forward_safe",
    "Umpire.Forward.forward_no_leak",
    "Umpire.Forward.forward_hook_leaks_counterexample"
   ],
   "note": "One model for all five strategies; the operation applied to a new allocation (advice, prefetch, NUMA move) is arbitrary. If it throws, the memory is lost (proved; outside the claim)."
  },
  {
   "property": "C20",
   "status": "partial",
   "theorems": [
    "Umpire.Judy.allocmap_find_sound",
    "Umpire.Judy.allocmap_find_block_partial",
    "Umpire.Judy.allocmap_find_partial",
    "Umpire.Judy.allocmap_find_large_partial",
    "Umpire.Judy.allocmap_find_counterexample"
   ],
   "note": "For every history: a record that is found contains the address, and every base address is found. Interior addresses are found when no aligned 256-byte block ever holds more than 56 registered addresses, in particular when every allocation has at least 5 bytes. With more the claim is false (counterexample proved): judy_prv returns the wrong leaf cell."
  },
  {
   "property": "C21",
   "status": "proved",
   "theorems": [
    "Umpire.Judy.allocmap_stack",
    "Umpire.Judy.allocmap_clear"
   ],
   "note": "Includes clear, failed removals and interleaved lookups and iterations."
  },
  {
   "property": "C22",
   "status": "partial",
   "theorems": [
    "Umpire.Judy.memorymap_lookup_partial",
    "Umpire.Judy.memorymap_before_sound",
    "Umpire.Judy.memorymap_iterate_partial",
    "Umpire.Judy.memorymap_find_absent_counterexample",
    "Umpire.Judy.memorymap_insert_flag_counterexample",
    "Umpire.Judy.memorymap_null_key_counterexample",
    "Umpire.Judy.memorymap_iterator_copy_counterexample",
    "Umpire.Judy.memorymap_before_none_counterexample",
    "Umpire.Judy.memorymap_past_end_counterexample"
   ],
   "note": "Lookup, insertion, deletion, clear and iteration proved for the Judy tree with all node types. False at the edges (proved): find of an absent key may differ from end() and erasing it is undefined behaviour; the copying insert reports the opposite; a null key looks like the end; a copied iterator at a reused address skips keys."
  },
  {
   "property": "C55",
   "status": "proved",
   "theorems": [
    "Umpire.Judy.allocmap_iterate"
   ],
   "note": ""
  },
  {
   "property": "C23",
   "status": "partial",
   "theorems": [
    "Umpire.Mgr.introspection_partial",
    "Umpire.Mgr.introspection_interior_partial",
    "Umpire.Mgr.allocate_registers",
    "Umpire.Mgr.deallocate_forgets",
    "Umpire.Mgr.allocate_succeeds",
    "Umpire.Mgr.deallocate_succeeds"
   ],
   "note": "Every history of allocations, deallocations, reallocations, moves, copies and memsets on any number of allocators. Base addresses and unknown addresses without further assumption; interior addresses when strategies return multiples of eight and the zero-byte pool lives in pages of its own (otherwise the defect of the Judy tree shown for C20 applies)."
  },
  {
   "property": "C24",
   "status": "partial",
   "theorems": [
    "Umpire.Mgr.statistics_partial",
    "Umpire.Mgr.watermark_partial",
    "Umpire.Mgr.statistics_drift",
    "Umpire.Mgr.statistics_reallocate_counterexample",
    "Umpire.Mgr.statistics_failure_counterexample"
   ],
   "note": "Exact for histories without failed requests of child strategies, mismatched sizes and reallocations on HOST; the general formula states by how much the numbers are off. Counterexamples show that those events do make them wrong."
  },
  {
   "property": "C25",
   "status": "proved",
   "theorems": [
    "Umpire.Mgr.wrong_deallocate"
   ],
   "note": "Also for pointers unknown to every allocator."
  },
  {
   "property": "C26",
   "status": "proved",
   "theorems": [
    "Umpire.Mgr.zero_bytes",
    "Umpire.Mgr.allocate_succeeds",
    "Umpire.Mgr.deallocate_nullptr"
   ],
   "note": ""
  },
  {
   "property": "C27",
   "status": "proved",
   "theorems": [
    "Umpire.Mgr.leaks_exact"
   ],
   "note": "Stated for recordsOf, the model of get_allocator_records and get_leaked_allocations."
  },
  {
   "property": "C30",
   "status": "partial",
   "theorems": [
    "Umpire.Mgr.copy_partial",
    "Umpire.Mgr.copy_unknown",
    "Umpire.Mgr.copy_overrun_counterexample",
    "Umpire.Mgr.copy_overlap_counterexample"
   ],
   "note": "Holds when the source range lies in its allocation and is disjoint from the destination range; the code checks neither, counterexamples given."
  },
  {
   "property": "C31",
   "status": "partial",
   "theorems": [
    "Umpire.Mgr.memset_partial",
    "Umpire.Mgr.memset_safe"
   ],
   "note": "Exact for first addresses, and for interior addresses under the alignment assumption of C23 (they may otherwise be rejected); memset_safe holds for all addresses."
  },
  {
   "property": "C32",
   "status": "partial",
   "theorems": [
    "Umpire.Mgr.reallocate_partial",
    "Umpire.Mgr.reallocate_succeeds",
    "Umpire.Mgr.reallocate_zero",
    "Umpire.Mgr.reallocate_null",
    "Umpire.Mgr.reallocate_rejects",
    "Umpire.Mgr.reallocate_any_rejects",
    "Umpire.Mgr.reallocate_failure_counterexample"
   ],
   "note": "Success, rejection and failure for all allocators; when ::realloc fails on HOST memory the record is lost (counterexample)."
  },
  {
   "property": "C33",
   "status": "partial",
   "theorems": [
    "Umpire.Mgr.move_partial",
    "Umpire.Mgr.move_succeeds",
    "Umpire.Mgr.move_same",
    "Umpire.Mgr.move_rejects_partial",
    "Umpire.Mgr.move_interior_counterexample",
    "Umpire.Mgr.move_untracked_counterexample"
   ],
   "note": "For tracked targets. Interior addresses are rejected unless they belong to the target (counterexample); moving to an untracked allocator throws and leaks (counterexample)."
  },
  {
   "property": "C28",
   "status": "partial",
   "theorems": [
    "Umpire.Names.make_fresh",
    "Umpire.Names.ids_unique",
    "Umpire.Names.lookup_name_partial",
    "Umpire.Names.lookup_id",
    "Umpire.Names.lookup_name_simple",
    "Umpire.Names.name_taken",
    "Umpire.Names.name_reuse_partial",
    "Umpire.Names.name_free",
    "Umpire.Names.invalid_id_partial",
    "Umpire.Names.bad_id",
    "Umpire.Names.lookup_safe_partial",
    "Umpire.Names.lookup_name_counterexample",
    "Umpire.Names.device_name_counterexample",
    "Umpire.Names.dangling_name_counterexample",
    "Umpire.Names.invalid_id_counterexample"
   ],
   "note": "Fresh ids and names, lookups by id and rejections hold for every history. Lookup by name holds unless a resource whose name minus its suffix collides is created later; the counterexamples show a user's allocator being shadowed, a dangling pointer left by a failed makeResource, and the reserved id being handed out after 2^28 creations."
  },
  {
   "property": "C29",
   "status": "partial",
   "theorems": [
    "Umpire.Names.alias_adds",
    "Umpire.Names.alias_free",
    "Umpire.Names.alias_taken",
    "Umpire.Names.alias_taken_unchanged",
    "Umpire.Names.alias_lasts_partial",
    "Umpire.Names.unalias_removes",
    "Umpire.Names.alias_round_trip",
    "Umpire.Names.unalias_unknown",
    "Umpire.Names.unalias_own_name",
    "Umpire.Names.unalias_other",
    "Umpire.Names.alias_taken_counterexample",
    "Umpire.Names.unalias_resource_counterexample"
   ],
   "note": "False in two corners (proved): addAlias to the name of a resource not created yet creates it before throwing, and removeAlias of such a name dereferences end()."
  },
  {
   "property": "C43",
   "status": "partial",
   "theorems": [
    "Umpire.Names.name_of_type",
    "Umpire.Names.type_of_name",
    "Umpire.Names.types_injective",
    "Umpire.Names.unknown_reported",
    "Umpire.Names.unknown_type_reported",
    "Umpire.Names.device_suffix_partial",
    "Umpire.Names.device_suffix_too_large",
    "Umpire.Names.device_suffix_counterexample"
   ],
   "note": "Device suffixes: proved for every number for names that end in it; with HIP, DEVICE::N::FINE names yield the current device (counterexample)."
  },
  {
   "property": "C34",
   "status": "proved",
   "theorems": [
    "Umpire.Ops.dispatch_exact",
    "Umpire.Ops.dispatch_throws",
    "Umpire.Ops.register_others",
    "Umpire.Ops.host_total",
    "Umpire.Ops.device_total",
    "Umpire.Ops.dispatch_right",
    "Umpire.Ops.host_dispatch",
    "Umpire.Ops.second_registration_counterexample",
    "Umpire.Ops.all_pairs_counterexample"
   ],
   "note": "Every build configuration, every registration history. When an operation is registered twice for the same name and pair the first one stays (documented otherwise; proved), and COPY and MEMSET are not registered for FILE memory (documented otherwise; proved)."
  },
  {
   "property": "C35",
   "status": "partial",
   "theorems": [
    "Umpire.Ops.contains_exact",
    "Umpire.Ops.contains_subset",
    "Umpire.Ops.overlaps_partial",
    "Umpire.Ops.overlaps_both",
    "Umpire.Ops.range_unknown",
    "Umpire.Ops.overlaps_order_counterexample",
    "Umpire.Ops.contains_zero_counterexample"
   ],
   "note": "Over the model of the allocation map, overlapping registrations included. pointer_overlaps depends on the order of its arguments, so the claim is false for it (counterexample); exact when asked in both orders."
  },
  {
   "property": "C44",
   "status": "partial",
   "theorems": [
    "Umpire.Ops.fragmentation_partial",
    "Umpire.Ops.fragmentation_diverges",
    "Umpire.Ops.fragmentation_empty_counterexample"
   ],
   "note": "False: the loop never ends for two or more records and the empty list is undefined behaviour (proved). Holds for one record."
  },
  {
   "property": "C49",
   "status": "proved",
   "theorems": [
    "Umpire.Ops.accessible_root",
    "Umpire.Ops.accessible_same_root",
    "Umpire.Ops.accessible_stable"
   ],
   "note": ""
  },
  {
   "property": "C56",
   "status": "partial",
   "theorems": [
    "Umpire.Ops.own_platform_partial",
    "Umpire.Ops.host_operation_partial",
    "Umpire.Ops.own_platform_counterexample",
    "Umpire.Ops.host_operation_counterexample"
   ],
   "note": "False for NO_OP, FILE and NumaPolicy on device nodes (counterexamples); proved otherwise."
  },
  {
   "property": "C46",
   "status": "partial",
   "theorems": [
    "Umpire.Replay.replay_faithful_partial",
    "Umpire.Replay.keys_distinct",
    "Umpire.Replay.replay_after_failed_reallocate_counterexample",
    "Umpire.Replay.replay_race_counterexample",
    "Umpire.Replay.replay_memset_counterexample",
    "Umpire.Replay.replay_base_name_counterexample"
   ],
   "note": "Proved for every program (addresses reused arbitrarily, fewer than 2^31 calls) without a throwing reallocate, without another thread's call during a reallocate, without memset, and with coalesce only on allocators not named *_base. Each exclusion is necessary: after a failed reallocate or during a racing one allocations are dropped, a trace with memset does not compile, and coalesce of my_base is replayed on the first allocator (proved)."
  },
  {
   "property": "C47",
   "status": "partial",
   "theorems": [
    "Umpire.Replay.compare_decides",
    "Umpire.Replay.compare_exact_partial",
    "Umpire.Replay.compare_complete",
    "Umpire.Replay.compare_shorter_left",
    "Umpire.Replay.compare_misses_suffix",
    "Umpire.Replay.compare_longer_left_counterexample"
   ],
   "note": "False: a left trace that continues after the right one ends always compares equal (proved in general and by example). Exact when both have the same number of operations; a shorter left trace is reported."
  },
  {
   "property": "C48",
   "status": "proved",
   "theorems": [
    "Umpire.Replay.bucket_exact",
    "Umpire.Replay.bucket_in_range",
    "Umpire.Replay.histogram_exact_partial",
    "Umpire.Replay.bucket_zero_counterexample",
    "Umpire.Replay.histogram_realloc_counterexample"
   ],
   "note": "Outside the claim: zero bytes fall in bucket 63, and since reallocations are not counted the printed watermarks can become 2^64-1 (proved)."
  },
  {
   "property": "C51",
   "status": "partial",
   "theorems": [
    "Umpire.FileRes.file_mappings_partial",
    "Umpire.FileRes.file_deallocate",
    "Umpire.FileRes.file_allocate_throws",
    "Umpire.FileRes.file_allocate_succeeds",
    "Umpire.FileRes.file_destroy",
    "Umpire.FileRes.mkName_inj",
    "Umpire.FileRes.file_remove_counterexample",
    "Umpire.FileRes.file_descriptor_leak"
   ],
   "note": "Holds for every history in which removing the backing file succeeds. Otherwise deallocate throws after unmapping and keeps the entry (counterexample); a failing allocate leaks a file descriptor (proved)."
  },
  {
   "property": "C52",
   "status": "partial",
   "theorems": [
    "Umpire.Heur.quickpool_heuristics_partial",
    "Umpire.Heur.quickpool_percent_early_counterexample",
    "Umpire.Heur.quickpool_percent_late_counterexample",
    "Umpire.Heur.dynpool_heuristics_partial",
    "Umpire.Heur.dynpool_untracked_heuristic_counterexample"
   ],
   "note": "Exact for 0 and 100 percent and for the block counts; for other percentages the float threshold is within the proved rounding error and the claim is false at the edge (counterexamples both ways). The heuristic of an untracked DynamicPoolList always fires (counterexample)."
  },
  {
   "property": "C57",
   "status": "partial",
   "theorems": [
    "Umpire.Constant.constant_stack_partial",
    "Umpire.Constant.constant_stuck_counterexample",
    "Umpire.Constant.constant_wrap_counterexample"
   ],
   "note": "Holds for histories in which every request fits. After a request that does not fit the resource is unusable, and sizes near 2^64 wrap so that allocations overlap (counterexamples)."
  },
  {
   "property": "C58",
   "status": "partial",
   "theorems": [
    "Umpire.NullRes.null_bookkeeping_partial",
    "Umpire.NullRes.null_unmap_counterexample",
    "Umpire.NullRes.null_failure_unnoticed",
    "Umpire.NullRes.freed_cell"
   ],
   "note": "The bookkeeping is exact. The length given to munmap is read from the record after it has been freed and is wrong for every reservation whose size modulo 2^32 exceeds 2^20; a failed reservation is not noticed (proved)."
  },
  {
   "property": "C39",
   "status": "partial",
   "theorems": [
    "Umpire.Shm.shm_layout_partial",
    "Umpire.Shm.shm_contents_partial",
    "Umpire.Shm.shm_safe_partial",
    "Umpire.Shm.shm_room_partial",
    "Umpire.Shm.shm_accounting_partial",
    "Umpire.Shm.shm_small_counterexample",
    "Umpire.Shm.shm_size_counterexample",
    "Umpire.Shm.shm_wrap_counterexample"
   ],
   "note": "Every history by any number of processes on a segment of 120 bytes to 2^63, byte-level model of both linked lists; names without null bytes, sizes that do not wrap. Smaller segments hand out memory outside, a live name allocated with a larger size overlaps its neighbour, and sizes near 2^64 wrap (counterexamples)."
  },
  {
   "property": "C40",
   "status": "partial",
   "theorems": [
    "Umpire.Shm.shm_same_name_partial",
    "Umpire.Shm.shm_refs_partial",
    "Umpire.Shm.shm_find_partial",
    "Umpire.Shm.shm_contents_partial",
    "Umpire.Shm.shm_nul_counterexample"
   ],
   "note": "Same histories as C39, fewer than 2^64 references to a name. False for names with a null byte (counterexample)."
  },
  {
   "property": "C37",
   "status": "partial",
   "theorems": [
    "Umpire.Conc.threadsafe_serial",
    "Umpire.Conc.threadsafe_serial_prefix",
    "Umpire.Conc.threadsafe_serial_each",
    "Umpire.Conc.threadsafe_serial_all",
    "Umpire.Conc.threadsafe_no_deadlock",
    "Umpire.Conc.threadsafe_pool",
    "Umpire.Conc.two_locks_lost_update_counterexample",
    "Umpire.Conc.two_locks_addresses_counterexample",
    "Umpire.Conc.two_locks_same_pointer_counterexample"
   ],
   "note": "Proved in full for all handles of one ThreadSafeAllocator (any threads, adaptive programs, schedules, any code in the calls), with an end-to-end corollary for QuickPool; for several, per allocator with the same answers from outside, and for the whole state when they share nothing. False when several share a resource or a pool: its statistics lose updates, addresses need not be those of any sequential order, and two thread-safe allocators over one pool hand out the same memory (counterexamples)."
  },
  {
   "property": "C38",
   "status": "partial",
   "theorems": [
    "Umpire.Conc.lock_coverage_partial",
    "Umpire.Conc.zero_race_counterexample",
    "Umpire.Conc.zero_dealloc_race_counterexample",
    "Umpire.Conc.resource_race_counterexample",
    "Umpire.Conc.shared_pool_race_counterexample",
    "Umpire.Conc.beneath_race_counterexample",
    "Umpire.Conc.getter_race_counterexample"
   ],
   "note": "No race when the thread-safe allocators in use have nothing beneath them in common, not even the resource, and make no zero-byte requests. Otherwise false: zero-byte pool, statistics of a shared resource, a pool beneath two thread-safe allocators, a thread-safe allocator beneath another strategy, and the getters (counterexamples)."
  },
  {
   "property": "C41",
   "status": "partial",
   "theorems": [
    "Umpire.Device.device_disjoint_partial",
    "Umpire.Device.device_bounded_partial",
    "Umpire.Device.device_no_failure_partial",
    "Umpire.Device.device_reset",
    "Umpire.Device.device_reset_cas",
    "Umpire.Device.cuda_out_of_bounds_counterexample",
    "Umpire.Device.hip_fitting_fails_counterexample",
    "Umpire.Device.hip_failed_uses_space_counterexample",
    "Umpire.Device.device_wrap_counterexample",
    "Umpire.Device.device_large_counterexample"
   ],
   "note": "Disjoint as long as fewer than 2^32 bytes were asked for since the last reset; inside the buffer on HIP only. CUDA has no check, failing requests use up space and make others fail, and the 32-bit counter wraps (counterexamples)."
  },
  {
   "property": "C42",
   "status": "partial",
   "theorems": [
    "Umpire.Device.host_name_found_partial",
    "Umpire.Device.host_name_unknown_partial",
    "Umpire.Device.host_id_partial",
    "Umpire.Device.dev_name_found_partial",
    "Umpire.Device.dev_name_unknown_partial",
    "Umpire.Device.device_ids_unique",
    "Umpire.Device.dev_prefix_counterexample",
    "Umpire.Device.dev_unknown_counterexample",
    "Umpire.Device.host_empty_name_counterexample",
    "Umpire.Device.duplicate_name_counterexample",
    "Umpire.Device.table_full_counterexample",
    "Umpire.Device.long_name_counterexample",
    "Umpire.Device.null_table_id_counterexample",
    "Umpire.Device.null_table_destroy_counterexample",
    "Umpire.Device.stale_device_table_counterexample",
    "Umpire.Device.junk_table_counterexample"
   ],
   "note": "On the host exact for distinct non-empty names shorter than 64 characters, at most 64 allocators and zero-filled table memory. In device code names are matched by prefix, unknown names find unused entries, and the table of before a destroy stays in use; the 65th allocator is written behind the table (counterexamples)."
  },
  {
   "property": "C36",
   "status": "partial",
   "theorems": [
    "Umpire.Nest.nested_safe_partial",
    "Umpire.Nest.nested_step_safe_partial",
    "Umpire.Nest.nested_slotpool_counterexample",
    "Umpire.Nest.nested_overflow_counterexample",
    "Umpire.Nest.nested_fixedpool_counterexample"
   ],
   "note": "Every forest of all the library's host strategies over any number of resources, every sequence of commands by users of any of them, every behaviour of the resources; live allocations are those of a ledger of requests and answers. Assumes that sizes fit together down the chain (no overflow, requests to a FixedPool not larger than its objects) and that nothing is built on a SlotPool; the counterexamples show that each of these is needed."
  },
  {
   "property": "C59",
   "status": "partial",
   "theorems": [
    "Umpire.Nest.teardown_partial",
    "Umpire.Nest.creation_order",
    "Umpire.Nest.teardown_order_counterexample",
    "Umpire.Nest.teardown_mono_counterexample",
    "Umpire.Nest.teardown_slots_counterexample",
    "Umpire.Nest.teardown_leak_counterexample"
   ],
   "note": "Every forest and history as in C36, every prefix of the shutdown, which goes through the list of strategies newest first; that order is proved to be safe (and the reverse unsafe). Unreturned allocations are safe unless a MonotonicAllocationStrategy or SlotPool is involved, whose destructors free them (counterexamples); a failed advice, prefetch or NUMA operation leaks (counterexample). The destructors of the resources are not part of this model; those of FILE and of shared memory are in C51 and C90."
  },
  {
   "property": "C60",
   "status": "partial",
   "theorems": [
    "Umpire.BlockPool.blockpool_live_disjoint_partial",
    "Umpire.BlockPool.blockpool_allocate_partial",
    "Umpire.BlockPool.blockpool_sizes_partial",
    "Umpire.BlockPool.blockpool_deallocate_partial",
    "Umpire.BlockPool.blockpool_destroy_partial",
    "Umpire.BlockPool.blockpool_null_header_counterexample",
    "Umpire.BlockPool.blockpool_null_data_counterexample",
    "Umpire.BlockPool.blockpool_double_free_counterexample"
   ],
   "note": "Everything holds in every history in which malloc grants the requests. Otherwise the claim is false, proved for every state in which all slots are in use: a refused header is a write through a null pointer, and after a refused data block allocate returns the address sizeof(T)."
  },
  {
   "property": "C61",
   "status": "partial",
   "theorems": [
    "Umpire.QuickPool.quickpool_coalesce_idle",
    "Umpire.QuickPool.quickpool_coalesce_consolidates",
    "Umpire.QuickPool.quickpool_consolidated_serves",
    "Umpire.QuickPool.quickpool_blocks_releasable",
    "Umpire.QuickPool.quickpool_blocks_releasable_hwm",
    "Umpire.QuickPool.quickpool_default_heuristic",
    "Umpire.QuickPool.quickpool_explicit_coalesce_idle",
    "Umpire.QuickPool.quickpool_coalesce_grows_counterexample",
    "Umpire.QuickPool.quickpool_coalesce_shrinks_counterexample",
    "Umpire.DynPool.dynpool_coalesce_consolidates",
    "Umpire.DynPool.dynpool_deallocate_consolidates",
    "Umpire.DynPool.dynpool_blocks_releasable",
    "Umpire.DynPool.dynpool_blocks_releasable_hwm",
    "Umpire.DynPool.dynpool_default_heuristic",
    "Umpire.DynPool.dynpool_explicit_coalesce_idle"
   ],
   "note": "What coalescing does to the blocks is proved for all histories. The last sentence is false: a pool can grow (the first-block minimum applies again when everything was free), the suggestion is not always reached (a large enough gap between live allocations replaces the new block), and with blocks_releasable(k >= 2), percent_releasable(100) and their _hwm variants an explicit coalesce never does anything (all proved). Heuristics for which deallocate may not return are C05."
  },
  {
   "property": "C62",
   "status": "partial",
   "theorems": [
    "Umpire.QuickPool.quickpool_poison_exact",
    "Umpire.QuickPool.quickpool_returns_poisoned",
    "Umpire.QuickPool.quickpool_poison_counterexample",
    "Umpire.QuickPool.quickpool_gran_exact",
    "Umpire.QuickPool.quickpool_gran_whole",
    "Umpire.QuickPool.quickpool_gran_quiet",
    "Umpire.QuickPool.quickpool_gran_counterexample",
    "Umpire.QuickPool.allocateS_erase",
    "Umpire.QuickPool.deallocateS_erase",
    "Umpire.QuickPool.coalesceS_erase",
    "Umpire.DynPool.dynpool_poison_exact",
    "Umpire.DynPool.dynpool_returns_poisoned",
    "Umpire.DynPool.dynpool_gran_exact",
    "Umpire.DynPool.dynpool_gran_whole",
    "Umpire.DynPool.dynpool_gran_quiet",
    "Umpire.DynPool.dynpool_gran_counterexample",
    "Umpire.DynPool.allocateS_erase",
    "Umpire.DynPool.deallocateS_erase",
    "Umpire.DynPool.coalesceS_erase"
   ],
   "note": "Marking proved exact, byte by byte, for all histories; the functions with sanitizer calls are proved to be the ones of C01-C10 when the calls are left out. The last part is false: memory goes back to the parent marked as inaccessible, and a parent that does not mark memory itself (FixedPool) hands it to the next user in that state. The real sanitizer keeps one state for eight bytes (its runtime library, Base/Gran): with it live allocations are never reported, and with alignments that are multiples of eight all else in whole granules is (in the whole memory if the blocks of the parent are aligned); with smaller alignments accesses to freed memory go unreported (gran_counterexample)."
  },
  {
   "property": "C63",
   "status": "partial",
   "theorems": [
    "Umpire.Events.event_log_round_trip_partial",
    "Umpire.Events.event_insert_throws_iff",
    "Umpire.Events.event_insert_defined",
    "Umpire.Events.event_first_allocate_counterexample",
    "Umpire.Events.event_name_quote_counterexample",
    "Umpire.Events.event_name_injection_counterexample",
    "Umpire.Events.event_name_backslash_counterexample",
    "Umpire.Events.event_name_zero_counterexample"
   ],
   "note": "Proved byte by byte through the writer, the UTF-8 decoder, the lexer and the parser for every sequence of records in which the names of allocations are UTF-8 without control characters, quotation marks and backslashes. These names are written unescaped: otherwise the whole log can become unreadable or other fields change (counterexamples). A generic record throws exactly when one of its strings is not UTF-8; an allocate, named_allocate or deallocate record as the very first is undefined behaviour (counterexample), afterwards nothing is. Conversion of floating-point values and comments is not modelled, nor are write errors."
  },
  {
   "property": "C64",
   "status": "partial",
   "theorems": [
    "Umpire.Whole.whole_ledger_partial",
    "Umpire.Whole.whole_memory_partial",
    "Umpire.Whole.whole_safe_partial",
    "Umpire.Whole.whole_introspection_partial",
    "Umpire.Whole.whole_allocate_partial",
    "Umpire.Whole.whole_deallocate_partial",
    "Umpire.Whole.whole_reallocate_partial",
    "Umpire.Whole.whole_move_partial"
   ],
   "note": "The facade of C23-C33 on top of the strategies of C36, by simulation. Assumes that sizes fit together down the chain (as in C36, each assumption shown to be needed there), that the allocators are tracked, no SlotPool directly behind an allocator; the books agree as long as no reallocate has failed (a failed HOST reallocate loses a record, C32), undefined behaviour is excluded for every call but copy (C30). Statistics of requests between strategies are in C24 only."
  },
  {
   "property": "C65",
   "status": "partial",
   "theorems": [
    "Umpire.Thr.thr_safe_partial",
    "Umpire.Thr.thr_results_partial",
    "Umpire.Thr.thr_disjoint_partial",
    "Umpire.Thr.thr_one_owner_partial",
    "Umpire.Thr.thr_known_partial",
    "Umpire.Thr.thr_bytes_partial",
    "Umpire.Thr.thr_quiet_partial",
    "Umpire.Thr.thr_alone",
    "Umpire.Thr.thr_wrong_free_counterexample",
    "Umpire.Thr.thr_stale_read_counterexample",
    "Umpire.Thr.thr_host_realloc_counterexample"
   ],
   "note": "All interleavings of any number of threads. Each map operation and each request to a strategy is one action (m_mutex, ThreadSafeAllocator); only tracked allocators. False for HOST reallocate, which reads a freed record and may register the memory under the allocator of another thread; without the ownership discipline a thread may disturb another one even by a call that only throws, and may read a freed record."
  },
  {
   "property": "C66",
   "status": "partial",
   "theorems": [
    "Umpire.Full.full_safe_partial",
    "Umpire.Full.full_groups_partial",
    "Umpire.Full.full_results_partial",
    "Umpire.Full.full_disjoint_partial",
    "Umpire.Full.full_one_owner_partial",
    "Umpire.Full.full_known_partial",
    "Umpire.Full.full_bytes_partial",
    "Umpire.Full.full_work_bytes_partial",
    "Umpire.Full.full_quiet_partial",
    "Umpire.Full.full_progress_partial",
    "Umpire.Full.full_ends_partial",
    "Umpire.Full.full_stuck_partial",
    "Umpire.Full.full_finishes_partial"
   ],
   "note": "C65 with the strategies in place of an arbitrary memory. Requests to the strategies over one resource are serialised, also to the zero-byte pool, which the library does not do by itself (C38 shows the race); requests over different resources interleave at each call to a resource. Only tracked allocators; HOST reallocate (see C65), release from inside a call and untracked allocators are not in the model. Termination is for schedules in which nothing new is begun (full_ends_partial, full_stuck_partial); that a thread waiting for a busy group gets its turn while others keep beginning calls is up to the mutex and not claimed."
  },
  {
   "property": "C67",
   "status": "partial",
   "theorems": [
    "Umpire.Rebuild.rebuild_iff_partial",
    "Umpire.Rebuild.rebuild_unknown_class",
    "Umpire.Rebuild.replay_registry_partial",
    "Umpire.Rebuild.replay_registry_text_partial",
    "Umpire.Rebuild.rebuild_heuristic_counterexample",
    "Umpire.Rebuild.rebuild_prefetch_device_counterexample",
    "Umpire.Rebuild.rebuild_advisor_device_counterexample",
    "Umpire.Rebuild.rebuild_alignment_counterexample",
    "Umpire.Rebuild.rebuild_use_heuristic_counterexample",
    "Umpire.Rebuild.replay_resource_counterexample"
   ],
   "note": "False in part. rebuild_iff_partial is an equivalence: lost are the heuristics of pools, the device of a prefetcher, negative devices of an advisor, alignments from 2^31, NumaPolicy in a tool built without NUMA, names of 512 bytes or more or with a zero byte; AlignedAllocator and NamingShim end the tool; --use-heuristic does not reach untracked pools; tracking and custom names of memory resources are lost. Demangling is modelled for nested names as the Itanium ABI writes them; aliases, which are not recorded, are not in the registry."
  },
  {
   "property": "C68",
   "status": "partial",
   "theorems": [
    "Umpire.Trace.replay_log_partial",
    "Umpire.Trace.table_fits",
    "Umpire.Trace.second_run_silent_counterexample",
    "Umpire.Trace.memset_counterexample",
    "Umpire.Trace.unknown_refused",
    "Umpire.Trace.named_counterexample",
    "Umpire.Trace.stale_counterexample"
   ],
   "note": "replay_log_partial composes C46, C63 and C67 on the text of the log, with the keys as texts and std::stoul. False in part: after a run that fails to compile, the next run silently makes the calls of the part before (second_run_silent_counterexample, for all logs; memset_counterexample: every program that calls memset; named_counterexample: every program that allocates by name); a changed log is not looked at without --recompile (stale_counterexample). Programs that are not clean in the sense of C46 are excluded. The slot beyond the counted operations is taken as zero when compiling again over an old file; statistics, dumps and timing are not modelled."
  },
  {
   "property": "C69",
   "status": "partial",
   "theorems": [
    "Umpire.Bind.fortran_array_iff_partial",
    "Umpire.Bind.array_elements_disjoint",
    "Umpire.Bind.fortran_1d",
    "Umpire.Bind.fortran_zero",
    "Umpire.Bind.fortran_overflow_counterexample",
    "Umpire.Bind.fortran_negative_counterexample",
    "Umpire.Bind.typed_iff_partial",
    "Umpire.Bind.typed_container",
    "Umpire.Bind.typed_overflow_counterexample"
   ],
   "note": "Covered exactly if the array has less than 2^64 bytes (fortran_array_iff_partial, typed_iff_partial): always for one dimension in Fortran and for the containers of the standard library. False otherwise: the product wraps and a block that is too small, even of 0 bytes, is handed out; a negative extent asks for almost all memory. The element-wise constructors of containers are not modelled."
  },
  {
   "property": "C70",
   "status": "partial",
   "theorems": [
    "Umpire.Bind.fortran_name_padded",
    "Umpire.Bind.name_back_iff_partial",
    "Umpire.Bind.fortran_roundtrip",
    "Umpire.Bind.fortran_blank_counterexample",
    "Umpire.Bind.c_zero_counterexample",
    "Umpire.Bind.handle_step",
    "Umpire.Bind.handles_partial",
    "Umpire.Bind.handles_misuse",
    "Umpire.Bind.handle_leak_counterexample",
    "Umpire.Bind.c_copy_counterexample"
   ],
   "note": "Names come through except for a zero byte (C) and blanks at the end (Fortran), exactly (name_back_iff_partial, fortran_blank_counterexample, c_zero_counterexample). Handles: handles_partial for every proper program, handles_misuse for the rest; false when get or make throws, every such call leaks an object (handle_leak_counterexample, for all programs). Copies: false, the arguments are passed on in order to copy(dst, src), so what the interface calls the source is overwritten (c_copy_counterexample, for all pairs of live allocations)."
  },
  {
   "property": "C71",
   "status": "partial",
   "theorems": [
    "Umpire.Names.advertised_kind",
    "Umpire.Names.advertised_device_partial",
    "Umpire.Names.offered_devices",
    "Umpire.Names.advertised_id",
    "Umpire.Names.advertised_grain",
    "Umpire.Names.advertised_lookup_partial",
    "Umpire.Names.shared_name_iff",
    "Umpire.Names.file_name_iff",
    "Umpire.Names.fine_counterexample",
    "Umpire.Names.shared_name_counterexample",
    "Umpire.Names.device0_counterexample",
    "Umpire.Names.takeover_counterexample"
   ],
   "note": "Kind and granularity hold for every name on offer (advertised_kind, advertised_grain) and the lookup for every program that makes no resource whose name takes over one on offer (advertised_lookup_partial). False in part: DEVICE::i::FINE is for the current device (fine_counterexample, all i); DEVICE::0 after DEVICE is the current device (device0_counterexample); a user-made name is of another type if it contains the word of a factory tried earlier, exactly then for SHARED and FILE (shared_name_iff, file_name_iff); a resource FILEX::0SHARED takes over FILE (takeover_counterexample)."
  },
  {
   "property": "C72",
   "status": "partial",
   "theorems": [
    "Umpire.Numa.placed_partial",
    "Umpire.Numa.move_only",
    "Umpire.Numa.allocate_only",
    "Umpire.Numa.paged_aligned",
    "Umpire.Numa.move_in_place",
    "Umpire.Numa.moved_owner",
    "Umpire.Numa.used_apart",
    "Umpire.Numa.policy_allocate",
    "Umpire.Numa.device_move_throws",
    "Umpire.Numa.make_iff",
    "Umpire.Numa.policy_platform",
    "Umpire.Numa.move_possible",
    "Umpire.Numa.back_does_nothing",
    "Umpire.Numa.offset_move",
    "Umpire.Numa.pool_policy_throws",
    "Umpire.Numa.back_counterexample",
    "Umpire.Numa.offset_counterexample",
    "Umpire.Numa.neighbour_counterexample",
    "Umpire.Numa.lost_counterexample",
    "Umpire.Numa.stale_counterexample"
   ],
   "note": "Proved for all histories in which moves name the first byte of an allocation and nothing is moved back to the policy it came from (placed_partial). False otherwise: moving back does nothing (back_does_nothing, back_counterexample); a pointer into an allocation moves what lies behind it (offset_counterexample); pool memory on the same page moves along (neighbour_counterexample); an allocation whose binding fails leaks the memory (policy_allocate, lost_counterexample); released memory keeps its node (stale_counterexample); moves to a HIP device or between devices always throw (device_move_throws)."
  },
  {
   "property": "C73",
   "status": "partial",
   "theorems": [
    "Umpire.Async.contents_partial",
    "Umpire.Async.waited_partial",
    "Umpire.Async.fenced_tidy",
    "Umpire.Async.fenced_waited",
    "Umpire.Async.moved_contents",
    "Umpire.Async.copy_inside",
    "Umpire.Async.memset_inside",
    "Umpire.Async.copy_needs_stream",
    "Umpire.Async.memset_needs_stream",
    "Umpire.Async.reallocate_needs_stream",
    "Umpire.Async.wait_possible",
    "Umpire.Async.copy_possible",
    "Umpire.Async.memset_possible",
    "Umpire.Async.pool_counterexample",
    "Umpire.Async.host_pool_counterexample",
    "Umpire.Async.leak_counterexample",
    "Umpire.Async.source_counterexample"
   ],
   "note": "Proved for all histories in which the program also keeps away from memory that it reallocated on a stream until it waited (contents_partial, waited_partial); in particular if every reallocation of pool memory has a wait next to it (fenced_waited). False otherwise: a device pool gives the old memory back while the copy is under way (pool_counterexample); a host pool copies without waiting for the stream (host_pool_counterexample); with a wrong resource the new memory leaks (leak_counterexample); the source of a copy is not checked (source_counterexample)."
  },
  {
   "property": "C74",
   "status": "partial",
   "theorems": [
    "Umpire.Log.level_spec",
    "Umpire.Log.level_defined",
    "Umpire.Log.log_file",
    "Umpire.Log.log_lines",
    "Umpire.Log.stdout_silent",
    "Umpire.Log.early_stdout",
    "Umpire.Log.unset_silent",
    "Umpire.Log.pick_some",
    "Umpire.Log.new_file",
    "Umpire.Log.file_number",
    "Umpire.Log.other_process",
    "Umpire.Log.later_process",
    "Umpire.Log.init_possible",
    "Umpire.Log.init_again",
    "Umpire.Log.missing_directory",
    "Umpire.Log.failed_forever",
    "Umpire.Log.level_counterexample",
    "Umpire.Log.level_wild",
    "Umpire.Log.level_unset",
    "Umpire.Log.unreadable_counterexample",
    "Umpire.Log.race_counterexample",
    "Umpire.Log.failed_write_counterexample",
    "Umpire.Log.forged_counterexample",
    "Umpire.Log.threads_counterexample"
   ],
   "note": "Proved for one thread, messages without ends of lines, files that can be read and processes with different numbers or that start one after the other. False otherwise: a file that cannot be read is truncated (unreadable_counterexample); processes with the same number may have the same file (race_counterexample); after one failed write nothing is logged (failed_write_counterexample); a message with an end of line looks like two (forged_counterexample); messages of threads are mixed (threads_counterexample); some values of the variable are undefined behaviour (level_counterexample). The manual says that the log goes to the standard output, which it does not (stdout_silent)."
  },
  {
   "property": "C75",
   "status": "partial",
   "theorems": [
    "Umpire.Tables.race_iff",
    "Umpire.Tables.never_blocked",
    "Umpire.Tables.safe",
    "Umpire.Tables.own_memory",
    "Umpire.Tables.make_make",
    "Umpire.Tables.lookups",
    "Umpire.Tables.lookup_counterexample",
    "Umpire.Tables.first_use_counterexample",
    "Umpire.Tables.default_counterexample",
    "Umpire.Tables.make_lookup_counterexample",
    "Umpire.Tables.alias_counterexample",
    "Umpire.Tables.leaks_counterexample",
    "Umpire.Tables.two_leaks_counterexample",
    "Umpire.Tables.stale_counterexample"
   ],
   "note": "race_iff says exactly which pairs of calls can race, own_memory that threads which allocate, copy, reallocate and deallocate their own memory through one thread-safe allocator do not. In general the property is false: only makeAllocator locks the tables of allocators, so a lookup beside it races, as do the first uses of a resource or of the default allocator in two threads; going through the allocations takes no lock and moves a cursor, so that even two listings race; a record found is read without the lock. The event recorder and the logger are not in the model."
  },
  {
   "property": "C76",
   "status": "partial",
   "theorems": [
    "Umpire.Stores.sqlite_round_trip_partial",
    "Umpire.Stores.sqlite_insert_partial",
    "Umpire.Stores.sqlite_overflow",
    "Umpire.Stores.sqlite_stored_iff",
    "Umpire.Stores.sqlite_apostrophe_counterexample",
    "Umpire.Stores.sqlite_two_apostrophes_counterexample",
    "Umpire.Stores.sqlite_delete_counterexample",
    "Umpire.Stores.sqlite_overflow_counterexample",
    "Umpire.Stores.sqlite_exit_counterexample",
    "Umpire.Stores.quest_line_iff",
    "Umpire.Stores.quest_line_refused",
    "Umpire.Stores.quest_lost_counterexample",
    "Umpire.Stores.quest_number_counterexample",
    "Umpire.Stores.quest_newline_counterexample"
   ],
   "note": "For strings without apostrophes and names that need no JSON escape and have at most 219 bytes, the SQLite store holds and returns exactly the recorded events, also across failing calls and restarts. In general the property is false: an apostrophe in a name ends the program with exit(1), two become one, a crafted name deletes the table; names from 220 (at the latest 288) bytes overflow a buffer; any error of the database ends the program. The QuestDB store says what the event says exactly for events with one numeric argument below 2^31, drops allocations and reads nothing back."
  },
  {
   "property": "C77",
   "status": "partial",
   "theorems": [
    "Umpire.Mgr.external_known_partial",
    "Umpire.Mgr.external_interior_partial",
    "Umpire.Mgr.external_register",
    "Umpire.Mgr.external_register_null",
    "Umpire.Mgr.external_deregister",
    "Umpire.Mgr.external_deregister_unknown",
    "Umpire.Mgr.external_copy_partial",
    "Umpire.Mgr.external_memset_partial",
    "Umpire.Mgr.external_statistics_partial",
    "Umpire.Mgr.external_leaks",
    "Umpire.Mgr.external_wrong_deallocate",
    "Umpire.Mgr.external_deallocate_undefined",
    "Umpire.Mgr.external_move_undefined",
    "Umpire.Mgr.external_reallocate_undefined",
    "Umpire.Mgr.external_inside_counterexample",
    "Umpire.Mgr.external_address_counterexample"
   ],
   "note": "Proved for registrations of memory that is disjoint from everything held, with the record of that memory: queries, copies, memset, leak reports and statistics are exact, whatever else is called. The last clause is false: deallocating external memory (through its allocator or the manager) is accepted and is undefined, and so are reallocating and moving it whenever the request that precedes can be satisfied; through another allocator it throws. Nothing is checked on registration: inside a live allocation it hides addresses of that, and a record for another address makes queries report it for addresses in between."
  },
  {
   "property": "C78",
   "status": "partial",
   "theorems": [
    "Umpire.Gpu.gpu_placed",
    "Umpire.Gpu.gpu_named",
    "Umpire.Gpu.gpu_grain",
    "Umpire.Gpu.gpu_nothing_left_partial",
    "Umpire.Gpu.gpu_current_partial",
    "Umpire.Gpu.gpu_allocate_iff",
    "Umpire.Gpu.gpu_drift",
    "Umpire.Gpu.gpu_wrong_device",
    "Umpire.Gpu.gpu_no_device",
    "Umpire.Gpu.gpu_fine_counterexample",
    "Umpire.Gpu.gpu_retry_counterexample",
    "Umpire.Gpu.gpu_advice_counterexample"
   ],
   "note": "Proved for a runtime that is able to tell and change the current device: memory is placed as named, requests succeed exactly when the runtime has memory, and nothing else is held unless a coarse-grained advice fails. The last clause is false: a request or release that throws leaves the thread on the device of the resource, also when a pool then retries with success. Also false: a failing SetDevice is ignored and gives memory of the wrong device, after a failing GetDevice an uninitialised value is used, a failing advice leaks, and DEVICE::i::FINE or COARSE is for the current device. SYCL and OpenMP target resources are in C87."
  },
  {
   "property": "C79",
   "status": "partial",
   "theorems": [
    "Umpire.Advice.advice_told_partial",
    "Umpire.Advice.advice_nothing_left_partial",
    "Umpire.Advice.advice_alloc_iff",
    "Umpire.Advice.advice_accepted_iff",
    "Umpire.Advice.prefetch_exact_partial",
    "Umpire.Advice.prefetch_within",
    "Umpire.Advice.prefetch_refused",
    "Umpire.Advice.advice_leaks",
    "Umpire.Advice.advice_accessor_counterexample",
    "Umpire.Advice.advice_host_counterexample",
    "Umpire.Advice.advice_other_counterexample",
    "Umpire.Advice.prefetch_skipped",
    "Umpire.Advice.prefetch_sycl_undefined"
   ],
   "note": "Proved for the names of advice and CUDA devices able to prefetch. False: a refused advice leaks the memory; with HIP the accessing allocator counts for nothing; with CUDA the device given for host memory is replaced by the host unless an accessing allocator is given; names of other operations are accepted (MEMSET fills every allocation with the number of the device, COPY and REALLOCATE throw and leak on every allocation); a prefetcher on a device unable to prefetch does nothing; with SYCL each of its allocations dereferences a null pointer. ResourceManager::prefetch is exact on the registries C20 covers, and in every state tells at most about the rest of a live managed allocation."
  },
  {
   "property": "C80",
   "status": "partial",
   "theorems": [
    "Umpire.Nest.release_all_partial",
    "Umpire.Nest.release_empty_partial",
    "Umpire.Nest.release_other",
    "Umpire.Nest.release_order_counterexample",
    "Umpire.Nest.release_wrapper_counterexample",
    "Umpire.Nest.release_mixed_counterexample",
    "Umpire.Nest.release_mono_counterexample",
    "Umpire.Nest.release_slots_counterexample",
    "Umpire.Nest.release_leak_counterexample"
   ],
   "note": "Proved for QuickPool, DynamicPoolList, FixedPool and everything that holds nothing itself, in any nesting. False with a MixedPool (release is not implemented), a MonotonicAllocationStrategy or a SlotPool (no release), after an operation on a new allocation failed, if a pool is released before one built on it, and if only a wrapper around a pool is released: release_other proves that this call does nothing at all."
  },
  {
   "property": "C81",
   "status": "partial",
   "theorems": [
    "Umpire.Nest.stats_partial",
    "Umpire.Nest.stats_clean_partial",
    "Umpire.Nest.stats_leaf_partial",
    "Umpire.Nest.fixed_size",
    "Umpire.Nest.mono_hwm",
    "Umpire.Nest.pool_actual_partial",
    "Umpire.Nest.resource_total_partial",
    "Umpire.Nest.stats_drift_forever",
    "Umpire.Nest.stats_hwm",
    "Umpire.Nest.stats_erase",
    "Umpire.Nest.stats_refused_counterexample",
    "Umpire.Nest.stats_null_counterexample",
    "Umpire.Nest.stats_mono_counterexample",
    "Umpire.Nest.stats_aligned_counterexample"
   ],
   "note": "Exact up to what was charged without memory being given; that is never taken back (stats_drift_forever). Allocators with nothing built on them are exact, except a SlotPool. False after a refused request between strategies (charged up to four times in the example; getCurrentSize then exceeds getActualSize), after a null answer of a SlotPool, for the size and high watermark of a MonotonicAllocationStrategy, and below an AlignedAllocator, whose getters do not tell what it holds. Tracked allocators, requests of more than zero bytes, numbers not bounded by 2^64."
  },
  {
   "property": "C82",
   "status": "partial",
   "theorems": [
    "Umpire.Devops.copy_partial",
    "Umpire.Devops.copy_throws_iff",
    "Umpire.Devops.fill_partial",
    "Umpire.Devops.fill_throws_iff",
    "Umpire.Devops.on_same",
    "Umpire.Devops.copyOn_cases",
    "Umpire.Devops.fillOn_cases",
    "Umpire.Devops.sycl_two_resources",
    "Umpire.Devops.omp_failure",
    "Umpire.Devops.omp_shared",
    "Umpire.Devops.numa_gpu",
    "Umpire.Devops.contract",
    "Umpire.Devops.contract_host"
   ],
   "note": "Bytes, frame, contract and throwing for all resources that go together. False for memory of two SYCL resources (each has a context of its own), for failures of omp_target_memcpy (the return value is not used) and asynchronous errors of SYCL, for SHARED with an OpenMP device (uninitialised device number), and for a NumaPolicy on the node of a GPU (host memory called CUDA). Addresses are distinct between memories; one call at a time; the runtimes are contracts."
  },
  {
   "property": "C83",
   "status": "partial",
   "theorems": [
    "Umpire.Deny.deny_safe_partial",
    "Umpire.Deny.deny_live",
    "Umpire.Deny.deny_offers",
    "Umpire.Deny.deny_leak",
    "Umpire.Deny.deny_release",
    "Umpire.Deny.deny_destroy",
    "Umpire.Deny.deny_sizes",
    "Umpire.Deny.deny_sizes_clean",
    "Umpire.Deny.deny_first_refusal",
    "Umpire.Deny.deny_absurd_size",
    "Umpire.Deny.coalesce_terminates",
    "Umpire.Deny.deallocate_terminates_counterexample",
    "Umpire.Deny.Fixed.fixed_refused",
    "Umpire.Deny.Fixed.fixed_taken",
    "Umpire.Deny.Fixed.fixed_refused_partial",
    "Umpire.Deny.Fixed.fixed_refused_ub",
    "Umpire.Deny.Fixed.fixed_stale_counterexample",
    "Umpire.Deny.Fixed.fixed_destroy_abort",
    "Umpire.Deny.Limit.limit_partial",
    "Umpire.Deny.Limit.limit_exceeded",
    "Umpire.Deny.Dyn.dyn_safe_partial",
    "Umpire.Deny.Dyn.dyn_live",
    "Umpire.Deny.Dyn.dyn_offers",
    "Umpire.Deny.Dyn.dyn_leak",
    "Umpire.Deny.Dyn.dyn_release",
    "Umpire.Deny.Dyn.dyn_destroy",
    "Umpire.Deny.Dyn.dyn_in_use",
    "Umpire.Deny.Dyn.dyn_sizes",
    "Umpire.Deny.Dyn.dyn_sizes_clean",
    "Umpire.Deny.Dyn.dyn_first_refusal",
    "Umpire.Deny.Dyn.dyn_absurd_size",
    "Umpire.Deny.Dyn.dyn_release_can_throw",
    "Umpire.Deny.Dyn.dyn_coalesce_terminates",
    "Umpire.Deny.Dyn.dyn_deallocate_throws"
   ],
   "note": "QuickPool, DynamicPoolList, FixedPool and SizeLimiter for all histories with refusals. For QuickPool and DynamicPoolList safety, offers, release and the destructor hold; false: what was refused is leaked for good (the base pointer is forgotten, the retry gives back nullptr), the reported sizes are too small by each refusal and wrap around to 2^63 and more, and a refusal while coalescing, also in the deallocate of a user of a QuickPool, ends the program; the deallocate of a DynamicPoolList throws after it has deallocated. FixedPool keeps pools it has already given back: the next release gives them back again. A SizeLimiter exceeds its limit by what was refused. The other pools are not modelled with refusals."
  },
  {
   "property": "C84",
   "status": "partial",
   "theorems": [
    "Umpire.Process.hwm_reported",
    "Umpire.Process.hwm_plus",
    "Umpire.Process.hwm_missing",
    "Umpire.Process.hwm_name",
    "Umpire.Process.hwm_indeterminate",
    "Umpire.Process.usage_reported",
    "Umpire.Process.usage_counterexample",
    "Umpire.Process.device_reported",
    "Umpire.Process.device_restored",
    "Umpire.Process.device_counterexample"
   ],
   "note": "holds for every text with the numbers; false: a VmHWM line without a number (hwm_indeterminate) and a statm file that cannot be read or is too short (usage_counterexample) give a value never written; a device that does not exist is reported with the usage of the current one, failing calls give 0 or move the thread to another device, builds without CUDA report 0 (device_counterexample)"
  },
  {
   "property": "C85",
   "status": "partial",
   "theorems": [
    "Umpire.Mpi.rank_first",
    "Umpire.Mpi.rank_no_throw",
    "Umpire.Mpi.rank_counterexample",
    "Umpire.Mpi.rank_alone",
    "Umpire.Mpi.io_exists",
    "Umpire.Mpi.io_dir",
    "Umpire.Mpi.io_stuck",
    "Umpire.Mpi.io_deadlock_counterexample",
    "Umpire.Mpi.io_throw_counterexample",
    "Umpire.Mpi.io_progress",
    "Umpire.Mpi.io_completes",
    "Umpire.Mpi.comm_first",
    "Umpire.Mpi.comm_progress",
    "Umpire.Mpi.comm_right",
    "Umpire.Mpi.comm_terminates",
    "Umpire.Mpi.comm_stuck",
    "Umpire.Mpi.comm_deadlock_counterexample",
    "Umpire.Mpi.comm_wrong_counterexample"
   ],
   "note": "rank and size are settled by the first umpire::initialize; false if that came before MPI_Init (rank_counterexample). A process past initialisation finds the directory, but if rank 0 creates it before another looks rank 0 waits for ever (io_deadlock_counterexample), which with an exception of rank 0 is the only way to get stuck (io_progress). Communicators are right and nobody waits for ever if every allocator is used with one communicator, in one order (comm_right, comm_progress, comm_terminates); otherwise the first communicator counts (comm_first), and calls may return the wrong one or wait for ever"
  },
  {
   "property": "C86",
   "status": "partial",
   "theorems": [
    "Umpire.Refuse.safe",
    "Umpire.Refuse.account_partial",
    "Umpire.Refuse.deallocate_refused",
    "Umpire.Refuse.lost_forever_counterexample",
    "Umpire.Refuse.deallocate_loses_counterexample",
    "Umpire.Refuse.reallocate_refused",
    "Umpire.Refuse.reallocate_orphans_counterexample",
    "Umpire.Refuse.move_refused",
    "Umpire.Refuse.move_orphans_counterexample"
   ],
   "note": "no undefined behaviour, allocations, listings and statistics (other than of HOST, C24) agree after any refusals; false: the record is removed before the strategy is asked, so a refused block is never known again and can never be handed back (lost_forever_counterexample, deallocate_loses_counterexample); reallocate and move that throw because the old memory is refused have moved the contents to an address the caller is not told (reallocate_orphans_counterexample, move_orphans_counterexample)"
  },
  {
   "property": "C87",
   "status": "partial",
   "theorems": [
    "Umpire.Usm.usm_found",
    "Umpire.Usm.usm_queue",
    "Umpire.Usm.usm_offered",
    "Umpire.Usm.usm_offered_plain",
    "Umpire.Usm.usm_named",
    "Umpire.Usm.usm_plain",
    "Umpire.Usm.usm_works_iff",
    "Umpire.Usm.usm_device",
    "Umpire.Usm.usm_exact",
    "Umpire.Usm.usm_outcome",
    "Umpire.Usm.usm_num_partial",
    "Umpire.Usm.omp_named_partial",
    "Umpire.Usm.omp_device",
    "Umpire.Usm.usm_two_platforms_counterexample",
    "Umpire.Usm.usm_num_counterexample",
    "Umpire.Usm.usm_divide_counterexample",
    "Umpire.Usm.omp_host_counterexample"
   ],
   "note": "memory of DEVICE::k is that of the k-th GPU of the platform gpu_selector chooses, UM, PINNED and DEVICE go with the first, blocks are exactly those held; false: the registry counts the GPUs of all platforms, so with a GPU shown by two platforms (usm_works_iff) some DEVICE::k on offer has a null queue and every call of it is undefined; getNumDevices counts the parts a GPU can have at most (usm_num_counterexample); a GPU that cannot be divided by NUMA domains makes the registry throw (usm_divide_counterexample); an OpenMP build offers DEVICE without devices (omp_host_counterexample)"
  },
  {
   "property": "C88",
   "status": "partial",
   "theorems": [
    "Umpire.Cast.try_quick",
    "Umpire.Cast.try_list",
    "Umpire.Cast.cast_try",
    "Umpire.Cast.cast_throws",
    "Umpire.Cast.cast_quick",
    "Umpire.Cast.cast_list",
    "Umpire.Cast.cast_idle",
    "Umpire.Cast.cast_over_counterexample",
    "Umpire.Cast.cast_find_shared",
    "Umpire.Cast.cast_find_without",
    "Umpire.Cast.cast_find_counterexample"
   ],
   "note": "which allocators are coalesced, no effect on the others, live allocations stay, names found in the shared memory resource; false: try_coalesce says true also if nothing was coalesced (cast_idle), a pool below ThreadSafeAllocator or another strategy is not coalesced (cast_over_counterexample), and in a build with shared memory find_pointer_from_name casts any strategy to HostSharedMemoryResource: it never throws and is undefined for every other allocator (cast_find_counterexample)"
  },
  {
   "property": "C89",
   "status": "partial",
   "theorems": [
    "Umpire.Oom.oom_told",
    "Umpire.Oom.oom_decided",
    "Umpire.Oom.oom_zero",
    "Umpire.Oom.oom_all",
    "Umpire.Oom.oom_retry",
    "Umpire.Oom.oom_users",
    "Umpire.Oom.oom_named",
    "Umpire.Oom.oom_unset",
    "Umpire.Oom.oom_unset_counterexample",
    "Umpire.Oom.oom_kind_counterexample"
   ],
   "note": "id and size of every out_of_memory_error that leaves allocate, TypedAllocator and the reallocations that allocate, which exception leaves (decided by the last step of the run alone), no lack of host, CUDA or HIP memory shown as anything else; false: allocate(name, n) and making a MonotonicAllocationStrategy leave id -1 and size 0 (oom_unset), and SYCL, OpenMP, file, constant memory, MonotonicAllocationStrategy and ::realloc report a lack of memory as plain runtime_error (oom_kind_counterexample)"
  },
  {
   "property": "C90",
   "status": "partial",
   "theorems": [
    "Umpire.Attach.attach_ready",
    "Umpire.Attach.attach_safe",
    "Umpire.Attach.attach_once",
    "Umpire.Attach.attach_layout",
    "Umpire.Attach.attach_same",
    "Umpire.Attach.attach_waits",
    "Umpire.Attach.attach_live",
    "Umpire.Attach.attach_throws",
    "Umpire.Attach.attach_path",
    "Umpire.Attach.attach_dead",
    "Umpire.Attach.attach_hang_counterexample",
    "Umpire.Attach.attach_empty_counterexample",
    "Umpire.Attach.attach_split_counterexample",
    "Umpire.Attach.attach_size_counterexample"
   ],
   "note": "initialised when attached, no undefined step, one maker, layout of C39 in every process, same segment, who waits waits for a maker that does not wait, and progress in every fair run; false when a call fails in the maker or it asked for size 0 (all others wait for ever, attach_dead), after one process destroyed its resource (the name is gone, attach_split_counterexample), and for the size, which only the first decides (attach_size_counterexample)"
  },
  {
   "property": "C91",
   "status": "partial",
   "theorems": [
    "Umpire.Multi.multi_sequential_partial",
    "Umpire.Multi.multi_replay_partial",
    "Umpire.Multi.multi_replay",
    "Umpire.Multi.multi_threads",
    "Umpire.Multi.multi_blocks",
    "Umpire.Multi.multi_replay_counterexample"
   ],
   "note": "without reallocate the log replays in every interleaving as the calls of the threads (multi_replay); with it, in every interleaving in which no thread writes a record between the two records of a reallocate of another; when one does, its call is not replayed (multi_replay_counterexample): records carry no thread. A reallocate that throws is excluded (C46), names as in C46"
  },
  {
   "property": "C92",
   "status": "partial",
   "theorems": [
    "Umpire.Numa.host_nodes",
    "Umpire.Numa.device_nodes",
    "Umpire.Numa.nodes_partition",
    "Umpire.Numa.nodes_throw",
    "Umpire.Numa.allocatable_nodes",
    "Umpire.Numa.policy_listed_partial",
    "Umpire.Numa.policy_make",
    "Umpire.Numa.policy_unknown",
    "Umpire.Numa.policy_unknown_counterexample",
    "Umpire.Numa.nodes_leak_counterexample"
   ],
   "note": "the lists are exact; the platform of a policy is right for listed nodes (policy_listed_partial), but every number that is no node counts as a device node (policy_unknown), so a policy for a node that does not exist can be made and claims to be device memory; the exception for one node leaks a mask (nodes_throw, nodes_leak_counterexample)"
  },
  {
   "property": "C93",
   "status": "partial",
   "theorems": [
    "Umpire.Replay.Stats.stats_through",
    "Umpire.Replay.Stats.stats_exact",
    "Umpire.Replay.Stats.dump_exact_partial",
    "Umpire.Replay.Stats.stats_watermark_partial",
    "Umpire.Replay.Stats.stats_log",
    "Umpire.Replay.Stats.log_dump_partial",
    "Umpire.Replay.Stats.stats_wipe_counterexample",
    "Umpire.Replay.Stats.dump_fresh_counterexample",
    "Umpire.Replay.Stats.stats_grow_counterexample",
    "Umpire.Replay.Stats.stats_untracked_counterexample"
   ],
   "note": "stats_through says exactly when the options are harmless, stats_exact which calls --stats counts for every allocator; the trace is exact unless a null pointer is reallocated (dump_exact_partial) and the watermarks for allocators without reallocations (stats_watermark_partial). All of it holds for the operations compiled from the log of any program as in C46 (stats_log, log_dump_partial). False: with either option the replay of a log in which an allocator without tracking gets memory back fails (stats_untracked_counterexample); set_default_allocator clears the histogram of the allocator, after which counts wrap (stats_wipe_counterexample); reallocations are not counted (dump_fresh_counterexample, stats_grow_counterexample). Of the trace only the series allocation count is modelled. Sizes of 0 bytes are in C48."
  },
  {
   "property": "C94",
   "status": "partial",
   "theorems": [
    "Umpire.Backtrace.backtrace_value",
    "Umpire.Backtrace.backtrace_exact_partial",
    "Umpire.Backtrace.backtrace_records_partial",
    "Umpire.Backtrace.backtrace_one_copy_partial",
    "Umpire.Backtrace.backtrace_kept",
    "Umpire.Backtrace.backtrace_value_counterexample",
    "Umpire.Backtrace.backtrace_ub_counterexample",
    "Umpire.Backtrace.backtrace_lost_counterexample"
   ],
   "note": "Exact for every history and choice of copies as long as nobody changes the variable (backtrace_exact_partial; backtrace_records_partial for the records get_allocator_records lists, of all strategies together), and for every history if both functions get the same copy of the switch (backtrace_one_copy_partial); allocations of at least five bytes, as smaller ones may not be found (C20). False: any value with the letters on in it turns backtraces on, also none (backtrace_value, backtrace_value_counterexample); with a copy of the switch for each translation unit, setting the variable between the first allocation and the first question makes the answer undefined (backtrace_ub_counterexample), removing it loses what was recorded (backtrace_lost_counterexample). The text of the frames is not modelled."
  }
 ]
}