{"id": "C01", "title": "QuickPool: live allocations never overlap", "statement": "Every pointer returned by QuickPool allocate denotes a byte range of at least the requested size that is disjoint from the range of every other allocation of the pool that has not been deallocated yet, and lies inside a block the pool currently holds from its parent allocator.", "quantifier": "every pool configuration (alignment, minimum sizes, heuristic), every sequence of allocate/deallocate/release/coalesce calls and every behaviour of the parent allocator (addresses it chooses, calls it fails); request sizes n with n + 2*alignment <= 2^64 (what happens beyond is the subject of C02 and C08)", "why_tests_cant": "the number of histories and parent address choices is unbounded; overlap only shows for particular split/merge/release interleavings", "anchors": ["src/umpire/strategy/QuickPool.cpp: QuickPool::allocate, QuickPool::deallocate, QuickPool::release, QuickPool::do_coalesce"]}
{"id": "C02", "title": "QuickPool: pointers are aligned and big enough", "statement": "Every pointer returned by QuickPool allocate is a multiple of the configured alignment and the chunk behind it holds the requested number of bytes rounded up to the alignment, provided request + alignment does not exceed the 64-bit range; beyond that range the request must fail instead of being served by a smaller chunk.", "quantifier": "every power-of-two alignment, every request size in the 64-bit range, every history", "why_tests_cant": "request sizes range over 2^64 values and alignment depends on the history of splits", "anchors": ["src/umpire/strategy/QuickPool.cpp: QuickPool::allocate", "src/umpire/strategy/mixins/AlignedAllocation.inl: aligned_round_up, aligned_allocate"]}
{"id": "C03", "title": "QuickPool: reported sizes are exact", "statement": "At every point getActualSize is the total size of the blocks held from the parent, getAlignedSize is the total rounded size of the live allocations, getReleasableSize/getReleasableBlocks are the bytes/number of completely free blocks, getTotalBlocks the number of blocks, getBlocksInPool the number of used plus free chunks, getLargestAvailableBlock the size of the largest free chunk, and the high watermarks are the maxima of the corresponding sizes over the history.", "quantifier": "every history of allocate/deallocate/release/coalesce calls, every parent behaviour including failures", "why_tests_cant": "the counters are updated incrementally in many branches; drift needs specific histories", "anchors": ["src/umpire/strategy/QuickPool.cpp: counters in allocate/deallocate/release, getters 253-314"]}
{"id": "C04", "title": "QuickPool: blocks go back to the parent exactly once and only when entirely free", "statement": "The pool hands a block back to its parent only while no live allocation lies in it, with exactly the pointer and size it obtained, at most once; after every allocation has been deallocated, release returns every block, leaving the pool holding nothing.", "quantifier": "every history and every parent behaviour; request sizes n with n + 2*alignment <= 2^64 (what happens beyond is the subject of C02 and C08)", "why_tests_cant": "double frees and leaks need specific interleavings of splits, merges and releases", "anchors": ["src/umpire/strategy/QuickPool.cpp: QuickPool::release", "src/umpire/strategy/mixins/AlignedAllocation.inl: aligned_deallocate"]}
{"id": "C05", "title": "QuickPool: coalescing terminates", "statement": "Every deallocate and every coalesce call of a QuickPool returns after finitely many steps, whatever coalescing heuristic the pool was built with.", "quantifier": "every heuristic offered by the library (blocks_releasable, blocks_releasable_hwm, percent_releasable, percent_releasable_hwm with any argument) and every reachable pool state", "why_tests_cant": "non-termination depends on a fixed point of an unbounded mutual recursion between deallocate and do_coalesce; a test that happens to return says nothing about other states", "anchors": ["src/umpire/strategy/QuickPool.cpp: QuickPool::deallocate 197-201, QuickPool::do_coalesce 331-346, heuristics 348-403"]}
{"id": "C06", "title": "QuickPool: a failed allocation is harmless", "statement": "When the parent cannot provide a block, QuickPool first gives back all completely free blocks and retries once; if that fails too the exception reaches the caller, every live allocation stays valid and untouched, and the reported sizes describe exactly the blocks still held.", "quantifier": "every state of the pool and every failing behaviour of the parent", "why_tests_cant": "failure injection at every possible point of every history cannot be enumerated", "anchors": ["src/umpire/strategy/QuickPool.cpp: QuickPool::allocate 51-92"]}
{"id": "C07", "title": "QuickPool: free space is fully merged and reused best-fit", "statement": "No two neighbouring chunks of a block are both free, so once all allocations of a block are deallocated the block is one free chunk; an allocation asks the parent for memory only when no free chunk is large enough, and otherwise uses a smallest sufficient free chunk.", "quantifier": "every history; request sizes n with n + 2*alignment <= 2^64 (what happens beyond is the subject of C02 and C08)", "why_tests_cant": "fragmentation invariants are about all histories", "anchors": ["src/umpire/strategy/QuickPool.cpp: QuickPool::allocate 46-95, QuickPool::deallocate 151-193"]}
{"id": "C08", "title": "DynamicPoolList: live allocations never overlap", "statement": "Every pointer returned by DynamicPoolList allocate denotes an aligned range of at least the requested size, disjoint from all other live allocations of the pool and inside a block currently held from the parent.", "quantifier": "every configuration, every sequence of allocate/deallocate/release/coalesce, every parent behaviour, every request size in the 64-bit range", "why_tests_cant": "unbounded histories; overlap depends on list order, splits and merges", "anchors": ["src/umpire/strategy/DynamicSizePool.hpp: allocate, deallocate, splitBlock, releaseBlock", "src/umpire/strategy/DynamicPoolList.cpp"]}
{"id": "C09", "title": "DynamicPoolList: reported sizes are exact", "statement": "getActualSize equals the total size of blocks held from the parent, getCurrentSize (of the pool implementation) the total rounded size of live allocations, getReleasableSize the bytes of completely free blocks, getTotalBlocks the number of blocks, getBlocksInPool the number of live allocations plus maximal free gaps, and getLargestAvailableBlock the size of the largest free gap. getActualHighwaterMark is the largest amount held from the parent at any moment so far, and getAlignedHighwaterMark the largest rounded amount in use.", "quantifier": "every history and parent behaviour", "why_tests_cant": "incrementally maintained counters over unbounded histories", "anchors": ["src/umpire/strategy/DynamicSizePool.hpp: getters 360-440, counters in allocateBlock/freeReleasedBlocks/allocate/deallocate"]}
{"id": "C10", "title": "DynamicPoolList: blocks go back to the parent exactly once and only when entirely free", "statement": "release and coalesce hand a block back to the parent only when no live allocation lies in it, exactly once, with the pointer and size obtained; after all deallocations, release leaves the pool holding nothing.", "quantifier": "every history and parent behaviour; request sizes n with n + 2*alignment <= 2^64 (what happens beyond is the subject of C02 and C08)", "why_tests_cant": "needs every split/merge order", "anchors": ["src/umpire/strategy/DynamicSizePool.hpp: freeReleasedBlocks, coalesce, release"]}
{"id": "C11", "title": "FixedPool: live objects never overlap and exhaustion is handled", "statement": "FixedPool hands out distinct object slots: each returned pointer starts an object-sized range inside one of its pools, disjoint from every live object; a full pool leads to a new one from the parent; deallocating makes exactly that slot available again.", "quantifier": "every object size, objects per pool, history of allocate/deallocate/release and parent behaviour", "why_tests_cant": "bitmap arithmetic has boundary cases at every multiple of the word size, over unbounded histories", "anchors": ["src/umpire/strategy/FixedPool.cpp: newPool, allocInPool, allocate, deallocate"]}
{"id": "C12", "title": "FixedPool: reported sizes are exact", "statement": "getCurrentSize equals object size times the number of live objects, and getActualSize equals the memory currently held from the parent.", "quantifier": "every history of allocate/deallocate/release", "why_tests_cant": "counter drift appears only after particular histories such as release followed by growth", "anchors": ["src/umpire/strategy/FixedPool.cpp: newPool, release, getCurrentSize, getActualSize"]}
{"id": "C13", "title": "Bookkeeping pool (FixedMallocPool): objects are distinct until freed", "statement": "The internal fixed-size malloc pool never hands out the same object twice without it being freed in between, never hands out a pointer outside its pools, and reuses freed objects before growing.", "quantifier": "every object size, pool size and history of allocate/deallocate", "why_tests_cant": "intrusive lazily initialised free list: errors need particular orders of frees", "anchors": ["src/umpire/util/FixedMallocPool.cpp: newPool, allocInPool, allocate, deallocate"]}
{"id": "C14", "title": "SlotPool: slots are never shared", "statement": "Two live SlotPool allocations never share memory; a freed slot is reused only for a request of exactly its length; a request the pool cannot serve does not disturb live allocations.", "quantifier": "every number of slots, history of positive-size requests and parent behaviour", "why_tests_cant": "unbounded histories with failure points", "anchors": ["src/umpire/strategy/SlotPool.cpp: allocate, deallocate"]}
{"id": "C15", "title": "MixedPool: routing is consistent", "statement": "MixedPool deallocate hands each pointer back to the sub-pool that allocated it, so live allocations of all sub-pools stay disjoint, and each allocation is at least as large as requested.", "quantifier": "every configuration of fixed sizes for which the constructor returns, every history with requests n >= 1 and n + 2*alignment <= 2^64, every parent behaviour including address reuse between sub-pools", "why_tests_cant": "depends on address reuse after blocks return to the parent and on the ptr-to-pool map over unbounded histories", "anchors": ["src/umpire/strategy/MixedPool.cpp: allocate, deallocate"]}
{"id": "C16", "title": "MonotonicAllocationStrategy: bump allocations are disjoint and bounded", "statement": "Successful allocations lie inside the capacity block and are pairwise disjoint; a request that does not fit throws and does not affect the ability to serve requests that still fit.", "quantifier": "every capacity and sequence of request sizes in the 64-bit range", "why_tests_cant": "the running offset is an unbounded sum in 64-bit arithmetic", "anchors": ["src/umpire/strategy/MonotonicAllocationStrategy.cpp: allocate"]}
{"id": "C17", "title": "SizeLimiter: the limit is never exceeded and never leaks", "statement": "The total size of live allocations made through a SizeLimiter never exceeds the limit, a request is refused only if it would exceed the limit, and a refused or failed request leaves the available budget unchanged.", "quantifier": "every limit, every sequence of requests in the 64-bit range and every parent behaviour including failures", "why_tests_cant": "depends on 64-bit wraparound and on failures at arbitrary points", "anchors": ["src/umpire/strategy/SizeLimiter.cpp: allocate, deallocate"]}
{"id": "C18", "title": "AlignedAllocator: aligned, disjoint, and reversible", "statement": "AlignedAllocator returns pointers that are multiples of the requested alignment, with the requested bytes inside the parent block and after the saved header, live results are disjoint, and deallocate hands the parent exactly the pointer it returned.", "quantifier": "every power-of-two alignment, request size and parent pointer", "why_tests_cant": "pointer arithmetic over all 64-bit addresses", "anchors": ["src/umpire/strategy/AlignedAllocator.cpp: allocate, deallocate"]}
{"id": "C19", "title": "Size arithmetic: rounding is correct or overflow is detected", "statement": "Rounding a size up to an alignment yields the least multiple not smaller than the size; when the mathematical result does not fit the size type the library must not proceed with a smaller block.", "quantifier": "every 64-bit size and every alignment, for the pool, AlignedAllocator, typed-allocator, file and shared-memory size computations", "why_tests_cant": "2^64 sizes times alignments", "anchors": ["src/umpire/strategy/mixins/AlignedAllocation.inl: aligned_round_up", "src/umpire/strategy/DynamicSizePool.hpp", "src/umpire/strategy/AlignedAllocator.cpp", "src/umpire/TypedAllocator.inl", "src/umpire/resource/FileMemoryResource.cpp", "src/umpire/resource/HostSharedMemoryResourceImpl.hpp"]}
{"id": "C20", "title": "Allocation map: lookup returns the allocation that contains the pointer", "statement": "For live, pairwise disjoint registered allocations, looking up any address inside one of them (base or interior) returns that allocation's record, and looking up an address inside none of them reports not found.", "quantifier": "every history of registrations/deregistrations and every looked-up address", "why_tests_cant": "the lookup goes through a cursor-based radix tree whose shape depends on all registered addresses", "anchors": ["src/umpire/util/AllocationMap.cpp: insert, doFindRecord, remove", "src/umpire/util/MemoryMap.inl: doFindOrBefore", "src/tpl/umpire/judy/judy.c: judy_strt, judy_prv, judy_last"]}
{"id": "C21", "title": "Allocation map: records of one pointer form a stack", "statement": "Registering the same pointer several times and removing it yields the records in last-in-first-out order, removal of a pointer that is not registered throws and changes nothing, and the size of the map is registrations minus removals.", "quantifier": "every history of insert/remove/find/clear", "why_tests_cant": "unbounded histories of nested registrations", "anchors": ["src/umpire/util/AllocationMap.cpp: RecordList, insert, remove, size"]}
{"id": "C22", "title": "Address tree: behaves as an ordered map", "statement": "The tree keyed by address behaves as a finite map: after any history, exact lookup returns the value last stored for a key that has not been erased and nothing otherwise, and forward iteration visits every key exactly once in increasing order.", "quantifier": "every history of insertions and deletions of 64-bit keys", "why_tests_cant": "node promotion, radix splitting and deletion paths depend on the whole key set; 2^64 keys", "anchors": ["src/tpl/umpire/judy/judy.c: judy_cell, judy_slot, judy_del, judy_nxt, judy_promote, judy_splitnode, judy_radix", "src/umpire/util/MemoryMap.inl"]}
{"id": "C23", "title": "Allocator: introspection agrees with the requests made", "statement": "For a tracked allocator, while a pointer returned for n bytes is live, getSize(pointer) is n, the resource manager reports that allocator as owner for every address of the range, and hasAllocator is true; once deallocated, the address is unknown again.", "quantifier": "every interleaving of allocations and deallocations on any number of allocators", "why_tests_cant": "unbounded histories over many allocators sharing one map", "anchors": ["src/umpire/Allocator.inl: do_allocate, do_deallocate", "src/umpire/ResourceManager.cpp: getSize, getAllocator(void*), hasAllocator"]}
{"id": "C24", "title": "Allocator: current size, count and high watermark are exact", "statement": "For a tracked allocator getCurrentSize is the sum of the sizes of its live allocations, getAllocationCount their number, and getHighWatermark the maximum getCurrentSize ever had, including across failed allocations and reallocations.", "quantifier": "every history including failed requests and reallocations", "why_tests_cant": "drift appears only after particular failure and reallocation histories", "anchors": ["src/umpire/strategy/mixins/Inspector.cpp", "src/umpire/strategy/AllocationStrategy.cpp", "src/umpire/op/HostReallocateOperation.cpp"]}
{"id": "C25", "title": "Deallocating through the wrong allocator is rejected without damage", "statement": "Deallocating a tracked pointer through an allocator that did not allocate it throws and leaves the pointer, its record and all statistics as they were.", "quantifier": "every history and every pair of allocators", "why_tests_cant": "the error path removes and re-inserts state", "anchors": ["src/umpire/Allocator.inl: do_deallocate", "src/umpire/strategy/mixins/Inspector.cpp: deregisterAllocation"]}
{"id": "C26", "title": "Zero-byte allocations are valid and distinct", "statement": "allocate(0) returns a non-null pointer distinct from every other live pointer, with size 0, that can be deallocated through the same allocator; deallocate(nullptr) has no effect.", "quantifier": "every history mixing zero-byte and ordinary allocations on any allocators", "why_tests_cant": "zero-byte pointers come from a separate shared pool; routing must be right in every history", "anchors": ["src/umpire/Allocator.inl: allocateNull, deallocateNull", "src/umpire/ResourceManager.cpp: getZeroByteAllocator"]}
{"id": "C27", "title": "Leak report is exact", "statement": "get_leaked_allocations(allocator) / get_allocator_records list exactly the tracked allocations of that allocator that have been allocated and not deallocated, each once.", "quantifier": "every history on any number of allocators", "why_tests_cant": "depends on full iteration over the shared map after arbitrary histories", "anchors": ["src/umpire/Umpire.cpp: get_allocator_records, get_leaked_allocations", "src/umpire/util/AllocationMap.cpp: ConstIterator"]}
{"id": "C28", "title": "Allocator names and ids are unique and stable", "statement": "Each successful makeAllocator yields an allocator with a fresh id and name; looking it up by name or id always returns that same allocator; reusing a name throws and changes nothing; the reserved invalid id is never handed out.", "quantifier": "every sequence of allocator creations, lookups and failures", "why_tests_cant": "unbounded sequences; ids come from a shared counter", "anchors": ["src/umpire/ResourceManager.inl: makeAllocator", "src/umpire/ResourceManager.cpp: getAllocator, getNextId, makeResource"]}
{"id": "C29", "title": "Aliases behave as extra names", "statement": "addAlias makes a new name resolve to an allocator; a taken name is rejected; removeAlias undoes it and is rejected for names that are not aliases of that allocator; other names keep resolving as before.", "quantifier": "every sequence of alias additions/removals and lookups", "why_tests_cant": "unbounded sequences, interaction with lazily created resources", "anchors": ["src/umpire/ResourceManager.cpp: addAlias, removeAlias, getAllocatorNames, isAllocator"]}
{"id": "C30", "title": "copy moves the right bytes and stays in bounds", "statement": "A copy that does not throw makes the destination bytes equal to the source bytes for the requested length (or the rest of the source when the length is 0), changes no other byte, and neither reads beyond the source allocation nor writes beyond the destination allocation.", "quantifier": "every pair of live allocations, interior offsets and lengths", "why_tests_cant": "offset arithmetic at all boundaries; silent out-of-bounds reads do not fail tests", "anchors": ["src/umpire/ResourceManager.cpp: copy", "src/umpire/op/HostCopyOperation.cpp"]}
{"id": "C31", "title": "memset fills exactly the requested bytes", "statement": "memset(ptr, value, length) sets exactly the bytes from ptr for length (or to the end of the allocation when length is 0), changes no other byte, and throws if the range leaves the allocation.", "quantifier": "every live allocation, interior offset, value and length", "why_tests_cant": "boundary arithmetic over all offsets and lengths", "anchors": ["src/umpire/ResourceManager.cpp: memset", "src/umpire/op/HostMemsetOperation.cpp"]}
{"id": "C32", "title": "reallocate preserves contents", "statement": "reallocate returns a pointer whose first min(old,new) bytes equal the old contents, whose recorded size is the new size, and after which the old pointer is no longer registered; a null pointer behaves as allocate; an interior pointer or a foreign allocator is rejected without any change.", "quantifier": "every old/new size, allocator kind, content and history", "why_tests_cant": "data preservation must hold for all contents and both implementations (realloc and allocate-copy-free)", "anchors": ["src/umpire/ResourceManager.cpp: reallocate, reallocate_impl", "src/umpire/op/GenericReallocateOperation.cpp", "src/umpire/op/HostReallocateOperation.cpp"]}
{"id": "C33", "title": "move relocates an allocation", "statement": "move(ptr, allocator) yields a pointer owned by the target allocator with the same size and contents, the old pointer is gone unless source and target coincide; interior pointers are rejected without change.", "quantifier": "every allocation, content and pair of allocators", "why_tests_cant": "must hold for all contents, sizes (including zero) and histories", "anchors": ["src/umpire/ResourceManager.cpp: move"]}
{"id": "C34", "title": "Operation dispatch is total and unambiguous", "statement": "For every operation name and pair of platforms, lookup either returns the one operation registered for exactly that name and pair or throws; every copy/memset/reallocate between host allocators finds an operation.", "quantifier": "every operation name and platform pair, every registration order", "why_tests_cant": "quantifies over all names and all registration histories", "anchors": ["src/umpire/op/MemoryOperationRegistry.cpp: registerOperation, find, constructor"]}
{"id": "C35", "title": "pointer_overlaps and pointer_contains describe ranges", "statement": "pointer_contains(l, r) is true exactly when r's allocation lies within l's allocation, and pointer_overlaps(l, r) is true exactly when the two allocations share memory but neither contains the other (so it must not depend on argument order).", "quantifier": "every pair of registered ranges, including external registrations", "why_tests_cant": "all relative positions of two arbitrary ranges", "anchors": ["src/umpire/Umpire.cpp: pointer_overlaps, pointer_contains"]}
{"id": "C36", "title": "Any nesting of strategies is memory safe", "statement": "However strategies are stacked over memory resources and shared as parents, all live allocations handed to users anywhere in the system are pairwise disjoint, and every allocation lies inside live memory of the resource at the bottom of its chain.", "quantifier": "every finite acyclic arrangement of strategies, every sequence of operations on any of them, every behaviour of the resources", "why_tests_cant": "the space of compositions and histories is infinite; requires a compositional argument", "anchors": ["src/umpire/strategy/AllocationStrategy.cpp: allocate_internal, deallocate_internal", "src/umpire/strategy/"]}
{"id": "C37", "title": "ThreadSafeAllocator makes concurrent use equivalent to sequential use", "statement": "Concurrent allocate/deallocate calls through ThreadSafeAllocator handles produce results and a final state equal to those of some sequential order of the same calls that respects each thread's order.", "quantifier": "every number of threads, every program per thread and every schedule", "why_tests_cant": "schedules cannot be enumerated or forced by tests", "anchors": ["src/umpire/Allocator.inl: thread_safe_allocate, thread_safe_deallocate", "src/umpire/Allocator.cpp: constructor", "src/umpire/strategy/ThreadSafeAllocator.cpp"]}
{"id": "C38", "title": "Lock coverage: shared state is only touched under its lock", "statement": "No two threads ever access the same pool state concurrently when each uses a ThreadSafeAllocator, including zero-byte requests and thread-safe allocators used beneath other strategies.", "quantifier": "every arrangement of thread-safe allocators and every schedule", "why_tests_cant": "data races are schedule dependent", "anchors": ["src/umpire/Allocator.inl: allocate, allocateNull", "src/umpire/strategy/ThreadSafeAllocator.cpp"]}
{"id": "C39", "title": "Shared-memory segment: live blocks never overlap and stay inside the segment", "statement": "Named allocations from a shared-memory segment are pairwise disjoint, 16-byte aligned, inside the segment and outside its bookkeeping headers; freeing merges neighbours so the free bytes plus used bytes plus headers always add up to the segment.", "quantifier": "every segment size and history of named allocations and deallocations, by any number of attached processes (serialised by the segment lock)", "why_tests_cant": "unbounded histories of splits and merges in an offset-linked list", "anchors": ["src/umpire/resource/HostSharedMemoryResourceImpl.hpp: allocate_named, deallocate, findUsableBlock, splitBlock, releaseBlock"]}
{"id": "C40", "title": "Shared-memory names: same name, same memory, until the last release", "statement": "Allocating a name that is live returns the same block; the block is freed only when it has been deallocated as many times as it was allocated; find_pointer_from_name finds exactly the live names.", "quantifier": "every history of named operations by any number of processes", "why_tests_cant": "reference counting over unbounded interleaved histories", "anchors": ["src/umpire/resource/HostSharedMemoryResourceImpl.hpp: allocate_named, deallocate, find_pointer_from_name, find_existing_allocation"]}
{"id": "C41", "title": "DeviceAllocator: concurrent bump allocations are disjoint and bounded", "statement": "For any interleaving of allocations by device threads, the returned ranges are pairwise disjoint and inside the allocator's buffer; requests that do not fit fail and leave others unaffected; reset restores the full capacity.", "quantifier": "every number of threads, sizes and interleavings of atomic operations", "why_tests_cant": "thread interleavings and 32-bit counter wraparound cannot be enumerated", "anchors": ["src/umpire/DeviceAllocator.cpp: allocate, reset"]}
{"id": "C42", "title": "DeviceAllocator lookup by name or id is exact", "statement": "get_device_allocator(name) or (id) returns the device allocator created with that name/id and reports an error for names/ids that do not exist; creating more allocators than the table holds is rejected.", "quantifier": "every set of created allocators and every queried name/id", "why_tests_cant": "quantifies over all names, including prefixes of one another", "anchors": ["src/umpire/device_allocator_helper.cpp: get_index, is_device_allocator, make_device_allocator, convert_to_array_index"]}
{"id": "C43", "title": "Resource names and types convert back and forth", "statement": "Converting a memory resource type to its name and back gives the same type; distinct types have distinct names; unknown names or types are reported; device suffixes N yield device id N.", "quantifier": "every resource type and every name string", "why_tests_cant": "quantifies over all strings", "anchors": ["src/umpire/resource/MemoryResourceTypes.hpp: resource_to_string, string_to_resource, resource_to_device_id"]}
{"id": "C44", "title": "Fragmentation statistic terminates", "statement": "relative_fragmentation returns for every list of allocation records with the fraction of free space not in the largest gap.", "quantifier": "every list of records", "why_tests_cant": "termination for all inputs", "anchors": ["src/umpire/util/allocation_statistics.cpp: relative_fragmentation"]}
{"id": "C45", "title": "NamingShim gives unique names and keeps its parent balanced", "statement": "Successive allocations through a NamingShim use pairwise different names, and allocating then deallocating leaves the parent's reported size unchanged.", "quantifier": "every history", "why_tests_cant": "unbounded histories", "anchors": ["src/umpire/strategy/NamingShim.cpp: allocate, deallocate"]}
{"id": "C46", "title": "Replay: a compiled trace reproduces the recorded allocation pairing", "statement": "For every recorded trace, each deallocation (or reallocation) in the compiled replay refers to the operation that produced the pointer being freed in the trace, so replaying performs the same allocations and frees the same ones in the same order.", "quantifier": "every well-formed recorded trace, including pointer reuse", "why_tests_cant": "traces are unbounded and reuse addresses", "anchors": ["tools/replay/ReplayInterpreter.cpp: compile_allocate, compile_deallocate, compile_reallocate, buildOperations", "tools/replay/ReplayOperationManager.cpp: makeAllocate, makeDeallocate, makeReallocate_ex"]}
{"id": "C47", "title": "Replay comparison reports every difference", "statement": "replaydiff reports equality only if the two compiled traces have the same allocators and the same operations.", "quantifier": "every pair of traces", "why_tests_cant": "quantifies over all pairs of traces, including those that are prefixes of one another", "anchors": ["tools/replay/ReplayInterpreter.cpp: compareOperations"]}
{"id": "C48", "title": "Replay histogram buckets are exact", "statement": "The size histogram puts a size in bucket k exactly when 2^k <= size < 2^(k+1).", "quantifier": "every non-zero 64-bit size", "why_tests_cant": "2^64 inputs through a multiplication hash", "anchors": ["tools/replay/ReplayOperationManager.cpp: log2_64"]}
{"id": "C49", "title": "Accessibility follows the underlying resource", "statement": "is_accessible(platform, allocator) depends only on the memory resource at the root of the allocator's parent chain, is decided after finitely many steps, and agrees for all allocators over the same resource.", "quantifier": "every chain of strategies and every platform", "why_tests_cant": "chains of arbitrary length", "anchors": ["src/umpire/Umpire.cpp: is_accessible", "src/umpire/strategy/AllocationStrategy.cpp: getParent"]}
{"id": "C50", "title": "Bitmap scan finds the first free object", "statement": "The find-first-set helper used by FixedPool returns one plus the index of the lowest set bit, or zero when no bit is set.", "quantifier": "every 32-bit word", "why_tests_cant": "2^32 words and platform-specific code paths", "anchors": ["src/umpire/util/find_first_set.hpp"]}
{"id": "C51", "title": "File-backed memory: bookkeeping matches mappings", "statement": "Each FileMemoryResource allocation maps a file whose size is the least page multiple not below the request, distinct live allocations use distinct files, and deallocate unmaps exactly the mapped length and forgets the pointer.", "quantifier": "every request size, page size and history", "why_tests_cant": "arithmetic over all sizes and unbounded histories", "anchors": ["src/umpire/resource/FileMemoryResource.cpp: allocate, deallocate"]}
{"id": "C52", "title": "Coalescing heuristics trigger exactly on their documented condition", "statement": "blocks_releasable(n) triggers exactly when at least n blocks are releasable; percent_releasable(p) exactly when at least p percent of the pool is releasable (0 disables, 100 means completely free); the _hwm variants use the same condition and suggest the high watermark; percentages outside 0..100 are rejected.", "quantifier": "every argument and every pool state", "why_tests_cant": "all arguments times all reachable states", "anchors": ["src/umpire/strategy/QuickPool.cpp: 348-403", "src/umpire/strategy/DynamicPoolList.cpp: heuristics"]}
{"id": "C53", "title": "Single-file strategies forward faithfully", "statement": "NamedAllocationStrategy, ThreadSafeAllocator, AllocationAdvisor/Prefetcher and NumaPolicy forward each allocation to their parent with the same size and each deallocation with the same pointer and size, so they preserve every safety property of the parent.", "quantifier": "every history and parent behaviour", "why_tests_cant": "must hold for all histories of the parent", "anchors": ["src/umpire/strategy/NamedAllocationStrategy.cpp", "src/umpire/strategy/ThreadSafeAllocator.cpp", "src/umpire/strategy/AllocationAdvisor.cpp", "src/umpire/strategy/AllocationPrefetcher.cpp"]}
{"id": "C54", "title": "DynamicPoolList: best fit, and a failed allocation is harmless", "statement": "A DynamicPoolList allocation asks the parent only when no free gap is large enough, and otherwise takes a smallest sufficient gap. When the parent refuses twice the exception reaches the caller with all completely free blocks handed back, every other block still held, and sizes exact. No call other than allocate ends in an exception or terminates the program.", "quantifier": "every configuration, history, heuristic and parent behaviour; request sizes n with n + 2*alignment <= 2^64", "why_tests_cant": "depends on the gaps of arbitrary histories and on failures injected at every parent call", "anchors": ["src/umpire/strategy/DynamicSizePool.hpp: findUsableBlock, allocateBlock", "src/umpire/strategy/DynamicPoolList.cpp: coalesce, do_coalesce"]}
{"id": "C55", "title": "Allocation map: iteration visits every record once", "statement": "Iterating over the allocation map visits every registered record exactly once, addresses in increasing order and the records of one address newest first, so that anything computed by iterating (statistics, records of an allocator) sees exactly the live registrations.", "quantifier": "every history of insert/remove/find/clear that registers no record under the null pointer", "why_tests_cant": "the iteration order is produced by cursor moves in a radix tree whose shape depends on the whole history", "anchors": ["src/umpire/util/AllocationMap.cpp: begin, end, operator++", "src/umpire/util/MemoryMap.inl: Iterator_", "src/tpl/umpire/judy/judy.c: judy_strt, judy_nxt, judy_key"]}
{"id": "C56", "title": "Reported platform and accessibility agree", "statement": "Memory of an allocator is accessible from the platform the allocator reports, and a copy that is dispatched to the host's memcpy only touches memory accessible from the host.", "quantifier": "every chain of strategies over every memory resource, every build configuration and every set of user-registered operations", "why_tests_cant": "chains of arbitrary length; needs every combination of resource, platform and registration", "anchors": ["src/umpire/Umpire.cpp: is_accessible", "src/umpire/strategy/NumaPolicy.cpp: getPlatform", "src/umpire/resource/NoOpResourceFactory.cpp: create", "src/umpire/resource/FileMemoryResourceFactory.cpp: create"]}
{"id": "C57", "title": "Constant memory is a stack of 64 KB", "statement": "Live constant-memory allocations are disjoint and inside the 64 KB array; the newest allocation can be deallocated with its size and nothing else can; a request is served exactly when it fits what is left; a failed request changes nothing.", "quantifier": "every history of allocate and deallocate and every size", "why_tests_cant": "unbounded histories and sizes; needs a GPU to run at all", "anchors": ["src/umpire/resource/HipConstantMemoryResource.cpp: allocate, deallocate", "src/umpire/resource/CudaConstantMemoryResource.cu: allocate, deallocate"]}
{"id": "C58", "title": "The null resource releases what it reserved", "statement": "NullMemoryResource knows exactly the live reservations with the sizes requested; deallocate unmaps exactly the reserved range and forgets it; a failed reservation is reported.", "quantifier": "every history and size", "why_tests_cant": "leaked address space is not observed by any test; depends on the contents of freed cells", "anchors": ["src/umpire/resource/NullMemoryResource.cpp: allocate, deallocate"]}
{"id": "C59", "title": "Shutdown destroys strategies safely and returns everything", "statement": "When the ResourceManager is destroyed at the end of the program, every strategy is destroyed while the strategies it is built on still exist; no destructor causes undefined behaviour or hands back memory that overlaps an allocation the user has not returned; and when the user has returned all allocations of a resource, all memory taken from it has been given back.", "quantifier": "every forest of strategies on any number of resources, every history of constructions, allocations, deallocations and pool operations, every point of the shutdown", "why_tests_cant": "runs in the destructor of a static object after the tests have ended; depends on the order of creation and on everything that was not returned", "anchors": ["src/umpire/ResourceManager.cpp: ResourceManager::~ResourceManager", "src/umpire/ResourceManager.inl: makeAllocator", "src/umpire/strategy/QuickPool.cpp: QuickPool::~QuickPool", "src/umpire/strategy/DynamicSizePool.hpp: ~DynamicSizePool", "src/umpire/strategy/FixedPool.cpp: FixedPool::~FixedPool", "src/umpire/strategy/MonotonicAllocationStrategy.cpp: ~MonotonicAllocationStrategy", "src/umpire/strategy/SlotPool.cpp: SlotPool::~SlotPool"]}
{"id": "C60", "title": "FixedSizePool: node pool of DynamicSizePool is exact, and what a failed malloc does", "statement": "A FixedSizePool hands out objects that are pairwise disjoint, non-null, inside its data blocks and clear of its headers. It asks malloc for memory only when every slot is in use, and then for one header and one data block. Deallocating an object in use succeeds and disturbs nothing else, a pointer outside the data blocks is refused without effect, getCurrentSize and getActualSize are exact, the destructor frees every block once, and none of this depends on malloc succeeding.", "quantifier": "every object size, every number of bitmap words, every sequence of allocate and deallocate calls on objects in use, every placement chosen by malloc and every pattern of refused requests", "why_tests_cant": "the bitmap search and the list of pools interact over unboundedly many histories, and a test cannot make malloc fail at a chosen moment", "anchors": ["src/umpire/strategy/FixedSizePool.hpp: newPool 41-53, allocInPool 55-71, constructor and destructor 80-96, allocate 98-118, deallocate 120-145, observers 148-172", "src/umpire/strategy/StdAllocator.hpp 13-30"]}
{"id": "C61", "title": "Coalescing consolidates: used blocks stay, free blocks become at most one", "statement": "coalesce, called by the user or from deallocate, keeps exactly the blocks holding live allocations and replaces the free ones by at most one new block, sized to reach the heuristic's suggestion and not below the pool's minimum block size; afterwards a request for what the suggestion covers beyond the live blocks is served without the parent. With a built-in heuristic, deallocate coalesces exactly when the documented condition holds (number of free blocks, everything free) and never holds more during the call than before or after; with a heuristic of 0 nothing changes. A pool is never larger after coalescing than before, and an explicit coalesce does something a deallocate has not done already.", "quantifier": "every QuickPool and DynamicSizePool configuration, every history, every heuristic of the library, every placement and refusal by the parent", "why_tests_cant": "which blocks are free, which gap is found and which minimum size applies depends on the whole history; tests look at a few block counts", "anchors": ["src/umpire/strategy/QuickPool.cpp: deallocate 139-202, coalesce 316-346, heuristics 348-412", "src/umpire/strategy/DynamicSizePool.hpp: coalesce 442-454, deallocate 271-278", "src/umpire/strategy/DynamicPoolList.cpp: deallocate 36-49, coalesce and heuristics 125-137"]}
{"id": "C62", "title": "Address-sanitizer marking of pool memory is exact", "statement": "Built with the address sanitizer, QuickPool and DynamicSizePool mark memory so that an access to a live allocation is never reported and every other access to memory held by the pool is (freed allocations, rounding behind an allocation, memory never handed out), and memory handed back to the parent is usable again.", "quantifier": "every configuration and history of allocate, deallocate, release and coalesce, every heuristic and parent, whatever others do with the sanitizer outside of the memory the pool holds", "why_tests_cant": "a wrong mark shows only as a false alarm or a missed bug in some later access; splitting, merging, growing and coalescing interact over unboundedly many histories", "anchors": ["src/umpire/util/memory_sanitizers.hpp:37-45", "src/umpire/strategy/mixins/AlignedAllocation.inl:23-47", "src/umpire/strategy/QuickPool.cpp:135, 149", "src/umpire/strategy/DynamicSizePool.hpp:328, 347"]}
{"id": "C63", "title": "The event log reads back as it was recorded", "statement": "Reading a JSON event file (json_file_store::get_events) returns exactly the events whose insert returned, in order, each with the name, category, string and numeric arguments, tags, pointers, sizes and time stamp it was recorded with, whatever characters its strings contain; and recording does not fail as long as the file can be opened.", "quantifier": "every sequence of generic, allocate, named_allocate and deallocate records, every string of bytes, every 64-bit number, every pattern of fopen failures", "why_tests_cant": "escaping, UTF-8 decoding and number formatting must agree between two independent writers (the JSON library and hand-written format strings) and the parser for all byte strings and all 64-bit values; one bad record makes the whole file unreadable", "anchors": ["src/umpire/event/json_file_store.cpp:30-151", "src/umpire/event/event_json.hpp:16-54", "src/umpire/event/event.hpp:33-63", "src/umpire/json/include/nlohmann/json.hpp (lexer, parser, serializer)"]}
{"id": "C64", "title": "Facade and strategies agree end to end", "statement": "For any arrangement of strategies over memory resources, the live allocations according to the calls made through Allocators and the ResourceManager and their outcomes are exactly what the strategies have given to their users; they do not overlap, each lies in memory held from the resource beneath its allocator, zero-byte allocations in memory of their own; no call has undefined behaviour at any layer; every call changes the record and the bytes of no other allocation, and reallocate and move keep contents.", "quantifier": "every forest of the library's host strategies on any number of resources whose sizes fit together, every history of allocate, deallocate, reallocate, move, copy, memset and queries through tracked allocators with right and wrong pointers, of construction, release and coalesce between them, and of writes by users, every behaviour of the resources", "why_tests_cant": "each layer keeps its own books (allocation map, size map of a pool, free lists, the parent's books) and they only agree if every path, including those that fail half way, updates all of them in step; tests exercise a handful of arrangements", "anchors": ["src/umpire/Allocator.inl:22-120", "src/umpire/ResourceManager.cpp:109-130", "src/umpire/ResourceManager.cpp:560-830", "src/umpire/strategy/AllocationStrategy.hpp", "src/umpire/strategy/QuickPool.cpp", "src/umpire/strategy/FixedPool.cpp"]}
{"id": "C65", "title": "Threads sharing the facade see only their own allocations", "statement": "When several threads use Allocators and the ResourceManager at once, each naming only allocations it owns (or that were handed to it), every call gives the calling thread the result it would get alone, no action has undefined behaviour, the allocations of all threads are disjoint, held and found by the allocation map at every moment, the bytes of an allocation are changed only by its owner, and when no call is in progress the records and the memory held are exactly the owned allocations.", "quantifier": "any number of threads, every interleaving of the atomic actions of allocate, deallocate, ResourceManager::deallocate, getSize, getAllocator(ptr), hasAllocator, copy, memset, reallocate and move, of writes of the owners and allocations handed between threads, every answer of the strategies (atomic, as with ThreadSafeAllocator)", "why_tests_cant": "the allocation map is locked per operation while a call makes several, so correctness depends on the order of memory and map actions over all interleavings, including addresses reused by another thread in the middle of a call", "anchors": ["src/umpire/util/AllocationMap.cpp:155-275", "src/umpire/strategy/mixins/Inspector.cpp:18-56", "src/umpire/Allocator.inl:22-120", "src/umpire/ResourceManager.cpp:560-890", "src/umpire/op/HostReallocateOperation.cpp:20-50"]}
{"id": "C66", "title": "Threads sharing the facade and the strategies see only their own allocations", "statement": "When several threads allocate, deallocate, reallocate, move, copy and fill through the facade on top of pools and other strategies arranged over memory resources, each naming only allocations it owns, then even though a thread may be interrupted between any two calls that a strategy makes to its resource, and pools are constructed, released and coalesced in between: no layer does anything undefined, every call gives its thread the result it would get alone, the allocations of all threads are disjoint, known to the allocation map and to their strategy, and inside memory that the strategy's resource has given out; their bytes are changed by their owner only; when no call is in progress the users of the strategies have exactly what the threads own; a thread in a call can always go on or waits for a request that can; and if nothing new is begun, every schedule of the calls in progress ends, with all of them done.", "quantifier": "any number of threads, every forest of the library's host strategies on any number of resources whose sizes fit together, every interleaving of map operations, reads of records, statistics updates, copies and calls to memory resources, each request to the strategies over one resource being serialised (ThreadSafeAllocator around them) while those over different resources overlap, every behaviour of the resources", "why_tests_cant": "the pools take memory from the resource in the middle of a request and the facade takes the map lock several times per call, so what another thread sees in between depends on the interleaving; a stress test visits a tiny part of the interleavings and arrangements", "anchors": ["src/umpire/Allocator.inl:22-120", "src/umpire/strategy/ThreadSafeAllocator.cpp:15-40", "src/umpire/util/AllocationMap.cpp:155-275", "src/umpire/ResourceManager.cpp:560-890", "src/umpire/strategy/QuickPool.cpp"]}
{"id": "C67", "title": "Replay rebuilds every allocator with the arguments it was made with", "statement": "For a recorded call of makeAllocator, the replay tool makes an allocator with the same name, parent, tracking, strategy and effective constructor parameters (defaults filled in), except for the pool type and heuristic that the user of the tool asks for; and replaying the log of a program that obtains memory resources and makes allocators ends with the same registry: every name stands for the same kind of allocator on the same parent.", "quantifier": "every strategy of the library with every combination of given and defaulted arguments, all names and values, both tracking modes, every setting of --use-pool and --use-heuristic, every sequence of creations, any other events in between, from the text of the log", "why_tests_cant": "arguments travel through a text log by position, an untyped union and a ladder of cases on the number of arguments; which of them are dropped or change value shows only for particular combinations of class, argument count and value", "anchors": ["src/umpire/ResourceManager.inl:20-62", "src/umpire/event/event.hpp:66-180", "tools/replay/ReplayInterpreter.cpp:375-660", "tools/replay/ReplayOperationManager.cpp:316-1061", "tools/replay/ReplayFile.hpp:37-82"]}
{"id": "C68", "title": "Running the replay tool on the log of a program makes the calls of the program", "statement": "For every program whose log is complete, running the replay tool on the text of that log makes the same creations, allocations, deallocations, reallocations and pool operations in the same order, with the same sizes, on the allocators that stand for the program's, and hands every deallocate and reallocate the block that replaced the program's; every later run on the compiled file beside the log does the same; compiling never writes past the end of that file; a run that cannot replay the log says so.", "quantifier": "all programs of any length, all addresses the system returns (reuse included), all allocators of the library's strategies with arguments that survive (C67), all times and names, every sequence of pointers the replay itself gets, first and later runs, with and without --recompile", "why_tests_cant": "the tool matches textual keys made of two addresses, keeps state across reallocations, and guesses the size of a mapped file from the length of the log; whether any program's log confuses it, overruns the file or leaves a half-written table depends on the whole log", "anchors": ["tools/replay/replay.cpp:29-80", "tools/replay/ReplayInterpreter.cpp:52-173", "tools/replay/ReplayInterpreter.cpp:642-830", "tools/replay/ReplayFile.cpp:24-133", "tools/replay/ReplayMacros.hpp:32-37", "tools/replay/ReplayOperationManager.cpp:146-260", "src/umpire/ResourceManager.cpp:101-108"]}
{"id": "C69", "title": "Arrays and typed allocations cover every element", "statement": "The block that TypedAllocator::allocate(n) or a Fortran allocate of an array asks for contains every byte of every element of the array, different elements sharing no byte; an empty array asks for no byte.", "quantifier": "all element sizes, all numbers of dimensions, all extents a default integer can hold (negative ones included), all n up to the maximum of size_t", "why_tests_cant": "the size is a product in 64 bits that wraps; tests use extents of a few dozen, and the block that is too small is only noticed when the far elements are touched", "anchors": ["src/umpire/TypedAllocator.inl:25-29", "src/umpire/interface/c_fortran/wrapfumpire.f:1065-1072", "src/umpire/interface/c_fortran/genumpiresplicer.py:59-66"]}
{"id": "C70", "title": "The C and Fortran interfaces pass names, handles and copies on unchanged", "statement": "A name that a C or Fortran program gives is the name the library uses, and the name it reads back is the one the library has; a call through a handle acts on the allocator the handle was obtained for until it is given back, after which nothing of it is left on the heap; umpire_resourcemanager_copy_* copies from src_ptr to dst_ptr.", "quantifier": "all names (any bytes, any padding with blanks), all programs that get, copy, use, delete and destroy handles in any order and number, calls that throw included, all live pairs of allocations and sizes", "why_tests_cant": "the wrappers are generated; the tests use names of letters and never read a leaked object, copy a handle, or rely on which pointer is called the source", "anchors": ["src/umpire/interface/c_fortran/wrapResourceManager.cpp:40-509", "src/umpire/interface/c_fortran/wrapAllocator.cpp:39-144", "src/umpire/interface/c_fortran/wrapUmpire.cpp:115-149", "src/umpire/interface/c_fortran/wrapfumpire.f:1004-1014", "src/umpire/interface/c_fortran/wrapfumpire.f:1719-1730"]}
{"id": "C71", "title": "A resource name gives the memory it says", "statement": "Every name that getResourceNames lists can be asked for with getAllocator, at any time, and yields memory of the type the name begins with, on the device and with the granularity the name ends in; a resource that the user names <type>::<anything> is of that type.", "quantifier": "all builds (host only, CUDA, HIP with and without granularity, SYCL, OpenMP target, with or without shared, file, constant and no-op resources), all numbers of devices, all current devices, all programs that create, look up and alias allocators and resources in any order, all user-made names", "why_tests_cant": "factories are tried in order and accept names by substring; which one answers depends on the build and on every other word in the name; a build is tested on one machine with its devices and a few names", "anchors": ["src/umpire/resource/MemoryResourceRegistry.cpp:83-285", "src/umpire/resource/HostResourceFactory.cpp:26-33", "src/umpire/resource/CudaDeviceResourceFactory.cpp:19-26", "src/umpire/resource/HipUnifiedMemoryResourceFactory.cpp:16-23", "src/umpire/ResourceManager.cpp:132-206", "src/umpire/resource/MemoryResourceTypes.hpp:107-137"]}
{"id": "C72", "title": "Memory of a NumaPolicy is on its node", "statement": "Memory allocated from a NumaPolicy is, with all its bytes, on the node of the policy and stays there until it is deallocated or moved to another policy with move(); such a move keeps the address and the owner and puts exactly this allocation on the other node; an allocation that fails leaves nothing allocated.", "quantifier": "all page sizes, sets of nodes and device backends; all policies over the host resource, over pools and over other policies; all histories of allocations, moves and deallocations, successful or not, all pointers; all outcomes of mbind, including those that bind some of the pages and fail", "why_tests_cant": "the one test allocates ten pages on each node of the test machine, which usually has one node; what happens to neighbours on the same page, after several moves, with interior pointers or when mbind fails depends on the history and on the kernel", "anchors": ["src/umpire/strategy/NumaPolicy.cpp:16-76", "src/umpire/util/numa.cpp:33-51", "src/umpire/op/NumaMoveOperation.cpp:20-28", "src/umpire/ResourceManager.cpp:758-810", "src/umpire/alloc/PosixMemalignAllocator.hpp:33-53", "src/umpire/op/MemoryOperationRegistry.cpp:70-77"]}
{"id": "C73", "title": "Operations on a stream have the effect of the synchronous ones", "statement": "After a program has waited for the streams, the memory is as if every copy, memset and reallocate that was given a camp resource had taken effect when it was called, provided the program did not touch, before waiting, memory that operations it had given to other streams read or write. Operations on device memory with the host as resource throw and do nothing.", "quantifier": "all contents, all interleavings of the device with the program, any number of streams; all histories of allocations, writes by the program, copies, memsets, reallocations with any resource, deallocations and waits; all host and device allocators, pools or resources", "why_tests_cant": "what is lost depends on when the device executes a queued operation; the tests wait after each operation, on an idle device, with one stream", "anchors": ["src/umpire/ResourceManager.cpp:418-461", "src/umpire/ResourceManager.cpp:498-532", "src/umpire/ResourceManager.cpp:630-655", "src/umpire/ResourceManager.cpp:707-756", "src/umpire/op/MemoryOperation.cpp:23-46", "src/umpire/op/CudaCopyOperation.cpp:37-57", "src/umpire/op/CudaMemsetOperation.cpp:29-50", "src/umpire/op/GenericReallocateOperation.cpp:34-49"]}
{"id": "C74", "title": "The log has the wanted messages, in a file of its own", "statement": "With UMPIRE_LOG_LEVEL set, the log file of a process has exactly the messages of that level and the more severe ones, complete, in order and one per line; if writing fails it has the part before. The file is new, no other file is touched and no other process has it.", "quantifier": "all values of UMPIRE_LOG_LEVEL, all lists of messages, all failures of writes; all directories, base names, process numbers and sets of files; any number of processes", "why_tests_cant": "the tests look for some messages in the file of one process in a clean directory; what else is there, names taken by other processes and failures of writes depend on values and times", "anchors": ["src/umpire/util/Logger.cpp:22-64", "src/umpire/util/OutputBuffer.cpp:33-66", "src/umpire/util/io.cpp:41-45", "src/umpire/util/io.cpp:71-173", "src/umpire/util/Macros.hpp:62-70", "src/umpire/ResourceManager.cpp:65-74"]}
{"id": "C75", "title": "Which calls may run at the same time", "statement": "Calls of the library from several threads do not race on its tables: looking up, creating and aliasing allocators, finding, listing and registering allocations, and allocating can be done at the same time; threads that use only their own memory through one thread-safe allocator never race, and nobody is blocked for ever.", "quantifier": "any number of threads, all lists of calls in each, all outcomes of the calls, all schedules", "why_tests_cant": "a race needs a particular schedule of two threads and may have no visible effect; which pairs of calls are safe is a statement about all schedules", "anchors": ["src/umpire/ResourceManager.inl:20-56", "src/umpire/ResourceManager.cpp:132-373", "src/umpire/ResourceManager.cpp:853-927", "src/umpire/util/AllocationMap.cpp:155-375", "src/umpire/util/MemoryMap.inl:48-260", "src/umpire/Allocator.inl:50-66", "src/umpire/Umpire.cpp:36-60"]}
{"id": "C76", "title": "A database of events holds what was recorded", "statement": "With the database stores instead of the JSON file, recording an event adds exactly that event to the database, whatever its name and arguments, leaves the earlier events alone and does not end the program; reading the database gives the recorded events in order.", "quantifier": "all sequences of generic events, allocations, named allocations and deallocations, all names, arguments, tags and times, all failures of the database", "why_tests_cant": "the stores splice text into SQL or a line protocol; which texts break out of their place, and which lengths overflow the buffer, is a statement about all strings", "anchors": ["src/umpire/event/sqlite_database.cpp:32-138", "src/umpire/event/quest_database.cpp:31-91", "src/umpire/event/event_json.hpp:22-56"]}
{"id": "C77", "title": "Memory of the user can be registered and used like an allocation", "statement": "Memory the user registers with register_external_allocation is from then on reported by queries, copied and set like an allocation of the allocator named in its record, until it is deregistered, which returns the record and makes its addresses unknown; neither changes what is known about other memory, the statistics of allocators or any byte; no call ever hands external memory to a strategy that did not give it out.", "quantifier": "all interleavings of registrations, deregistrations and the calls of the facade (allocate, deallocate, reallocate, move, copy, memset, queries, requests of strategies to their parents), all answers of strategies", "why_tests_cant": "the record says the memory belongs to an allocator whose strategy never gave it out; that nothing but an explicit free or relocation of it goes wrong, and that everything else stays exact around it, is a statement about all interleavings", "anchors": ["src/umpire/Umpire.cpp:263-288", "src/umpire/ResourceManager.cpp:342-366", "src/umpire/util/AllocationMap.cpp:62-260"]}
{"id": "C78", "title": "Memory of a GPU resource is where its name says, and the current device stays", "statement": "Memory handed out by DEVICE::i is on device i, by DEVICE on the device current when the resource was made, by UM managed and by PINNED pinned host memory, with the granularity in the name (HIP), whatever device is current when it is requested; it stays until it is freed, nothing else is kept; and calls of resources leave the current device of the thread as the program set it, whether they succeed or throw.", "quantifier": "all sequences of allocations and deallocations through any resources of a CUDA or HIP build and of changes of the device by the program, all answers of the runtime (memory, out of memory, errors, failures to tell or change the device)", "why_tests_cant": "tests run on the devices of one machine with a runtime that answers without errors; what happens after a failing request, and for any number of devices, is out of their reach", "anchors": ["src/umpire/resource/CudaDeviceMemoryResource.cpp:24-53", "src/umpire/resource/HipDeviceMemoryResource.cpp:24-53", "src/umpire/resource/DefaultMemoryResource.inl:31-49", "src/umpire/alloc/CudaMallocAllocator.hpp:30-63", "src/umpire/alloc/HipMallocAllocator.hpp:32-90", "src/umpire/alloc/HipMallocManagedAllocator.hpp:33-67", "src/umpire/ResourceManager.cpp:139-175"]}
{"id": "C79", "title": "Advice and prefetches concern exactly the memory and the device named", "statement": "For every allocation an AllocationAdvisor or AllocationPrefetcher hands out, the runtime has been told the advice named (or to prefetch) for all bytes of the allocation and no others, with the device named, or the host if the accessing allocator is on the host; it is told nothing else; a request that throws keeps no memory; each name of advice is accepted exactly where the runtime knows it, other names are refused. ResourceManager::prefetch(ptr, device) tells the runtime to move the bytes from ptr to the end of its allocation, and is refused for anything but managed memory.", "quantifier": "all sequences of allocations and deallocations through any advisors and prefetchers on memory of any platform, in every build, whatever operations the program registers under other names, all answers of parents and runtimes; all sets of live allocations and all pointers for ResourceManager::prefetch", "why_tests_cant": "advice has no observable effect on results, so tests only see that nothing throws; what range and device are told, and what remains after a refusal, cannot be observed by them", "anchors": ["src/umpire/strategy/AllocationAdvisor.cpp:17-54", "src/umpire/strategy/AllocationPrefetcher.cpp:15-40", "src/umpire/ResourceManager.cpp:834-851", "src/umpire/op/CudaMemPrefetchOperation.cpp:18-85", "src/umpire/op/CudaAdviseOperation.cpp:22-34", "src/umpire/op/MemoryOperationRegistry.cpp:58-192"]}
{"id": "C80", "title": "Releasing every allocator leaves exactly the memory in use", "statement": "After Allocator::release has been called on every allocator, those built on others first, the memory still held from a memory resource is what is in use: every live allocation lies in a block that is held and every block that is held contains a live allocation. In particular, if all allocations have been returned, everything is back at the resource.", "quantifier": "all forests of strategies whose sizes fit, of any shape and depth on any number of resources, all histories of calls, all orders of the releases in which no allocator comes after one it is built on, all answers of the resources", "why_tests_cant": "tests release one pool on a resource; here the pools are built on each other to any depth, with any history before", "anchors": ["src/umpire/Allocator.cpp:28-40", "src/umpire/strategy/AllocationStrategy.cpp:67-70", "src/umpire/strategy/QuickPool.cpp:204-214", "src/umpire/strategy/DynamicPoolList.cpp:51-55", "src/umpire/strategy/FixedPool.cpp:177-187", "src/umpire/strategy/MixedPool.cpp:96-99"]}
{"id": "C81", "title": "The statistics of an allocator count its users and the allocators built on it", "statement": "For every allocator, getAllocationCount is the number of live allocations of its users plus the number of blocks that the allocators built directly on it hold, getCurrentSize is the sum of their sizes, getHighWatermark is the largest value getCurrentSize ever had, and for the pools getCurrentSize is at most getActualSize. The memory obtained from a resource is what the getters of the allocators directly on it say.", "quantifier": "all forests of strategies whose sizes fit, of any shape and depth, all histories of calls and answers of the resources; exact only for allocators whose account was not charged in vain", "why_tests_cant": "tests compare the numbers of one allocator after a few calls; the error needs requests between strategies that fail, and the claim is about every allocator of every nesting after any history", "anchors": ["src/umpire/strategy/AllocationStrategy.cpp:20-30", "src/umpire/strategy/AllocationStrategy.cpp:49-55", "src/umpire/strategy/AllocationStrategy.cpp:77-95", "src/umpire/strategy/mixins/Inspector.cpp:16-49", "src/umpire/Allocator.inl:22-50", "src/umpire/strategy/FixedPool.cpp:189-202", "src/umpire/strategy/MixedPool.cpp:101-109"]}
{"id": "C82", "title": "A copy or fill moves exactly the bytes asked for, whichever memory the allocations are in", "statement": "copy(dst, src, n) between two live allocations of any resources and strategies, and memset on one, either throw or leave exactly the n bytes from dst equal to those that were at src (equal to the value); no byte outside of the n from dst is ever written, and no runtime is asked for something its contract does not allow. They throw just when the destination is too small, no operation is registered for the two platforms, or the runtime refuses. The overloads with a resource ask the runtime for the same and throw when the resource is not a stream of the runtime.", "quantifier": "all builds, chains of strategies, resources, device numbers, contents, allocations, interior pointers and sizes, all answers of the runtimes; resources that go together (one SYCL resource, no SHARED with OpenMP devices), allocators that report the platform of their memory, failures the runtime reports", "why_tests_cant": "tests copy between a few allocators of one build and see success; the claim is about every pair of resources in every build, about interior pointers, and about bytes that are not written", "anchors": ["src/umpire/ResourceManager.cpp:375-533", "src/umpire/op/CudaCopyOperation.cpp:23-61", "src/umpire/op/HipCopyOperation.cpp:23-58", "src/umpire/op/OpenMPTargetCopyOperation.cpp:18-37", "src/umpire/op/OpenMPTargetMemsetOperation.cpp:18-29", "src/umpire/op/SyclCopyOperation.cpp:16-24", "src/umpire/op/SyclCopyToOperation.cpp:16-23", "src/umpire/op/SyclCopyFromOperation.cpp:16-22", "src/umpire/op/SyclMemsetOperation.cpp:18-23", "src/umpire/resource/SyclDeviceResourceFactory.cpp:43-69"]}
{"id": "C83", "title": "When the parent of a pool throws while memory is given back, the pool stays usable and loses only that memory", "statement": "A parent may throw when memory is given back to it (cudaFree reports an error, FixedPool does not know the pointer). After that, however often it happens: live allocations of a QuickPool or DynamicPoolList remain disjoint and inside memory the parent counts as allocated to the pool, no operation has undefined behaviour or ends the program, what was refused is never given back twice, release throws just when something was refused and otherwise has given back every block without live allocations, the destructor throws nothing, and the sizes the pool reports are those of what it holds. The same for FixedPool; a SizeLimiter takes no more from its parent than its limit.", "quantifier": "all histories of allocate, deallocate, release and coalesce, all sizes and configurations with a heuristic of the library, all answers of the parent to every request and to everything given back", "why_tests_cant": "no resource the tests run on ever refuses memory; the failure leaves the pool in states that no test constructs, and the claim is about everything that may happen afterwards", "anchors": ["src/umpire/strategy/QuickPool.cpp:139-250", "src/umpire/strategy/QuickPool.cpp:316-346", "src/umpire/strategy/mixins/AlignedAllocation.inl:38-60", "src/umpire/strategy/FixedPool.cpp:56-93", "src/umpire/strategy/FixedPool.cpp:177-187", "src/umpire/strategy/SizeLimiter.cpp:23-39", "src/umpire/alloc/CudaMallocAllocator.hpp:56-64", "src/umpire/strategy/DynamicSizePool.hpp:212-278", "src/umpire/strategy/DynamicPoolList.cpp:36-55", "src/umpire/strategy/DynamicPoolList.cpp:125-137"]}
{"id": "C84", "title": "The memory usage reported for the process and its devices is what the system says", "statement": "get_process_memory_usage_hwm returns the number of the VmHWM line of /proc/self/status times 1024, whatever the other lines, the program's name and the rest of the line are, and 0 if there is no such line; get_process_memory_usage returns the second number of /proc/self/statm times the page size; get_device_memory_usage returns total minus free memory of the device asked for, and leaves the calling thread on the device it was on.", "quantifier": "all contents of the two files (any lines, names, spacing, numbers), all page sizes, all numbers of devices with any memory, all device ids, all failures of the CUDA calls", "why_tests_cant": "the tests can only check that the numbers reported grow with what they allocate; they cannot choose the text of the kernel, the name of the process, what fails in the CUDA runtime or which devices there are", "anchors": ["src/umpire/Umpire.cpp:126-151", "src/umpire/Umpire.cpp:153-166", "src/umpire/Umpire.cpp:174-193"]}
{"id": "C85", "title": "With MPI, every process learns its rank, gets through initialisation, and gets the right communicator for shared memory", "statement": "Once umpire::initialize was called after MPI_Init, Umpire knows rank and size and sync does not throw; with a log directory to be created all processes get through initialisation and find it; get_communicator_for_allocator returns on every process, and the result has those processes of the communicator passed that run on the caller's machine (MPI_COMM_NULL if the allocator is not shared on a node).", "quantifier": "any number of processes, all interleavings, all sequences of calls with any communicators and allocators, all placements of processes on machines", "why_tests_cant": "the tests run a fixed small number of processes in one timing; deadlocks need particular interleavings, and wrong communicators need calls with different communicators", "anchors": ["src/umpire/util/MPI.cpp:30-97", "src/umpire/Umpire.hpp:22-41", "src/umpire/util/io.cpp:91-129", "src/umpire/Umpire.cpp:237-262"]}
{"id": "C86", "title": "Allocators stay consistent when a strategy refuses to take memory back", "statement": "If the deallocate of a strategy throws (a failing cudaFree, constant memory handed back out of order, a file that cannot be unmapped, a pool that cannot coalesce), Umpire stays consistent: no later call has undefined behaviour, the live allocations stay disjoint, known and intact, listings and statistics agree with them, a reallocate or move that throws leaves the allocation where it was, and the deallocation can be repeated.", "quantifier": "all sequences of allocate, deallocate, reallocate, move, copy, memset and queries through any tracked and untracked allocators, all answers of the strategies (any placement, any refusal, with or without the memory being taken), all sizes", "why_tests_cant": "refusals come from failing system calls, driver errors and exhausted memory, which tests do not produce; what is left behind shows up only in later calls", "anchors": ["src/umpire/Allocator.inl:93-115", "src/umpire/strategy/mixins/Inspector.cpp:41-56", "src/umpire/ResourceManager.cpp:657-705", "src/umpire/ResourceManager.cpp:758-859", "src/umpire/op/GenericReallocateOperation.cpp:18-31", "src/umpire/resource/HipConstantMemoryResource.cpp:49-62"]}
{"id": "C87", "title": "A SYCL or OpenMP device resource gives memory of the device its name says", "statement": "In a SYCL or OpenMP build the names DEVICE::i on offer are those of the devices there are; memory handed out by DEVICE::i is on the i-th device (a divided GPU counts as its parts), by DEVICE, UM and PINNED on or for the first one; it stays until it is given back, nothing else is kept, no call is undefined, and getNumDevices tells how many there are.", "quantifier": "all machines (any platforms, devices and divisions of them into parts), all device numbers, all sequences of making resources, allocations and deallocations, all answers of the runtime", "why_tests_cant": "tests run on one machine with one arrangement of platforms and devices; machines that show a GPU through two platforms or divide GPUs differently are out of their reach", "anchors": ["src/umpire/resource/MemoryResourceRegistry.cpp:190-243", "src/umpire/resource/SyclDeviceResourceFactory.cpp:30-72", "src/umpire/resource/SyclDeviceMemoryResource.inl:28-44", "src/umpire/resource/SyclUnifiedMemoryResourceFactory.cpp:30-102", "src/umpire/resource/SyclPinnedMemoryResourceFactory.cpp:30-88", "src/umpire/resource/OpenMPTargetMemoryResourceFactory.cpp:25-47", "src/umpire/alloc/OpenMPTargetAllocator.hpp:34-57", "src/umpire/ResourceManager.cpp:942-964"]}
{"id": "C88", "title": "Functions for one kind of allocator act on that kind and refuse the others", "statement": "try_coalesce(a) returns true exactly if a coalesce was performed, and otherwise has no effect; coalesce(a) throws exactly if the allocator cannot be coalesced, without effect; coalescing keeps every live allocation; find_pointer_from_name(a, name) returns the allocation with that name for a shared memory allocator and throws for every other allocator.", "quantifier": "all allocators (pools in any reachable state and with any heuristic, strategies over them, resources), all segments reached by any calls, all names, builds with and without shared memory", "why_tests_cant": "tests call these functions on an allocator of the right kind in a few states; what they do to the other kinds, and whether something was really coalesced, is not looked at", "anchors": ["src/umpire/Umpire.cpp:209-236", "src/umpire/Umpire.cpp:289-316", "src/umpire/Umpire.hpp:170-204", "src/umpire/util/wrap_allocator.hpp:37-54"]}
{"id": "C89", "title": "An out_of_memory_error names the allocator and the size of the failing request", "statement": "When a request fails for lack of memory, the call throws out_of_memory_error; get_allocator_id() is the id of the allocator the program asked and requested_size() the size it asked for, not those of a resource or pool below; a refusal that a pool recovered from is not seen.", "quantifier": "all nestings of strategies over all resources, all states of the pools, all sizes, all answers of the system at every step; allocate, allocate by name, TypedAllocator, reallocate, making a strategy that allocates", "why_tests_cant": "the tests provoke one refusal by one resource; the error passes through every strategy between the resource and the allocator, some of which catch it and try again", "anchors": ["src/umpire/Allocator.inl:20-90", "src/umpire/util/error.hpp:53-86", "src/umpire/strategy/QuickPool.cpp:60-84", "src/umpire/strategy/SizeLimiter.cpp:23-33"]}
{"id": "C90", "title": "Processes that open a shared memory segment of the same name attach the same, initialised segment", "statement": "However the constructors of any number of processes interleave, exactly one makes a segment; a process has its resource only when header, mutex and free block of the segment are complete; all that open one name (with or without leading slash) have the same segment; the others wait, and when nothing fails every one of them gets there.", "quantifier": "all numbers of processes, all names and sizes, all interleavings of the system calls and stores, failures of any system call, calls and destructions in between; endless fair runs for the progress", "why_tests_cant": "tests run one process, or a few under MPI in one order; the window between shm_open, ftruncate and the last store of the header is never hit on purpose", "anchors": ["src/umpire/resource/HostSharedMemoryResourceImpl.hpp:50-179", "src/umpire/resource/HostSharedMemoryResourceImpl.hpp:471-510"]}
{"id": "C91", "title": "The event log of a program with several threads replays as the calls its threads made", "statement": "When several threads use allocators at once, the records in the log are in an order in which one thread could have made the calls: replaying the log makes every recorded call, those of each thread in its order, and every deallocate and reallocate of the replay names the block that the corresponding call of the replay produced, also when an address freed by one thread is at once given to another.", "quantifier": "all numbers of threads, all sequences of calls of each, all interleavings of taking and giving back blocks and writing records, all addresses the strategies may give", "why_tests_cant": "the replay tests record programs of one thread; whether a record can come on the wrong side of the record of another thread's call with the same address depends on an interleaving tests do not control", "anchors": ["src/umpire/Allocator.inl:20-112", "src/umpire/ResourceManager.cpp:535-832", "src/umpire/event/json_file_store.cpp:30-88", "tools/replay/ReplayInterpreter.cpp:690-790"]}
{"id": "C92", "title": "The lists of NUMA nodes are exact, and a policy says device for device nodes", "statement": "get_host_nodes and get_device_nodes split the nodes libnuma lists into those with and those without CPUs, get_allocatable_nodes gives those the process may use; each list is ascending and without duplicates; they throw exactly when libnuma cannot answer and leak nothing. In a device build a NumaPolicy reports the platform of the device exactly when its node is in get_device_nodes.", "quantifier": "all masks of nodes of any size, all numbers of CPUs per node, all errors of libnuma, all node numbers and device backends", "why_tests_cant": "the tests see the one machine they run on, usually with one node; nodes without CPUs, holes in the numbering, errors of libnuma and nodes that do not exist are not there", "anchors": ["src/umpire/util/numa.cpp:62-132", "src/umpire/strategy/NumaPolicy.cpp:16-45"]}
{"id": "C93", "title": "replay --stats and --dump report what the program did with each allocator", "statement": "replay --stats and --dump do not change whether a log can be replayed. --dump writes, for every operation and every allocator that exists by then, the number of allocations the program holds from it; --stats prints for every allocator the numbers of allocations and deallocations and, for each range [2^k, 2^(k+1)) of sizes, the largest number of allocations of such sizes held at the same time.", "quantifier": "all sequences of operations, all allocators tracked or not, all addresses, all sizes, both options", "why_tests_cant": "the counters wrap, reset and are charged at different places; whether they agree with the program depends on the whole history of creations, defaults, reallocations and deallocations of several allocators", "anchors": ["tools/replay/ReplayOperationManager.cpp:56-141", "tools/replay/ReplayOperationManager.cpp:144-318", "tools/replay/ReplayOperationManager.cpp:1063-1118", "src/umpire/ResourceManager.cpp:861-866"]}
{"id": "C94", "title": "get_backtrace tells where an allocation was made", "statement": "With UMPIRE_BACKTRACE=On, umpire::get_backtrace gives for every address inside a tracked allocation the frames of the call that made that allocation, also after memory was given back and its addresses were used again; it throws for other addresses; without the variable it says that backtraces are off. It is never undefined, and values other than On do not turn backtraces on.", "quantifier": "all values of the variable and all changes to it, all histories of allocations, deallocations and questions, all call stacks, all ways the compiler and the linker can choose among the copies of the static switch", "why_tests_cant": "the switch is a static in an unnamed namespace of a header: which copy a caller gets depends on inlining, and what it says on what ran first; the answer depends on the whole history of the address", "anchors": ["src/umpire/util/backtrace.inl:37-60", "src/umpire/util/backtrace.inl:117-133", "src/umpire/ResourceManager.cpp:342-373", "src/umpire/Umpire.cpp:113-123", "src/umpire/util/Macros.hpp:83-88"]}
