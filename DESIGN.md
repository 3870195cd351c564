# Formal model of Umpire in Lean 4

Subject: LLNL/Umpire, source in `/repo` (read as text, never built or run).
Deliverable: Lean 4 model and proofs in `/verif/lean/Verif`, property list in
`/verif/properties.jsonl`, status per property in `/verif/MANIFEST.json`,
mutation log in `/verif/seeded/LOG.jsonl`.

## 1. Approach

* Every strategy is modelled by a state record and small total functions, one
  per C++ function, each with a comment naming the file and lines it models.
* Calls a strategy makes to its parent allocator (`allocate_internal`,
  `deallocate_internal`) are modelled as *effects*: the functions return a
  program tree (`Prog`) whose `alloc` nodes branch over every possible answer of
  the parent (any address, or an exception).  A weakest-precondition predicate
  `wp` quantifies over all answers a correct parent may give: an address range
  disjoint from everything the strategy currently holds, or failure.  So
  theorems hold for every parent behaviour, including parents shared with
  other clients, without enumerating anything.
* Undefined behaviour (dereferencing `end()`, double free, freeing a pointer
  the parent never gave) is a distinct outcome `ub`; `std::terminate` (throwing
  out of a `noexcept` function) is `abort`; running out of recursion fuel is
  `diverge`.  Safety theorems show these outcomes do not occur.
* Properties are stated against small separate specifications (sets of live
  ranges, finite maps, byte arrays, LIFO stacks) that do not mention the
  model's own bookkeeping.
* Sizes and addresses are natural numbers.  Where the C++ type is `size_t` and
  the property depends on wraparound, the model reduces modulo 2^64 explicitly
  (`w64`); theorems then either carry an explicit no-overflow hypothesis and
  are accompanied by a concrete counterexample without it, or cover all values.

## 2. Trusted base

* Lean 4.33.0 kernel and the standard axioms `propext`, `Classical.choice`,
  `Quot.sound` (nothing else; `#print axioms` is run on every listed theorem,
  results in section 6).
* The reading of C++ semantics embodied in the model definitions, and the
  modelling decisions in section 4.  Nothing connects the model to the source
  text mechanically: each definition cites the lines it was written from.
* The statements: the property list, and the specifications named in section 3.

## 3. Modules, specifications and proofs

| ids | module | what is modelled | specification and proof |
|-----|--------|------------------|-------------------------|
| - | `Base` | `Prog` (calls to a parent), `wp`, 64-bit rounding, 32-bit bitmaps, byte memory, framing for shared parents | - |
| C01-C07 | `QuickPool` | chunk lists per parent block, size map (ordered multimap), pointer map, all counters; allocate, deallocate, release, coalesce and all heuristics | `Reach` over all histories and parents; properties read off an invariant (blocks tile, maps agree with chunks, counters are sums). C05: recursion with fuel, divergence from a concrete reachable state, termination for the heuristics where it holds |
| C08-C10 C54 | `DynPool` | `used` and `free` block lists of DynamicSizePool.hpp, splitting, merging, alignment mixin | simulation by block structures for which the QuickPool invariant holds |
| C61 | `QuickPool.Merge` `DynPool.Merge` `DynPool.Peak` | as above, with histories that record the peaks of the memory held and in use | `Consolidated` (Base.MergeSpec): blocks after coalescing in terms of blocks before, live allocations and the suggested amount |
| C62 | `QuickPool.Poison` `DynPool.Poison` `QuickPool.Gran` `DynPool.Gran` | the same functions with their calls to the sanitizer | `Marked` (Base.Poison): poisoned = held and not live, byte by byte; erasure gives back the functions of `Model`; `gran` (Base.Gran): the sanitizer's runtime as it is, one state for eight bytes (trusted: transcribed from memory of compiler-rt, which is not in the repository) |
| C11 C12 C50 | `FixedPool` | vector of pools with bitmaps of 32-bit words | slots in use = clear bits; scan finds the first set bit of any word |
| C13 | `MallocPool` | FixedMallocPool with its free list inside byte memory | free-list invariant; writes stay inside the blocks |
| C60 | `BlockPool` | FixedSizePool.hpp: list of bitmapped pools, two mallocs per pool, counters | `Reach` over histories with every request granted (`RunN`); refused requests from every full state |
| C14 | `SlotPool` | length and pointer arrays | array invariant with a count of lost slots |
| C15 | `MixedPool` | fixed pools, quick pool, address map, constructor loop | each live address is routed to the sub-pool that gave it |
| C16 C17 C18 C19 C45 C53 | `Small` | Monotonic, SizeLimiter, AlignedAllocator, size arithmetic, NamingShim, forwarding strategies | arithmetic over all addresses, induction over histories |
| C20 C21 C22 C55 | `Judy` | judy.c with all node types and cursor, MemoryMap, AllocationMap with record lists | refinement to finite maps, to stacks per address |
| C23-C27 C30-C33 | `Manager` | Allocator, Inspector, zero-byte pool, allocation map, copy, memset, reallocate, move over byte memory | `ghost`: live allocations from calls and outcomes alone; `peakOf`: largest number of bytes in use |
| C28 C29 C43 | `Names` | ResourceManager naming tables, resource type/name conversions on character lists | finite maps, programs with exceptions |
| C34 C35 C44 C49 C56 | `Ops` | operation registry, range predicates, fragmentation loop, platforms and accessibility of all strategies | decision logic over all configurations |
| C36 | `Nest` | forests of strategies over any number of resources | `Exec` carries a ledger of requests and answers; contracts `Strat.Ok` compose (`Sys.node_ok`, `Sys.par_ok`) |
| C59 | `Nest` | destructors, the list of strategies, `~ResourceManager` | `ExecC` carries the list, `Ends` destroys a prefix of it; contract `Arr.EndOk` |
| C37 C38 | `Conc` | threads, mutexes, interleavings; which state each call touches | equality with a sequential run; race freedom |
| C39 C40 | `Shm` | shared segment byte by byte, both linked lists, names | ledger of names, sizes, references |
| C41 C42 | `Device` | atomic counter interleavings; table of device allocators | induction over schedules; table lookups |
| C46 C47 C48 | `Replay` | compiler and executor of traces, comparison, histogram | pairing of frees with allocating calls; floor of log2 |
| C51 C52 C57 C58 | `Misc` | FileMemoryResource, heuristics with exact binary32 arithmetic, constant memory, NullMemoryResource | tables of mappings, exact thresholds |
| C63 | `Events` | json_file_store, event conversion, the parts of nlohmann::json it uses (serializer, UTF-8 decoder, lexer, parser) on byte lists | `Reads` relates records to events; UTF-8 is Lean's `Char` encoding |
| C64 | `Whole` | the facade (`Manager`) over the strategies (`Nest`), including the zero-byte pool | live allocations from calls and outcomes alone (`liveOf`); `sim_run`, `sim_goes` relate the composed system to `Manager` |
| C65 | `Threads` | the facade as programs over atomic actions, run by any number of threads | results in terms of what the caller owns (`Fits`), invariant with a ghost owner per record and block (`reach_inv`); alone they are the programs of `Manager` (`thr_alone`) |
| C66 | `Full` | the programs of `Threads` on the strategies of `Whole`, requests interrupted at each call to a resource | simulation (`sim`): a state with requests in progress maps to a state of `Threads`, where a request is one action, taken when it is done (asking) or begun (giving back); calls end (`Ends`): finitely many calls and requests, each a finite tree, ordered lexicographically |
| C67 | `Rebuild` | event of makeAllocator, compile_make_allocator, makeAllocator of the replay tool, registry of names | `Par`: parameters with the defaults of the declarations; `Faithful`: the calls that survive |
| C68 | `Trace` | ReplayInterpreter on the text of the log, ReplayFile, the runs of the tool | `LogOf`: the log of a program; `Matches`: a call of the program and what the replay did; `Right`: what a creation has to make |
| C69, C70 | `Bind` | TypedAllocator, the Fortran array routines, the C and Fortran interfaces to names, handles and copies | `Covered`: the bytes of all elements, first index fastest; `S.step`: what a program may do with its handles |
| C71 | `Names.Registry` | MemoryResourceRegistry, the isValidMemoryResourceFor of all factories | `Build.meant`: the type before the first colon, on the platform of the build; `meantGrain` |
| C72 | `Numa` | NumaPolicy, numa::move_to_node, NumaMoveOperation, the NUMA part of ResourceManager::move | `alive`, `asked`: size, owner and node according to the history of calls |
| C73 | `Async` | copy, memset and reallocate with a camp resource; the asynchronous parts of the operations | `ideal`: memory if every call took effect at once; `pending`: what was given to a stream since the last wait |
| C74 | `Log` | Logger, OutputBuffer, initialize_io, make_unique_filename | `wanted`, `severe`, `expected`, `lines`: the text of a log |
| C75 | `Tables` | locks and accesses of ResourceManager, AllocationMap and Allocator calls | `Clash`: which calls change what others use |
| C76 | `Stores` | sqlite_database.cpp, quest_database.cpp: the SQL text and what SQLite does with it, the line that is sent | `Reads`: the events are the records; `readPoint`: a reader of the line protocol |
| C77 | `Manager` (`External*`) | Umpire.cpp `register_external_allocation`, `deregister_external_allocation` amid the facade | `liveX`, `extX`: what is live and what is external according to the calls and outcomes alone |
| C78 | `Gpu` | `CudaDeviceMemoryResource`, `HipDeviceMemoryResource`, the unified and pinned resources and the allocators beneath, `makeResource` | `given`, `userDev`: what was handed out and the device chosen, by calls and outcomes alone |
| C79 | `Advice` | `AllocationAdvisor`, `AllocationPrefetcher`, `ResourceManager::prefetch`, `apply` and `apply_async` of all operations | `asked`: what is to be told, by parameters and outcomes alone; `advised`: the table of names |
| C80 | `Nest` (`Release`, `ReleaseProps`) | `Allocator::release` on every strategy | the ledger of C36: every held block contains an entry |
| C81 | `Nest` (`Stats`, `StatsProps`) | `allocate_internal`, `deallocate_internal`, `Inspector`, the getters | the history of each account: level, peak, what was charged in vain |
| C82 | `Devops` (`Model`, `Props`) | `copy`, `memset`, all copying and filling operations, traits of resources | bytes of memory; where each byte is; contracts of the runtimes |
| C83 | `Deny` (`Prog`, `Model`, `Quick`, `Alloc`, `Props`, `Small`, `Dyn.Model`, `Dyn.Proof`, `Dyn.Props`) | `QuickPool`, `DynamicPoolList`, `FixedPool::release`, `SizeLimiter` over a parent whose `deallocate` may throw | programs with refusals; memory held, refused; histories with exceptions |
| C84 | `Process` (`Model`, `Props`) | `get_process_memory_usage(_hwm)`, `get_device_memory_usage` | `std::istream` (state bits, sentry, words, numbers, lines); calls of CUDA by contract, all may fail |
| C85 | `Mpi` (`Model`, `Props`, `Comm`) | util/MPI.cpp, `umpire::initialize`, the directory in `initialize_io`, `get_communicator_for_allocator` | any number of processes interleaved; a barrier or split returns once all processes of the communicator are in it |
| C86 | `Refuse` (`Model`, `Inv`, `Step`, `Props`) | `Allocator::deallocate`, `ResourceManager::deallocate`, `reallocate`, `move` over strategies whose `deallocate` throws | strategies by contract: a refused block may have been taken or not; the zero-byte pool never refuses |
| C87 | `Usm` (`Model`, `Props`) | the registry, factories and resources of SYCL and OpenMP, `getNumDevices` | platforms, devices and answers of the runtime as inputs; a queue is the device it is for |
| C88 | `Cast` (`Model`, `Props`) | `try_coalesce`, `coalesce`, `find_pointer_from_name` | the object is a pool (C01–C10 models), the shared memory resource (C39), a strategy over one, or other |
| C89 | `Oom` (`Model`, `Props`) | the handler in `Allocator::do_allocate`, the exceptions of every `allocate` | `Decided`: the last event of a run decides what leaves; the states of the pools are answers of the world |
| C90 | `Attach` (`Model`, `Inv`, `Props`, `Live`) | constructor and destructor of `HostSharedMemoryResource::impl` in any number of processes | one step per system call or store; what the attached processes do is `Shm.Step`; the mutex makes a call one step |
| C91 | `Multi` (`Model`, `Inv`, `Sim`, `Props`) | the order of taking, giving back and recording in `Allocator::do_allocate`, `do_deallocate`, `ResourceManager::reallocate`, `move` for any number of threads | a record is one step; the interpreter is that of `Replay` |
| C92 | `Numa` (`Nodes`) | `get_host_nodes`, `get_device_nodes`, `get_allocatable_nodes`, the platform chosen in the constructor of `NumaPolicy` | the answers of libnuma are parameters |
| C93 | `Replay` (`Stats`, `StatsLog`) | `runOperations` with `TrackedHistogram` per allocator and the series of `--dump` | `live`: the blocks a program holds, `Good`: operations on memory that is held, with addresses of its own |
| C94 | `Backtrace` (`Model`, `Props`) | `backtrace_enabled`, `build_backtrace`, `print`, `registerAllocation`, `get_backtrace` on the tree of C20 | `held`: the allocations with the stacks they were made from; `SaysOn` |

## 4. Modelling decisions

What is modelled and how is said at the head of every `Model.lean` and beside every
definition, with file and line numbers.  In general:

* **Parents** answer with any non-null range inside an address space of 2^63 bytes
  that is disjoint from what the caller holds, or throw.  `deallocate_internal` of a
  parent does not throw, except in `Nest`, where an exception from a strategy that is
  used as a parent ends the execution (`abort`).  In the destructors of the pools the
  code ignores that exception and goes on; what then follows is not modelled.
* **Memory for the library's own containers** (`new`, `std::map` nodes) never runs
  out, except in `MallocPool`, which is about it.
* **Zero-byte requests** never reach a strategy: `Allocator::allocate` serves them from
  the zero-byte pool (`Manager`, C26); requests in the strategy models are positive.
* **Exceptions** are results (`none`, `false`, `err`) and the state is what the code
  leaves behind.  Exceptions out of `noexcept` functions are `abort`.
* **Integers**: `size_t` is a natural number with explicit reduction modulo 2^64 where
  sizes are combined; counters (numbers of blocks, bytes held) are unbounded where the
  invariant bounds them by the address space.  `unsigned int` counters are reduced
  modulo 2^32 in `Device`.  `float` in the heuristics is exact binary32.
* **Containers**: `std::unordered_map` is used for lookups (and to list names) in the modelled code and
  is a finite map; `std::map` and `std::multimap` are kept in key order.
* **Configuration**: release build (`NDEBUG`: `UMPIRE_ASSERT` does nothing), no ASan
  (except C62), no development checks.  `Manager` is a host build; `Ops`, `Names` cover all back-ends.
* **Loops and recursion** without an obvious bound take fuel and end with `diverge`;
  theorems hold for every fuel and do not promise termination unless they say so.
* **Concurrency** is sequentially consistent interleaving; data races are defined by
  lock sets, so nothing is assumed about weak memory.

* **Whole** (`Whole`): a request of the facade runs the model of the strategy, down to the
  resources.  `::realloc` on `HOST` is a deallocation and an allocation of the `HOST` strategy
  that keeps the bytes.  Everything else a strategy does between calls (construction, release,
  coalesce) may happen at any time.  Strategies write only into memory that is no user's
  (`St.Kept`).
* **Threads** (`Threads`): a call is a program over atomic actions: one request to a strategy
  (serialised, as `ThreadSafeAllocator` does), one operation of the allocation map (under its
  `m_mutex`), one read of a record through the pointer that `find` returned (not under it), one
  copy or fill.  A record read after its removal is undefined (`Bad`).  The block of a record is
  chosen freely among the unused ones, as `RecordBlock`s are reused.  Statistics are updated in one
  action.  Untracked allocators and the registry of allocators are not in this model
  (C38 says which state has no lock).
* **Threads on strategies** (`Full`): each group of strategies (those over one resource) has at
  most one request in progress (`Job`), which is the program of the strategy, run up to its next
  call to the resource.  Between two such steps every other thread and group may step.  The
  zero-byte pool is group 0 and also serialised, which needs a lock that the library does not have
  (C38).  What a request gives up is no longer the user's when it begins (`Task.stay`), what it
  gives out becomes the user's when it is done.  Maintenance (construct, release, coalesce) is a
  request of nobody.  Memory that is in no live allocation may change at any step (`Keeps`).
* **Replay of creations** (`Rebuild`): a call is a strategy with its arguments, those left out
  being `none` or a shorter list.  The union of the tool's table is a record with all members.
  Heuristics are tokens; the log has only a constant text for them.
* **Replay from text** (`Trace`): the interpreter of `Replay` again, on events as `get_events` returns
  them.  The file beside the log is an optional table; an exit in the middle of an event leaves the
  table as before the event.
* **Interfaces** (`Bind`): the generated wrappers of the C and Fortran interfaces all have the form of
  `getHandle` or of a plain call on the object behind the handle; handles are variables of the
  program, objects are never put at an address used before.  `copy` is the one of `Manager`.
* **Registry** (`Names.Registry`): a build with its devices determines the names on offer and the list
  of factories; what a factory makes is a kind and a platform.  The current device is constant.
* **NUMA** (`Numa`): pages have a binding (`MPOL_BIND`); `mbind` is a relation with the successes and
  failures the kernel documents.  The binding of a page on which nothing is in use may change at any
  allocation.  Moves to allocators that are no policies are C33.
* **Streams** (`Async`): a CUDA or HIP build; a stream is a queue whose first operation the device executes
  at any time, operations are atomic.  Device allocators are resources (`cudaFree` waits for the device) or
  pools.  Sizes are positive, fresh and released memory keeps its bytes.  `camp` events are waits for the
  stream; `prefetch` is not included.
* **Log** (`Log`): a build without SLIC and MPI; a stream buffer takes a byte or refuses it, the buffer of
  `std::filebuf` is not there; `umpire::error()` is never written to.  `finalize_io` cannot be called: the
  header declares it with a parameter, the source defines it without.
* **Tables** (`Tables`): a call is the list of its accesses in program order, with its outcome as a parameter;
  what a call finds does not depend on the schedule.  A record keeps its number from insertion to removal.
  `strict` takes `table[key]` for a write, as the C++ standard does.
* **Databases of events** (`Stores`): SQLite is modelled for the statements the store writes and what can follow
  them in the same text (string literals, comments, `DELETE`); other statements are an outcome of their own.  Its
  function `json` is a parameter that keeps the meaning of a text.  Lines to QuestDB are read by the grammar of the
  protocol without escapes.
* **External memory** (`Manager/External*`): a registered block is in the world with an owner of its own that is no
  strategy, so handing it to a strategy is undefined.  The proof runs the facade beside itself in a world where the
  block belongs to the strategy its record names (`asif`), in which the results for allocations apply.  The history
  registers only memory disjoint from everything held (shown necessary); every call is in it, undefined ones have no
  outcome.
* **GPU resources** (`Gpu`): the runtime is the current device of one thread and the blocks it has handed out; all it
  answers is input.  Memory it hands out is at an address it has not handed out; it releases only what it handed out.
  Two threads share no state here but the blocks, since the current device belongs to the thread.
* **Advice** (`Advice`): what a runtime is told is a list in the world; its answers, and the parent's, are input.  A
  parent is only its blocks here (C64 composes strategies).
* **Event log** (`Events`): the file is a list of bytes, buffering and write errors are left
  out.  `%p` is glibc's.  Of nlohmann::json only what events need is there: strict strings,
  integers, objects with sorted keys; a float is a token without value, comments are off.
* **Process** (`Process`): extraction from streams as in C++17 and libstdc++ for the "C" locale; `badbit` and errors while reading are
  left out.  What the kernel writes is a hypothesis of the theorems.
* **MPI** (`Mpi`): `MPI_Barrier` and `MPI_Comm_split_type` return once all processes of the communicator are in the same call on it;
  they do not fail.  The directory is seen alike by all processes and not removed; creating it is one step.

Not modelled at all: the text of backtraces, the insides of MPI (C85 uses contracts), the insides of the runtimes behind operations (C73, C79 and C82 use contracts of them), umap,
the examples and benchmarks, `tools/analyze`, JSON parsing in the replay
tool (C63 models the library it uses), the series of its dumps other than the counts (C93) and timing.

## 5. Findings

Where the code does not do what the property says, a theorem named
`..._counterexample` exhibits an execution of the model; the claim is then `partial`
and the positive theorem has the hypothesis that excludes it.  The note of each claim
in MANIFEST.json says which; in short:

* **Sizes near 2^64**: QuickPool, DynamicPoolList, AlignedAllocator, Monotonic, SizeLimiter,
  constant memory and shared memory compute with wraparound and then hand out memory
  they do not have; also through nesting (C36) when each level alone would be safe.
* **After a failed parent allocation**: SlotPool loses the slot, SizeLimiter keeps the
  charge, Inspector statistics of parents drift (C14, C17, C24).
* **Unchecked `malloc`**: FixedMallocPool and FixedSizePool never test for null; the latter
  then hands out the address `sizeof(T)` (C13, C60).
* **Coalescing** may recurse forever (C05): for every percentage from 1 to 99 and
  every block count below 2 there is a reachable state in which `deallocate` never
  returns. The default (100 percent) terminates. Percent thresholds are off by float
  rounding (C52). Coalescing can make a pool larger, and an explicit `coalesce()` does
  nothing with most heuristics because `deallocate` has done it already (C61).
* **Address sanitizer**: with pool alignments below 8 an access to freed memory can go unreported, since the sanitizer keeps one
  state for eight bytes and does not mark the first half of a granule whose second half is in use (C62); pools return memory to their parent still marked as inaccessible
  (C62).
* **Judy tree**: the predecessor search in a full last-level radix node returns the
  wrong cell, so interior pointers are not found (C20); `find` of absent keys, null
  keys and copied iterators misbehave, and `findOrBefore` without a key before returns an
  iterator that is not `end()` (C22).
* **ResourceManager**: failing `realloc` on HOST loses the record (C32); `move` to an
  untracked allocator leaks (C33); copy checks neither source overrun nor overlap
  (C30); resource names can be shadowed, dangling after a failed `makeResource` (C28);
  alias corner cases (C29).
* **Operations**: second registration is ignored, FILE has no COPY and MEMSET (C34);
  `pointer_overlaps` is not symmetric (C35); the fragmentation loop does not end (C44).
* **Threads**: the zero-byte pool, statistics of shared resources and the getters are
  not covered by a lock (C38), two ThreadSafeAllocators over one pool are unsafe (C37).
  `reallocate` on HOST reads a record it has freed, so that its memory may be registered
  under the allocator of another thread; a refused deallocation hides the record of another
  thread for a moment; records found are read outside the lock (C65).
* **Device**: no bound check on CUDA, 32-bit counter, prefix matching of names, stale
  tables (C41, C42).
* **Shared memory**: small segments, larger size for a live name, names with null bytes
  (C39, C40).
* **Replay**: failed reallocations, memset, names ending in `_base` (C46); longer left
  traces compare equal (C47).
* **Event log**: names of allocations are written unescaped, the file is opened only by
  generic events (C63).
* **Replay loses arguments** (C67): heuristics, the device of a prefetcher, alignments of 2 GiB and
  more; two strategies, negative devices of an advisor and long names end the tool;
  `--use-heuristic` is ignored for untracked pools.
* **A failed replay succeeds the second time** (C68): the magic number is written before the log is
  compiled, and an error exits with the shared mapping in place.  The next run takes the unfinished
  table for a complete one, makes the calls up to the failure and reports nothing.  A log with a
  `memset` or an allocation by name is enough.  A log that changed is not noticed either.
* **The C and Fortran interfaces** (C69, C70): `umpire_resourcemanager_copy_all` and
  `_copy_with_size` name their parameters `src_ptr, dst_ptr` and pass them in this order to
  `copy(dst_ptr, src_ptr)`, so they overwrite the source; the interface tests call them with the
  destination first.  A `get_allocator_*` or `make_allocator_*` that throws leaks the `Allocator` it
  made first.  The sizes of multi-dimensional arrays and of `TypedAllocator::allocate` wrap at 2^64;
  negative extents are multiplied like any others.
* **Resources by substring** (C71): `SHARED::GHOST` is host memory, because the host factory comes first
  and looks for `HOST` anywhere in the name; `makeResource("FILEX::0SHARED")` makes
  `getAllocator("FILE")` return shared memory; `DEVICE::0` is the current device once `DEVICE` was used;
  `DEVICE::1::FINE` of a HIP build is the current device.
* **NUMA** (C72): `move(p, A)` for memory that was allocated by policy `A` and is now on the node of `B`
  returns `p` and leaves it there, because the record still names `A`; `move` of an interior pointer
  binds as many bytes as the allocation has from that pointer on, the check for offset pointers comes
  later; `NumaPolicy::allocate` does not release the memory when `mbind` fails, which it always does
  over a pool unless the address begins a page; `MOVE` is not registered for HIP.
* **Streams** (C73): `reallocate(p, n, alloc, ctx)` of memory of a device pool starts the copy and returns the
  old memory to the pool at once, where the next `allocate` may take it before the copy is done; for
  memory of host pools it ignores `ctx`; when the resource has the wrong type it throws after the new
  memory was allocated, which leaks; `copy` does not compare the length with the source; the texts of
  the exceptions of CudaCopyOperation and CudaMemsetOperation have stream and error swapped.
* **Log** (C74): the log goes to a file, not to the standard output as the manual says, and without
  `UMPIRE_LOG_LEVEL` errors go nowhere; `file_exists` asks whether the file can be read, so one that cannot
  is truncated; the name has process number and counter but no rank or host, so processes on two hosts
  may write the same file; a write that fails ends the log; when the file cannot be opened once,
  every later first use of the library throws too; `toupper` is called with negative values.
* **Threads and tables** (C75): `ResourceManager::m_mutex` is taken by `makeAllocator` only; `getAllocator`,
  `addAlias`, `isAllocator`, `makeResource` and the default allocator have no lock, so the first
  `getAllocator("HOST")` in two threads is a race.  The iterators of `AllocationMap` and `print` take no lock and
  move the cursor of the Judy array: two threads that only ask for leaks race with each other.
* **Databases of events** (C76): `sqlite_database::insert` splices the JSON text into SQL without doubling
  apostrophes: an allocator or allocation name with an apostrophe ends the program (`exit(1)`), and a crafted name
  runs SQL of its choice.  The names of allocations go through `sprintf` into 512 bytes.  `quest_database` writes a
  comma after the last of several fields, cuts numbers to `int`, drops allocations and deallocations, and its
  `get_events` returns nothing.
* **External memory** (C77): `deallocate`, `reallocate` and `move` do not know that a record was registered by the user
  and hand the memory to the strategy in the record.  `register_external_allocation` compares neither its two
  pointers nor the range with what is registered.
* **Current device** (C78): `CudaDeviceMemoryResource` and `HipDeviceMemoryResource` switch the device, request memory
  and switch back, but not when the request throws; a pool whose first request fails and whose retry succeeds returns
  memory without an error and leaves the caller on another device.  Errors of `*GetDevice` and `*SetDevice` are not
  looked at, and a failed `hipMemAdvise` leaks the memory.
* **Advice** (C79): `AllocationAdvisor` and `AllocationPrefetcher` do not give memory back when the operation throws.
  Any name of an operation is accepted as advice.  The accessing allocator is looked at with CUDA only.
  `SyclMemPrefetchOperation::apply` dereferences the record that `AllocationPrefetcher` passes as `nullptr`.
* **Release** (C80): `Allocator::release` reaches only the strategy named.  On a `ThreadSafeAllocator`, `SizeLimiter` or other
  wrapper around a pool it silently does nothing; on a `MixedPool`, `MonotonicAllocationStrategy` or `SlotPool` too.
* **Statistics** (C81): `allocate_internal` adds to `m_current_size` and `m_allocation_count` before it calls `allocate` and does
  not subtract when that throws (AllocationStrategy.cpp:20-30).  A pool that is refused asks again, so one refused request
  of a user is charged several times to the resource, for good; `getCurrentSize` of a pool can exceed `getActualSize`, and
  `DynamicPoolList`'s `percent_releasable(100)`, which waits for `getCurrentSize() == 0`, never coalesces again.
* **Copies between devices** (C82): every SYCL resource makes its own context, and `SyclCopyOperation` gives memory of both
  resources to the queue of the destination: `copy` between `DEVICE` and `UM` is outside of the contract of SYCL.
  `OpenMPTargetCopyOperation` does not look at what `omp_target_memcpy` returns: a copy that failed looks like one that did
  not.  `SHARED` never sets `traits.id`, which the same operation uses as the device number.  A `NumaPolicy` on the node
  of a GPU says its platform is CUDA though the memory is host memory: `cudaMemcpy` is told the wrong direction.
* **Refused memory** (C83): when the parent of a `QuickPool` or `DynamicPoolList` throws in `release`, the counters have been reduced and the base
  pointer has been erased (`AlignedAllocation::aligned_deallocate` erases first), but the block stays in the pool.  The
  next `release` looks its base pointer up in vain, gives `nullptr` back, and reduces the counters again:
  `getActualSize` wraps around.  The memory is never given back.  While coalescing (`do_coalesce` is `noexcept`), also in
  a user's `deallocate`, the exception ends the program.  `DynamicPoolList::deallocate` is not `noexcept`: it throws after
  the allocation has been given up.  `FixedPool::release` gives whole pools back in a loop and erases them
  afterwards: after an exception it still uses, and gives back again, pools that are gone.  `SizeLimiter` reduces its total
  before the parent throws.
* **Memory usage** (C84): `get_process_memory_usage` returns a variable never written if `/proc/self/statm` cannot be opened or is
  too short.  `get_device_memory_usage` checks no result of CUDA: for a device that does not exist it reports the usage of the
  current one, and after a failing `cudaGetDevice` it sets the thread to a device number never written.  HIP builds report 0.
* **Backtraces** (C94): the switch looks for the letters `ON` anywhere in `UMPIRE_BACKTRACE`, so `none` turns backtraces on.  It is a static in an
  unnamed namespace of a header, so that translation units may have a copy each; if the variable is set between the first allocation and the
  first `get_backtrace`, the first element of an empty vector is taken.
* **Replay with statistics** (C93): `--stats` and `--dump` ask the library for the size of every allocation that is given back, which throws
  for allocators made without tracking, so logs that can be replayed fail with either option.  `set_default_allocator` clears the histogram of
  the allocator; the counts then wrap to 2^64 - 1.  Reallocations are not counted, their deallocations are.
* **NUMA nodes that do not exist** (C92): in a CUDA or HIP build a `NumaPolicy` for any number that is not a host node is made and reports
  the device as its platform; the mistake shows at the first allocation.  An error for one node in the lists of nodes leaks the mask of CPUs.
* **Replay of programs with threads** (C91): between the two records of a `reallocate` the interpreter takes every record for part of it.
  Records have no thread in them, so what another thread allocates or frees at that moment is silently left out of the replay.
  Apart from that, recording an allocation after the block was taken and a deallocation before it is given back is what makes the log replayable.
* **A shared memory segment whose maker failed** (C90): the name stays in `/dev/shm` with a header that is never completed, and every other
  process of that name waits in `yield` for ever, also in later jobs (`attach_dead`).  A size of 0 does the same without any failing call.
  The destructor of any one process removes the name; a process that opens it later has a segment of its own.
  The size given by any process but the first is ignored without a message.
* **Which errors say what was asked for** (C89): `do_named_allocate` lacks the handler of `do_allocate`, so a full shared memory segment
  is reported with allocator id -1 and size 0, as is an error in the constructor of a strategy.  SYCL, OpenMP, file and constant memory,
  `MonotonicAllocationStrategy` and `::realloc` report a lack of memory as `runtime_error`.
* **Functions for one kind of allocator** (C88): `find_pointer_from_name` uses `reinterpret_cast`, which never gives a null pointer: the
  error "is not a Shared Memory Allocator" cannot occur in a build with shared memory, any other allocator is undefined behaviour.
  `try_coalesce` says `true` also when nothing was coalesced, and does not see a pool below another strategy.
* **SYCL devices** (C87): `MemoryResourceRegistry` counts the GPUs of all platforms, the factories look for the `i`-th GPU of the one
  platform `gpu_selector` chooses.  Where two platforms (OpenCL and Level Zero) show the same GPU, half of the names `DEVICE::i` on offer
  make a resource with a null queue, which `allocate` dereferences.  `getNumDevices` adds up `partition_max_sub_devices`, not the
  parts there are.  The test `device_count >= 0` of OpenMP always holds: without devices `DEVICE` is on offer and is memory of the host.
* **Refused memory** (C86): `Allocator::deallocate` removes the record and reduces the statistics before it asks the strategy.  If
  that throws the block is given out still, but Umpire does not know it: deallocating it again throws, and no call ever hands it
  back.  This needs no failing hardware: deallocating HIP constant memory out of order loses the allocation.  `reallocate` and `move`
  free the old memory last: if that is refused they throw although the contents have moved, and nobody is told where.
* **MPI** (C85): `umpire::initialize` remembers that it was called even if MPI had not been started: later calls do nothing, and
  Umpire stays without a rank.  `initialize_io` enters `MPI_Barrier` only on processes that found no directory: if rank 0 has
  created it before another process looks, rank 0 waits for ever; so do the others if rank 0 throws.
  `get_communicator_for_allocator` caches by allocator alone: with another communicator it returns the wrong one, or processes that
  have not cached it wait for ever for those that have.
* **Shutdown**: Monotonic and SlotPool free memory that is still in use, SlotPool with a
  wrong size; a failed advice leaks (C59).
* **Resources**: file removal failure (C51), length read after free in the null
  resource (C58), a stuck constant resource (C57).

## 6. Axioms

Output of `#print axioms` for every theorem in MANIFEST.json (prefix `Umpire.` left out).

* **none**: Async.memset_needs_stream, Bind.fortran_negative_counterexample, Constant.constant_stuck_counterexample, Constant.constant_wrap_counterexample, Device.null_table_destroy_counterexample, FixedPool.fixedpool_create_aborts, Forward.forward_deallocate_exact, Mpi.io_exists, Mpi.io_stuck, Names.name_taken, Numa.nodes_leak_counterexample, Oom.oom_unset_counterexample, Shm.shm_nul_counterexample, Shm.shm_wrap_counterexample, SizeArith.typed_bytes_counterexample, SlotPool.slotpool_zero_counterexample, Usm.usm_divide_counterexample
* **propext**: Aligned.aligned_overflow_counterexample, Async.copy_needs_stream, Async.wait_possible, Backtrace.backtrace_kept, Backtrace.backtrace_lost_counterexample, Backtrace.backtrace_value_counterexample, Cast.cast_find_counterexample, Cast.cast_find_without, Conc.beneath_race_counterexample, Conc.getter_race_counterexample, Conc.lock_coverage_partial, Conc.resource_race_counterexample, Conc.shared_pool_race_counterexample, Conc.threadsafe_no_deadlock, Conc.threadsafe_serial_all, Conc.threadsafe_serial_each, Conc.zero_dealloc_race_counterexample, Device.dev_prefix_counterexample, Device.dev_unknown_counterexample, Device.device_reset_cas, Device.duplicate_name_counterexample, Device.host_empty_name_counterexample, Device.junk_table_counterexample, Device.null_table_id_counterexample, Device.stale_device_table_counterexample, Events.event_first_allocate_counterexample, Events.event_insert_defined, Events.event_name_backslash_counterexample, Events.event_name_injection_counterexample, Events.event_name_quote_counterexample, Events.event_name_zero_counterexample, Forward.forward_exact, Forward.forward_no_leak, Forward.namingshim_size_counterexample, Gpu.gpu_allocate_iff, Gpu.gpu_current_partial, Gpu.gpu_no_device, Gpu.gpu_nothing_left_partial, Gpu.gpu_placed, Gpu.gpu_wrong_device, Judy.memorymap_iterator_copy_counterexample, Judy.memorymap_past_end_counterexample, Mgr.deallocate_nullptr, Mgr.external_register_null, Mgr.reallocate_null, MixedPool.mixedpool_create_diverges_counterexample, Mpi.rank_counterexample, Mpi.rank_first, Names.bad_id, Names.unalias_unknown, Numa.back_counterexample, Numa.move_in_place, Numa.neighbour_counterexample, Numa.offset_counterexample, Numa.policy_allocate, Numa.pool_policy_throws, Oom.oom_kind_counterexample, Oom.oom_zero, Ops.fragmentation_empty_counterexample, Ops.own_platform_counterexample, Ops.register_others, Ops.second_registration_counterexample, Rebuild.rebuild_advisor_device_counterexample, Replay.bucket_zero_counterexample, Replay.compare_longer_left_counterexample, Replay.histogram_realloc_counterexample, Shm.shm_size_counterexample, Shm.shm_small_counterexample, Stores.quest_lost_counterexample, Stores.quest_newline_counterexample, Stores.quest_number_counterexample, Stores.sqlite_apostrophe_counterexample, Stores.sqlite_delete_counterexample, Stores.sqlite_overflow_counterexample, Stores.sqlite_two_apostrophes_counterexample
* **propext, Quot.sound**: Async.contents_partial, Async.copy_inside, Async.copy_possible, Async.host_pool_counterexample, Async.leak_counterexample, Async.memset_inside, Async.memset_possible, Async.pool_counterexample, Async.reallocate_needs_stream, Async.source_counterexample, Async.waited_partial, Attach.attach_size_counterexample, Attach.attach_split_counterexample, Backtrace.backtrace_ub_counterexample, Bind.array_elements_disjoint, Bind.c_zero_counterexample, Bind.fortran_1d, Bind.fortran_array_iff_partial, Bind.fortran_blank_counterexample, Bind.fortran_overflow_counterexample, Bind.fortran_roundtrip, Bind.fortran_zero, Bind.handle_leak_counterexample, Bind.handle_step, Bind.handles_misuse, Bind.handles_partial, Bind.name_back_iff_partial, Bind.typed_container, Bind.typed_iff_partial, Bind.typed_overflow_counterexample, BlockPool.blockpool_double_free_counterexample, Cast.cast_list, Cast.cast_over_counterexample, Cast.cast_quick, Cast.try_list, Cast.try_quick, Conc.threadsafe_serial, Conc.threadsafe_serial_prefix, Conc.two_locks_addresses_counterexample, Conc.two_locks_lost_update_counterexample, Conc.two_locks_same_pointer_counterexample, Conc.zero_race_counterexample, Deny.Fixed.fixed_stale_counterexample, Deny.Limit.limit_exceeded, Deny.deallocate_terminates_counterexample, Device.cuda_out_of_bounds_counterexample, Device.device_ids_unique, Device.device_large_counterexample, Device.device_wrap_counterexample, Device.hip_failed_uses_space_counterexample, Device.hip_fitting_fails_counterexample, Device.host_name_found_partial, Device.host_name_unknown_partial, Device.long_name_counterexample, Device.table_full_counterexample, Devops.contract, DynPool.allocateS_erase, DynPool.coalesceS_erase, DynPool.deallocateS_erase, DynPool.dynpool_aligned_hwm_counterexample, DynPool.dynpool_coalesce_aborts, DynPool.dynpool_gran_counterexample, DynPool.dynpool_overflow_counterexample, DynPool.hwm_builtIn, FixedPool.fixedpool_actual_size_counterexample, FixedPool.fixedpool_overflow_counterexample, FixedPool.fixedpool_zero_diverges_counterexample, Forward.forward_hook_leaks_counterexample, Forward.forward_safe, Forward.namingshim_count_partial, Gpu.gpu_advice_counterexample, Gpu.gpu_drift, Gpu.gpu_retry_counterexample, Heur.dynpool_untracked_heuristic_counterexample, Judy.memorymap_before_none_counterexample, Judy.memorymap_null_key_counterexample, MallocPool.mallocpool_malloc_failure_counterexample, Mgr.allocate_succeeds, MixedPool.mixedpool_create_partial, MixedPool.mixedpool_failed_allocate, Monotonic.monotonic_failed_request_counterexample, Monotonic.monotonic_wraparound_counterexample, Mpi.comm_deadlock_counterexample, Mpi.comm_first, Mpi.comm_right, Mpi.comm_stuck, Mpi.comm_terminates, Mpi.comm_wrong_counterexample, Mpi.io_completes, Mpi.io_deadlock_counterexample, Mpi.io_dir, Mpi.io_throw_counterexample, Mpi.rank_alone, Mpi.rank_no_throw, Multi.multi_threads, Names.name_free, Nest.creation_order, Nest.nested_fixedpool_counterexample, Nest.nested_overflow_counterexample, Nest.nested_slotpool_counterexample, Nest.release_leak_counterexample, Nest.release_mixed_counterexample, Nest.release_mono_counterexample, Nest.release_order_counterexample, Nest.release_other, Nest.release_slots_counterexample, Nest.release_wrapper_counterexample, Nest.stats_aligned_counterexample, Nest.stats_erase, Nest.stats_mono_counterexample, Nest.stats_null_counterexample, Nest.stats_refused_counterexample, Nest.teardown_leak_counterexample, Nest.teardown_mono_counterexample, Nest.teardown_order_counterexample, Nest.teardown_slots_counterexample, Numa.allocatable_nodes, Numa.device_nodes, Numa.host_nodes, Numa.lost_counterexample, Numa.make_iff, Numa.offset_move, Numa.policy_make, Numa.policy_platform, Numa.policy_unknown, Numa.policy_unknown_counterexample, Numa.stale_counterexample, Oom.oom_all, Oom.oom_decided, Oom.oom_named, Oom.oom_retry, Oom.oom_told, Oom.oom_unset, Oom.oom_users, Ops.contains_zero_counterexample, Ops.dispatch_exact, Ops.dispatch_throws, Ops.fragmentation_partial, Ops.overlaps_order_counterexample, Process.device_restored, QuickPool.allocateS_erase, QuickPool.coalesceS_erase, QuickPool.deallocateS_erase, QuickPool.hwm_builtIn, QuickPool.quiet_builtIn, Rebuild.rebuild_alignment_counterexample, Rebuild.rebuild_heuristic_counterexample, Rebuild.rebuild_prefetch_device_counterexample, Rebuild.rebuild_unknown_class, Rebuild.rebuild_use_heuristic_counterexample, Rebuild.replay_resource_counterexample, Replay.Stats.dump_fresh_counterexample, Replay.Stats.stats_exact, Replay.Stats.stats_grow_counterexample, Replay.Stats.stats_through, Replay.Stats.stats_untracked_counterexample, Replay.Stats.stats_wipe_counterexample, Replay.compare_complete, Replay.compare_decides, Replay.compare_exact_partial, Replay.compare_misses_suffix, Replay.compare_shorter_left, SizeArith.aligned_total, SizeArith.file_bytes, SizeArith.pool_round_partial, SizeArith.shm_bytes_counterexample, SizeArith.shm_bytes_partial, SizeArith.typed_bytes, SizeLimiter.sizelimiter_leak_counterexample, SizeLimiter.sizelimiter_limit_partial, SizeLimiter.sizelimiter_wraparound_counterexample, SlotPool.slotpool_destroy_counterexample, SlotPool.slotpool_lost_slot_counterexample, Thr.thr_alone, Trace.second_run_silent_counterexample, Trace.stale_counterexample, Usm.usm_found, Usm.usm_num_partial, find_first_set_spec
* **propext, Classical.choice, Quot.sound**: Advice.advice_accepted_iff, Advice.advice_accessor_counterexample, Advice.advice_alloc_iff, Advice.advice_host_counterexample, Advice.advice_leaks, Advice.advice_nothing_left_partial, Advice.advice_other_counterexample, Advice.advice_told_partial, Advice.prefetch_exact_partial, Advice.prefetch_refused, Advice.prefetch_skipped, Advice.prefetch_sycl_undefined, Advice.prefetch_within, Aligned.aligned_create, Aligned.aligned_deallocate_exact, Aligned.aligned_live_partial, Aligned.aligned_safe, Async.fenced_tidy, Async.fenced_waited, Async.moved_contents, Attach.attach_dead, Attach.attach_empty_counterexample, Attach.attach_hang_counterexample, Attach.attach_layout, Attach.attach_live, Attach.attach_once, Attach.attach_path, Attach.attach_ready, Attach.attach_safe, Attach.attach_same, Attach.attach_throws, Attach.attach_waits, Backtrace.backtrace_exact_partial, Backtrace.backtrace_one_copy_partial, Backtrace.backtrace_records_partial, Backtrace.backtrace_value, Bind.c_copy_counterexample, Bind.fortran_name_padded, BlockPool.blockpool_allocate_partial, BlockPool.blockpool_deallocate_partial, BlockPool.blockpool_destroy_partial, BlockPool.blockpool_live_disjoint_partial, BlockPool.blockpool_null_data_counterexample, BlockPool.blockpool_null_header_counterexample, BlockPool.blockpool_sizes_partial, Cast.cast_find_shared, Cast.cast_idle, Cast.cast_throws, Cast.cast_try, Conc.threadsafe_pool, Constant.constant_stack_partial, Deny.Dyn.dyn_absurd_size, Deny.Dyn.dyn_coalesce_terminates, Deny.Dyn.dyn_deallocate_throws, Deny.Dyn.dyn_destroy, Deny.Dyn.dyn_first_refusal, Deny.Dyn.dyn_in_use, Deny.Dyn.dyn_leak, Deny.Dyn.dyn_live, Deny.Dyn.dyn_offers, Deny.Dyn.dyn_release, Deny.Dyn.dyn_release_can_throw, Deny.Dyn.dyn_safe_partial, Deny.Dyn.dyn_sizes, Deny.Dyn.dyn_sizes_clean, Deny.Fixed.fixed_destroy_abort, Deny.Fixed.fixed_refused, Deny.Fixed.fixed_refused_partial, Deny.Fixed.fixed_refused_ub, Deny.Fixed.fixed_taken, Deny.Limit.limit_partial, Deny.coalesce_terminates, Deny.deny_absurd_size, Deny.deny_destroy, Deny.deny_first_refusal, Deny.deny_leak, Deny.deny_live, Deny.deny_offers, Deny.deny_release, Deny.deny_safe_partial, Deny.deny_sizes, Deny.deny_sizes_clean, Device.dev_name_found_partial, Device.dev_name_unknown_partial, Device.device_bounded_partial, Device.device_disjoint_partial, Device.device_no_failure_partial, Device.device_reset, Device.host_id_partial, Devops.contract_host, Devops.copyOn_cases, Devops.copy_partial, Devops.copy_throws_iff, Devops.fillOn_cases, Devops.fill_partial, Devops.fill_throws_iff, Devops.numa_gpu, Devops.omp_failure, Devops.omp_shared, Devops.on_same, Devops.sycl_two_resources, DynPool.dynpool_actual_hwm_exact, DynPool.dynpool_aligned_hwm_partial, DynPool.dynpool_aligned_partial, DynPool.dynpool_best_fit, DynPool.dynpool_blocks_releasable, DynPool.dynpool_blocks_releasable_hwm, DynPool.dynpool_coalesce_consolidates, DynPool.dynpool_deallocate_consolidates, DynPool.dynpool_default_heuristic, DynPool.dynpool_explicit_coalesce_idle, DynPool.dynpool_failed_allocate, DynPool.dynpool_gaps_exact, DynPool.dynpool_gran_exact, DynPool.dynpool_gran_quiet, DynPool.dynpool_gran_whole, DynPool.dynpool_live_disjoint, DynPool.dynpool_no_undefined_behaviour, DynPool.dynpool_poison_exact, DynPool.dynpool_release_all, DynPool.dynpool_release_exact, DynPool.dynpool_returns_only_free, DynPool.dynpool_returns_poisoned, DynPool.dynpool_sizes_exact, Events.event_insert_throws_iff, Events.event_log_round_trip_partial, FileRes.file_allocate_succeeds, FileRes.file_allocate_throws, FileRes.file_deallocate, FileRes.file_descriptor_leak, FileRes.file_destroy, FileRes.file_mappings_partial, FileRes.file_remove_counterexample, FileRes.mkName_inj, FixedPool.fixedpool_actual_size_partial, FixedPool.fixedpool_current_size, FixedPool.fixedpool_deallocate, FixedPool.fixedpool_destroy, FixedPool.fixedpool_exhaustion, FixedPool.fixedpool_foreign, FixedPool.fixedpool_live_disjoint_partial, FixedPool.fixedpool_release_exact, FixedPool.fixedpool_safe, Forward.namingshim_unique_names, Full.full_bytes_partial, Full.full_disjoint_partial, Full.full_ends_partial, Full.full_finishes_partial, Full.full_groups_partial, Full.full_known_partial, Full.full_one_owner_partial, Full.full_progress_partial, Full.full_quiet_partial, Full.full_results_partial, Full.full_safe_partial, Full.full_stuck_partial, Full.full_work_bytes_partial, Gpu.gpu_fine_counterexample, Gpu.gpu_grain, Gpu.gpu_named, Heur.dynpool_heuristics_partial, Heur.quickpool_heuristics_partial, Heur.quickpool_percent_early_counterexample, Heur.quickpool_percent_late_counterexample, Judy.allocmap_clear, Judy.allocmap_find_block_partial, Judy.allocmap_find_counterexample, Judy.allocmap_find_large_partial, Judy.allocmap_find_partial, Judy.allocmap_find_sound, Judy.allocmap_iterate, Judy.allocmap_stack, Judy.memorymap_before_sound, Judy.memorymap_find_absent_counterexample, Judy.memorymap_insert_flag_counterexample, Judy.memorymap_iterate_partial, Judy.memorymap_lookup_partial, Log.early_stdout, Log.failed_forever, Log.failed_write_counterexample, Log.file_number, Log.forged_counterexample, Log.init_again, Log.init_possible, Log.later_process, Log.level_counterexample, Log.level_defined, Log.level_spec, Log.level_unset, Log.level_wild, Log.log_file, Log.log_lines, Log.missing_directory, Log.new_file, Log.other_process, Log.pick_some, Log.race_counterexample, Log.stdout_silent, Log.threads_counterexample, Log.unreadable_counterexample, Log.unset_silent, MallocPool.mallocpool_access, MallocPool.mallocpool_deallocate, MallocPool.mallocpool_inside, MallocPool.mallocpool_live_disjoint_partial, MallocPool.mallocpool_preserves_contents, MallocPool.mallocpool_reuses_first, MallocPool.mallocpool_safe, MallocPool.mallocpool_small_objects_counterexample, Mgr.allocate_registers, Mgr.copy_overlap_counterexample, Mgr.copy_overrun_counterexample, Mgr.copy_partial, Mgr.copy_unknown, Mgr.deallocate_forgets, Mgr.deallocate_succeeds, Mgr.external_address_counterexample, Mgr.external_copy_partial, Mgr.external_deallocate_undefined, Mgr.external_deregister, Mgr.external_deregister_unknown, Mgr.external_inside_counterexample, Mgr.external_interior_partial, Mgr.external_known_partial, Mgr.external_leaks, Mgr.external_memset_partial, Mgr.external_move_undefined, Mgr.external_reallocate_undefined, Mgr.external_register, Mgr.external_statistics_partial, Mgr.external_wrong_deallocate, Mgr.introspection_interior_partial, Mgr.introspection_partial, Mgr.leaks_exact, Mgr.memset_partial, Mgr.memset_safe, Mgr.move_interior_counterexample, Mgr.move_partial, Mgr.move_rejects_partial, Mgr.move_same, Mgr.move_succeeds, Mgr.move_untracked_counterexample, Mgr.reallocate_any_rejects, Mgr.reallocate_failure_counterexample, Mgr.reallocate_partial, Mgr.reallocate_rejects, Mgr.reallocate_succeeds, Mgr.reallocate_zero, Mgr.statistics_drift, Mgr.statistics_failure_counterexample, Mgr.statistics_partial, Mgr.statistics_reallocate_counterexample, Mgr.watermark_partial, Mgr.wrong_deallocate, Mgr.zero_bytes, MixedPool.mixedpool_create_ub_counterexample, MixedPool.mixedpool_fresh, MixedPool.mixedpool_live_disjoint, MixedPool.mixedpool_no_leak, MixedPool.mixedpool_routing, MixedPool.mixedpool_safe, Monotonic.monotonic_disjoint_partial, Monotonic.monotonic_fits_partial, Monotonic.monotonic_sizes, Mpi.comm_progress, Mpi.io_progress, Multi.multi_blocks, Multi.multi_replay, Multi.multi_replay_counterexample, Multi.multi_replay_partial, Multi.multi_sequential_partial, Names.advertised_device_partial, Names.advertised_grain, Names.advertised_id, Names.advertised_kind, Names.advertised_lookup_partial, Names.alias_adds, Names.alias_free, Names.alias_lasts_partial, Names.alias_round_trip, Names.alias_taken, Names.alias_taken_counterexample, Names.alias_taken_unchanged, Names.dangling_name_counterexample, Names.device0_counterexample, Names.device_name_counterexample, Names.device_suffix_counterexample, Names.device_suffix_partial, Names.device_suffix_too_large, Names.file_name_iff, Names.fine_counterexample, Names.ids_unique, Names.invalid_id_counterexample, Names.invalid_id_partial, Names.lookup_id, Names.lookup_name_counterexample, Names.lookup_name_partial, Names.lookup_name_simple, Names.lookup_safe_partial, Names.make_fresh, Names.name_of_type, Names.name_reuse_partial, Names.offered_devices, Names.shared_name_counterexample, Names.shared_name_iff, Names.takeover_counterexample, Names.type_of_name, Names.types_injective, Names.unalias_other, Names.unalias_own_name, Names.unalias_removes, Names.unalias_resource_counterexample, Names.unknown_reported, Names.unknown_type_reported, Nest.fixed_size, Nest.mono_hwm, Nest.nested_safe_partial, Nest.nested_step_safe_partial, Nest.pool_actual_partial, Nest.release_all_partial, Nest.release_empty_partial, Nest.resource_total_partial, Nest.stats_clean_partial, Nest.stats_drift_forever, Nest.stats_hwm, Nest.stats_leaf_partial, Nest.stats_partial, Nest.teardown_partial, NullRes.freed_cell, NullRes.null_bookkeeping_partial, NullRes.null_failure_unnoticed, NullRes.null_unmap_counterexample, Numa.allocate_only, Numa.back_does_nothing, Numa.device_move_throws, Numa.move_only, Numa.move_possible, Numa.moved_owner, Numa.nodes_partition, Numa.nodes_throw, Numa.paged_aligned, Numa.placed_partial, Numa.policy_listed_partial, Numa.used_apart, Ops.accessible_root, Ops.accessible_same_root, Ops.accessible_stable, Ops.all_pairs_counterexample, Ops.contains_exact, Ops.contains_subset, Ops.device_total, Ops.dispatch_right, Ops.fragmentation_diverges, Ops.host_dispatch, Ops.host_operation_counterexample, Ops.host_operation_partial, Ops.host_total, Ops.overlaps_both, Ops.overlaps_partial, Ops.own_platform_partial, Ops.range_unknown, Process.device_counterexample, Process.device_reported, Process.hwm_indeterminate, Process.hwm_missing, Process.hwm_name, Process.hwm_plus, Process.hwm_reported, Process.usage_counterexample, Process.usage_reported, QuickPool.quickpool_actual_hwm_exact, QuickPool.quickpool_aligned_hwm_counterexample, QuickPool.quickpool_aligned_hwm_partial, QuickPool.quickpool_aligned_partial, QuickPool.quickpool_asks_only_when_needed, QuickPool.quickpool_best_fit, QuickPool.quickpool_blocks_diverges_counterexample, QuickPool.quickpool_blocks_releasable, QuickPool.quickpool_blocks_releasable_hwm, QuickPool.quickpool_coalesce_aborts, QuickPool.quickpool_coalesce_consolidates, QuickPool.quickpool_coalesce_diverges, QuickPool.quickpool_coalesce_grows_counterexample, QuickPool.quickpool_coalesce_idle, QuickPool.quickpool_coalesce_shrinks_counterexample, QuickPool.quickpool_consolidated_serves, QuickPool.quickpool_default_heuristic, QuickPool.quickpool_explicit_coalesce_idle, QuickPool.quickpool_failed_allocate, QuickPool.quickpool_free_block_usable, QuickPool.quickpool_gaps_exact, QuickPool.quickpool_gran_counterexample, QuickPool.quickpool_gran_exact, QuickPool.quickpool_gran_quiet, QuickPool.quickpool_gran_whole, QuickPool.quickpool_live_disjoint, QuickPool.quickpool_no_undefined_behaviour, QuickPool.quickpool_overflow_counterexample, QuickPool.quickpool_percent_diverges_counterexample, QuickPool.quickpool_poison_counterexample, QuickPool.quickpool_poison_exact, QuickPool.quickpool_release_all, QuickPool.quickpool_release_exact, QuickPool.quickpool_returns_only_free, QuickPool.quickpool_returns_poisoned, QuickPool.quickpool_sizes_exact, QuickPool.quickpool_terminates_partial, Rebuild.rebuild_iff_partial, Rebuild.replay_registry_partial, Rebuild.replay_registry_text_partial, Refuse.account_partial, Refuse.deallocate_loses_counterexample, Refuse.deallocate_refused, Refuse.lost_forever_counterexample, Refuse.move_orphans_counterexample, Refuse.move_refused, Refuse.reallocate_orphans_counterexample, Refuse.reallocate_refused, Refuse.safe, Replay.Stats.dump_exact_partial, Replay.Stats.log_dump_partial, Replay.Stats.stats_log, Replay.Stats.stats_watermark_partial, Replay.bucket_exact, Replay.bucket_in_range, Replay.histogram_exact_partial, Replay.keys_distinct, Replay.replay_after_failed_reallocate_counterexample, Replay.replay_base_name_counterexample, Replay.replay_faithful_partial, Replay.replay_memset_counterexample, Replay.replay_race_counterexample, Shm.shm_accounting_partial, Shm.shm_contents_partial, Shm.shm_find_partial, Shm.shm_layout_partial, Shm.shm_refs_partial, Shm.shm_room_partial, Shm.shm_safe_partial, Shm.shm_same_name_partial, SizeArith.pool_round_counterexample, SizeArith.shmBytes_eq_mask, SizeLimiter.sizelimiter_deallocate, SizeLimiter.sizelimiter_refuses_partial, SlotPool.slotpool_allocate, SlotPool.slotpool_deallocate, SlotPool.slotpool_destroy, SlotPool.slotpool_live_disjoint, Stores.quest_line_iff, Stores.quest_line_refused, Stores.sqlite_exit_counterexample, Stores.sqlite_insert_partial, Stores.sqlite_overflow, Stores.sqlite_round_trip_partial, Stores.sqlite_stored_iff, Tables.alias_counterexample, Tables.default_counterexample, Tables.first_use_counterexample, Tables.leaks_counterexample, Tables.lookup_counterexample, Tables.lookups, Tables.make_lookup_counterexample, Tables.make_make, Tables.never_blocked, Tables.own_memory, Tables.race_iff, Tables.safe, Tables.stale_counterexample, Tables.two_leaks_counterexample, Thr.thr_bytes_partial, Thr.thr_disjoint_partial, Thr.thr_host_realloc_counterexample, Thr.thr_known_partial, Thr.thr_one_owner_partial, Thr.thr_quiet_partial, Thr.thr_results_partial, Thr.thr_safe_partial, Thr.thr_stale_read_counterexample, Thr.thr_wrong_free_counterexample, Trace.memset_counterexample, Trace.named_counterexample, Trace.replay_log_partial, Trace.table_fits, Trace.unknown_refused, Usm.omp_device, Usm.omp_host_counterexample, Usm.omp_named_partial, Usm.usm_device, Usm.usm_exact, Usm.usm_named, Usm.usm_num_counterexample, Usm.usm_offered, Usm.usm_offered_plain, Usm.usm_outcome, Usm.usm_plain, Usm.usm_queue, Usm.usm_two_platforms_counterexample, Usm.usm_works_iff, Whole.whole_allocate_partial, Whole.whole_deallocate_partial, Whole.whole_introspection_partial, Whole.whole_ledger_partial, Whole.whole_memory_partial, Whole.whole_move_partial, Whole.whole_reallocate_partial, Whole.whole_safe_partial, find_first_set_windows
