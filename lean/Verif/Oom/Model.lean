/-!
# What an `out_of_memory_error` says

Sources: `src/umpire/Allocator.inl` lines 20–90, `src/umpire/util/error.hpp` lines 53–86, the `allocate` of every strategy
and resource.

A strategy is a tree of strategies over a resource.  Everything a run depends on besides the tree comes as a list of
answers: whether a pool has a block at hand, how much it asks for, what the limiter has counted, what the system says.
So every state of every pool is covered without the states being modelled again here.  A run also gives the events it
went through, in order: who was asked for memory (or did some other work that can fail) and how it ended.

Simplified: the text of the errors; `FixedPool::allocate` after a new pool was got always finds a place in it; the
records of `registerAllocation` (they need memory of their own).
-/
set_option autoImplicit false
namespace Umpire.Oom

/-- `umpire::out_of_memory_error` with `m_allocator` and `m_requested` (error.hpp:53-86), or any other exception. -/
inductive Exc
  | oom (id : Int) (size : Nat)
  | other
  deriving DecidableEq, Repr

/-- `UMPIRE_ERROR(out_of_memory_error, …)`: the members as initialised (error.hpp:80-81). -/
def fresh : Exc := .oom (-1) 0

/-- How a call ends. -/
inductive Out
  | ret
  | threw (e : Exc)
  deriving DecidableEq, Repr

/-- How one step ends: done; there is no memory for it; any other failure. -/
inductive Code
  | ok | lack | fail
  deriving DecidableEq, Repr

/-- The memory resources. -/
inductive Res
  /-- HOST (MallocAllocator.hpp:38-52) -/
  | malloc
  /-- HOST of a NUMA build (HostResourceFactory.cpp:43-47, PosixMemalignAllocator.hpp:33-52) -/
  | memalign
  /-- DEVICE, UM, PINNED with CUDA (CudaMallocAllocator.hpp:31-47, CudaMallocManagedAllocator.hpp:31-50,
  CudaPinnedAllocator.hpp:19-36) -/
  | cuda
  /-- DEVICE, UM, PINNED with HIP (HipMallocAllocator.hpp:35-78, HipMallocManagedAllocator.hpp:36-53,
  HipPinnedAllocator.hpp:26-68) -/
  | hip
  /-- DEVICE, UM, PINNED with SYCL (SyclMallocAllocator.hpp:31-42, SyclMallocManagedAllocator.hpp:31-42,
  SyclPinnedAllocator.hpp:31-42) -/
  | sycl
  /-- DEVICE with OpenMP (OpenMPTargetAllocator.hpp:33-43) -/
  | omp
  /-- FILE (FileMemoryResource.cpp:51-108) -/
  | file
  /-- DEVICE_CONST (CudaConstantMemoryResource.cu:25-60, HipConstantMemoryResource.cpp:25-48) -/
  | const
  /-- SHARED (HostSharedMemoryResource.cpp:31-44, HostSharedMemoryResourceImpl.hpp:181-239) -/
  | shared
  deriving DecidableEq, Repr

/-- Who ended a step. -/
inductive Src
  | res (r : Res)
  | limit | mono | slot
  /-- advice, prefetch, `move_to_node`, the copy of a reallocate -/
  | work
  /-- giving memory back before the second attempt of a pool -/
  | release
  /-- `::realloc` -/
  | realloc
  deriving DecidableEq, Repr

/-- One event of a run. -/
structure Ev where
  src : Src
  code : Code
  deriving DecidableEq, Repr

/-- One answer of the world: how the next step ends, whether the pool asked has a block, and a number. -/
structure Ans where
  code : Code
  have_ : Bool
  num : Nat
  deriving DecidableEq, Repr

/-- The next answer; when there is none left all goes well. -/
def next : List Ans → Ans × List Ans
  | [] => (⟨.ok, true, 0⟩, [])
  | a :: w => (a, w)

/-- A run: how it ends, its events, the answers left. -/
abbrev R := Out × List Ev × List Ans

/-- The strategies. -/
inductive Strat
  | res (r : Res)
  /-- NamedAllocationStrategy.cpp:20-23, ThreadSafeAllocator.cpp:23-26 -/
  | over (s : Strat)
  /-- AllocationAdvisor.cpp:45-51, AllocationPrefetcher.cpp:26-33, NumaPolicy.cpp:47-56 -/
  | acts (s : Strat)
  /-- AlignedAllocator.cpp:31-43 -/
  | aligned (alignment : Nat) (s : Strat)
  /-- NamingShim.cpp:27-31 -/
  | shim (s : Strat)
  /-- SizeLimiter.cpp:23-33 -/
  | limiter (limit : Nat) (s : Strat)
  /-- MonotonicAllocationStrategy.cpp:31-44 -/
  | mono (capacity : Nat)
  /-- SlotPool.cpp:48-72 -/
  | slot (s : Strat)
  /-- FixedPool.cpp:124-150; a pool of `bytes` bytes -/
  | fixed (bytes : Nat) (s : Strat)
  /-- QuickPool.cpp:43-133, DynamicPoolList over DynamicSizePool.hpp:77-111 -/
  | pool (s : Strat)
  /-- MixedPool.cpp:57-81 -/
  | mixed (bytes : Nat) (s : Strat)
  deriving DecidableEq, Repr

/-- What a resource throws that got no memory from the system. -/
def Res.raise : Res → Exc
  | .malloc => fresh        -- MallocAllocator.hpp:44-45
  | .memalign => fresh      -- PosixMemalignAllocator.hpp:41-44
  | .cuda => fresh          -- CudaMallocAllocator.hpp:37-39
  | .hip => fresh           -- HipMallocAllocator.hpp:67-69
  | .sycl => .other         -- SyclMallocAllocator.hpp:37-38
  | .omp => .other          -- OpenMPTargetAllocator.hpp:38-39
  | .file => .other         -- FileMemoryResource.cpp:76-80, 87-91
  | .const => .other        -- CudaConstantMemoryResource.cu:52-54
  | .shared => fresh        -- HostSharedMemoryResourceImpl.hpp:232-233

/-- `allocate` and `allocate_named` of a resource. -/
def askRes (r : Res) (named : Bool) (w : List Ans) : R :=
  if r = .shared ∧ named = false then
    (.threw .other, [⟨.res r, .fail⟩], w)            -- HostSharedMemoryResource.cpp:31-34
  else
    let (a, w) := next w
    match a.code with
    | .ok => (.ret, [⟨.res r, .ok⟩], w)
    | .lack => (.threw r.raise, [⟨.res r, .lack⟩], w)
    | .fail => (.threw .other, [⟨.res r, .fail⟩], w)

/-- After `r`, work that can fail with an exception of its own. -/
def andWork (src : Src) (r : R) : R :=
  match r with
  | (.threw e, evs, w) => (.threw e, evs, w)
  | (.ret, evs, w) =>
    let (a, w) := next w
    if a.code = .ok then (.ret, evs ++ [⟨src, .ok⟩], w) else (.threw .other, evs ++ [⟨src, .fail⟩], w)

/-- `QuickPool::allocate` (QuickPool.cpp:43-133) and `DynamicSizePool::allocateBlock` (DynamicSizePool.hpp:77-111): use a
block, or ask the parent; on any exception give back and ask once more, letting the second exception out. -/
def askPool (child : Nat → List Ans → R) (w : List Ans) : R :=
  let (a, w) := next w
  if a.have_ then (.ret, [], w)
  else
    match child a.num w with
    | (.ret, evs, w) => (.ret, evs, w)
    | (.threw _, evs, w) =>
      let (b, w) := next w
      if b.code = .ok then                                        -- QuickPool.cpp:74
        match child a.num w with
        | (out, evs', w) => (out, evs ++ [⟨.release, .ok⟩] ++ evs', w)
      else (.threw .other, evs ++ [⟨.release, .fail⟩], w)

/-- `FixedPool::allocate` (FixedPool.cpp:124-150): use a place, or get a new pool. -/
def askFixed (bytes : Nat) (child : Nat → List Ans → R) (w : List Ans) : R :=
  let (a, w) := next w
  if a.have_ then (.ret, [], w) else child bytes w

/-- `allocate_internal` and `allocate_named_internal` (AllocationStrategy.cpp:20-47) of a strategy.  Only the shared
memory resource has an `allocate_named` of its own. -/
def alloc : Strat → Bool → Nat → List Ans → R
  | .res r, named, _, w => askRes r named w
  | .over s, _, n, w => alloc s false n w
  | .acts s, _, n, w => andWork .work (alloc s false n w)
  | .aligned al s, _, n, w => alloc s false ((n + 8 + al - 1) % 2 ^ 64) w
  | .shim s, _, n, w => alloc s true n w
  | .limiter limit s, _, n, w =>
    let (a, w) := next w
    if (a.num + n) % 2 ^ 64 > limit then (.threw fresh, [⟨.limit, .lack⟩], w)
    else alloc s false n w
  | .mono capacity, _, n, w =>
    let (a, w) := next w
    if (a.num + n) % 2 ^ 64 > capacity then (.threw .other, [⟨.mono, .lack⟩], w)
    else (.ret, [⟨.mono, .ok⟩], w)
  | .slot s, _, n, w =>
    if n ≥ 2 ^ 63 then (.threw .other, [⟨.slot, .lack⟩], w)        -- SlotPool.cpp:53-55
    else
      let (a, w) := next w
      if a.have_ then (.ret, [], w) else alloc s false n w
  | .fixed bytes s, _, _, w => askFixed bytes (fun n w => alloc s false n w) w
  | .pool s, _, _, w => askPool (fun n w => alloc s false n w) w
  | .mixed bytes s, _, _, w =>
    let (a, w) := next w
    if a.have_ then askFixed bytes (fun n w => alloc s false n w) w      -- MixedPool.cpp:71-74
    else askPool (fun n w => alloc s false n w) w                         -- MixedPool.cpp:75-79

/-- An `Allocator`: `getId()` and its strategy (Allocator.cpp, Allocator.hpp). -/
structure Handle where
  id : Int
  strat : Strat
  deriving Repr

/-- `Allocator::do_allocate` (Allocator.inl:20-48). -/
def allocate (h : Handle) (n : Nat) (w : List Ans) : R :=
  if n = 0 then (.ret, [], w)                                     -- 28-29
  else
    match alloc h.strat false n w with
    | (.threw (.oom _ _), evs, w) => (.threw (.oom h.id n), evs, w)      -- 33-37
    | r => r

/-- `Allocator::do_named_allocate` (Allocator.inl:68-90): no handler. -/
def allocateNamed (h : Handle) (n : Nat) (w : List Ans) : R :=
  if n = 0 then (.ret, [], w) else alloc h.strat true n w

/-- `TypedAllocator<T>::allocate` (TypedAllocator.inl:25-29). -/
def typed (h : Handle) (sizeofT count : Nat) (w : List Ans) : R := allocate h (sizeofT * count % 2 ^ 64) w

/-- `GenericReallocateOperation::transform` (GenericReallocateOperation.cpp:19-32): allocate, then copy and give back. -/
def reallocate (h : Handle) (n : Nat) (w : List Ans) : R := andWork .work (allocate h n w)

/-- `HostReallocateOperation::transform` (HostReallocateOperation.cpp:18-45). -/
def reallocateHost (h : Handle) (old n : Nat) (w : List Ans) : R :=
  if old = 0 then reallocate h n w
  else
    let (a, w) := next w
    if a.code = .ok then (.ret, [⟨.realloc, .ok⟩], w) else (.threw .other, [⟨.realloc, .lack⟩], w)     -- 36-41

/-- `makeAllocator<MonotonicAllocationStrategy>` on `h`: the constructor asks the strategy of the parent
(MonotonicAllocationStrategy.cpp:16-24). -/
def makeMonotonic (h : Handle) (capacity : Nat) (w : List Ans) : R := alloc h.strat false capacity w

end Umpire.Oom
