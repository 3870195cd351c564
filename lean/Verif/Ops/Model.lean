import Verif.Names.Types
import Verif.Judy.Props
/-!
Dispatch of memory operations, platforms and accessibility of allocators, range
queries on pointers, and the fragmentation statistic.

Sources: `src/umpire/op/MemoryOperationRegistry.cpp` lines 58–236,
`src/umpire/Umpire.cpp` lines 62–111, the `getPlatform`, `getParent` and
`isAccessibleFrom` members of all strategies and resources,
`src/umpire/util/allocation_statistics.cpp` lines 16–31.

Not modelled: the operations themselves (see `Verif/Manager` for what the host
operations do to memory), hashing inside `std::unordered_map`.
-/
set_option autoImplicit false

namespace Umpire.Ops

open Umpire.Names (Name)

/-- `camp::resources::Platform`, re-exported as `umpire::Platform`
(util/Platform.hpp:16-36). -/
inductive Plat
  | undefined | host | cuda | omp | hip | sycl
  deriving DecidableEq, Repr

/-! ### The registry -/

/-- `m_operators`, an `unordered_map` from names to `unordered_map`s from pairs
of platforms to operations (MemoryOperationRegistry.hpp:115-121). -/
abbrev Registry (α : Type) := List (Name × List ((Plat × Plat) × α))

section Registry
variable {α : Type}

/-- `unordered_map::find`. -/
def assoc {κ β : Type} [DecidableEq κ] (m : List (κ × β)) (k : κ) : Option β :=
  (m.find? fun e => decide (e.1 = k)).map (·.2)

/-- `unordered_map::insert`: does nothing when the key is there already. -/
def insertNew {κ β : Type} [DecidableEq κ] (m : List (κ × β)) (k : κ) (v : β) : List (κ × β) :=
  if (assoc m k).isSome then m else (k, v) :: m

/-- `operations->second = v` for an existing key. -/
def setAt {κ β : Type} [DecidableEq κ] (m : List (κ × β)) (k : κ) (v : β) : List (κ × β) :=
  m.map fun e => if e.1 = k then (k, v) else e

/-- `registerOperation` (MemoryOperationRegistry.cpp:194-208). -/
def register (m : Registry α) (name : Name) (pl : Plat × Plat) (op : α) : Registry α :=
  let m1 := insertNew m name []
  match assoc m1 name with
  | some inner => setAt m1 name (insertNew inner pl op)
  | none => m1

/-- `find(name, platforms)` (MemoryOperationRegistry.cpp:219-236); `none` is the
thrown `runtime_error`. -/
def find (m : Registry α) (name : Name) (pl : Plat × Plat) : Option α :=
  match assoc m name with
  | none => none
  | some inner => assoc inner pl

/-- A registration. -/
structure Entry (α : Type) where
  name : Name
  pl : Plat × Plat
  op : α

/-- Registrations one after the other. -/
def registerAll (m : Registry α) : List (Entry α) → Registry α
  | [] => m
  | e :: es => registerAll (register m e.name e.pl e.op) es

end Registry

/-- `cudaMemcpyKind`, `hipMemcpyKind`. -/
inductive Kind
  | h2d | d2h | d2d
  deriving DecidableEq, Repr

/-- The classes derived from `MemoryOperation` that the constructor instantiates
(`user` stands for any operation registered by the program). -/
inductive MemOp
  | hostCopy | hostMemset | hostRealloc | genericRealloc | numaMove
  | cudaCopy (k : Kind) | cudaAdvise (advice : Name) | cudaMemset | cudaPrefetch
  | hipCopy (k : Kind) | hipAdvise (advice : Name) | hipMemset
  | ompCopy | ompMemset
  | syclCopyTo | syclCopyFrom | syclCopy | syclMemset | syclPrefetch
  | user (k : Nat)
  deriving DecidableEq, Repr

/-- Compile-time switches. -/
structure Flags where
  numa : Bool
  cuda : Bool
  hip : Bool
  hip5 : Bool
  omp : Bool
  sycl : Bool

def COPY : Name := "COPY".toList
def MEMSET : Name := "MEMSET".toList
def REALLOCATE : Name := "REALLOCATE".toList
def MOVE : Name := "MOVE".toList
def PREFETCH : Name := "PREFETCH".toList

/-- The advice operations of CUDA (MemoryOperationRegistry.cpp:80-90). -/
def cudaAdvices : List (Entry MemOp) :=
  [("SET_READ_MOSTLY", Plat.cuda), ("UNSET_READ_MOSTLY", .cuda), ("SET_PREFERRED_LOCATION", .cuda),
   ("UNSET_PREFERRED_LOCATION", .cuda), ("SET_ACCESSED_BY", .cuda), ("UNSET_ACCESSED_BY", .cuda),
   ("SET_PREFERRED_LOCATION", .host), ("UNSET_PREFERRED_LOCATION", .host), ("SET_ACCESSED_BY", .host),
   ("UNSET_ACCESSED_BY", .host)].map fun e => ⟨e.1.toList, (e.2, e.2), .cudaAdvise e.1.toList⟩

/-- The advice operations of HIP (MemoryOperationRegistry.cpp:121-133). -/
def hipAdvices (hip5 : Bool) : List (Entry MemOp) :=
  (["SET_READ_MOSTLY", "UNSET_READ_MOSTLY", "SET_PREFERRED_LOCATION", "UNSET_PREFERRED_LOCATION",
    "SET_ACCESSED_BY", "UNSET_ACCESSED_BY"] ++ (if hip5 then ["SET_COARSE_GRAIN", "UNSET_COARSE_GRAIN"] else [])).map
    fun n => ⟨n.toList, (.hip, .hip), .hipAdvise n.toList⟩

/-- What the constructor registers, in this order
(MemoryOperationRegistry.cpp:58-192). -/
def builtIn (f : Flags) : List (Entry MemOp) :=
  [⟨COPY, (.host, .host), .hostCopy⟩, ⟨MEMSET, (.host, .host), .hostMemset⟩,
   ⟨REALLOCATE, (.host, .host), .hostRealloc⟩, ⟨REALLOCATE, (.undefined, .undefined), .genericRealloc⟩] ++
  (if f.numa then [⟨MOVE, (.host, .host), .numaMove⟩, ⟨MOVE, (.host, .cuda), .numaMove⟩,
    ⟨MOVE, (.cuda, .host), .numaMove⟩] else []) ++
  (if f.cuda then [⟨COPY, (.host, .cuda), .cudaCopy .h2d⟩, ⟨COPY, (.cuda, .host), .cudaCopy .d2h⟩,
    ⟨COPY, (.cuda, .cuda), .cudaCopy .d2d⟩] ++ cudaAdvices ++ [⟨MEMSET, (.cuda, .cuda), .cudaMemset⟩,
    ⟨REALLOCATE, (.cuda, .cuda), .genericRealloc⟩, ⟨PREFETCH, (.cuda, .cuda), .cudaPrefetch⟩] else []) ++
  (if f.hip then [⟨COPY, (.host, .hip), .hipCopy .h2d⟩, ⟨COPY, (.hip, .host), .hipCopy .d2h⟩,
    ⟨COPY, (.hip, .hip), .hipCopy .d2d⟩] ++ hipAdvices f.hip5 ++ [⟨MEMSET, (.hip, .hip), .hipMemset⟩,
    ⟨REALLOCATE, (.hip, .hip), .genericRealloc⟩] else []) ++
  (if f.omp then [⟨COPY, (.host, .omp), .ompCopy⟩, ⟨COPY, (.omp, .host), .ompCopy⟩, ⟨COPY, (.omp, .omp), .ompCopy⟩,
    ⟨MEMSET, (.omp, .omp), .ompMemset⟩, ⟨REALLOCATE, (.omp, .omp), .genericRealloc⟩] else []) ++
  (if f.sycl then [⟨COPY, (.host, .sycl), .syclCopyTo⟩, ⟨COPY, (.sycl, .host), .syclCopyFrom⟩,
    ⟨COPY, (.sycl, .sycl), .syclCopy⟩, ⟨MEMSET, (.sycl, .sycl), .syclMemset⟩,
    ⟨REALLOCATE, (.sycl, .sycl), .genericRealloc⟩, ⟨PREFETCH, (.sycl, .sycl), .syclPrefetch⟩] else [])

/-- The registry of a running program: built-in operations, then those the
program registers. -/
def registry (f : Flags) (user : List (Entry MemOp)) : Registry MemOp :=
  registerAll [] (builtIn f ++ user)

/-! ### Allocators, their platforms and their accessibility -/

/-- The memory resources. -/
inductive Res
  | hostMalloc | hostPosix | cudaDevice | cudaUM | cudaPinned | cudaConst
  | hipDevice | hipUM | hipPinned | hipConst | omp | syclDevice | syclUM | syclPinned
  | file | shared | null | noOp
  deriving DecidableEq, Repr

/-- `isAccessibleFrom` of the resources (alloc/MallocAllocator.hpp:83-91,
alloc/PosixMemalignAllocator.hpp:67-73, CudaDeviceMemoryResource.cpp:54-60,
alloc/CudaMallocManagedAllocator.hpp:67-73, alloc/CudaPinnedAllocator.hpp:48-54,
CudaConstantMemoryResource.cu:75-81, HipDeviceMemoryResource.cpp:54-60,
HipUnifiedMemoryResource.cpp:40-46, HipPinnedMemoryResource.cpp:40-46,
HipConstantMemoryResource.cpp:76-82, alloc/OpenMPTargetAllocator.hpp:58-64,
alloc/SyclMalloc*Allocator.hpp, alloc/SyclPinnedAllocator.hpp:59-65,
FileMemoryResource.cpp:162-170, HostSharedMemoryResource.cpp:67-75,
NullMemoryResource.cpp:72-77, NoOpMemoryResource.cpp:52-57).  `pageable` is the
CUDA device attribute queried by `isHostPageable` and `isPageable`. -/
def Res.accessibleFrom (pageable : Bool) : Res → Plat → Bool
  | .hostMalloc, .host | .hostMalloc, .omp => true
  | .hostMalloc, .cuda => pageable
  | .hostPosix, .host => true
  | .cudaDevice, .cuda => true
  | .cudaUM, .cuda | .cudaUM, .host => true
  | .cudaPinned, .cuda | .cudaPinned, .host => true
  | .cudaConst, .cuda => true
  | .hipDevice, .hip | .hipDevice, .host => true
  | .hipUM, .hip | .hipUM, .host => true
  | .hipPinned, .hip | .hipPinned, .host => true
  | .hipConst, .hip => true
  | .omp, .omp => true
  | .syclDevice, .sycl => true
  | .syclUM, .sycl | .syclUM, .host => true
  | .syclPinned, .sycl | .syclPinned, .host => true
  | .file, .host | .shared, .host => true
  | .file, .cuda | .shared, .cuda => pageable
  | _, _ => false

/-- The platform a factory gives its resource (resource/*Factory.cpp, `create`;
constant memory: CudaConstantMemoryResource.cu:24, HipConstantMemoryResource.cpp:29). -/
def Res.platform : Res → Plat
  | .hostMalloc | .hostPosix | .shared | .noOp => .host
  | .cudaDevice | .cudaUM | .cudaPinned | .cudaConst => .cuda
  | .hipDevice | .hipUM | .hipPinned | .hipConst => .hip
  | .omp => .omp
  | .syclDevice | .syclUM | .syclPinned => .sycl
  | .file | .null => .undefined

/-- A strategy object as far as platform and parent are concerned: a memory
resource (its parent is `nullptr`, MemoryResource.cpp:13), a strategy on top of
another one, or a `NumaPolicy`, which remembers its own platform. -/
inductive Strat
  | resource (r : Res)
  | over (parent : Nat)
  | numa (parent : Nat) (platform : Plat)
  deriving DecidableEq, Repr

/-- `getParent` (AllocationStrategy.cpp:104-107). -/
def Strat.parent : Strat → Option Nat
  | .resource _ => none
  | .over p => some p
  | .numa p _ => some p

/-- The loop of `is_accessible` (Umpire.cpp:103-106); `none`: it has not ended. -/
def climb (h : List Strat) : Nat → Nat → Option Nat
  | 0, _ => none
  | fuel + 1, i =>
    match h[i]? with
    | none => none
    | some s =>
      match s.parent with
      | none => some i
      | some p => climb h fuel p

/-- `is_accessible(p, a)` (Umpire.cpp:100-111).  The outer `none` means that the
loop does not end within the fuel, the inner one is the exception thrown when the
root is no memory resource. -/
def isAccessible (pageable : Bool) (h : List Strat) (fuel : Nat) (p : Plat) (a : Nat) : Option (Option Bool) :=
  match climb h fuel a with
  | none => none
  | some root =>
    match h[root]? with
    | some (.resource r) => some (some (r.accessibleFrom pageable p))
    | _ => some none

/-- `getPlatform`: strategies ask their parent (for example QuickPool.cpp:288-291),
`NumaPolicy` does not (NumaPolicy.cpp:63-66). -/
def platformOf (h : List Strat) : Nat → Nat → Option Plat
  | 0, _ => none
  | fuel + 1, i =>
    match h[i]? with
    | none => none
    | some (.resource r) => some r.platform
    | some (.over p) => platformOf h fuel p
    | some (.numa _ pl) => some pl

/-- The strategies in order of creation.  A strategy is constructed with an
`Allocator` that exists (all constructors in `src/umpire/strategy` pass
`allocator.getAllocationStrategy()` as the parent); a `NumaPolicy` only with one
whose platform is the host, and it ends up on the host or on a device
(NumaPolicy.cpp:20-45). -/
inductive Built : List Strat → Prop
  | nil : Built []
  | resource {h : List Strat} (r : Res) : Built h → Built (h ++ [.resource r])
  | over {h : List Strat} (p : Nat) : Built h → p < h.length → Built (h ++ [.over p])
  | numa {h : List Strat} (p : Nat) (pl : Plat) : Built h → p < h.length → platformOf h h.length p = some .host →
      pl = .host ∨ pl = .cuda ∨ pl = .hip → Built (h ++ [.numa p pl])

/-- `find(name, src_allocator, dst_allocator)` (MemoryOperationRegistry.cpp:210-217);
the outer `none` means the fuel did not suffice. -/
def findFor {α : Type} (m : Registry α) (h : List Strat) (fuel : Nat) (name : Name) (src dst : Nat) : Option (Option α) :=
  match platformOf h fuel src, platformOf h fuel dst with
  | some s, some d => some (find m name (s, d))
  | _, _ => none

/-! ### Ranges -/

open Umpire.Judy (AMap Rec)

/-- The comparison in `pointer_overlaps` (Umpire.cpp:70-74). -/
def overlapsRec (l r : Rec) : Bool :=
  decide (r.ptr ≥ l.ptr) && decide (l.ptr + l.size > r.ptr) && decide (r.ptr + r.size > l.ptr + l.size)

/-- The comparison in `pointer_contains` (Umpire.cpp:89-93). -/
def containsRec (l r : Rec) : Bool :=
  decide (r.ptr ≥ l.ptr) && decide (l.ptr + l.size > r.ptr) && decide (r.ptr + r.size ≤ l.ptr + l.size)

/-- Two lookups and a comparison; `none` is the exception for an unknown pointer. -/
def withRecs (cmp : Rec → Rec → Bool) (a : AMap) (lp rp : Nat) : Option Bool :=
  match a.findRecord lp with
  | (a1, some l) =>
    match a1.findRecord rp with
    | (_, some r) => some (cmp l r)
    | (_, none) => none
  | (_, none) => none

/-- `pointer_overlaps` (Umpire.cpp:62-79). -/
def pointerOverlaps (a : AMap) (lp rp : Nat) : Option Bool := withRecs overlapsRec a lp rp

/-- `pointer_contains` (Umpire.cpp:81-98). -/
def pointerContains (a : AMap) (lp rp : Nat) : Option Bool := withRecs containsRec a lp rp

/-! ### Fragmentation -/

/-- How far `relative_fragmentation` has come: it has returned with the largest
and the total free space it found, it is still looping, or it has moved an
iterator past the end. -/
inductive Frag
  | done (largest total : Nat)
  | running
  | ub
  deriving DecidableEq, Repr

/-- The loop (allocation_statistics.cpp:23-27), as it is written: `r1` and `r2` are
not advanced.  Arithmetic is on 64-bit words. -/
def fragLoop (recs : List Rec) : Nat → Nat → Nat → Nat → Nat → Frag
  | 0, _, _, _, _ => .running
  | fuel + 1, r1, r2, largest, total =>
    if r2 = recs.length then .done largest total
    else
      match recs[r1]?, recs[r2]? with
      | some x, some y =>
        let free := (2 ^ 64 + y.ptr - (x.ptr + x.size) % 2 ^ 64) % 2 ^ 64
        fragLoop recs fuel r1 r2 (max largest free) ((total + free) % 2 ^ 64)
      | _, _ => .ub

/-- `relative_fragmentation` (allocation_statistics.cpp:16-31) up to the final
conversion to `float`: the result is `1 − largest / (total + ε)`. -/
def relativeFragmentation (recs : List Rec) (fuel : Nat) : Frag :=
  if recs = [] then .ub else fragLoop recs fuel 0 1 0 0

end Umpire.Ops
