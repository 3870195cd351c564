import Verif.Names.Registry
/-!
# Memory resources of CUDA and HIP over a model of the runtime

Sources: `src/umpire/resource/CudaDeviceMemoryResource.cpp`, `HipDeviceMemoryResource.cpp` (lines 24–53 of both),
`resource/DefaultMemoryResource.inl` lines 31–49, `HipUnifiedMemoryResource.cpp`, `HipPinnedMemoryResource.cpp`
lines 20–38, and `src/umpire/alloc/{CudaMalloc,CudaMallocManaged,CudaPinned,HipMalloc,HipMallocManaged,HipPinned}Allocator.hpp`.

The runtime is modelled by the current device of the calling thread and the blocks it has handed out; what each of its
calls answers is part of the input (`Ans`).  Not modelled: log messages; SYCL and OpenMP are in `Verif.Usm.Model`.
-/
set_option autoImplicit false
namespace Umpire.Gpu
open Umpire.Names (Grain)

/-- Which memory a block is in. -/
inductive Place
  | device (d : Int) | managed | pinned
  deriving DecidableEq, Repr

/-- A block of the runtime. -/
structure GBlk where
  ptr : Nat
  size : Nat
  place : Place
  grain : Grain
  deriving DecidableEq, Repr

/-- The runtime: the current device and what it has handed out. -/
structure Rt where
  cur : Int
  blks : List GBlk
  deriving DecidableEq, Repr

/-- What a request for memory answers: memory, `*ErrorMemoryAllocation`, or another error. -/
inductive MemAns
  | ok (p : Nat) | oom | error
  deriving DecidableEq, Repr

/-- The answers of the runtime during one call of a resource: whether `*GetDevice` stores the current device, whether
the first and the second `*SetDevice` succeed, what the request for memory or its release answers, and whether
`hipMemAdvise` succeeds. -/
structure Ans where
  get : Bool := true
  set : Bool := true
  back : Bool := true
  mem : MemAns := .oom
  free : Bool := true
  adv : Bool := true
  deriving DecidableEq, Repr

/-- What a call ends with: a pointer, a return without value, `out_of_memory_error`, `runtime_error`, or undefined
behaviour. -/
inductive Out
  | ptr (p : Nat) | done | oom | error | ub
  deriving DecidableEq, Repr

def Out.threw : Out → Bool
  | .oom => true
  | .error => true
  | _ => false

inductive Api
  | cuda | hip
  deriving DecidableEq, Repr

inductive Kind
  | device | um | pinned
  deriving DecidableEq, Repr

/-- A memory resource: `id` and `grain` are `m_traits.id` and `m_traits.granularity`. -/
structure Res where
  api : Api
  kind : Kind
  id : Int
  grain : Grain
  deriving DecidableEq, Repr

/-- `cudaMalloc`, `cudaMallocManaged`, `cudaMallocHost`, `hipMalloc`, `hipExtMallocWithFlags`, `hipMallocManaged`,
`hipHostMalloc`, and the treatment of their errors (for example CudaMallocAllocator.hpp:30-46). -/
def request (pl : Place) (n : Nat) (g : Grain) (rt : Rt) (a : Ans) : Out × Rt :=
  match a.mem with
  | .ok p => (.ptr p, { rt with blks := ⟨p, n, pl, g⟩ :: rt.blks })
  | .oom => (.oom, rt)
  | .error => (.error, rt)

/-- The block at `p` gets granularity `g`. -/
def regrain (p : Nat) (g : Grain) (bs : List GBlk) : List GBlk := bs.map fun b => if b.ptr = p then { b with grain := g } else b

/-- `m_allocator.allocate(bytes)`; `coh` is `UMPIRE_ENABLE_HIP_COHERENCE_GRANULARITY`
(CudaMallocAllocator.hpp:30-46, CudaMallocManagedAllocator.hpp:31-46, CudaPinnedAllocator.hpp:20-36,
HipMallocAllocator.hpp:32-75, HipMallocManagedAllocator.hpp:33-67, HipPinnedAllocator.hpp:22-63). -/
def rawAlloc (coh : Bool) (r : Res) (n : Nat) (rt : Rt) (a : Ans) : Out × Rt :=
  match r.api, r.kind with
  | .cuda, .device => request (.device rt.cur) n .unknown rt a
  | .cuda, .um => request .managed n .unknown rt a
  | .cuda, .pinned => request .pinned n .unknown rt a
  | .hip, .device => if r.grain = .unknown ∨ coh = true then request (.device rt.cur) n r.grain rt a else (.error, rt)
  | .hip, .um =>
    match request .managed n .unknown rt a with
    | (.ptr p, rt1) =>
      if coh = true ∧ r.grain = .coarse then
        if a.get then if a.adv then (.ptr p, { rt1 with blks := regrain p .coarse rt1.blks }) else (.error, rt1)
        else (.ub, rt1)
      else (.ptr p, rt1)
    | x => x
  | .hip, .pinned => if r.grain = .unknown ∨ coh = true then request .pinned n r.grain rt a else (.error, rt)

/-- `m_allocator.deallocate(ptr)` (CudaMallocAllocator.hpp:55-63, CudaPinnedAllocator.hpp:38-46 and so on). -/
def rawFree (p : Nat) (rt : Rt) (a : Ans) : Out × Rt :=
  if a.free then (.done, { rt with blks := rt.blks.filter fun b => decide (b.ptr ≠ p) }) else (.error, rt)

/-- `if (old_device != m_traits.id) *SetDevice(to)`; a failure is not looked at. -/
def switch (old id to : Int) (ok : Bool) (rt : Rt) : Rt := if old ≠ id ∧ ok = true then { rt with cur := to } else rt

/-- The body of `CudaDeviceMemoryResource::allocate` and `deallocate` (CudaDeviceMemoryResource.cpp:24-53,
HipDeviceMemoryResource.cpp:24-53).  `old_device` is not initialised: if `*GetDevice` fails, what is compared is
indeterminate.  An exception from the allocator skips the second `*SetDevice`. -/
def onDevice (id : Int) (body : Rt → Out × Rt) (rt : Rt) (a : Ans) : Out × Rt :=
  if a.get then
    match body (switch rt.cur id id a.set rt) with
    | (.ptr p, rt2) => (.ptr p, switch rt.cur id rt.cur a.back rt2)
    | (.done, rt2) => (.done, switch rt.cur id rt.cur a.back rt2)
    | x => x
  else (.ub, rt)

/-- `allocate` of the resources. -/
def allocate (coh : Bool) (r : Res) (n : Nat) (rt : Rt) (a : Ans) : Out × Rt :=
  match r.kind with
  | .device => onDevice r.id (fun rt => rawAlloc coh r n rt a) rt a
  | _ => rawAlloc coh r n rt a

/-- `deallocate` of the resources. -/
def deallocate (r : Res) (p : Nat) (rt : Rt) (a : Ans) : Out × Rt :=
  match r.kind with
  | .device => onDevice r.id (fun rt => rawFree p rt a) rt a
  | _ => rawFree p rt a

/-- Calls: of resources, and the program changing its device. -/
inductive Op
  | alloc (r : Res) (n : Nat) (a : Ans)
  | free (r : Res) (p : Nat) (a : Ans)
  | use (d : Int)
  deriving DecidableEq, Repr

def Op.do (coh : Bool) (rt : Rt) : Op → Out × Rt
  | .alloc r n a => allocate coh r n rt a
  | .free r p a => deallocate r p rt a
  | .use d => (.done, { rt with cur := d })

open Umpire.Names in
/-- `ResourceManager::makeResource` for the resources modelled here (ResourceManager.cpp:139-175,
MemoryResourceRegistry.cpp:251-285): the platform and the kind are those of the first factory that accepts the name, the
identity is `resource_to_device_id(name)`, the granularity that of the name; `cur` is the device current at that time. -/
def made (b : Build) (cur : Int) (n : Name) : Option Res :=
  match b.select n, deviceId (b.reg cur).cuda cur n with
  | some (.device .cuda), some i => some ⟨.cuda, .device, i, grain n⟩
  | some (.um .cuda), some i => some ⟨.cuda, .um, i, grain n⟩
  | some (.pinned .cuda), some i => some ⟨.cuda, .pinned, i, grain n⟩
  | some (.device .hip), some i => some ⟨.hip, .device, i, grain n⟩
  | some (.um .hip), some i => some ⟨.hip, .um, i, grain n⟩
  | some (.pinned .hip), some i => some ⟨.hip, .pinned, i, grain n⟩
  | _, _ => none

end Umpire.Gpu
