import Verif.Names.Registry
/-!
# Memory resources of SYCL and of OpenMP over a model of the machine

Sources: `src/umpire/resource/MemoryResourceRegistry.cpp` lines 190–243, `resource/Sycl{Device,Unified,Pinned}*Factory.cpp`
lines 25–100, `resource/SyclDeviceMemoryResource.inl` lines 20–46, `alloc/Sycl{Malloc,MallocManaged,Pinned}Allocator.hpp`,
`resource/OpenMPTargetMemoryResourceFactory.cpp` lines 25–47, `alloc/OpenMPTargetAllocator.hpp`, and
`ResourceManager::getNumDevices` and `makeResource` (ResourceManager.cpp:942–964, 132–186).

A GPU, or one of the parts (tiles) SYCL divides it into, is a number.  What SYCL or OpenMP answers to a request for memory
is part of the input.  Not modelled: log messages, asynchronous errors, the sizes in the traits, and that the queue of a
resource is never deleted.
-/
set_option autoImplicit false
namespace Umpire.Usm
open Umpire.Names

/-- A device of a SYCL platform: `is_gpu()`, the device itself, `partition_max_sub_devices`, and what
`create_sub_devices<partition_by_affinity_domain>(numa)` gives (`none`: it throws, because the device cannot be divided
that way). -/
structure Dev where
  gpu : Bool
  self : Nat
  maxSub : Nat
  numa : Option (List Nat)
  deriving DecidableEq, Repr

/-- The machine as SYCL shows it: the devices of each platform of `sycl::platform::get_platforms()`, and those of
`sycl::platform(sycl::gpu_selector{})`. -/
structure Machine where
  platforms : List (List Dev)
  chosen : List Dev
  deriving DecidableEq, Repr

/-- The inner loop of the registry (MemoryResourceRegistry.cpp:195-206): `count` is `device_count`; `none` is the
exception. -/
def countDevs : List Dev → Nat → Option Nat
  | [], count => some count
  | d :: ds, count =>
    if d.gpu then
      if d.maxSub > 0 then
        match d.numa with
        | none => none
        | some subs => countDevs ds (count + subs.length)
      else countDevs ds (count + 1)
    else countDevs ds count

/-- The outer loop (MemoryResourceRegistry.cpp:192-207). -/
def countPlatforms : List (List Dev) → Nat → Option Nat
  | [], count => some count
  | p :: ps, count =>
    match countDevs p count with
    | none => none
    | some c => countPlatforms ps c

/-- The number of devices the registry finds; `none`: its constructor throws. -/
def Machine.found (m : Machine) : Option Nat := countPlatforms m.platforms 0

/-- A build with SYCL on the machine, as `Verif.Names.Registry` describes it; without a GPU nothing is registered
(MemoryResourceRegistry.cpp:209-211). -/
def Machine.build (noOp ipc file : Bool) (m : Machine) : Option Build :=
  match m.found with
  | none => none
  | some d => some ⟨noOp, ipc, file, if d = 0 then .none else .sycl d, none⟩

/-- The loop over the parts of one device (SyclDeviceResourceFactory.cpp:52-58): `q` is `traits.queue`, by the device of
the queue. -/
def pickSub (id : Int) : List Nat → Nat × Option Nat → Nat × Option Nat
  | [], s => s
  | u :: us, (count, q) =>
    let count := count + 1
    pickSub id us (count, if (count : Int) - 1 = id then some u else q)

/-- The loop over the devices (SyclDeviceResourceFactory.cpp:46-68); the same in the factories of `UM` and `PINNED`. -/
def pick (id : Int) : List Dev → Nat × Option Nat → Option (Nat × Option Nat)
  | [], s => some s
  | d :: ds, (count, q) =>
    if d.gpu then
      if d.maxSub > 0 then
        match d.numa with
        | none => none
        | some subs => pick id ds (pickSub id subs (count, q))
      else
        let count := count + 1
        pick id ds (count, if (count : Int) - 1 = id then some d.self else q)
    else pick id ds (count, q)

/-- The queue a factory makes for `traits.id` (SyclDeviceResourceFactory.cpp:43-69; MemoryResourceTraits.hpp:39: the queue
is null before). -/
def Machine.queue (m : Machine) (id : Int) : Option (Option Nat) :=
  match pick id m.chosen (0, none) with
  | none => none
  | some s => some s.2

/-- `ResourceManager::getNumDevices` with SYCL (ResourceManager.cpp:949-961). -/
def numDevices : List Dev → Nat → Nat
  | [], count => count
  | d :: ds, count =>
    if d.gpu then
      if d.maxSub > 0 then numDevices ds (count + d.maxSub) else numDevices ds (count + 1)
    else numDevices ds count

def Machine.getNumDevices (m : Machine) : Nat := numDevices m.chosen 0

/-! ### Resources -/

/-- The memory of a resource. -/
inductive Mem
  | device | um | pinned
  deriving DecidableEq, Repr

/-- A resource: of SYCL, with the device of its queue (`none`: a null pointer), or of OpenMP, for a device. -/
inductive Res
  | sycl (mem : Mem) (queue : Option Nat)
  | omp (device : Int)
  deriving DecidableEq, Repr

/-- Where a block is: memory of a GPU, memory shared between the host and a GPU, pinned memory, memory of an OpenMP device,
memory of the host. -/
inductive Place
  | gpu (u : Nat) | shared (u : Nat) | pinned (u : Nat) | target (d : Nat) | host
  deriving DecidableEq, Repr

/-- `sycl::malloc_device`, `malloc_shared`, `malloc_host` with a queue. -/
def syclPlace : Mem → Nat → Place
  | .device, u => .gpu u
  | .um, u => .shared u
  | .pinned, u => .pinned u

/-- `omp_target_alloc(_, d)` with `n` devices: the devices are numbered from 0, the host is number `n`; another number is
not allowed. -/
def ompPlace (n : Nat) (d : Int) : Option Place :=
  if 0 ≤ d ∧ d < n then some (.target d.toNat) else if d = n then some .host else none

/-- A block; `owner` is the resource it came from, which stands for the SYCL context (each factory call makes one) or the
OpenMP device. -/
structure Blk where
  ptr : Nat
  size : Nat
  place : Place
  owner : Nat
  deriving DecidableEq, Repr

/-- The resources made so far and the blocks handed out by the runtime. -/
structure Rt where
  res : List Res
  blks : List Blk
  deriving DecidableEq, Repr

inductive Out
  | ptr (p : Nat) | done | error | ub
  deriving DecidableEq, Repr

/-- `SyclDeviceMemoryResource::allocate` (SyclDeviceMemoryResource.inl:29-36) and
`DefaultMemoryResource<OpenMPTargetAllocator>::allocate` (OpenMPTargetAllocator.hpp:34-44), on resource `k`; `a` is what
the runtime answers (`none`: a null pointer).  The reference `*(m_traits.queue)` of a null pointer is undefined. -/
def allocate (omp : Nat) (rt : Rt) (k n : Nat) (a : Option Nat) : Out × Rt :=
  match rt.res[k]? with
  | none => (.ub, rt)
  | some (.sycl _ none) => (.ub, rt)
  | some (.sycl mem (some u)) =>
    match a with
    | none => (.error, rt)
    | some p => (.ptr p, { rt with blks := ⟨p, n, syclPlace mem u, k⟩ :: rt.blks })
  | some (.omp d) =>
    match ompPlace omp d with
    | none => (.ub, rt)
    | some pl =>
      match a with
      | none => (.error, rt)
      | some p => (.ptr p, { rt with blks := ⟨p, n, pl, k⟩ :: rt.blks })

/-- The runtime takes back a block: it must be one of the context (SYCL) or the device (OpenMP). -/
def release (rt : Rt) (k p : Nat) : Out × Rt :=
  if rt.blks.any (fun b => b.ptr == p && b.owner == k) then
    (.done, { rt with blks := rt.blks.filter fun b => b.ptr != p })
  else (.ub, rt)

/-- `SyclDeviceMemoryResource::deallocate` (SyclDeviceMemoryResource.inl:38-44) and
`OpenMPTargetAllocator::deallocate` (OpenMPTargetAllocator.hpp:53-57). -/
def deallocate (omp : Nat) (rt : Rt) (k p : Nat) : Out × Rt :=
  match rt.res[k]? with
  | none => (.ub, rt)
  | some (.sycl _ none) => (.ub, rt)
  | some (.sycl _ (some _)) => release rt k p
  | some (.omp d) => if (ompPlace omp d).isSome then release rt k p else (.ub, rt)

/-- `ResourceManager::makeResource` for these resources (ResourceManager.cpp:139-160, MemoryResourceRegistry.cpp:251-285):
`traits.id` is `resource_to_device_id(name)` if the name contains `DEVICE`, else the default of the factory, which is 0 for
`UM` and `PINNED`; `dflt` is `omp_get_default_device()`, the default of the factory of OpenMP.  Neither build asks a runtime
for a current device, so `resource_to_device_id` gives 0 to a name without a number.  `none`: an exception, or a resource
not modelled here. -/
def made (b : Build) (m : Machine) (dflt : Int) (n : Name) : Option Res :=
  let id (d : Int) : Option Int := if has DEVICE n then deviceId (b.reg 0).cuda 0 n else some d
  let sycl (mem : Mem) : Option Res := (id 0).bind fun i => (m.queue i).bind fun q => some (.sycl mem q)
  match b.select n with
  | some (.device .sycl) => sycl .device
  | some (.um .sycl) => sycl .um
  | some (.pinned .sycl) => sycl .pinned
  | some (.device .omp) => (id dflt).bind fun i => some (.omp i)
  | _ => none

/-- What a program does with the resources: makes one, asks one for memory, gives memory back to one. -/
inductive Op
  | make (r : Res)
  | alloc (k n : Nat) (a : Option Nat)
  | free (k p : Nat)
  deriving DecidableEq, Repr

def Op.do (omp : Nat) (rt : Rt) : Op → Out × Rt
  | .make r => (.done, { rt with res := rt.res ++ [r] })
  | .alloc k n a => allocate omp rt k n a
  | .free k p => deallocate omp rt k p

end Umpire.Usm
