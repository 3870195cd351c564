import Verif.Ops.Model
import Verif.Gpu.Model
/-!
# Copies and fills between memories of any kind

`ResourceManager::copy` and `memset` together with the operations they dispatch to, over a contract of the runtimes.

Sources: `src/umpire/ResourceManager.cpp` lines 375–533, `src/umpire/op/{Host,Cuda,Hip,OpenMPTarget}{Copy,Memset}Operation.cpp`,
`SyclCopy{,To,From}Operation.cpp`, `SyclMemsetOperation.cpp`, `MemoryOperation.cpp`, the `getTraits` members of all
strategies, and the traits in `src/umpire/resource/*Factory.cpp`.

The contracts are those of the C library, CUDA, HIP, OpenMP 5 (`omp_target_memcpy`) and SYCL 2020 (`handler::memcpy`).
Addresses are distinct between all memories: the allocation map needs that.  Not modelled: traits that the program passes
to `makeResource`, events and log messages.
-/
set_option autoImplicit false
namespace Umpire.Devops
open Umpire.Ops (Plat Res Strat Flags MemOp Kind Entry platformOf findFor registry COPY MEMSET)
open Umpire.Judy (AMap Rec)
open Umpire.Gpu (Api Place)

abbrev Mem := Nat → Nat

/-- Where an address is: nowhere, ordinary host memory, memory of CUDA or HIP, of an OpenMP device, of a SYCL context. -/
inductive Home
  | none | host | gpu (api : Api) (pl : Place) | omp (d : Int) | sycl (ctx : Nat) (pl : Place)
  deriving DecidableEq, Repr

/-- A running program: how Umpire was built, the operations the program has registered, the strategies by number, the
device number of each resource (`resource_to_device_id` of its name, MemoryResourceTypes.hpp:90-123), the number
OpenMP gives to the host, where each address is, the allocation map and the contents of memory. -/
structure World where
  flags : Flags
  user : List (Entry MemOp)
  strats : List Strat
  dev : Nat → Int
  initial : Int
  home : Nat → Home
  amap : AMap
  mem : Mem

/-- The members of `MemoryResourceTraits` that operations use (MemoryResourceTraits.hpp:20-55): `id`, which is not
initialised by default, and `queue`, named by the number of the resource that made it. -/
structure Traits where
  id : Option Int
  queue : Option Nat
  deriving DecidableEq, Repr

/-- The traits of a resource (the `getDefaultTraits` of its factory, for names with `DEVICE` in them overwritten by
ResourceManager.cpp:146-148).  The SYCL factories make a new context and a queue in it for each resource
(SyclDeviceResourceFactory.cpp:43-69, and the same in the factories for `UM` and `PINNED`).  `HOST` has the number of the host
when OpenMP target is enabled (HostResourceFactory.cpp:72-74). -/
def resTraits (w : World) (i : Nat) : Res → Traits
  | .hostMalloc | .hostPosix => ⟨if w.flags.omp then some w.initial else none, none⟩
  | .cudaDevice | .cudaConst | .hipDevice | .hipConst | .omp => ⟨some (w.dev i), none⟩
  | .syclDevice => ⟨some (w.dev i), some i⟩
  | .syclUM | .syclPinned => ⟨some 0, some i⟩
  | .noOp => ⟨some 0, none⟩
  | .cudaUM | .cudaPinned | .hipUM | .hipPinned | .file | .shared | .null => ⟨none, none⟩

/-- `getTraits`: strategies ask their parent (for example QuickPool.cpp:293-296, NumaPolicy.cpp:68-71); resources have their
own (MemoryResource.cpp:17-20). -/
def traitsOf (w : World) : Nat → Nat → Option Traits
  | 0, _ => none
  | fuel + 1, i =>
    match w.strats[i]? with
    | none => none
    | some (.resource r) => some (resTraits w i r)
    | some (.over p) => traitsOf w fuel p
    | some (.numa p _) => traitsOf w fuel p

/-- What an operation asks a runtime to do. -/
inductive Call
  | memcpy (dst src n : Nat)
  | gpuMemcpy (api : Api) (k : Kind) (dst src n : Nat)
  | ompMemcpy (dst src n dstOff srcOff : Nat) (dstDev srcDev : Int)
  | syclMemcpy (q dst src n : Nat)
  | memset (p : Nat) (v : Int) (n : Nat)
  | gpuMemset (api : Api) (p : Nat) (v : Int) (n : Nat)
  | ompFill (dev : Int) (p : Nat) (v : Int) (n : Nat)
  | syclMemset (q p : Nat) (v : Int) (n : Nat)
  deriving DecidableEq, Repr

/-- The traits of the strategy of a record. -/
def recTraits (w : World) (r : Rec) : Option Traits := traitsOf w w.strats.length r.tag

def recId (w : World) (r : Rec) : Option Int := (recTraits w r).bind (·.id)
def recQueue (w : World) (r : Rec) : Option Nat := (recTraits w r).bind (·.queue)

/-- `transform` of the operations that copy (HostCopyOperation.cpp:18-23, CudaCopyOperation.cpp:23-36, HipCopyOperation.cpp:23-34,
OpenMPTargetCopyOperation.cpp:18-37, SyclCopyToOperation.cpp:16-23, SyclCopyFromOperation.cpp:16-22,
SyclCopyOperation.cpp:16-24).  `none`: an uninitialised `id` or a null `queue` is used, or the operation is none of these. -/
def transform (w : World) (o : MemOp) (src dst : Nat) (rs rd : Rec) (n : Nat) : Option Call :=
  match o with
  | .hostCopy => some (.memcpy dst src n)
  | .cudaCopy k => some (.gpuMemcpy .cuda k dst src n)
  | .hipCopy k => some (.gpuMemcpy .hip k dst src n)
  | .ompCopy =>
    match recId w rs, recId w rd with
    | some s, some d => some (.ompMemcpy rd.ptr rs.ptr n (dst - rd.ptr) (src - rs.ptr) d s)
    | _, _ => none
  | .syclCopyTo | .syclCopy => (recQueue w rd).map fun q => .syclMemcpy q dst src n
  | .syclCopyFrom => (recQueue w rs).map fun q => .syclMemcpy q dst src n
  | _ => none

/-- `apply` of the operations that fill (HostMemsetOperation.cpp:16-20, CudaMemsetOperation.cpp:18-27, HipMemsetOperation.cpp:18-27,
OpenMPTargetMemsetOperation.cpp:18-29, SyclMemsetOperation.cpp:18-23). -/
def apply (w : World) (o : MemOp) (p : Nat) (r : Rec) (v : Int) (n : Nat) : Option Call :=
  match o with
  | .hostMemset => some (.memset p v n)
  | .cudaMemset => some (.gpuMemset .cuda p v n)
  | .hipMemset => some (.gpuMemset .hip p v n)
  | .ompMemset => (recId w r).map fun d => .ompFill d p v n
  | .syclMemset => (recQueue w r).map fun q => .syclMemset q p v n
  | _ => none

/-! ### The runtimes -/

/-- What the runtime answers: it has done what it was asked to; it reports an error to the caller; it fails and the caller
is not told by an exception (a return value other than 0 of `omp_target_memcpy`, an asynchronous error of SYCL). -/
inductive Ans
  | ok | refused | lost
  deriving DecidableEq, Repr

inductive Out
  | done | threw | ub
  deriving DecidableEq, Repr

/-- Memory the processor can read and write. -/
def hostSide : Home → Bool
  | .host => true
  | .gpu _ .managed => true
  | .gpu _ .pinned => true
  | .sycl _ .managed => true
  | .sycl _ .pinned => true
  | _ => false

/-- Memory the devices of CUDA or HIP can read and write; managed and pinned memory are on both sides. -/
def gpuSide (api : Api) : Home → Bool
  | .gpu a _ => decide (a = api)
  | _ => false

/-- What a queue may be given: a host pointer, or memory allocated from the context of the queue (SYCL 2020, 4.9.4.3). -/
def syclSide (q : Nat) : Home → Bool
  | .host => true
  | .sycl c _ => decide (c = q)
  | _ => false

/-- What `omp_target_memcpy` may be given for the device number `d`. -/
def ompSide (initial d : Int) : Home → Bool
  | .host => decide (d = initial)
  | .omp e => decide (e = d)
  | _ => false

/-- All bytes from `p` are on a side. -/
def World.all (w : World) (p n : Nat) (side : Home → Bool) : Bool := (List.range n).all fun i => side (w.home (p + i))

/-- The ranges do not overlap. -/
def apart (dst src n : Nat) : Bool := decide (n = 0 ∨ dst + n ≤ src ∨ src + n ≤ dst)

/-- The bytes from `p` replaced. -/
def put (m : Mem) (p n : Nat) (f : Nat → Nat) : Mem := fun x => if p ≤ x ∧ x < p + n then f (x - p) else m x

/-- A call that is within its contract: on failure the bytes to be written are anything (`junk`). -/
def perform (w : World) (p n : Nat) (f junk : Nat → Nat) (o : Out) (good : Bool) : Out × Mem :=
  if good then (.done, put w.mem p n f) else (o, put w.mem p n junk)

/-- `static_cast<unsigned char>` of an `int`. -/
def byte (v : Int) : Nat := (v % 256).toNat

/-- What a call does.  `cudaMemcpy` and `hipMemcpy` need pointers on the sides the direction says. -/
def exec (w : World) (a : Ans) (junk : Nat → Nat) : Call → Out × Mem
  | .memcpy dst src n =>
    if w.all dst n hostSide && w.all src n hostSide && apart dst src n then perform w dst n (fun i => w.mem (src + i)) junk .ub true
    else (.ub, w.mem)
  | .gpuMemcpy api k dst src n =>
    if w.all dst n (match k with | .d2h => hostSide | _ => gpuSide api) && w.all src n (match k with | .h2d => hostSide | _ => gpuSide api) &&
        apart dst src n then
      perform w dst n (fun i => w.mem (src + i)) junk .threw (decide (a = .ok))
    else (.ub, w.mem)
  | .ompMemcpy dst src n doff soff ddev sdev =>
    if w.all (dst + doff) n (ompSide w.initial ddev) && w.all (src + soff) n (ompSide w.initial sdev) && apart (dst + doff) (src + soff) n then
      perform w (dst + doff) n (fun i => w.mem (src + soff + i)) junk .done (decide (a = .ok))
    else (.ub, w.mem)
  | .syclMemcpy q dst src n =>
    if w.all dst n (syclSide q) && w.all src n (syclSide q) && apart dst src n then
      perform w dst n (fun i => w.mem (src + i)) junk (if a = .refused then .threw else .done) (decide (a = .ok))
    else (.ub, w.mem)
  | .memset p v n =>
    if w.all p n hostSide then perform w p n (fun _ => byte v) junk .ub true else (.ub, w.mem)
  | .gpuMemset api p v n =>
    if w.all p n (gpuSide api) then perform w p n (fun _ => byte v) junk .threw (decide (a = .ok)) else (.ub, w.mem)
  | .ompFill d p v n =>
    if w.all p n (ompSide w.initial d) then perform w p n (fun _ => byte v) junk .done (decide (a = .ok)) else (.ub, w.mem)
  | .syclMemset q p v n =>
    if w.all p n (syclSide q) then perform w p n (fun _ => byte v) junk (if a = .refused then .threw else .done) (decide (a = .ok))
    else (.ub, w.mem)

/-! ### The resource manager -/

/-- The operation a call of the resource manager ends in: the lookups throw, there is not enough room, there is no operation
for the platforms, or an operation with its arguments. -/
inductive Plan
  | threw | ub | call (o : MemOp) (c : Call)
  deriving DecidableEq, Repr

/-- `ResourceManager::copy` up to the call of `transform` and what that asks for (ResourceManager.cpp:375-416; the overload
with a resource is the same up to `transform_async`, 418-461).  Offsets and sizes do not wrap: a record that is found
contains the pointer. -/
def planCopy (w : World) (dst src size : Nat) : Plan × AMap :=
  match w.amap.findRecord src with
  | (a1, none) => (.threw, a1)
  | (a1, some rs) =>
    match a1.findRecord dst with
    | (a2, none) => (.threw, a2)
    | (a2, some rd) =>
      let n := if size = 0 then rs.size - (src - rs.ptr) else size
      if n > rd.size - (dst - rd.ptr) then (.threw, a2)
      else match findFor (registry w.flags w.user) w.strats w.strats.length COPY rs.tag rd.tag with
        | some (some o) =>
          match transform w o src dst rs rd n with
          | some c => (.call o c, a2)
          | none => (.ub, a2)
        | some none => (.threw, a2)
        | none => (.ub, a2)

/-- `ResourceManager::memset` likewise (ResourceManager.cpp:463-496, 498-533). -/
def planFill (w : World) (p : Nat) (v : Int) (size : Nat) : Plan × AMap :=
  match w.amap.findRecord p with
  | (a1, none) => (.threw, a1)
  | (a1, some r) =>
    let room := r.size - (p - r.ptr)
    let n := if size = 0 then room else size
    if n > room then (.threw, a1)
    else match findFor (registry w.flags w.user) w.strats w.strats.length MEMSET r.tag r.tag with
      | some (some o) =>
        match apply w o p r v n with
        | some c => (.call o c, a1)
        | none => (.ub, a1)
      | some none => (.threw, a1)
      | none => (.ub, a1)

/-- What is left of the call: the runtime's part. -/
def finish (w : World) (a : Ans) (junk : Nat → Nat) : Plan × AMap → Out × World
  | (.threw, m) => (.threw, { w with amap := m })
  | (.ub, m) => (.ub, { w with amap := m })
  | (.call _ c, m) => ((exec w a junk c).1, { w with amap := m, mem := (exec w a junk c).2 })

def copy (w : World) (dst src size : Nat) (a : Ans) (junk : Nat → Nat) : Out × World := finish w a junk (planCopy w dst src size)
def fill (w : World) (p : Nat) (v : Int) (size : Nat) (a : Ans) (junk : Nat → Nat) : Out × World := finish w a junk (planFill w p v size)

/-! ### With a resource -/

/-- A `camp` resource: the host, or a stream of CUDA or HIP, or another one. -/
inductive Ctx
  | host | stream (api : Api) (s : Nat) | other
  deriving DecidableEq, Repr

/-- What the overloads with a resource do: they throw, hand the call to a stream, or wait for the resource and act at once. -/
inductive AOut
  | threw | ub | queued (api : Api) (s : Nat) (c : Call) | now (c : Call)
  deriving DecidableEq, Repr

/-- `transform_async` and `apply_async`: those of CUDA and HIP need a stream of theirs (CudaCopyOperation.cpp:38-61,
CudaMemsetOperation.cpp:29-51, HipCopyOperation.cpp:36-58, HipMemsetOperation.cpp:29-51), the others are those of the base class
(MemoryOperation.cpp:23-31, 39-46). -/
def start (x : Ctx) : Plan × AMap → AOut
  | (.threw, _) => .threw
  | (.ub, _) => .ub
  | (.call o c, _) =>
    match o with
    | .cudaCopy _ | .cudaMemset => match x with | .stream .cuda s => .queued .cuda s c | _ => .threw
    | .hipCopy _ | .hipMemset => match x with | .stream .hip s => .queued .hip s c | _ => .threw
    | _ => .now c

def copyOn (w : World) (dst src size : Nat) (x : Ctx) : AOut := start x (planCopy w dst src size)
def fillOn (w : World) (p : Nat) (v : Int) (size : Nat) (x : Ctx) : AOut := start x (planFill w p v size)

end Umpire.Devops
