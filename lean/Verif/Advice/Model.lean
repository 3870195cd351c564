import Verif.Ops.Model
/-!
# Advice and prefetching

Sources: `src/umpire/strategy/AllocationAdvisor.cpp` lines 17–54, `strategy/AllocationPrefetcher.cpp` lines 15–40,
`ResourceManager::prefetch` (ResourceManager.cpp:834-851), and `apply`, `apply_async` of the operations
(`src/umpire/op/*Operation.cpp`).

What a runtime is told is kept in the world; whether its calls succeed and what the parent answers is input.  Operations
the program registers are represented by a record that they were applied.  Not modelled: the effect of an advice, log
messages, replay events.
-/
set_option autoImplicit false
namespace Umpire.Advice
open Umpire.Names (Name)
open Umpire.Ops
open Umpire.Judy (AMap Rec)

/-- `cudaCpuDeviceId`. -/
def CPU : Int := -1

/-- What was done to the bytes from `p` to `p + n`. -/
inductive Told
  | advise (advice : Name) (p n : Nat) (d : Int)
  | prefetch (p n : Nat) (d : Int)
  | fill (p n : Nat) (v : Int)
  | user (k : Nat) (p n : Nat) (v : Int)
  deriving DecidableEq, Repr

/-- The world: blocks handed out by the parents (address, size), and what was done, latest first. -/
structure W where
  blks : List (Nat × Nat)
  told : List Told
  deriving DecidableEq, Repr

/-- Answers: of the parent's `allocate_internal` (`none`: it throws), of `cudaGetDevice` (`none`: it fails), of
`cudaGetDeviceProperties` per device (`none`: an error; otherwise whether the device has `managedMemory` and
`concurrentManagedAccess`), of the call that does the work, of the test of `SyclMemPrefetchOperation` that device and
pointer are for shared memory, and of the parent's `deallocate_internal`. -/
structure Ans where
  mem : Option Nat := none
  cur : Option Int := some 0
  props : Int → Option Bool := fun _ => some true
  call : Bool := true
  shared : Bool := true
  free : Bool := true

inductive Out
  | ptr (p : Nat) | done | threw | ub
  deriving DecidableEq, Repr

/-- A call of a runtime: it is carried out, or its error is thrown. -/
def tell (t : Told) (ok : Bool) (w : W) : Out × W := if ok then (.done, { w with told := t :: w.told }) else (.threw, w)

/-- `apply(p, record, v, n)`; `rec` is `record->strategy->getTraits().id`, `none` if the record is `nullptr`
(HostMemsetOperation.cpp, CudaMemsetOperation.cpp:20-29, HipMemsetOperation.cpp:20-29, OpenMPTargetMemsetOperation.cpp,
SyclMemsetOperation.cpp, CudaAdviseOperation.cpp:22-34, HipAdviseOperation.cpp:22-34, CudaMemPrefetchOperation.cpp:18-46,
SyclMemPrefetchOperation.cpp; the others do not override `MemoryOperation::apply`, which throws). -/
def apply (o : MemOp) (p : Nat) (rec : Option Int) (v : Int) (n : Nat) (a : Ans) (w : W) : Out × W :=
  match o with
  | .hostMemset => tell (.fill p n v) true w
  | .cudaMemset => tell (.fill p n v) a.call w
  | .hipMemset => tell (.fill p n v) a.call w
  | .ompMemset => if rec.isSome then tell (.fill p n v) true w else (.ub, w)
  | .syclMemset => if rec.isSome then tell (.fill p n v) true w else (.ub, w)
  | .cudaAdvise x => tell (.advise x p n v) a.call w
  | .hipAdvise x => tell (.advise x p n v) a.call w
  | .cudaPrefetch =>
    match (if v ≠ CPU then some v else a.cur) with
    | none => (.ub, w)
    | some gpu =>
      match a.props gpu with
      | none => (.threw, w)
      | some true => tell (.prefetch p n v) a.call w
      | some false => (.done, w)
  | .syclPrefetch =>
    match rec with
    | none => (.ub, w)
    | some id => if id ≠ v then (.threw, w) else tell (.prefetch p n v) a.shared w
  | .user k => tell (.user k p n v) a.call w
  | _ => (.threw, w)

/-- `apply_async(p, record, v, n, ctx)`; `ctx` is the platform of the resource.  Only CUDA and HIP override it
(CudaMemPrefetchOperation.cpp:48-85, CudaMemsetOperation.cpp:31-55, HipMemsetOperation.cpp:31-55); otherwise it waits
and applies (MemoryOperation.cpp:39-46). -/
def applyAsync (o : MemOp) (ctx : Plat) (p : Nat) (rec : Option Int) (v : Int) (n : Nat) (a : Ans) (w : W) : Out × W :=
  match o with
  | .cudaPrefetch => if v = CPU ∧ a.cur = none then (.ub, w) else if ctx = .cuda then apply .cudaPrefetch p rec v n a w else (.threw, w)
  | .cudaMemset => if ctx = .cuda then apply .cudaMemset p rec v n a w else (.threw, w)
  | .hipMemset => if ctx = .hip then apply .hipMemset p rec v n a w else (.threw, w)
  | o => apply o p rec v n a w

/-- An `AllocationAdvisor` or an `AllocationPrefetcher`: its operation and `m_device`. -/
structure Strat where
  op : MemOp
  device : Int
  deriving DecidableEq, Repr

/-- `AllocationAdvisor::AllocationAdvisor(name, id, allocator, advice, accessing_allocator, device_id)`
(AllocationAdvisor.cpp:24-41); `pl` and `acc` are the platforms of the allocators, `none` is the exception of `find`. -/
def advisor (f : Flags) (user : List (Entry MemOp)) (pl acc : Plat) (advice : Name) (d : Int) : Option Strat :=
  match find (registry f user) advice (pl, pl) with
  | none => none
  | some o => some ⟨o, if f.cuda = true ∧ acc = .host then CPU else d⟩

/-- The constructor without accessing allocator (AllocationAdvisor.cpp:18-22). -/
def advisorPlain (f : Flags) (user : List (Entry MemOp)) (pl : Plat) (advice : Name) (d : Int) : Option Strat :=
  advisor f user pl pl advice d

/-- `AllocationPrefetcher::AllocationPrefetcher` (AllocationPrefetcher.cpp:15-23). -/
def prefetcher (f : Flags) (user : List (Entry MemOp)) (pl : Plat) (d : Int) : Option Strat :=
  match find (registry f user) PREFETCH (pl, pl) with
  | none => none
  | some o => some ⟨o, d⟩

/-- `allocate` of both (AllocationAdvisor.cpp:43-49, AllocationPrefetcher.cpp:25-32). -/
def allocate (s : Strat) (n : Nat) (a : Ans) (w : W) : Out × W :=
  match a.mem with
  | none => (.threw, w)
  | some p =>
    match apply s.op p none s.device n a { w with blks := (p, n) :: w.blks } with
    | (.done, w') => (.ptr p, w')
    | x => x

/-- `deallocate` of both (AllocationAdvisor.cpp:51-54, AllocationPrefetcher.cpp:34-37). -/
def deallocate (p : Nat) (a : Ans) (w : W) : Out × W :=
  if a.free then (.done, { w with blks := w.blks.filter fun b => decide (b.1 ≠ p) }) else (.threw, w)

/-- What `getTraits` and `getPlatform` of a strategy say. -/
structure Traits where
  um : Bool
  id : Int
  plat : Plat
  deriving DecidableEq, Repr

/-- `ResourceManager::prefetch(ptr, device, ctx)` (ResourceManager.cpp:834-851); `tr` are the traits of the strategy in
a record. -/
def managerPrefetch (f : Flags) (user : List (Entry MemOp)) (tr : Nat → Traits) (m : AMap) (ctx : Plat) (p : Nat) (d : Int) (a : Ans)
    (w : W) : Out × W :=
  match (m.findRecord p).2 with
  | none => (.threw, w)
  | some r =>
    if (tr r.tag).um then
      match find (registry f user) PREFETCH ((tr r.tag).plat, (tr r.tag).plat) with
      | none => (.threw, w)
      | some o => applyAsync o ctx p (some (tr r.tag).id) d (r.size - (p - r.ptr)) a w
    else (.threw, w)

end Umpire.Advice
