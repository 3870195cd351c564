import Verif.Manager.World
import Verif.Judy.Map
/-!
# Model of `umpire::Allocator` and of the memory operations of `ResourceManager`

Sources: src/umpire/Allocator.inl, src/umpire/strategy/mixins/{Inspector,AllocateNull}.cpp,
src/umpire/strategy/AllocationStrategy.cpp, src/umpire/ResourceManager.cpp,
src/umpire/op/{HostCopy,HostMemset,HostReallocate,GenericReallocate}Operation.cpp.

Strategies are numbers (their ids).  `RM` holds the allocation map and, for every
strategy, the statistics kept in `AllocationStrategy`.

Simplifications: all allocators are on the host platform (a build without device
back-ends), so that `MemoryOperationRegistry::find` gives the host operations (see
`Verif.Ops` for the dispatch); logging, events and backtraces are left out; the
name of a record is part of what `Rec.tag` stands for, hence named allocation is the
same as allocation; `UMPIRE_ENABLE_NUMA` is off; the variants taking a
`camp::resources::Resource` do the same on the host; `m_allocation_count` is a natural
number.  In `HostReallocateOperation::transform` the strategy is read from the record
after the record has been destroyed (lines 33-44); the field still holds its value
since the pool of records only overwrites the first bytes, and the model uses it.
-/
set_option autoImplicit false
namespace Umpire.Mgr
open Umpire.Judy

/-- `m_current_size`, `m_high_watermark`, `m_allocation_count`
(src/umpire/strategy/AllocationStrategy.hpp:135-137). -/
structure Stat where
  cur : Nat
  hwm : Nat
  count : Nat
deriving DecidableEq, Repr

def Stat.new : Stat := ⟨0, 0, 0⟩

/-- Inspector.cpp:19-24, AllocationStrategy.cpp:22-27. -/
def Stat.add (t : Stat) (n : Nat) : Stat :=
  let c := w64 (t.cur + n)
  { cur := c, hwm := if c > t.hwm then c else t.hwm, count := t.count + 1 }

/-- Inspector.cpp:45-46, AllocationStrategy.cpp:51-52. -/
def Stat.sub (t : Stat) (n : Nat) : Stat :=
  let c := w64 (t.cur + (W - w64 n))
  { t with cur := c, count := t.count - 1 }

/-- The part of `ResourceManager` and of the strategies that the operations change. -/
structure RM where
  amap : AMap
  st : Nat → Stat

def RM.new : RM := { amap := AMap.new, st := fun _ => Stat.new }

/-- What is fixed: which strategies are tracked (`m_tracked`) and which one is `HOST`. -/
structure Cfg where
  tracked : Nat → Bool
  host : Nat

/-- Functions that may throw (`none`) and change the state. -/
def M (β : Type) : Type := RM → MP (Option β × RM)

namespace M

def ret {β : Type} (b : β) : M β := fun rm => .ret (some b, rm)
def throw {β : Type} : M β := fun rm => .ret (none, rm)

def bind {β γ : Type} (m : M β) (f : β → M γ) : M γ := fun rm =>
  (m rm).bind fun x => match x.1 with
    | none => .ret (none, x.2)
    | some b => f b x.2

instance : Monad M where
  pure := ret
  bind := bind

end M

/-- `m_allocator->allocate(n)` on strategy `s`. -/
def stratAlloc (s n : Nat) : M Nat := fun rm => .alloc s n fun r => .ret (r, rm)

/-- `m_allocator->deallocate(p, n)`. -/
def stratDealloc (s p : Nat) (n : Option Nat) : M Unit := fun rm => .dealloc s p n (.ret (some (), rm))

/-- `FixedPool::pointerIsFromPool` on the zero-byte pool. -/
def isFromZero (p : Nat) : M Bool := fun rm => .fromZero p fun b => .ret (some b, rm)

def cRealloc (s p n : Nat) : M (Option Nat) := fun rm => .realloc s p n fun r => .ret (some r, rm)
def cMemcpy (d s n : Nat) : M Unit := fun rm => .memcpy d s n (.ret (some (), rm))
def cMemset (p v n : Nat) : M Unit := fun rm => .memset p v n (.ret (some (), rm))

def setStat (s : Nat) (f : Stat → Stat) : M Unit := fun rm =>
  .ret (some (), { rm with st := fun t => if t = s then f (rm.st t) else rm.st t })

/-- `ResourceManager::registerAllocation` (ResourceManager.cpp:342-354). -/
def register (p : Nat) (r : Rec) : M Unit := fun rm =>
  if p = 0 then .ret (none, rm) else .ret (some (), { rm with amap := rm.amap.insert p r })

/-- `ResourceManager::deregisterAllocation` (ResourceManager.cpp:356-360). -/
def deregister (p : Nat) : M Rec := fun rm =>
  match rm.amap.remove p with
  | .ok a r => .ret (some r, { rm with amap := a })
  | .throws a => .ret (none, { rm with amap := a })
  | .ub => .fail

/-- `m_allocations.find(ptr)`, which throws when there is no record
(AllocationMap.cpp:176-198). -/
def find (p : Nat) : M Rec := fun rm => .ret ((rm.amap.findRecord p).2, { rm with amap := (rm.amap.findRecord p).1 })

/-- `Inspector::registerAllocation` (Inspector.cpp:17-39). -/
def inspReg (p n s : Nat) : M Unit := do
  setStat s (·.add n)
  register p ⟨p, n, s⟩

/-- `Inspector::deregisterAllocation` (Inspector.cpp:41-56). -/
def inspDereg (p s : Nat) : M Rec := do
  let r ← deregister p
  if r.tag = s then
    setStat s (·.sub r.size)
    return r
  else
    register p ⟨p, r.size, r.tag⟩
    M.throw

/-- `AllocateNull::allocateNull` or the strategy itself (AllocateNull.cpp:22-31,
Allocator.inl:27-36). -/
def getBlock (s n : Nat) : M Nat := if n = 0 then stratAlloc zero 1 else stratAlloc s n

/-- `Allocator::do_allocate`, `do_named_allocate` (Allocator.inl:20-50, 70-91). -/
def allocate (c : Cfg) (s n : Nat) : M Nat := do
  let p ← getBlock s n
  if c.tracked s then
    inspReg p n s
    return p
  else
    return p

/-- `AllocateNull::deallocateNull` and what `do_deallocate` does otherwise
(AllocateNull.cpp:33-46, Allocator.inl:105-114). -/
def giveBack (s p : Nat) (n : Option Nat) : M Unit := do
  if ← isFromZero p then stratDealloc zero p (some 1) else stratDealloc s p n

/-- `Allocator::do_deallocate` (Allocator.inl:93-115). -/
def deallocate (c : Cfg) (s p : Nat) : M Unit :=
  if p = 0 then return ()
  else if c.tracked s then do
    let r ← inspDereg p s
    giveBack s p (some r.size)
  else giveBack s p none

/-- `AllocationStrategy::allocate_internal` (AllocationStrategy.cpp:20-30) as far as the
statistics go: they are updated before the request is made. -/
def childAllocate (s n : Nat) : M Unit := setStat s (·.add n)

/-- `AllocationStrategy::deallocate_internal` (AllocationStrategy.cpp:49-55). -/
def childDeallocate (s n : Nat) : M Unit := setStat s (·.sub n)

/-- `ResourceManager::getSize` (ResourceManager.cpp:861-866). -/
def getSize (p : Nat) : M Nat := do
  let r ← find p
  return r.size

/-- `ResourceManager::getAllocator(void*)`, `findAllocatorForPointer`
(ResourceManager.cpp:315-319, 880-890). -/
def getOwner (p : Nat) : M Nat := do
  let r ← find p
  return r.tag

/-- `ResourceManager::hasAllocator` (ResourceManager.cpp:335-340). -/
def hasAllocator (p : Nat) : M Bool := fun rm =>
  .ret (some (rm.amap.findRecord p).2.isSome, { rm with amap := (rm.amap.findRecord p).1 })

/-- `ResourceManager::copy` (ResourceManager.cpp:375-416) and `HostCopyOperation`. -/
def copy (dst src size : Nat) : M Unit := do
  let rs ← find src
  let rd ← find dst
  let size := if size = 0 then rs.size - (src - rs.ptr) else size
  if size > rd.size - (dst - rd.ptr) then M.throw
  else cMemcpy dst src size

/-- `static_cast<unsigned char>` of an `int`. -/
def byteOf (v : Int) : Nat := (v % 256).toNat

/-- `ResourceManager::memset` (ResourceManager.cpp:463-496) and `HostMemsetOperation`. -/
def memset (p : Nat) (v : Int) (length : Nat) : M Unit := do
  let r ← find p
  let size := r.size - (p - r.ptr)
  let length := if length = 0 then size else length
  if length > size then M.throw
  else cMemset p (byteOf v) length

/-- `GenericReallocateOperation::transform` (GenericReallocateOperation.cpp:18-31). -/
def genericRealloc (c : Cfg) (p : Nat) (r : Rec) (n : Nat) : M Nat := do
  let q ← allocate c r.tag n
  copy q p (if r.size > n then n else r.size)
  deallocate c r.tag p
  return q

/-- `HostReallocateOperation::transform` (HostReallocateOperation.cpp:18-46). -/
def hostRealloc (c : Cfg) (p : Nat) (r : Rec) (n : Nat) : M Nat :=
  if r.size = 0 then do
    let q ← allocate c r.tag n
    copy q p (if r.size > n then n else r.size)
    deallocate c r.tag p
    return q
  else do
    let _ ← deregister p
    match ← cRealloc r.tag p n with
    | none => M.throw
    | some q =>
      register q ⟨q, n, r.tag⟩
      return q

/-- `ResourceManager::reallocate_impl` (ResourceManager.cpp:657-705). -/
def reallocImpl (c : Cfg) (p n s : Nat) : M Nat :=
  if p = 0 then allocate c s n
  else do
    let r ← find p
    if r.tag ≠ s then M.throw
    else if n = 0 then do
      deallocate c r.tag p
      allocate c r.tag n
    else if p ≠ r.ptr then M.throw
    else if r.tag = c.host then hostRealloc c p r n
    else genericRealloc c p r n

/-- `ResourceManager::reallocate(void*, size_t)` (ResourceManager.cpp:536-568); `dflt` is
the default allocator. -/
def reallocate (c : Cfg) (dflt p n : Nat) : M Nat :=
  if p = 0 then reallocImpl c p n dflt
  else do
    let r ← find p
    reallocImpl c p n r.tag

/-- `ResourceManager::deallocate` (ResourceManager.cpp:853-859). -/
def deallocateAny (c : Cfg) (p : Nat) : M Unit := do
  let s ← getOwner p
  deallocate c s p

/-- `ResourceManager::move` (ResourceManager.cpp:758-832). -/
def move (c : Cfg) (p s : Nat) : M Nat := do
  let r ← find p
  if r.tag = s then return p
  else if p ≠ r.ptr then M.throw
  else do
    let q ← allocate c s r.size
    copy q p 0
    deallocateAny c p
    return q

/-- `umpire::get_allocator_records`, `get_leaked_allocations` (src/umpire/Umpire.cpp:50-60,
197-200): `fuel` bounds the iteration over the map. -/
def recordsOf (s : Nat) (rm : RM) (fuel : Nat) : List Rec := (rm.amap.records fuel).filter fun r => decide (r.tag = s)

end Umpire.Mgr
