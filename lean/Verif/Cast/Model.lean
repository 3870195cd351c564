import Verif.QuickPool.Model
import Verif.DynPool.Model
import Verif.Shm.Spec
/-!
# Functions for one kind of allocator

Source: `src/umpire/Umpire.cpp` lines 209–236 and 289–316, `src/umpire/util/wrap_allocator.hpp` lines 37–54.

They are given any `Allocator` and look at the dynamic type of its strategy.  An object is a pool with its state, the
shared memory resource with its segment, a strategy that stands over another one, or anything else.
-/
set_option autoImplicit false
namespace Umpire.Cast

/-- The object `Allocator::getAllocationStrategy` points to. -/
inductive Obj
  | quick (cfg : QuickPool.Cfg) (s : QuickPool.State)
  | list (cfg : DynPool.Cfg) (heur : DynPool.State → Nat) (s : DynPool.State)
  /-- `HostSharedMemoryResource`, with the segment mapped at `base` -/
  | shared (base lim : Nat) (m : Mem)
  /-- a strategy that passes requests on: `ThreadSafeAllocator`, `NamedAllocationStrategy`, `AllocationAdvisor`, … -/
  | over (o : Obj)
  /-- any other resource or strategy -/
  | other

/-- `try_coalesce` (Umpire.cpp:289-307): two casts one after the other. -/
def tryCoalesce (fuel : Nat) (a : Obj) : Prog (Bool × Obj) :=
  let first : Prog (Bool × Obj) :=
    match a with
    | .quick cfg s => (QuickPool.coalesce cfg fuel s).bind fun s => .ret (true, .quick cfg s)      -- 294-298
    | a => .ret (false, a)
  first.bind fun
    | (_, .list cfg heur s) => (DynPool.coalesce cfg heur s).bind fun s => .ret (true, .list cfg heur s)  -- 300-304
    | r => .ret r

/-- What a function without result ends with. -/
inductive Done
  | done | threw
  deriving DecidableEq, Repr

/-- `coalesce` (Umpire.cpp:309-315). -/
def coalesce (fuel : Nat) (a : Obj) : Prog (Done × Obj) :=
  (tryCoalesce fuel a).bind fun
    | (true, a) => .ret (.done, a)
    | (false, a) => .ret (.threw, a)

/-- What `find_pointer_from_name` ends with. -/
inductive Found
  | ptr (p : Nat) | null | threw | ub | diverge
  deriving DecidableEq, Repr

/-- `find_pointer_from_name` (Umpire.cpp:209-236); `ipc` is `UMPIRE_ENABLE_IPC_SHARED_MEMORY`.  `unwrap_allocator` asks for
an `AllocationStrategy`, which every object is (wrap_allocator.hpp:37-54); the `reinterpret_cast` gives no null pointer,
and a call through it is undefined if the object is something else. -/
def findPointer (ipc : Bool) (a : Obj) (name : List Nat) : Found :=
  if ipc then
    match a with
    | .shared base lim m =>
      match Shm.findPointerAt base lim name m with
      | .ok (some p, _) => .ptr p
      | .ok (none, _) => .null
      | .error .ub => .ub
      | .error .diverge => .diverge
    | _ => .ub
  else .threw

end Umpire.Cast
