import Verif.Deny.Model
import Verif.DynPool.Model
/-!
# `DynamicPoolList` on a parent whose `deallocate` may throw

DynamicSizePool.hpp, DynamicPoolList.cpp, AlignedAllocation.inl.  As Verif/DynPool/Model.lean, but the answers of `deallocate_internal` are
looked at, and the counters of the pool, which are no longer right once something was refused, wrap at 2^64.  The bytes in use
(`m_aligned_bytes`) are still right and are taken from there.
-/
set_option autoImplicit false
set_option linter.unusedSimpArgs false
namespace Umpire.Deny.Dyn
open Umpire DynPool

/-- DynamicSizePool.hpp:113-138, AlignedAllocation.inl:30-37. -/
def addBlock2 (cfg : Cfg) (s : State) (size p : Nat) : Pos × State :=
  let t := addBlock cfg s size p
  (t.1, { t.2 with
    actualBytes := add64 s.actualBytes size
    actualHwm := max (add64 s.actualBytes size) s.actualHwm
    releasableBlocks := add64 s.releasableBlocks 1
    totalBlocks := add64 s.totalBlocks 1 })

/-- DynamicSizePool.hpp:141-169, 321-331. -/
def takeBlock2 (s : State) (pos : Pos) (size : Nat) : Nat × State :=
  let t := takeBlock s pos size
  (t.1, { t.2 with releasableBlocks := if pos.2.1.size = pos.2.1.blockSize then sub64 s.releasableBlocks 1 else s.releasableBlocks })

/-- `aligned_deallocate` (AlignedAllocation.inl:40-47): the entry of `base_pointer_map` is erased before the parent is called.  A
pointer without entry is looked up as `(nullptr, 0)`. -/
def alignedDealloc2 {α : Type} (s : State) (ptr : Nat) (k : Bool → State → Prog2 α) : Prog2 α :=
  let e := match s.baseMap.find? (fun e => e.1 = ptr) with | some e => e.2 | none => (0, 0)
  .dealloc e.1 e.2 fun ok => k ok { s with baseMap := s.baseMap.filter fun e => e.1 ≠ ptr }

/-- The loop of `freeReleasedBlocks` (DynamicSizePool.hpp:212-269); `kept` are the blocks already passed and kept, the list is what
follows.  The result is `false` if an exception left it; the destructor ignores them (235-245). -/
def freeLoop2 (destructing : Bool) : List Blk → List Blk → State → Prog2 (Bool × State)
  | kept, [], s => .ret (true, { s with free := kept })
  | kept, b :: bs, s =>
    if b.size = b.blockSize then                                -- 225
      let s := { s with
        actualBytes := sub64 s.actualBytes b.size               -- 228-230
        releasableBlocks := sub64 s.releasableBlocks 1
        totalBlocks := sub64 s.totalBlocks 1 }
      alignedDealloc2 s b.data fun ok s =>                      -- 234
        if ok || destructing then freeLoop2 destructing kept bs { s with free := kept ++ bs }   -- 247-252
        else .ret (false, { s with free := kept ++ b :: bs })   -- 243
    else freeLoop2 destructing (kept ++ [b]) bs s               -- 254

/-- `release` (DynamicSizePool.hpp:354-358, DynamicPoolList.cpp:51-55). -/
def release2 (s : State) : Prog2 (Bool × State) := freeLoop2 false [] s.free s

/-- `~DynamicSizePool` (DynamicSizePool.hpp:297-302). -/
def destroy2 (s : State) : Prog2 (Bool × State) := freeLoop2 true [] s.free s

/-- `allocate` (DynamicSizePool.hpp:304-332) with `allocateBlock` (76-139).  An exception of `freeReleasedBlocks` in line 103 leaves the
function as well. -/
def allocate2 (cfg : Cfg) (s : State) (bytes : Nat) : Prog2 (Option Nat × State) :=
  let rounded := roundUp64 cfg.align bytes
  match findLoop rounded none [] s.free with
  | some pos =>
    let t := takeBlock2 s pos rounded
    .ret (some t.1, t.2)
  | none =>
    let size := growSize cfg s rounded
    let got (s : State) (p : Nat) : Option Nat × State :=
      let t := addBlock2 cfg s size p
      let u := takeBlock2 t.2 t.1 rounded
      (some u.1, u.2)
    .alloc (w64 (size + cfg.align)) fun
      | some p => .ret (got s p)
      | none => (release2 s).bind fun r =>
          if r.1 then
            .alloc (w64 (size + cfg.align)) fun
              | some p => .ret (got r.2 p)
              | none => .ret (none, r.2)
          else .ret (none, r.2)

/-- `deallocate` (DynamicSizePool.hpp:334-352). -/
def deallocCore2 (s : State) (ptr : Nat) : State :=
  match s.used.find? (fun b => b.data = ptr) with
  | none => s
  | some cur =>
    let m := (insertFree cur s.free).2.1
    { deallocCore s ptr with
      releasableBlocks := if m.size = m.blockSize then add64 s.releasableBlocks 1 else s.releasableBlocks }   -- 208-209

/-- `coalesce(suggested_size)` (DynamicSizePool.hpp:442-454) with `coalesceFreeBlocks` (271-278).  The Boolean is false when an exception
leaves the function. -/
def coalesceTo2 (cfg : Cfg) (s : State) (suggested : Nat) : Prog2 (Bool × State) :=
  if 1 < getFreeBlocks s then
    (release2 s).bind fun r =>                                        -- 445
      if r.1 then
        if r.2.actualBytes < suggested then                           -- 448
          (release2 r.2).bind fun r' =>                               -- 275
            if r'.1 then
              (allocate2 cfg r'.2 (suggested - r.2.actualBytes)).bind fun   -- 276
                | (none, s) => .ret (false, s)
                | (some p, s) => .ret (true, deallocCore2 s p)        -- 277
            else .ret (false, r'.2)
        else .ret (true, r.2)
      else .ret (false, r.2)
  else .ret (true, s)

/-- `DynamicPoolList::deallocate` (DynamicPoolList.cpp:36-49).  The Boolean is false when an exception leaves the function. -/
def deallocate2 (cfg : Cfg) (heur : State → Nat) (s : State) (ptr : Nat) : Prog2 (Bool × State) :=
  let s := deallocCore2 s ptr
  if heur s ≠ 0 then coalesceTo2 cfg s (heur s) else .ret (true, s)

/-- `DynamicPoolList::coalesce` (DynamicPoolList.cpp:125-137), `noexcept`: an exception ends in `std::terminate`. -/
def coalesce2 (cfg : Cfg) (heur : State → Nat) (s : State) : Prog2 State :=
  if heur s ≠ 0 then
    (coalesceTo2 cfg s (heur s)).bind fun
      | (true, s) => .ret s
      | (false, _) => .fail .abort
  else .ret s

end Umpire.Deny.Dyn
