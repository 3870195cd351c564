import Verif.Deny.Prog
import Verif.QuickPool.Model
/-!
# `QuickPool` on a parent whose `deallocate` may throw

QuickPool.cpp, AlignedAllocation.inl.  As Verif/QuickPool/Model.lean, but the answers of `deallocate_internal` are looked at, and the
counters of the pool, which are no longer right once something was refused, wrap at 2^64.  The bytes in use (`m_aligned_bytes`) are still
right and are taken from there.
-/
set_option autoImplicit false
set_option linter.unusedSimpArgs false
namespace Umpire.Deny
open Umpire QuickPool

/-- `+=` and `-=` on `std::size_t`. -/
def add64 (x y : Nat) : Nat := w64 (x + y)
def sub64 (x y : Nat) : Nat := if y ≤ x then x - y else x + W - y

/-- QuickPool.cpp:100-136. -/
def useChunk2 (s : State) (c : Chunk) (rounded : Nat) : Nat × State :=
  let t := useChunk s c rounded
  let whole := c.size = c.chunkSize ∧ c.free = true                -- 100-103
  (t.1, { t.2 with
    releasableBytes := if whole then sub64 s.releasableBytes c.chunkSize else s.releasableBytes
    releasableBlocks := if whole then sub64 s.releasableBlocks 1 else s.releasableBlocks })

/-- QuickPool.cpp:84-91, AlignedAllocation.inl:30-37. -/
def newBlock2 (cfg : Cfg) (s : State) (size p : Nat) : Chunk × State :=
  let t := newBlock cfg s size p
  (t.1, { t.2 with
    actualBytes := add64 s.actualBytes size
    releasableBytes := add64 s.releasableBytes size
    releasableBlocks := add64 s.releasableBlocks 1
    totalBlocks := add64 s.totalBlocks 1
    actualHwm := max (add64 s.actualBytes size) s.actualHwm })

/-- `aligned_deallocate` (AlignedAllocation.inl:40-47): the entry of `base_pointer_map` is erased before the parent is called.  A
pointer without entry is looked up as `(nullptr, 0)`. -/
def alignedDealloc2 {α : Type} (s : State) (ptr : Nat) (k : Bool → State → Prog2 α) : Prog2 α :=
  let e := match s.baseMap.find? (fun e => e.1 = ptr) with | some e => e.2 | none => (0, 0)
  .dealloc e.1 e.2 fun ok => k ok { s with baseMap := s.baseMap.filter fun e => e.1 ≠ ptr }

/-- The loop of `release` (QuickPool.cpp:204-251).  The result is `false` if an exception left it; the destructor ignores
them (226-234). -/
def releaseLoop2 (destructing : Bool) : List (Nat × Nat) → State → Prog2 (Bool × State)
  | [], s => .ret (true, s)
  | e :: es, s =>
    match findChunk e.2 s.blocks with
    | none => .fail .ub
    | some c =>
      if c.size = c.chunkSize ∧ c.free = true then                 -- 215
        let s := { s with
          actualBytes := sub64 s.actualBytes c.chunkSize            -- 218-221
          releasableBytes := sub64 s.releasableBytes c.chunkSize
          releasableBlocks := sub64 s.releasableBlocks 1
          totalBlocks := sub64 s.totalBlocks 1 }
        alignedDealloc2 s c.data fun ok s =>                        -- 223-234
          if ok || destructing then
            releaseLoop2 destructing es { s with                    -- 236-237
              blocks := (s.blocks.map (·.filter fun d => d.id ≠ c.id)).filter (!·.isEmpty)
              sizeMap := smErase e.2 s.sizeMap }
          else .ret (false, s)
      else releaseLoop2 destructing es s

/-- `QuickPool::release`. -/
def release2 (s : State) : Prog2 (Bool × State) := releaseLoop2 false s.sizeMap s

/-- `QuickPool::~QuickPool` (QuickPool.cpp:36-41). -/
def destroy2 (s : State) : Prog2 (Bool × State) := releaseLoop2 true s.sizeMap s

/-- `QuickPool::allocate` (QuickPool.cpp:43-137).  An exception of `release` in line 74 leaves the function as well. -/
def allocate2 (cfg : Cfg) (s : State) (bytes : Nat) : Prog2 (Option Nat × State) :=
  let rounded := roundUp64 cfg.align bytes
  match lowerBound rounded s.sizeMap with
  | none =>
    let size := growSize cfg s rounded
    let got (s : State) (p : Nat) : Option Nat × State :=
      let t := newBlock2 cfg s size p
      let u := useChunk2 t.2 t.1 rounded
      (some u.1, u.2)
    .alloc (w64 (size + cfg.align)) fun
      | some p => .ret (got s p)
      | none => (release2 s).bind fun r =>
          if r.1 then
            .alloc (w64 (size + cfg.align)) fun
              | some p => .ret (got r.2 p)
              | none => .ret (none, r.2)
          else .ret (none, r.2)
  | some e =>
    match findChunk e.2 s.blocks with
    | none => .fail .ub
    | some c =>
      let u := useChunk2 { s with sizeMap := smErase e.2 s.sizeMap } c rounded
      .ret (some u.1, u.2)

/-- `QuickPool::deallocate` up to the heuristic (QuickPool.cpp:139-195). -/
def deallocCore2 (s : State) (ptr : Nat) : Option State := do
  let t ← deallocCore s ptr
  let e ← s.ptrMap.find? fun e => e.1 = ptr
  let r ← freeInBlocks e.2 s.blocks
  let whole := r.2.final.size = r.2.final.chunkSize               -- 188-191
  return { t with
    releasableBlocks := if whole then add64 s.releasableBlocks 1 else s.releasableBlocks
    releasableBytes := if whole then add64 s.releasableBytes r.2.final.chunkSize else s.releasableBytes }

/-- `QuickPool::deallocate`; no exception can leave it, since `do_coalesce` is `noexcept`. -/
def deallocWith2 (cfg : Cfg) (co : State → Nat → Prog2 State) (s : State) (ptr : Nat) : Prog2 State :=
  match deallocCore2 s ptr with
  | none => .fail .ub
  | some s => if cfg.heur s ≠ 0 then co s (cfg.heur s) else .ret s

/-- `QuickPool::do_coalesce` (QuickPool.cpp:331-346): `noexcept`, so an exception of `release` or `allocate` ends in
`std::terminate`. -/
def doCoalesce2 (cfg : Cfg) : Nat → State → Nat → Prog2 State
  | 0, _, _ => .fail .diverge
  | fuel + 1, s, suggested =>
    if 1 < s.sizeMap.length then
      (release2 s).bind fun r =>
        if r.1 then
          if r.2.actualBytes < suggested then
            (allocate2 cfg r.2 (suggested - r.2.actualBytes)).bind fun
              | (none, _) => .fail .abort
              | (some p, s) => deallocWith2 cfg (doCoalesce2 cfg fuel) s p
          else .ret r.2
        else .fail .abort
    else .ret s

/-- `QuickPool::deallocate` (QuickPool.cpp:139-202). -/
def deallocate2 (cfg : Cfg) (fuel : Nat) (s : State) (ptr : Nat) : Prog2 State :=
  deallocWith2 cfg (doCoalesce2 cfg fuel) s ptr

/-- `QuickPool::coalesce` (QuickPool.cpp:316-329). -/
def coalesce2 (cfg : Cfg) (fuel : Nat) (s : State) : Prog2 State :=
  if cfg.heur s ≠ 0 then doCoalesce2 cfg fuel s (cfg.heur s) else .ret s

end Umpire.Deny
