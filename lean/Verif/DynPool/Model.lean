import Verif.Base.Arith
/-!
# Model of `DynamicPoolList`

src/umpire/strategy/DynamicSizePool.hpp and DynamicPoolList.cpp, together with
the mixin src/umpire/strategy/mixins/AlignedAllocation.{hpp,inl}.

Representation.  The two singly linked lists `usedBlocks` and `freeBlocks` are
lists of the `Block` records in link order; a loop variable pair `prev`/`curr`
is a position in the list (the part before and the part from the position on).
`blockPool`, the fixed-size pool the records themselves come from, is not part
of this model (FixedSizePool.hpp): records are values.  Logging,
backtraces and ASan poisoning have no effect on the state and are left out.
-/
set_option autoImplicit false
set_option linter.unusedSimpArgs false
namespace Umpire.DynPool
open Umpire

/-- DynamicSizePool.hpp:27-32, without the link. -/
structure Blk where
  data : Nat
  size : Nat
  blockSize : Nat
deriving DecidableEq, Repr

/-- DynamicSizePool.hpp:38-58 and `base_pointer_map` of AlignedAllocation.hpp:47. -/
structure State where
  used : List Blk
  free : List Blk
  /-- `base_pointer_map`: aligned address ↦ (parent pointer, total bytes) -/
  baseMap : List (Nat × Nat × Nat)
  alignedBytes : Nat
  alignedHwm : Nat
  actualBytes : Nat
  actualHwm : Nat
  releasableBlocks : Nat
  totalBlocks : Nat
deriving DecidableEq, Repr

/-- Constructor arguments (DynamicPoolList.cpp:17-26) except the heuristic, which
is an argument of the operations that consult it. -/
structure Cfg where
  align : Nat
  first : Nat
  next : Nat

/-- A pool as constructed. -/
def init : State :=
  { used := [], free := [], baseMap := [], alignedBytes := 0, alignedHwm := 0, actualBytes := 0,
    actualHwm := 0, releasableBlocks := 0, totalBlocks := 0 }

/-- A position in a list of blocks: what is before it, the block, what is after it. -/
abbrev Pos := List Blk × Blk × List Blk

/-- The test of DynamicSizePool.hpp:65. -/
def better (size : Nat) (b : Blk) (best : Option Pos) : Bool :=
  decide (b.size ≥ size) && match best with
    | none => true
    | some x => decide (b.size < x.2.1.size)

/-- `findUsableBlock` (DynamicSizePool.hpp:61-73): the loop, with the best block
so far, the part of the list already seen, and the part still to see. -/
def findLoop (size : Nat) : Option Pos → List Blk → List Blk → Option Pos
  | best, _, [] => best
  | best, seen, b :: bs =>
    if better size b best then
      if b.size = size then some (seen, b, bs)
      else findLoop size (some (seen, b, bs)) (seen ++ [b]) bs
    else findLoop size best (seen ++ [b]) bs

/-- `aligned_deallocate` (AlignedAllocation.inl:40-47).  A pointer missing from
`base_pointer_map` would be looked up as `(nullptr, 0)`; freeing that is `ub`. -/
def alignedDealloc (s : State) (ptr : Nat) (k : State → Prog State) : Prog State :=
  match s.baseMap.find? (fun e => e.1 = ptr) with
  | none => .fail .ub
  | some e => .dealloc e.2.1 e.2.2 (k { s with baseMap := s.baseMap.filter fun e => e.1 ≠ ptr })

/-- `freeReleasedBlocks` (DynamicSizePool.hpp:212-269): the loop over the free
list; `kept` are the blocks already passed and kept, the list is what follows. -/
def freeLoop : List Blk → List Blk → State → Prog State
  | kept, [], s => .ret { s with free := kept }
  | kept, b :: bs, s =>
    if b.size = b.blockSize then                                -- 227
      let s := { s with
        actualBytes := s.actualBytes - b.size                   -- 230-232
        releasableBlocks := s.releasableBlocks - 1
        totalBlocks := s.totalBlocks - 1 }
      alignedDealloc s b.data fun s =>                          -- 236
        freeLoop kept bs { s with free := kept ++ bs }          -- 249-254
    else freeLoop (kept ++ [b]) bs s                            -- 256

/-- `freeReleasedBlocks` (DynamicSizePool.hpp:212-269). -/
def freeReleased (s : State) : Prog State := freeLoop [] s.free s

/-- `getFreeBlocks` (DynamicSizePool.hpp:425-432). -/
def getFreeBlocks (s : State) : Nat := (s.free.filter fun b => b.size = b.blockSize).length

/-- Size of a new block (DynamicSizePool.hpp:78-81). -/
def growSize (cfg : Cfg) (s : State) (size : Nat) : Nat :=
  if s.free = [] ∧ s.used = [] then max size cfg.first else max size cfg.next

/-- `allocateBlock` after the memory has been obtained (DynamicSizePool.hpp:111-138
and AlignedAllocation.inl:30-37): the new state and the position of the new block. -/
def addBlock (cfg : Cfg) (s : State) (size p : Nat) : Pos × State :=
  let aligned := alignPtr cfg.align p
  let b : Blk := ⟨aligned, size, size⟩
  let before := s.free.takeWhile fun x => x.data < aligned       -- 124-126
  let after := s.free.dropWhile fun x => x.data < aligned
  ((before, b, after), { s with
    baseMap := (aligned, p, w64 (size + cfg.align)) :: s.baseMap.filter (fun e => e.1 ≠ aligned)
    actualBytes := s.actualBytes + size                            -- 111-114
    actualHwm := max (s.actualBytes + size) s.actualHwm
    releasableBlocks := s.releasableBlocks + 1
    totalBlocks := s.totalBlocks + 1
    free := before ++ b :: after })                                -- 128-138

/-- `splitBlock` (DynamicSizePool.hpp:141-169) and the rest of `allocate`
(321-331): use the block at the given position for `size` bytes. -/
def takeBlock (s : State) (pos : Pos) (size : Nat) : Nat × State :=
  let b := pos.2.1
  let rest : List Blk :=
    if b.size = size then [] else [⟨b.data + size, b.size - size, 0⟩]     -- 148-162
  (b.data, { s with
    releasableBlocks := if b.size = b.blockSize then s.releasableBlocks - 1 else s.releasableBlocks  -- 145-146
    free := pos.1 ++ rest ++ pos.2.2                                       -- 164-167
    used := { b with size := size } :: s.used                              -- 322-323
    alignedBytes := s.alignedBytes + size                                  -- 325
    alignedHwm := max (s.alignedBytes + size) s.alignedHwm })              -- 326-328

/-- `allocate` (DynamicSizePool.hpp:304-332) with `allocateBlock` (76-139).
`none` means the exception of the parent reached the caller. -/
def allocate (cfg : Cfg) (s : State) (bytes : Nat) : Prog (Option Nat × State) :=
  let rounded := roundUp64 cfg.align bytes                            -- 307
  match findLoop rounded none [] s.free with                          -- 310
  | some pos =>
    let (r, s) := takeBlock s pos rounded
    .ret (some r, s)
  | none =>
    let size := growSize cfg s rounded                                -- 78-81
    let got (s : State) (p : Nat) : Option Nat × State :=
      let (pos, s) := addBlock cfg s size p
      let (r, s) := takeBlock s pos rounded
      (some r, s)
    .alloc (w64 (size + cfg.align)) fun                               -- 97
      | some p => .ret (got s p)
      | none => (freeReleased s).bind fun s =>                        -- 102
          .alloc (w64 (size + cfg.align)) fun                         -- 104
            | some p => .ret (got s p)
            | none => .ret (none, s)                                  -- 108

/-- Second half of `releaseBlock` (DynamicSizePool.hpp:198-206): link `cur` before
`after`, merging it with the first block there if that continues it and is not
the beginning of a block. -/
def mergeAfter (cur : Blk) : List Blk → Blk × List Blk
  | [] => (cur, [])
  | n :: r =>
    if cur.data + cur.size = n.data ∧ n.blockSize = 0 then
      ({ cur with size := cur.size + n.size }, r)
    else (cur, n :: r)

/-- `releaseBlock` on the free list (DynamicSizePool.hpp:180-206): the part of the
new list before the freed block, that block after merging, and the rest. -/
def insertFree (cur : Blk) (free : List Blk) : Pos :=
  let before := free.takeWhile fun x => x.data < cur.data       -- 180-182
  let after := free.dropWhile fun x => x.data < cur.data
  match before.getLast? with
  | some p =>
    if p.data + p.size = cur.data ∧ cur.blockSize = 0 then       -- 188-191
      let m := mergeAfter { p with size := p.size + cur.size } after
      (before.dropLast, m.1, m.2)
    else let m := mergeAfter cur after; (before, m.1, m.2)
  | none => let m := mergeAfter cur after; (before, m.1, m.2)

/-- `deallocate` (DynamicSizePool.hpp:334-352).  A pointer that is not in use is
ignored. -/
def deallocCore (s : State) (ptr : Nat) : State :=
  match s.used.find? (fun b => b.data = ptr) with                -- 339-343
  | none => s
  | some cur =>
    let m := insertFree cur s.free
    { s with
      alignedBytes := s.alignedBytes - cur.size                  -- 345
      used := s.used.eraseP (fun b => b.data = ptr)              -- 175-178
      free := m.1 ++ m.2.1 :: m.2.2
      releasableBlocks :=                                        -- 208-209
        if m.2.1.size = m.2.1.blockSize then s.releasableBlocks + 1 else s.releasableBlocks }

/-- `coalesce(suggested_size)` (DynamicSizePool.hpp:442-454) with
`coalesceFreeBlocks` (271-278).  The Boolean is false when an exception leaves
the function. -/
def coalesceTo (cfg : Cfg) (s : State) (suggested : Nat) : Prog (Bool × State) :=
  if 1 < getFreeBlocks s then                                    -- 444
    (freeReleased s).bind fun s =>                               -- 445
      if s.actualBytes < suggested then                          -- 448
        (freeReleased s).bind fun s' =>                          -- 275
          (allocate cfg s' (suggested - s.actualBytes)).bind fun -- 276
            | (none, s) => .ret (false, s)
            | (some p, s) => .ret (true, deallocCore s p)        -- 277
      else .ret (true, s)
  else .ret (true, s)

/-- `DynamicPoolList::deallocate` (DynamicPoolList.cpp:36-49); `heur` is
`m_should_coalesce`, an arbitrary function.  The Boolean is false when an
exception leaves the function. -/
def deallocate (cfg : Cfg) (heur : State → Nat) (s : State) (ptr : Nat) : Prog (Bool × State) :=
  let s := deallocCore s ptr
  if heur s ≠ 0 then coalesceTo cfg s (heur s) else .ret (true, s)

/-- `DynamicPoolList::coalesce` (DynamicPoolList.cpp:125-137), `noexcept`: an
exception ends in `std::terminate`. -/
def coalesce (cfg : Cfg) (heur : State → Nat) (s : State) : Prog State :=
  if heur s ≠ 0 then
    (coalesceTo cfg s (heur s)).bind fun
      | (true, s) => .ret s
      | (false, _) => .fail .abort
  else .ret s

/-- `DynamicPoolList::release` (DynamicPoolList.cpp:51-55, DynamicSizePool.hpp:354-358). -/
def release (s : State) : Prog State := freeReleased s

/-! Observers -/

/-- DynamicSizePool.hpp:360-363. -/
def getReleasableBlocks (s : State) : Nat := s.releasableBlocks
/-- DynamicSizePool.hpp:365-368. -/
def getTotalBlocks (s : State) : Nat := s.totalBlocks
/-- DynamicSizePool.hpp:370-373. -/
def getActualSize (s : State) : Nat := s.actualBytes
/-- DynamicSizePool.hpp:375-378. -/
def getActualHighwaterMark (s : State) : Nat := s.actualHwm
/-- DynamicSizePool.hpp:380-383. -/
def getAlignedSize (s : State) : Nat := s.alignedBytes
/-- DynamicSizePool.hpp:385-388. -/
def getAlignedHighwaterMark (s : State) : Nat := s.alignedHwm
/-- DynamicSizePool.hpp:390-403. -/
def getBlocksInPool (s : State) : Nat := s.used.length + s.free.length
/-- DynamicSizePool.hpp:405-412. -/
def getLargestAvailableBlock (s : State) : Nat :=
  s.free.foldl (fun m b => if b.size > m then b.size else m) 0
/-- DynamicSizePool.hpp:414-423. -/
def getReleasableSize (s : State) : Nat :=
  s.free.foldl (fun m b => if b.size = b.blockSize then m + b.blockSize else m) 0
/-- DynamicSizePool.hpp:434-440. -/
def getInUseBlocks (s : State) : Nat := s.used.length

end Umpire.DynPool
