import Verif.Base.Arith
/-!
# Model of `QuickPool`

src/umpire/strategy/QuickPool.hpp and QuickPool.cpp, together with the mixin
src/umpire/strategy/mixins/AlignedAllocation.{hpp,inl}.

Representation.  A `Chunk` (QuickPool.hpp:141-153) is identified by an `id`
(its address in `m_chunk_pool`).  The doubly linked list through `prev`/`next`
is represented by the list of the chunks in link order, one list per block
obtained from the parent.  `size_map_it` (an iterator to the chunk's own entry
in `m_size_map`) is represented by searching the entry with the chunk's id.
Logging, event recording, backtraces and ASan poisoning have no effect on the
state and are left out.
-/
set_option autoImplicit false
set_option linter.unusedSimpArgs false
namespace Umpire.QuickPool
open Umpire

/-- QuickPool.hpp:141-153. -/
structure Chunk where
  id : Nat
  data : Nat
  size : Nat
  chunkSize : Nat
  free : Bool
deriving DecidableEq, Repr

/-- QuickPool.hpp:155-172 and `base_pointer_map` of AlignedAllocation.hpp:47. -/
structure State where
  /-- chunks, grouped by parent block, in link order -/
  blocks : List (List Chunk)
  /-- `m_size_map`: (size, chunk), ascending, equal sizes in insertion order -/
  sizeMap : List (Nat × Nat)
  /-- `m_pointer_map`: address ↦ chunk -/
  ptrMap : List (Nat × Nat)
  /-- `base_pointer_map`: aligned address ↦ (parent pointer, total bytes) -/
  baseMap : List (Nat × Nat × Nat)
  nextId : Nat
  totalBlocks : Nat
  releasableBlocks : Nat
  alignedBytes : Nat
  alignedHwm : Nat
  actualBytes : Nat
  releasableBytes : Nat
  actualHwm : Nat
deriving DecidableEq, Repr

/-- Constructor arguments (QuickPool.cpp:19-34).  The heuristic is an arbitrary
function of the pool (`std::function<size_t(const QuickPool&)>`). -/
structure Cfg where
  align : Nat
  first : Nat
  next : Nat
  heur : State → Nat

/-- A pool as constructed: everything empty (QuickPool.hpp:155-172). -/
def init : State :=
  { blocks := [], sizeMap := [], ptrMap := [], baseMap := [], nextId := 0,
    totalBlocks := 0, releasableBlocks := 0, alignedBytes := 0, alignedHwm := 0,
    actualBytes := 0, releasableBytes := 0, actualHwm := 0 }

/-- Dereference of a `Chunk*`. -/
def findChunk (id : Nat) (bs : List (List Chunk)) : Option Chunk :=
  bs.flatten.find? fun c => c.id = id

/-- `std::multimap::insert`: at the upper bound of the range of equal keys. -/
def smInsert (k id : Nat) : List (Nat × Nat) → List (Nat × Nat)
  | [] => [(k, id)]
  | e :: es => if k < e.1 then (k, id) :: e :: es else e :: smInsert k id es

/-- `m_size_map.erase(chunk->size_map_it)`. -/
def smErase (id : Nat) (m : List (Nat × Nat)) : List (Nat × Nat) :=
  m.filter fun e => e.2 ≠ id

/-- `m_size_map.lower_bound(n)`: the first entry with key at least `n`. -/
def lowerBound (n : Nat) (m : List (Nat × Nat)) : Option (Nat × Nat) :=
  m.find? fun e => n ≤ e.1

/-- QuickPool.cpp:108-128 seen on the chunk list of one block: mark the chunk
used and, if it is larger than needed, link a free chunk with the rest behind
it. -/
def splitIn (id rounded newId : Nat) : List Chunk → List Chunk
  | [] => []
  | c :: cs =>
    if c.id = id then
      if rounded ≠ c.size then
        { c with size := rounded, free := false } ::
        { id := newId, data := c.data + rounded, size := c.size - rounded,
          chunkSize := c.chunkSize, free := true } :: cs
      else { c with free := false } :: cs
    else c :: splitIn id rounded newId cs

/-- QuickPool.cpp:100-136: use chunk `id` for an allocation of `rounded` bytes. -/
def useChunk (s : State) (c : Chunk) (rounded : Nat) : Nat × State :=
  let s := if c.size = c.chunkSize ∧ c.free = true then      -- 100-103
      { s with releasableBytes := s.releasableBytes - c.chunkSize,
               releasableBlocks := s.releasableBlocks - 1 }
    else s
  let s := { s with                                          -- 105-106 (insert keeps an old entry)
      ptrMap := if s.ptrMap.any (fun e => e.1 = c.data) then s.ptrMap else (c.data, c.id) :: s.ptrMap }
  let s := { s with                                          -- 108-128
      blocks := s.blocks.map (splitIn c.id rounded s.nextId)
      sizeMap := if rounded ≠ c.size then smInsert (c.size - rounded) s.nextId s.sizeMap else s.sizeMap
      nextId := s.nextId + 1 }
  let s := { s with alignedBytes := s.alignedBytes + rounded }   -- 130
  let s := { s with alignedHwm := max s.alignedBytes s.alignedHwm } -- 131-133
  (c.data, s)

/-- QuickPool.cpp:84-91 and AlignedAllocation.inl:30-37: account for a new block
of `size` usable bytes for which the parent returned `p`. -/
def newBlock (cfg : Cfg) (s : State) (size p : Nat) : Chunk × State :=
  let aligned := alignPtr cfg.align p
  let c : Chunk := { id := s.nextId, data := aligned, size := size, chunkSize := size, free := true }
  (c, { s with
    baseMap := (aligned, p, w64 (size + cfg.align)) :: s.baseMap.filter (fun e => e.1 ≠ aligned)
    actualBytes := s.actualBytes + size
    releasableBytes := s.releasableBytes + size
    releasableBlocks := s.releasableBlocks + 1
    totalBlocks := s.totalBlocks + 1
    actualHwm := max (s.actualBytes + size) s.actualHwm
    blocks := s.blocks ++ [[c]]
    nextId := s.nextId + 1 })

/-- `aligned_deallocate` (AlignedAllocation.inl:40-47).  A pointer missing from
`base_pointer_map` would be looked up as `(nullptr, 0)`; freeing that is `ub`. -/
def alignedDealloc (s : State) (ptr : Nat) (k : State → Prog State) : Prog State :=
  match s.baseMap.find? (fun e => e.1 = ptr) with
  | none => .fail .ub
  | some e => .dealloc e.2.1 e.2.2 (k { s with baseMap := s.baseMap.filter fun e => e.1 ≠ ptr })

/-- `release` (QuickPool.cpp:204-251): the loop over `m_size_map`, started with
all its entries. -/
def releaseLoop : List (Nat × Nat) → State → Prog State
  | [], s => .ret s
  | e :: es, s =>
    match findChunk e.2 s.blocks with
    | none => .fail .ub
    | some c =>
      if c.size = c.chunkSize ∧ c.free = true then            -- 215
        let s := { s with
          actualBytes := s.actualBytes - c.chunkSize            -- 218-221
          releasableBytes := s.releasableBytes - c.chunkSize
          releasableBlocks := s.releasableBlocks - 1
          totalBlocks := s.totalBlocks - 1 }
        alignedDealloc s c.data fun s =>                        -- 224
          releaseLoop es { s with                               -- 236-237
            blocks := (s.blocks.map (·.filter fun d => d.id ≠ c.id)).filter (!·.isEmpty)
            sizeMap := smErase e.2 s.sizeMap }
      else releaseLoop es s

/-- `QuickPool::release` (QuickPool.cpp:204-251). -/
def release (s : State) : Prog State := releaseLoop s.sizeMap s

/-- Size of the block requested when no free chunk fits (QuickPool.cpp:52-55). -/
def growSize (cfg : Cfg) (s : State) (rounded : Nat) : Nat :=
  let m := if s.actualBytes = 0 then cfg.first else cfg.next
  if rounded > m then rounded else m

/-- `QuickPool::allocate` (QuickPool.cpp:43-137).  `none` means the exception of
the parent reached the caller. -/
def allocate (cfg : Cfg) (s : State) (bytes : Nat) : Prog (Option Nat × State) :=
  let rounded := roundUp64 cfg.align bytes                       -- 46
  match lowerBound rounded s.sizeMap with                        -- 47
  | none =>
    let size := growSize cfg s rounded                           -- 52-55
    let got (s : State) (p : Nat) : Option Nat × State :=
      let (c, s) := newBlock cfg s size p
      let (r, s) := useChunk s c rounded
      (some r, s)
    .alloc (w64 (size + cfg.align)) fun                          -- 69
      | some p => .ret (got s p)
      | none => (release s).bind fun s =>                        -- 74
          .alloc (w64 (size + cfg.align)) fun                    -- 76
            | some p => .ret (got s p)
            | none => .ret (none, s)                             -- 80
  | some e =>
    match findChunk e.2 s.blocks with                            -- 93
    | none => .fail .ub
    | some c =>
      let (r, s) := useChunk { s with sizeMap := smErase e.2 s.sizeMap } c rounded
      .ret (some r, s)

/-- Result of returning a chunk to the free list of its block: the new chunk
list, the chunk that now holds the free range, and the chunks that disappeared
from the size map. -/
structure Merged where
  chunks : List Chunk
  final : Chunk
  erased : List Nat
deriving Repr

/-- QuickPool.cpp:170-184: merge with the following chunk if that is free. -/
def mergeNext (c : Chunk) : List Chunk → Merged
  | [] => ⟨[c], c, []⟩
  | n :: rest =>
    if n.free then ⟨{ c with size := c.size + n.size } :: rest, { c with size := c.size + n.size }, [n.id]⟩
    else ⟨c :: n :: rest, c, []⟩

/-- QuickPool.cpp:143-184 on the chunk list of one block: mark the chunk free,
merge with the previous chunk if that is free (151-168), then with the next
(170-184). -/
def freeIn (id : Nat) : List Chunk → Option Merged
  | [] => none
  | c :: cs =>
    if c.id = id then some (mergeNext { c with free := true } cs)
    else
      match cs with
      | [] => none
      | d :: rest =>
        if d.id = id ∧ c.free = true then
          let m := mergeNext { c with size := c.size + d.size } rest
          some { m with erased := c.id :: m.erased }
        else (freeIn id cs).map fun m => { m with chunks := c :: m.chunks }

/-- `freeIn` applied to the block that contains the chunk. -/
def freeInBlocks (id : Nat) : List (List Chunk) → Option (List (List Chunk) × Merged)
  | [] => none
  | b :: bs =>
    match freeIn id b with
    | some m => some (m.chunks :: bs, m)
    | none => (freeInBlocks id bs).map fun r => (b :: r.1, r.2)

/-- `QuickPool::deallocate` up to the heuristic (QuickPool.cpp:139-195).  `none`:
the pointer is not in `m_pointer_map`, so `end()` is dereferenced. -/
def deallocCore (s : State) (ptr : Nat) : Option State := do
  let e ← s.ptrMap.find? fun e => e.1 = ptr                       -- 142
  let c ← findChunk e.2 s.blocks
  let (bs, m) ← freeInBlocks e.2 s.blocks                         -- 143-184
  let whole := m.final.size = m.final.chunkSize                   -- 188
  return { s with
    alignedBytes := s.alignedBytes - c.size                       -- 145
    blocks := bs
    sizeMap := smInsert m.final.size m.final.id                   -- 155, 181, 193
      (s.sizeMap.filter fun e => e.2 ∉ m.erased)
    releasableBlocks := if whole then s.releasableBlocks + 1 else s.releasableBlocks   -- 188-191
    releasableBytes := if whole then s.releasableBytes + m.final.chunkSize else s.releasableBytes
    ptrMap := s.ptrMap.filter fun e => e.1 ≠ ptr }                -- 195

/-- `QuickPool::deallocate` with the coalescing routine as a parameter
(QuickPool.cpp:139-202). -/
def deallocWith (cfg : Cfg) (co : State → Nat → Prog State) (s : State) (ptr : Nat) : Prog State :=
  match deallocCore s ptr with
  | none => .fail .ub
  | some s => if cfg.heur s ≠ 0 then co s (cfg.heur s) else .ret s  -- 197-201

/-- `QuickPool::do_coalesce` (QuickPool.cpp:331-346).  The function is
`noexcept`, so an exception from `allocate` ends in `std::terminate`.  It calls
`deallocate`, which may call `do_coalesce` again: the recursion depth is
bounded by `fuel`, and exceeding it is the outcome `diverge`. -/
def doCoalesce (cfg : Cfg) : Nat → State → Nat → Prog State
  | 0, _, _ => .fail .diverge
  | fuel + 1, s, suggested =>
    if 1 < s.sizeMap.length then                                   -- 333
      (release s).bind fun s =>                                    -- 335
        if s.actualBytes < suggested then                          -- 338
          (allocate cfg s (suggested - s.actualBytes)).bind fun    -- 342
            | (none, _) => .fail .abort
            | (some p, s) => deallocWith cfg (doCoalesce cfg fuel) s p  -- 343
        else .ret s
    else .ret s

/-- `QuickPool::deallocate` (QuickPool.cpp:139-202). -/
def deallocate (cfg : Cfg) (fuel : Nat) (s : State) (ptr : Nat) : Prog State :=
  deallocWith cfg (doCoalesce cfg fuel) s ptr

/-- `QuickPool::coalesce` (QuickPool.cpp:316-329). -/
def coalesce (cfg : Cfg) (fuel : Nat) (s : State) : Prog State :=
  if cfg.heur s ≠ 0 then doCoalesce cfg fuel s (cfg.heur s) else .ret s

/-! Observers -/

/-- QuickPool.cpp:253-256. -/
def getReleasableBlocks (s : State) : Nat := s.releasableBlocks
/-- QuickPool.cpp:258-261. -/
def getTotalBlocks (s : State) : Nat := s.totalBlocks
/-- QuickPool.cpp:263-266. -/
def getActualSize (s : State) : Nat := s.actualBytes
/-- QuickPool.cpp:268-271. -/
def getReleasableSize (s : State) : Nat := s.releasableBytes
/-- QuickPool.cpp:273-276. -/
def getActualHighwaterMark (s : State) : Nat := s.actualHwm
/-- QuickPool.cpp:278-281. -/
def getAlignedSize (s : State) : Nat := s.alignedBytes
/-- QuickPool.cpp:283-286. -/
def getAlignedHighwaterMark (s : State) : Nat := s.alignedHwm
/-- QuickPool.cpp:303-306. -/
def getBlocksInPool (s : State) : Nat := s.ptrMap.length + s.sizeMap.length
/-- QuickPool.cpp:308-314: `rbegin()->first`, or 0. -/
def getLargestAvailableBlock (s : State) : Nat :=
  match s.sizeMap.getLast? with
  | none => 0
  | some e => e.1

end Umpire.QuickPool
