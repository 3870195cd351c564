import Verif.Base.Prog
import Verif.Base.Bits
/-!
# Model of `FixedSizePool` (src/umpire/strategy/FixedSizePool.hpp)

The pool from which `DynamicSizePool` takes its list nodes
(DynamicSizePool.hpp:21-22, 56).  Both allocators are `malloc` there
(StdAllocator.hpp:13-30); a refused request is a null result, which this class
never tests for.

Simplifications: sizes and addresses are natural numbers (`NP` and `sizeof(T)` are
compile time constants, the products do not overflow); a null pointer is 0; the
counters do not wrap; a header is 32 bytes and `NP` words; the message printed by
debug builds (131-135) is not modelled.
-/
set_option autoImplicit false
namespace Umpire.BlockPool
open Umpire.Prog

/-- `sizeof(T)` and `NP` (FixedSizePool.hpp:25). -/
structure Cfg where
  sz : Nat
  np : Nat

/-- `numPerPool` (FixedSizePool.hpp:81). -/
def Cfg.per (c : Cfg) : Nat := c.np * 32
/-- The first request of `newPool` (FixedSizePool.hpp:43). -/
def Cfg.hdr (c : Cfg) : Nat := 32 + c.np * 4
/-- The second request of `newPool` (FixedSizePool.hpp:47). -/
def Cfg.data (c : Cfg) : Nat := c.per * c.sz
/-- `totalPoolSize` (FixedSizePool.hpp:82). -/
def Cfg.total (c : Cfg) : Nat := 32 + c.per * c.sz + c.np * 4

/-- `FixedSizePool::Pool` (FixedSizePool.hpp:28-33), with its own address. -/
structure Pool where
  hdr : Nat
  data : Nat
  avail : List Nat
  numAvail : Nat
deriving DecidableEq, Repr

/-- `pool`, the list linked through `next`, and `numBlocks` (FixedSizePool.hpp:35-39). -/
structure State where
  pools : List Pool
  numBlocks : Nat
deriving DecidableEq, Repr

/-- What `newPool` fills in (FixedSizePool.hpp:44-50). -/
def mkPool (c : Cfg) (h d : Nat) : Pool :=
  { hdr := h, data := d, avail := List.replicate c.np (2 ^ 32 - 1), numAvail := c.per }

/-- `newPool` (FixedSizePool.hpp:41-53): writes through a null header, keeps a null
data pointer. -/
def newPool {α : Type} (c : Cfg) (k : Pool → Prog α) : Prog α :=
  .alloc c.hdr fun
    | none => .fail .ub                                                         -- 44
    | some h => .alloc c.data fun r => k (mkPool c h (r.getD 0))                -- 47

/-- The constructor (FixedSizePool.hpp:80-86). -/
def create (c : Cfg) : Prog State := newPool c fun p => .ret { pools := [p], numBlocks := 0 }

/-- The loop of `allocInPool` (FixedSizePool.hpp:60-68) from word `i` on. -/
def scan : Nat → List Nat → Option (Nat × List Nat)
  | _, [] => none
  | i, w :: ws =>
    match ffs w with
    | 0 => (scan (i + 1) ws).map fun r => (r.1, w :: r.2)
    | b + 1 => some (i * 32 + b, flipBit w b :: ws)

/-- `allocInPool` (FixedSizePool.hpp:55-71): the pointer returned, and the pool after. -/
def allocInPool (c : Cfg) (p : Pool) : Nat × Pool :=
  if p.numAvail = 0 then (0, p)                                                 -- 57
  else
    match scan 0 p.avail with
    | some (entry, ws) => (p.data + c.sz * entry, { p with avail := ws, numAvail := p.numAvail - 1 })
    | none => (0, p)                                                            -- 70

/-- The loop of `allocate` (FixedSizePool.hpp:104-108). -/
def allocLoop (c : Cfg) : List Pool → Nat × List Pool
  | [] => (0, [])
  | p :: ps =>
    if (allocInPool c p).1 ≠ 0 then ((allocInPool c p).1, (allocInPool c p).2 :: ps)
    else ((allocLoop c ps).1, (allocInPool c p).2 :: (allocLoop c ps).2)

/-- `allocate` (FixedSizePool.hpp:98-118), which calls itself after adding a pool at
the end of the list; `fuel` bounds the depth. -/
def allocate (c : Cfg) : Nat → State → Prog (Nat × State)
  | 0, _ => .fail .diverge
  | fuel + 1, s =>
    if (allocLoop c s.pools).1 ≠ 0 then
      .ret ((allocLoop c s.pools).1, { pools := (allocLoop c s.pools).2, numBlocks := s.numBlocks + 1 })   -- 115
    else
      newPool c fun p => allocate c fuel { s with pools := (allocLoop c s.pools).2 ++ [p] }                -- 111-112

/-- The test whether a pointer belongs to a pool (FixedSizePool.hpp:123-125). -/
def inPool (c : Cfg) (p : Pool) (ptr : Nat) : Bool := decide (p.data ≤ ptr ∧ ptr < p.data + c.data)

/-- The loop of `deallocate` (FixedSizePool.hpp:122-142); `none`: no pool contains
the pointer. -/
def deallocLoop (c : Cfg) (ptr : Nat) : List Pool → Option (List Pool)
  | [] => none
  | p :: ps =>
    if inPool c p ptr then
      some ({ p with avail := flipAt p.avail ((ptr - p.data) / c.sz / 32) ((ptr - p.data) / c.sz % 32),   -- 127-137
                     numAvail := p.numAvail + 1 } :: ps)                                                  -- 138
    else (deallocLoop c ptr ps).map (p :: ·)

/-- `deallocate` (FixedSizePool.hpp:120-145).  The Boolean is false when the function
throws. -/
def deallocate (c : Cfg) (s : State) (ptr : Nat) : Bool × State :=
  match deallocLoop c ptr s.pools with
  | none => (false, s)                                                          -- 144
  | some ps => (true, { pools := ps, numBlocks := s.numBlocks - 1 })            -- 139

/-- The destructor (FixedSizePool.hpp:88-96).  `free(NULL)` does nothing; otherwise
`free` takes no size, the size given here is the one requested. -/
def destroy (c : Cfg) : List Pool → Prog Unit
  | [] => .ret ()
  | p :: ps =>
    if p.data = 0 then .dealloc p.hdr c.hdr (destroy c ps)
    else .dealloc p.data c.data (.dealloc p.hdr c.hdr (destroy c ps))

/-! Observers -/

/-- FixedSizePool.hpp:148-151. -/
def getCurrentSize (c : Cfg) (s : State) : Nat := s.numBlocks * c.sz
/-- FixedSizePool.hpp:160-166. -/
def numPools (s : State) : Nat := s.pools.length
/-- FixedSizePool.hpp:154-157. -/
def getActualSize (c : Cfg) (s : State) : Nat := numPools s * c.total

end Umpire.BlockPool
