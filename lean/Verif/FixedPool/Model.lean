import Verif.Base.Prog
import Verif.Base.Bits
/-!
# Model of `FixedPool` (src/umpire/strategy/FixedPool.{hpp,cpp})

Simplifications: `malloc` of the bitmap always succeeds; addresses computed as
`data + obj * index` are natural numbers (no wraparound); the loop counters of
type `unsigned int` do not overflow (fewer than 2^32 words per bitmap); the debug
assertions (compiled out with `NDEBUG`) are not modelled.
-/
set_option autoImplicit false
namespace Umpire.FixedPool
open Umpire.Prog

/-- `m_obj_bytes`, `m_obj_per_pool` (FixedPool.hpp:80-81). -/
structure Cfg where
  obj : Nat
  per : Nat
deriving DecidableEq, Repr

/-- `m_data_bytes` (FixedPool.cpp:46), a 64-bit product. -/
def Cfg.data (cfg : Cfg) : Nat := w64 (cfg.obj * cfg.per)

/-- `m_avail_bytes`, in fact the number of words (FixedPool.cpp:47, 97). -/
def Cfg.words (cfg : Cfg) : Nat := cfg.per / 32 + 1

/-- `FixedPool::Pool` (FixedPool.hpp:67-74). -/
structure Pool where
  data : Nat
  avail : List Nat
  numAvail : Nat
deriving DecidableEq, Repr

/-- Members of `FixedPool` (FixedPool.hpp:80-87). -/
structure State where
  pools : List Pool
  current : Nat
  actual : Nat
  hwm : Nat
deriving DecidableEq, Repr

/-- `Pool::Pool` after the parent returned `d` (FixedPool.cpp:28-38): all bits 1. -/
def mkPool (cfg : Cfg) (d : Nat) : Pool :=
  { data := d, avail := List.replicate cfg.words (2 ^ 32 - 1), numAvail := cfg.per }

/-- `newPool` after the parent returned `d` (FixedPool.cpp:95-99). -/
def addPool (cfg : Cfg) (s : State) (d : Nat) : State :=
  { s with pools := s.pools ++ [mkPool cfg d], actual := s.actual + (cfg.words + cfg.data) }

/-- The constructor (FixedPool.cpp:40-54), `noexcept`. -/
def create (cfg : Cfg) : Prog State :=
  .alloc cfg.data fun
    | some d => .ret (addPool cfg { pools := [], current := 0, actual := 0, hwm := 0 } d)
    | none => .fail .abort

/-- The loop of `allocInPool` (FixedPool.cpp:106-118) from word `i` on: index of
the slot found, and the words with its bit flipped. -/
def scan (per : Nat) : Nat → List Nat → Option (Nat × List Nat)
  | _, [] => none
  | i, w :: ws =>
    match ffs w with
    | 0 => (scan per (i + 1) ws).map fun r => (r.1, w :: r.2)
    | b + 1 =>
      if i * 32 + b < per then some (i * 32 + b, flipBit w b :: ws)
      else (scan per (i + 1) ws).map fun r => (r.1, w :: r.2)

/-- `allocInPool` (FixedPool.cpp:101-122); `none` is `nullptr`. -/
def allocInPool (cfg : Cfg) (p : Pool) : Option (Nat × Pool) :=
  if p.numAvail = 0 then none
  else (scan cfg.per 0 p.avail).map fun r =>
    (p.data + cfg.obj * r.1, { p with avail := r.2, numAvail := p.numAvail - 1 })

/-- The loop of `allocate` (FixedPool.cpp:132-139) over the pools in the order
given. -/
def allocLoop (cfg : Cfg) : List Pool → Option (Nat × List Pool)
  | [] => none
  | p :: ps =>
    match allocInPool cfg p with
    | some (ptr, p') => some (ptr, p' :: ps)
    | none => (allocLoop cfg ps).map fun r => (r.1, p :: r.2)

/-- `allocate` (FixedPool.cpp:124-150), which calls itself after adding a pool;
`fuel` bounds the depth. -/
def allocate (cfg : Cfg) : Nat → State → Prog (Option Nat × State)
  | 0, _ => .fail .diverge
  | fuel + 1, s =>
    match allocLoop cfg s.pools.reverse with                       -- 132
    | some (ptr, ps) =>
      .ret (some ptr, { s with
        pools := ps.reverse
        current := s.current + cfg.obj                             -- 135-136
        hwm := max s.hwm (s.current + cfg.obj) })
    | none =>
      .alloc cfg.data fun                                          -- 142
        | some d => allocate cfg fuel (addPool cfg s d)            -- 143
        | none => .ret (none, s)

/-- The test whether a pointer belongs to a pool (FixedPool.cpp:156-157, 223-224). -/
def inPool (cfg : Cfg) (p : Pool) (ptr : Nat) : Bool := decide (p.data ≤ ptr ∧ ptr - p.data < cfg.data)

/-- The loop of `deallocate` (FixedPool.cpp:154-172).  `none`: no pool contains the
pointer.  `some none`: access outside the bitmap. -/
def deallocLoop (cfg : Cfg) (ptr : Nat) : List Pool → Option (Option (List Pool))
  | [] => none
  | p :: ps =>
    if inPool cfg p ptr then
      let i := (ptr - p.data) / cfg.obj                            -- 158
      if i / 32 < p.avail.length then
        some (some ({ p with avail := flipAt p.avail (i / 32) (i % 32),   -- 159-165
                             numAvail := p.numAvail + 1 } :: ps))         -- 166
      else some none
    else (deallocLoop cfg ptr ps).map (·.map (p :: ·))

/-- `deallocate` (FixedPool.cpp:152-175).  The Boolean is false when the function
throws. -/
def deallocate (cfg : Cfg) (s : State) (ptr : Nat) : Prog (Bool × State) :=
  match deallocLoop cfg ptr s.pools with
  | none => .ret (false, s)                                        -- 174
  | some none => .fail .ub
  | some (some ps) => .ret (true, { s with pools := ps, current := s.current - cfg.obj })

/-- The loop of `release` (FixedPool.cpp:179-184). -/
def freeFull (cfg : Cfg) : List Pool → Prog Unit
  | [] => .ret ()
  | p :: ps => if cfg.per = p.numAvail then .dealloc p.data cfg.data (freeFull cfg ps) else freeFull cfg ps

/-- `release` (FixedPool.cpp:177-187). -/
def release (cfg : Cfg) (s : State) : Prog State :=
  (freeFull cfg s.pools).bind fun _ =>
    .ret { s with pools := s.pools.filter fun p => cfg.per ≠ p.numAvail }

/-- The leak test of the destructor for one pool (FixedPool.cpp:61-69): some bit is 0. -/
def leaks (cfg : Cfg) (p : Pool) : Bool :=
  decide (cfg.per ≠ p.numAvail) && (List.range (cfg.words * 32)).any fun i => !bitAt p.avail i

/-- Hand back all pools (FixedPool.cpp:88-91). -/
def freeAll (cfg : Cfg) : List Pool → Prog Unit
  | [] => .ret ()
  | p :: ps => .dealloc p.data cfg.data (freeAll cfg ps)

/-- The destructor (FixedPool.cpp:56-93). -/
def destroy (cfg : Cfg) (s : State) : Prog Unit :=
  if s.pools.any (leaks cfg) then .ret () else freeAll cfg s.pools

/-! Observers -/

/-- FixedPool.cpp:189-192. -/
def getCurrentSize (s : State) : Nat := s.current
/-- FixedPool.cpp:194-197. -/
def getActualSize (s : State) : Nat := s.actual
/-- FixedPool.cpp:199-202. -/
def getHighWatermark (s : State) : Nat := s.hwm
/-- FixedPool.cpp:214-217. -/
def numPools (s : State) : Nat := s.pools.length
/-- FixedPool.cpp:219-230. -/
def pointerIsFromPool (cfg : Cfg) (s : State) (ptr : Nat) : Bool := s.pools.any (inPool cfg · ptr)

end Umpire.FixedPool
