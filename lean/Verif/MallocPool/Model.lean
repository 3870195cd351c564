import Verif.Base.Prog
import Verif.Base.Mem
/-!
# Model of `util::FixedMallocPool` (src/umpire/util/FixedMallocPool.{hpp,cpp})

The parent is `malloc`; a refused request is a null result.  The free list lives
in the free objects themselves, so memory contents are modelled: `mem` is the
memory of the process.

Simplifications: address arithmetic on naturals; `unsigned int` has 4 bytes and
`std::size_t` 8; alignment of objects is not checked; the debug assertions are
not modelled.
-/
set_option autoImplicit false
namespace Umpire.MallocPool
open Umpire.Prog

/-- `m_obj_bytes`, `m_obj_per_pool` (FixedMallocPool.hpp:63-64). -/
structure Cfg where
  obj : Nat
  per : Nat

/-- `m_data_bytes` (FixedMallocPool.cpp:43), and the size passed to `malloc` (35). -/
def Cfg.data (cfg : Cfg) : Nat := w64 (cfg.obj * cfg.per)

/-- `FixedMallocPool::Pool` (FixedMallocPool.hpp:46-52); null pointers are 0. -/
structure Pool where
  data : Nat
  next : Nat
  numInit : Nat
  numFree : Nat
deriving DecidableEq, Repr

structure State where
  mem : Mem
  pools : List Pool

/-- `Pool::Pool` (FixedMallocPool.cpp:34-40). -/
def mkPool (cfg : Cfg) (d : Nat) : Pool := { data := d, next := d, numInit := 0, numFree := cfg.per }

/-- The constructor (FixedMallocPool.cpp:42-46); `mem` is the memory as found. -/
def create (cfg : Cfg) (mem : Mem) : Prog State :=
  .alloc cfg.data fun r => .ret { mem := mem, pools := [mkPool cfg (r.getD 0)] }

/-- Is an access of `n` bytes at `a` inside the block of the pool? -/
def okAccess (cfg : Cfg) (p : Pool) (a n : Nat) : Bool :=
  decide (p.data ≠ 0 ∧ p.data ≤ a ∧ a + n ≤ p.data + cfg.data)

/-- `addr_from_index` (FixedMallocPool.cpp:24-27). -/
def addrOf (cfg : Cfg) (p : Pool) (i : Nat) : Nat := p.data + i * cfg.obj

/-- The lazy initialisation in `allocInPool` (FixedMallocPool.cpp:61-65); `none` is
an invalid access.  `num_initialized` is an `unsigned int`. -/
def initOne (cfg : Cfg) (m : Mem) (p : Pool) : Option (Mem × Pool) :=
  if p.numInit < cfg.per then
    if okAccess cfg p (addrOf cfg p p.numInit) 4 then
      some (m.wr (addrOf cfg p p.numInit) 4 (p.numInit + 1), { p with numInit := (p.numInit + 1) % 2 ^ 32 })
    else none
  else some (m, p)

/-- `allocInPool` (FixedMallocPool.cpp:59-75); the result 0 is `nullptr`. -/
def allocInPool (cfg : Cfg) (m : Mem) (p : Pool) : Option (Nat × Mem × Pool) :=
  match initOne cfg m p with
  | none => none
  | some (m, p) =>
    if p.numFree > 0 then                                                       -- 68
      if p.numFree - 1 ≠ 0 then                                                 -- 71
        if okAccess cfg p p.next 4 then
          some (p.next, m, { p with numFree := p.numFree - 1, next := addrOf cfg p (m.rd p.next 4) })
        else none
      else some (p.next, m, { p with numFree := p.numFree - 1, next := 0 })
    else some (0, m, p)

/-- The loop of `allocate_impl` (FixedMallocPool.cpp:81-85) over the pools in the
order given. -/
def allocLoop (cfg : Cfg) (m : Mem) : List Pool → Option (Nat × Mem × List Pool)
  | [] => some (0, m, [])
  | p :: ps =>
    match allocInPool cfg m p with
    | none => none
    | some (ptr, m, p') =>
      if ptr ≠ 0 then some (ptr, m, p' :: ps)
      else
        match allocLoop cfg m ps with
        | none => none
        | some (ptr, m, ps') => some (ptr, m, p' :: ps')

/-- `allocate` and `allocate_impl` (FixedMallocPool.cpp:77-103), which calls itself
after adding a pool; `fuel` bounds the depth. -/
def allocate (cfg : Cfg) : Nat → State → Prog (Nat × State)
  | 0, _ => .fail .diverge
  | fuel + 1, s =>
    match allocLoop cfg s.mem s.pools.reverse with
    | none => .fail .ub
    | some (ptr, m, ps) =>
      if ptr ≠ 0 then .ret (ptr, { mem := m, pools := ps.reverse })
      else .alloc cfg.data fun r =>                                             -- 88
        allocate cfg fuel { mem := m, pools := ps.reverse ++ [mkPool cfg (r.getD 0)] }

/-- The test whether a pointer belongs to a pool (FixedMallocPool.cpp:109-110). -/
def inPool (cfg : Cfg) (p : Pool) (ptr : Nat) : Bool := decide (p.data ≤ ptr ∧ ptr - p.data < cfg.data)

/-- `deallocate` in the pool found (FixedMallocPool.cpp:111-118); `none` is an
invalid access. -/
def freeIn (cfg : Cfg) (m : Mem) (p : Pool) (ptr : Nat) : Option (Mem × Pool) :=
  if p.next ≠ 0 then
    if okAccess cfg p ptr 4 then
      some (m.wr ptr 4 ((p.next - p.data) / cfg.obj), { p with next := ptr, numFree := p.numFree + 1 })
    else none
  else
    if okAccess cfg p ptr 8 then
      some (m.wr ptr 8 cfg.per, { p with next := ptr, numFree := p.numFree + 1 })
    else none

/-- The loop of `deallocate` (FixedMallocPool.cpp:107-121).  `none`: no pool
contains the pointer.  `some none`: invalid access. -/
def deallocLoop (cfg : Cfg) (m : Mem) (ptr : Nat) : List Pool → Option (Option (Mem × List Pool))
  | [] => none
  | p :: ps =>
    if inPool cfg p ptr then some ((freeIn cfg m p ptr).map fun r => (r.1, r.2 :: ps))
    else (deallocLoop cfg m ptr ps).map (·.map fun r => (r.1, p :: r.2))

/-- `deallocate` (FixedMallocPool.cpp:105-124).  The Boolean is false when the
function throws. -/
def deallocate (cfg : Cfg) (s : State) (ptr : Nat) : Prog (Bool × State) :=
  match deallocLoop cfg s.mem ptr s.pools with
  | none => .ret (false, s)
  | some none => .fail .ub
  | some (some (m, ps)) => .ret (true, { mem := m, pools := ps })

/-- The destructor (FixedMallocPool.cpp:48-52). -/
def destroy (cfg : Cfg) : List Pool → Prog Unit
  | [] => .ret ()
  | p :: ps => .dealloc p.data cfg.data (destroy cfg ps)

/-- FixedMallocPool.cpp:126-129. -/
def numPools (s : State) : Nat := s.pools.length

end Umpire.MallocPool
