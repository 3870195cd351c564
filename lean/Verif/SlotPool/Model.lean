import Verif.Base.Prog
/-!
# Model of `SlotPool` (src/umpire/strategy/SlotPool.{hpp,cpp})

The two arrays `m_pointers` and `m_lengths` are one list of slots.  Null pointers
are 0.  Lengths are `int64_t`; they stay in range because requests of 2^63 bytes
and more are rejected, so they are modelled as unbounded integers.
`m_current_size` and `m_highwatermark` are never used by the code.
-/
set_option autoImplicit false
namespace Umpire.SlotPool
open Umpire.Prog

/-- One entry of `m_pointers` and `m_lengths` (SlotPool.hpp:35-36). -/
structure Slot where
  ptr : Nat
  len : Int
deriving DecidableEq, Repr

abbrev State := List Slot

/-- The constructor (SlotPool.cpp:16-32). -/
def create (slots : Nat) : State := List.replicate slots ⟨0, 0⟩

/-- The loop of `allocate` (SlotPool.cpp:57-68).  `none`: the parent threw, after
the length was stored (63-64).  `some 0` is the null pointer. -/
def allocLoop (n : Nat) : State → Prog (Option Nat × State)
  | [] => .ret (some 0, [])
  | s :: ss =>
    if s.len = n then .ret (some s.ptr, { s with len := -s.len } :: ss)                  -- 58-61
    else if s.len = 0 then                                                                -- 62-66
      .alloc n fun
        | some p => .ret (some p, ⟨p, -n⟩ :: ss)
        | none => .ret (none, { s with len := -n } :: ss)
    else (allocLoop n ss).bind fun r => .ret (r.1, s :: r.2)

/-- `allocate` (SlotPool.cpp:48-72).  `none`: an exception is thrown. -/
def allocate (s : State) (n : Nat) : Prog (Option Nat × State) :=
  if 2 ^ 63 ≤ n then .ret (none, s)                                                       -- 53-55
  else allocLoop n s

/-- `deallocate` (SlotPool.cpp:74-84).  Unknown pointers are ignored. -/
def deallocate (p : Nat) : State → State
  | [] => []
  | s :: ss => if s.ptr = p then { s with len := -s.len } :: ss else s :: deallocate p ss

/-- Conversion of an `int64_t` to `size_t`. -/
def toSize (i : Int) : Nat := (i % (W : Int)).toNat

/-- The destructor (SlotPool.cpp:34-46). -/
def destroy : State → Prog Unit
  | [] => .ret ()
  | s :: ss => if s.ptr ≠ 0 then .dealloc s.ptr (toSize s.len) (destroy ss) else destroy ss

end Umpire.SlotPool
