import Verif.Threads.Model
/-!
# What threads that share the facade may do, and what they may expect

Each allocation is owned by one thread, or is in the box on its way from one thread to
another.  `Pre` says which calls a thread may make: about memory it owns (addresses
inside an allocation and wrong allocators included), about any address with
`hasAllocator`.  `Fits` says which results are right, in terms of what the calling thread
owns; the other threads do not occur in it.
-/
set_option autoImplicit false
namespace Umpire.Thr
open Umpire.Judy Umpire.Mgr

/-- The number of bytes `copy` and `memset` are asked for, 0 standing for all that are left. -/
def upTo (n : Nat) (r : Rec) (p : Nat) : Nat := if n = 0 then r.size - (p - r.ptr) else n

/-- An allocation of `n` bytes from `s` is one that the strategy can handle; allocations of no
bytes are made in the zero-byte pool. -/
def Asked (tk : Nat → Nat → Prop) (s n : Nat) : Prop := if n = 0 then tk zero 1 else tk s n

/-- No limit on sizes. -/
def anySize (_ _ : Nat) : Prop := True

/-- The calls allowed to the owner of `own`.  `::realloc` on memory of `HOST` is left out.
`tk s n`: strategy `s` can handle a request of `n` bytes. -/
def Pre (c : Cfg) (tk : Nat → Nat → Prop) (own : List Rec) : Call → Prop
  | .alloc s n => s ≠ zero ∧ c.tracked s = true ∧ Asked tk s n
  | .free s p => c.tracked s = true ∧ (p = 0 ∨ ∃ r ∈ own, Contains r p)
  | .freeAny p => ∃ r ∈ own, Contains r p
  | .size p => ∃ r ∈ own, Contains r p
  | .owner p => ∃ r ∈ own, Contains r p
  | .has p => p < 2 ^ 64
  | .copy d s n => ∃ rd ∈ own, ∃ rs ∈ own, Contains rd d ∧ Contains rs s ∧
      (upTo n rs s ≤ rd.size - (d - rd.ptr) → s + upTo n rs s ≤ rs.ptr + rs.size ∧ (upTo n rs s = 0 ∨ Disj d (upTo n rs s) s (upTo n rs s)))
  | .memset p _ _ => ∃ r ∈ own, Contains r p
  | .realloc dflt p n => (p = 0 ∧ dflt ≠ zero ∧ c.tracked dflt = true ∧ Asked tk dflt n) ∨
      ∃ r ∈ own, r.ptr = p ∧ (r.tag = c.host → n = 0 ∨ r.size = 0) ∧ Asked tk r.tag n
  | .move p s => s ≠ zero ∧ c.tracked s = true ∧ ∃ r ∈ own, r.ptr = p ∧ (r.tag ≠ s → Asked tk s r.size)

/-- The results allowed. -/
def Fits (own : List Rec) : Call → Option Nat → Prop
  | .alloc _ _, o => o ≠ some 0
  | .free s p, o => o.isSome = true ↔ p = 0 ∨ ∃ r ∈ own, r.ptr = p ∧ r.tag = s
  | .freeAny p, o => o.isSome = true ↔ ∃ r ∈ own, r.ptr = p
  | .size p, o => ∀ r ∈ own, Contains r p → o = some r.size ∨ (o = none ∧ r.ptr ≠ p)
  | .owner p, o => ∀ r ∈ own, Contains r p → o = some r.tag ∨ (o = none ∧ r.ptr ≠ p)
  | .has p, o => (o = some 0 ∨ o = some 1) ∧ ∀ r ∈ own, r.ptr = p → o = some 1
  | .copy d s n, o => ∀ rd ∈ own, ∀ rs ∈ own, Contains rd d → Contains rs s →
      (o.isSome = true → upTo n rs s ≤ rd.size - (d - rd.ptr)) ∧ (o = none → upTo n rs s ≤ rd.size - (d - rd.ptr) → rd.ptr ≠ d ∨ rs.ptr ≠ s)
  | .memset p _ n, o => ∀ r ∈ own, Contains r p →
      (o.isSome = true → upTo n r p ≤ r.size - (p - r.ptr)) ∧ (o = none → upTo n r p ≤ r.size - (p - r.ptr) → r.ptr ≠ p)
  | .realloc _ _ _, o => o ≠ some 0
  | .move p s, o => o ≠ some 0 ∧ ∀ r ∈ own, r.ptr = p → r.tag = s → o = some p

/-- The address of the allocation that a call may give up. -/
def target : Call → Nat
  | .free _ p => p
  | .freeAny p => p
  | .realloc _ p _ => p
  | .move p _ => p
  | _ => 0

end Umpire.Thr
