import Verif.Manager.Hist
/-!
# The facade when strategies refuse to take memory back

`Verif.Manager` lets `deallocate` of a strategy always succeed.  It may throw:
`cudaFree` and its relatives may fail (src/umpire/alloc/CudaMallocAllocator.hpp:57-63 and
the like), constant memory must be handed back in reverse order
(src/umpire/resource/HipConstantMemoryResource.cpp:49-62), unmapping or removing a file
may fail (src/umpire/resource/FileMemoryResource.cpp:110-131), and a pool whose heuristic
asks for it coalesces at the end of `deallocate`, which hands blocks back and requests one
(src/umpire/strategy/QuickPool.cpp:186-190).  In the first two cases the memory is still
given out, in the last the pool has taken it and throws all the same.

This file models `Allocator::deallocate` and the operations of `ResourceManager` built on
it with such strategies.  What does not hand memory back is taken from `Verif.Manager`.
The zero-byte pool has no reason to throw: `FixedPool::deallocate` throws only for
pointers it does not know and never hands memory back
(src/umpire/strategy/FixedPool.cpp:156-180).
-/
set_option autoImplicit false
namespace Umpire.Refuse
open Umpire.Mgr Umpire.Judy

/-- A computation given by its outcomes: `run Pl w a w'` when it can end with `a` in `w'`,
`goes Pl w` when it can have undefined behaviour. -/
structure Comp (α : Type) where
  run : (Nat → Nat → Prop) → World → α → World → Prop
  goes : (Nat → Nat → Prop) → World → Prop

/-- A program of `Verif.Manager`. -/
def Comp.of {α : Type} (p : MP α) : Comp α := ⟨fun Pl => MP.Run Pl p, fun Pl => MP.Goes Pl p⟩

def Comp.bind {α β : Type} (x : Comp α) (f : α → Comp β) : Comp β :=
  ⟨fun Pl w b w' => ∃ a w₁, x.run Pl w a w₁ ∧ (f a).run Pl w₁ b w',
   fun Pl w => x.goes Pl w ∨ ∃ a w₁, x.run Pl w a w₁ ∧ (f a).goes Pl w₁⟩

/-- `m_allocator->deallocate(p, n)`: the answer is `true` when it returns.  Then the block is
taken.  When it throws the block may be taken or still be given out.  Handing back what is
not given out is undefined behaviour. -/
def Comp.tryFree (s p : Nat) (n : Option Nat) : Comp Bool :=
  ⟨fun _ w ok w' => MP.Gives w.held s p n ∧
      (w'.held = dropB p w.held ∧ Agree (dropB p w.held) w.mem w'.mem ∨
        ok = false ∧ w'.held = w.held ∧ Agree w.held w.mem w'.mem),
   fun _ w => ¬MP.Gives w.held s p n⟩

/-- Functions that may throw (`none`) and change the state. -/
def R (β : Type) : Type := RM → Comp (Option β × RM)

namespace R

def up {β : Type} (m : M β) : R β := fun rm => .of (m rm)

def ret {β : Type} (b : β) : R β := up (M.ret b)
def throw {β : Type} : R β := up M.throw

def bind {β γ : Type} (m : R β) (f : β → R γ) : R γ := fun rm =>
  (m rm).bind fun x => match x.1 with
    | none => .of (.ret (none, x.2))
    | some b => f b x.2

instance : Monad R where
  pure := ret
  bind := bind

end R

/-- `m_allocator->deallocate(p, n)` on strategy `s`. -/
def stratDealloc (s p : Nat) (n : Option Nat) : R Unit := fun rm =>
  (Comp.tryFree s p n).bind fun ok => .of (.ret (if ok then some () else none, rm))

/-- `AllocateNull::deallocateNull` and what `do_deallocate` does otherwise
(AllocateNull.cpp:33-46, Allocator.inl:105-114). -/
def giveBack (s p : Nat) (n : Option Nat) : R Unit := do
  if ← R.up (isFromZero p) then R.up (Mgr.stratDealloc zero p (some 1)) else stratDealloc s p n

/-- `Allocator::do_deallocate` (Allocator.inl:93-115): the record is removed and the
statistics are reduced before the strategy is asked. -/
def deallocate (c : Cfg) (s p : Nat) : R Unit :=
  if p = 0 then return ()
  else if c.tracked s then do
    let r ← R.up (inspDereg p s)
    giveBack s p (some r.size)
  else giveBack s p none

/-- `ResourceManager::deallocate` (ResourceManager.cpp:853-859). -/
def deallocateAny (c : Cfg) (p : Nat) : R Unit := do
  let s ← R.up (getOwner p)
  deallocate c s p

/-- `GenericReallocateOperation::transform` (GenericReallocateOperation.cpp:18-31). -/
def genericRealloc (c : Cfg) (p : Nat) (r : Rec) (n : Nat) : R Nat := do
  let q ← R.up (allocate c r.tag n)
  R.up (copy q p (if r.size > n then n else r.size))
  deallocate c r.tag p
  return q

/-- `HostReallocateOperation::transform` (HostReallocateOperation.cpp:18-46). -/
def hostRealloc (c : Cfg) (p : Nat) (r : Rec) (n : Nat) : R Nat :=
  if r.size = 0 then do
    let q ← R.up (allocate c r.tag n)
    R.up (copy q p (if r.size > n then n else r.size))
    deallocate c r.tag p
    return q
  else R.up (Mgr.hostRealloc c p r n)

/-- `ResourceManager::reallocate_impl` (ResourceManager.cpp:657-705). -/
def reallocImpl (c : Cfg) (p n s : Nat) : R Nat :=
  if p = 0 then R.up (allocate c s n)
  else do
    let r ← R.up (find p)
    if r.tag ≠ s then R.throw
    else if n = 0 then do
      deallocate c r.tag p
      R.up (allocate c r.tag n)
    else if p ≠ r.ptr then R.throw
    else if r.tag = c.host then hostRealloc c p r n
    else genericRealloc c p r n

/-- `ResourceManager::reallocate(void*, size_t)` (ResourceManager.cpp:536-568); `dflt` is
the default allocator. -/
def reallocate (c : Cfg) (dflt p n : Nat) : R Nat :=
  if p = 0 then reallocImpl c p n dflt
  else do
    let r ← R.up (find p)
    reallocImpl c p n r.tag

/-- `ResourceManager::move` (ResourceManager.cpp:758-832). -/
def move (c : Cfg) (p s : Nat) : R Nat := do
  let r ← R.up (find p)
  if r.tag = s then return p
  else if p ≠ r.ptr then R.throw
  else do
    let q ← R.up (allocate c s r.size)
    R.up (copy q p 0)
    deallocateAny c p
    return q

/-- The calls considered.  The operations are those of `Verif.Manager`. -/
inductive Call where
  | alloc (s n : Nat)
  | free (s p : Nat)
  | freeAny (p : Nat)
  | realloc (s p n : Nat)
  | reallocAny (d p n : Nat)
  | move (p s : Nat)
  | copy (d s n : Nat)
  | memset (p : Nat) (v : Int) (n : Nat)
  | query (p : Nat)

/-- What a call does; the value is the pointer returned, if any. -/
def Call.prog (c : Cfg) : Call → R Nat
  | .alloc s n => R.up (allocate c s n)
  | .free s p => do deallocate c s p; return 0
  | .freeAny p => do deallocateAny c p; return 0
  | .realloc s p n => reallocImpl c p n s
  | .reallocAny d p n => reallocate c d p n
  | .move p s => Refuse.move c p s
  | .copy d s n => do R.up (Mgr.copy d s n); return 0
  | .memset p v n => do R.up (Mgr.memset p v n); return 0
  | .query p => do let _ ← R.up (find p); return 0

/-- Which calls are considered: they go through allocators other than the zero-byte pool,
pointers are addresses, memory is moved to tracked allocators, and what is handed back
through an untracked allocator has been given out by it and is not registered. -/
def Call.Allowed (c : Cfg) (rm : RM) (w : World) : Call → Prop
  | .alloc s _ => s ≠ zero
  | .free s p => s ≠ zero ∧ p < 2 ^ 64 ∧ (c.tracked s = true ∨ p = 0 ∨
      (rm.amap.findRecord p).2 = none ∧ ∃ b ∈ w.held, b.ptr = p ∧ (b.own = zero ∨ b.own = s))
  | .freeAny p => p < 2 ^ 64
  | .realloc s p _ => s ≠ zero ∧ p < 2 ^ 64
  | .reallocAny d p _ => d ≠ zero ∧ p < 2 ^ 64
  | .move p s => s ≠ zero ∧ c.tracked s = true ∧ p < 2 ^ 64
  | .copy d s _ => d < 2 ^ 64 ∧ s < 2 ^ 64
  | .memset p _ _ => p < 2 ^ 64
  | .query p => p < 2 ^ 64

/-- `Later Pl c (rm, w) t (rm', w')`: the calls `t` (newest first) with their results can
lead from one state to the other.  In between the user may write anything anywhere. -/
inductive Later (Pl : Nat → Nat → Prop) (c : Cfg) : RM → World → List (Call × Option Nat) → RM → World → Prop where
  | start {rm w} : Later Pl c rm w [] rm w
  | call {rm w t rm₁ w₁ e o rm₂ w₂} : Later Pl c rm w t rm₁ w₁ → e.Allowed c rm₁ w₁ →
      (e.prog c rm₁).run Pl w₁ (o, rm₂) w₂ → Later Pl c rm w ((e, o) :: t) rm₂ w₂
  | bytes {rm w t rm₁ w₁} (m : Nat → Nat) : Later Pl c rm w t rm₁ w₁ → Later Pl c rm w t rm₁ ⟨w₁.held, m⟩

end Umpire.Refuse
