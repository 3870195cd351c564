import Verif.Base.Prog
/-!
# Programs whose parent may refuse memory that is given back

`Prog` (Verif/Base/Prog.lean) has parents that take back what they gave.  Here `deallocate_internal` may throw, as it does when
`cudaFree` or `hipFree` report an error (CudaMallocAllocator.hpp:56-64, HipMallocAllocator.hpp:88-97).  What was refused is still allocated.
`nullptr` may be given back, which has no effect (`free`, `cudaFree`, DynamicSizePool.hpp:344-360) or is refused (FixedPool.cpp:174).
-/
set_option autoImplicit false
set_option linter.unusedSimpArgs false
namespace Umpire.Deny
open Umpire

/-- Computations that call a parent allocator; the answer to `dealloc` says whether it returned. -/
inductive Prog2 (α : Type) : Type where
  | ret (a : α)
  | fail (b : Bad)
  | alloc (n : Nat) (k : Option Nat → Prog2 α)
  | dealloc (p n : Nat) (k : Bool → Prog2 α)

namespace Prog2

def bind {α β : Type} : Prog2 α → (α → Prog2 β) → Prog2 β
  | ret a, f => f a
  | fail b, _ => fail b
  | alloc n k, f => alloc n fun r => (k r).bind f
  | dealloc p n k, f => dealloc p n fun r => (k r).bind f

/-- What is held, what was given back and refused so far, and whether `nullptr` was ever refused. -/
structure Mem where
  held : Held
  refused : Held
  nulls : Bool

/-- After an answer to `dealloc p n`. -/
def Mem.back (M : Mem) (p n : Nat) : Bool → Mem
  | true => ⟨drop p M.held, M.refused, M.nulls⟩
  | false => ⟨M.held, if p = 0 then M.refused else (p, n) :: M.refused, M.nulls || p == 0⟩

/-- `Run2 prog M a M'`: against some parent, `prog` finishes with `a`. -/
inductive Run2 {α : Type} : Prog2 α → Mem → α → Mem → Prop where
  | ret {a : α} {M : Mem} : Run2 (ret a) M a M
  | allocOk {n : Nat} {k : Option Nat → Prog2 α} {M M' : Mem} {p : Nat} {a : α} : Fresh p n M.held →
      Run2 (k (some p)) ⟨(p, n) :: M.held, M.refused, M.nulls⟩ a M' → Run2 (alloc n k) M a M'
  | allocFail {n : Nat} {k : Option Nat → Prog2 α} {M M' : Mem} {a : α} : Run2 (k none) M a M' → Run2 (alloc n k) M a M'
  | dealloc {p n : Nat} {k : Bool → Prog2 α} {M M' : Mem} {a : α} (ok : Bool) : Run2 (k ok) (M.back p n ok) a M' → Run2 (dealloc p n k) M a M'

/-- `Goes2 prog M b`: against some parent, `prog` reaches the forbidden outcome `b`.  Handing back memory that is not held, or
with another size, is undefined behaviour, except for `nullptr`. -/
inductive Goes2 {α : Type} : Prog2 α → Mem → Bad → Prop where
  | fail {b : Bad} {M : Mem} : Goes2 (fail b) M b
  | allocOk {n : Nat} {k : Option Nat → Prog2 α} {M : Mem} {p : Nat} {b : Bad} : Fresh p n M.held →
      Goes2 (k (some p)) ⟨(p, n) :: M.held, M.refused, M.nulls⟩ b → Goes2 (alloc n k) M b
  | allocFail {n : Nat} {k : Option Nat → Prog2 α} {M : Mem} {b : Bad} : Goes2 (k none) M b → Goes2 (alloc n k) M b
  | badFree {p n : Nat} {k : Bool → Prog2 α} {M : Mem} : p ≠ 0 → (p, n) ∉ M.held → Goes2 (dealloc p n k) M .ub
  | dealloc {p n : Nat} {k : Bool → Prog2 α} {M : Mem} {b : Bad} (ok : Bool) : Goes2 (k ok) (M.back p n ok) b → Goes2 (dealloc p n k) M b

/-- `Offers prog M p n M'`: against some parent, `prog` at some point hands back `p` announcing `n` bytes, when the memory is `M'`. -/
inductive Offers {α : Type} : Prog2 α → Mem → Nat → Nat → Mem → Prop where
  | here {p n : Nat} {k : Bool → Prog2 α} {M : Mem} : Offers (dealloc p n k) M p n M
  | allocOk {n : Nat} {k : Option Nat → Prog2 α} {M M' : Mem} {p q m : Nat} : Fresh p n M.held →
      Offers (k (some p)) ⟨(p, n) :: M.held, M.refused, M.nulls⟩ q m M' → Offers (alloc n k) M q m M'
  | allocFail {n : Nat} {k : Option Nat → Prog2 α} {M M' : Mem} {q m : Nat} : Offers (k none) M q m M' → Offers (alloc n k) M q m M'
  | dealloc {p n q m : Nat} {k : Bool → Prog2 α} {M M' : Mem} (ok : Bool) : Offers (k ok) (M.back p n ok) q m M' → Offers (dealloc p n k) M q m M'

/-- For every parent `prog` reaches no forbidden outcome outside of `E`, hands back only `nullptr` and memory it holds, that was not
refused before and that `E` permits, and finishes with `Q`. -/
def wp {α : Type} (E : Prog.Mode) : Prog2 α → Mem → (α → Mem → Prop) → Prop
  | ret a, M, Q => Q a M
  | fail b, _, _ => E.bad b
  | alloc n k, M, Q => (∀ p, Fresh p n M.held → (k (some p)).wp E ⟨(p, n) :: M.held, M.refused, M.nulls⟩ Q) ∧ (k none).wp E M Q
  | dealloc p n k, M, Q => (p = 0 ∨ ((p, n) ∈ M.held ∧ (p, n) ∉ M.refused ∧ E.free p n)) ∧ ∀ ok, (k ok).wp E (M.back p n ok) Q

theorem wp_mono {α : Type} {E : Prog.Mode} {p : Prog2 α} {M : Mem} {Q Q' : α → Mem → Prop} (h : p.wp E M Q) (hq : ∀ a M', Q a M' → Q' a M') :
    p.wp E M Q' := by
  induction p generalizing M with
  | ret a => exact hq _ _ h
  | fail b => exact h
  | alloc n k ih => exact ⟨fun p hp => ih _ (h.1 p hp), ih _ h.2⟩
  | dealloc p n k ih => exact ⟨h.1, fun ok => ih _ (h.2 ok)⟩

theorem wp_weaken {α : Type} {E E' : Prog.Mode} {p : Prog2 α} {M : Mem} {Q : α → Mem → Prop} (h : p.wp E M Q)
    (he : ∀ b, E.bad b → E'.bad b) (hf : ∀ q m, E.free q m → E'.free q m) : p.wp E' M Q := by
  induction p generalizing M with
  | ret a => exact h
  | fail b => exact he _ h
  | alloc n k ih => exact ⟨fun p hp => ih _ (h.1 p hp), ih _ h.2⟩
  | dealloc p n k ih => exact ⟨h.1.imp_right fun x => ⟨x.1, x.2.1, hf _ _ x.2.2⟩, fun ok => ih _ (h.2 ok)⟩

theorem wp_bind {α β : Type} {E : Prog.Mode} {p : Prog2 α} {f : α → Prog2 β} {M : Mem} {Q : β → Mem → Prop}
    (h : p.wp E M fun a M' => (f a).wp E M' Q) : (p.bind f).wp E M Q := by
  induction p generalizing M with
  | ret a => exact h
  | fail b => exact h
  | alloc n k ih => exact ⟨fun p hp => ih _ (h.1 p hp), ih _ h.2⟩
  | dealloc p n k ih => exact ⟨h.1, fun ok => ih _ (h.2 ok)⟩

theorem wp_run {α : Type} {E : Prog.Mode} {p : Prog2 α} {M : Mem} {Q : α → Mem → Prop} {a : α} {M' : Mem} (h : p.wp E M Q) (hr : Run2 p M a M') :
    Q a M' := by
  induction hr with
  | ret => exact h
  | allocOk hp _ ih => exact ih (h.1 _ hp)
  | allocFail _ ih => exact ih h.2
  | dealloc ok _ ih => exact ih (h.2 ok)

theorem wp_safe {α : Type} {E : Prog.Mode} {p : Prog2 α} {M : Mem} {Q : α → Mem → Prop} {b : Bad} (h : p.wp E M Q) (hr : Goes2 p M b) : E.bad b := by
  induction hr with
  | fail => exact h
  | allocOk hp _ ih => exact ih (h.1 _ hp)
  | allocFail _ ih => exact ih h.2
  | badFree h0 hn =>
    rcases h.1 with h | h
    · exact absurd h h0
    · exact absurd h.1 hn
  | dealloc ok _ ih => exact ih (h.2 ok)

theorem wp_offers {α : Type} {E : Prog.Mode} {p : Prog2 α} {M M' : Mem} {Q : α → Mem → Prop} {q m : Nat} (h : p.wp E M Q) (hr : Offers p M q m M') :
    q = 0 ∨ ((q, m) ∈ M'.held ∧ (q, m) ∉ M'.refused ∧ E.free q m) := by
  induction hr with
  | here => exact h.1
  | allocOk hp _ ih => exact ih (h.1 _ hp)
  | allocFail _ ih => exact ih h.2
  | dealloc ok _ ih => exact ih (h.2 ok)

/-- What was refused once stays on record. -/
theorem Run2.refused {α : Type} {p : Prog2 α} {M M' : Mem} {a : α} (h : Run2 p M a M') : ∀ r ∈ M.refused, r ∈ M'.refused := by
  induction h with
  | ret => exact fun r hr => hr
  | allocOk _ _ ih => exact ih
  | allocFail _ ih => exact ih
  | @dealloc p n k M M' a ok _ ih =>
    intro r hr
    apply ih
    cases ok with
    | true => exact hr
    | false =>
      simp only [Mem.back]
      split
      · exact hr
      · exact List.mem_cons_of_mem _ hr

theorem Run2.bind {α β : Type} {p : Prog2 α} {f : α → Prog2 β} {M M1 M' : Mem} {a : α} {b : β} (h1 : Run2 p M a M1) (h2 : Run2 (f a) M1 b M') :
    Run2 (p.bind f) M b M' := by
  induction h1 with
  | ret => exact h2
  | allocOk hp _ ih => exact .allocOk hp (ih h2)
  | allocFail _ ih => exact .allocFail (ih h2)
  | dealloc ok _ ih => exact .dealloc ok (ih h2)

theorem Goes2.bind {α β : Type} {p : Prog2 α} {f : α → Prog2 β} {M M1 : Mem} {a : α} {b : Bad} (h1 : Run2 p M a M1) (h2 : Goes2 (f a) M1 b) :
    Goes2 (p.bind f) M b := by
  induction h1 with
  | ret => exact h2
  | allocOk hp _ ih => exact .allocOk hp (ih h2)
  | allocFail _ ih => exact .allocFail (ih h2)
  | dealloc ok _ ih => exact .dealloc ok (ih h2)

end Prog2
end Umpire.Deny
