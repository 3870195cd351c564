import Verif.Base.Prog
import Verif.Base.Lists
/-!
# Programs of the facade layer and the world they run in

`umpire::Allocator` and `umpire::ResourceManager` call strategies, the zero-byte
pool, `::realloc`, `std::memcpy` and `std::memset`.  `MP α` is the type of such
computations, `World` the memory they act on: the blocks that strategies have given
out to the facade, each with the strategy that did (`own`), and the bytes.

A strategy may answer a request with any range that is disjoint from all blocks
held (that strategies do behave like this is what the properties C01-C19 and C36
are about) or refuse it.  While it works it may write anywhere except into the
blocks held.  `Pl s p` says where strategy `s` may place blocks; it is `True` in the
theorems that do not need it.
-/
set_option autoImplicit false
namespace Umpire.Mgr

/-- A block of memory a strategy has given out. -/
structure Blk where
  own : Nat
  ptr : Nat
  size : Nat
deriving DecidableEq, Repr

structure World where
  held : List Blk
  mem : Nat → Nat

def ranges (H : List Blk) : Held := H.map fun b => (b.ptr, b.size)

def dropB (p : Nat) (H : List Blk) : List Blk := H.filter fun b => decide (b.ptr ≠ p)

/-- The bytes of the blocks held are the same. -/
def Agree (H : List Blk) (m m' : Nat → Nat) : Prop :=
  ∀ b ∈ H, ∀ q, b.ptr ≤ q → q < b.ptr + b.size → m' q = m q

/-- The strategy id of the zero-byte pool (src/umpire/ResourceManager.cpp:112-118). -/
def zero : Nat := 1

/-- `[p, p+n)` may be accessed: it lies in a block held.  The memory of the zero-byte
pool is mapped without any permission (src/umpire/resource/NullMemoryResource.cpp:41). -/
def Usable (H : List Blk) (p n : Nat) : Prop := n = 0 ∨ ∃ b ∈ H, b.own ≠ zero ∧ Within p n b.ptr b.size

/-- The address is in a block held from the zero-byte pool, or from another strategy. -/
def InZero (H : List Blk) (p : Nat) : Prop := ∃ b ∈ H, b.own = zero ∧ b.ptr ≤ p ∧ p < b.ptr + b.size
def InOther (H : List Blk) (p : Nat) : Prop := ∃ b ∈ H, b.own ≠ zero ∧ b.ptr ≤ p ∧ p < b.ptr + b.size

/-- `std::memcpy` and `std::memset` on bytes. -/
def copied (m : Nat → Nat) (d s n : Nat) : Nat → Nat := fun q => if d ≤ q ∧ q < d + n then m (s + (q - d)) else m q
def filled (m : Nat → Nat) (p v n : Nat) : Nat → Nat := fun q => if p ≤ q ∧ q < p + n then v else m q

/-- Computations of the facade layer.

* `alloc s n k`: strategy `s` is asked for `n` bytes; `none` when it throws.
* `dealloc s p n k`: `p` is handed back to `s`, with its size if it is known.
* `realloc s p n k`: `::realloc(p, n)` on memory that `s` obtained with `malloc`.
* `fromZero p k`: `FixedPool::pointerIsFromPool` of the zero-byte pool.
* `memcpy d s n k`, `memset p v n k`.
* `fail`: undefined behaviour. -/
inductive MP (α : Type) : Type where
  | ret (a : α)
  | fail
  | alloc (s n : Nat) (k : Option Nat → MP α)
  | dealloc (s p : Nat) (n : Option Nat) (k : MP α)
  | realloc (s p n : Nat) (k : Option Nat → MP α)
  | fromZero (p : Nat) (k : Bool → MP α)
  | memcpy (d s n : Nat) (k : MP α)
  | memset (p v n : Nat) (k : MP α)

namespace MP

def bind {α β : Type} : MP α → (α → MP β) → MP β
  | ret a, f => f a
  | fail, _ => fail
  | alloc s n k, f => alloc s n fun r => (k r).bind f
  | dealloc s p n k, f => dealloc s p n (k.bind f)
  | realloc s p n k, f => realloc s p n fun r => (k r).bind f
  | fromZero p k, f => fromZero p fun r => (k r).bind f
  | memcpy d s n k, f => memcpy d s n (k.bind f)
  | memset p v n k, f => memset p v n (k.bind f)

/-- The block handed back: it is held from `s`, and the size announced is its size. -/
def Gives (H : List Blk) (s p : Nat) (n : Option Nat) : Prop :=
  ∃ b ∈ H, b.own = s ∧ b.ptr = p ∧ ∀ m, n = some m → b.size = m

/-- What `::realloc` does to the bytes. -/
def Moved (H : List Blk) (p q n : Nat) (m m' : Nat → Nat) : Prop :=
  ∀ b ∈ H, b.ptr = p → ∀ i, i < n → i < b.size → m' (q + i) = m (p + i)

/-- `Run Pl prog w a w'`: with some behaviour of the strategies, `prog` started in `w`
ends with `a` in `w'`. -/
inductive Run {α : Type} (Pl : Nat → Nat → Prop) : MP α → World → α → World → Prop where
  | ret {a w} : Run Pl (ret a) w a w
  | allocOk {s n k w p m a w'} : Fresh p n (ranges w.held) → Pl s p → Agree w.held w.mem m →
      Run Pl (k (some p)) ⟨⟨s, p, n⟩ :: w.held, m⟩ a w' → Run Pl (alloc s n k) w a w'
  | allocFail {s n k w m a w'} : Agree w.held w.mem m → Run Pl (k none) ⟨w.held, m⟩ a w' → Run Pl (alloc s n k) w a w'
  | dealloc {s p n k w m a w'} : Gives w.held s p n → Agree (dropB p w.held) w.mem m →
      Run Pl k ⟨dropB p w.held, m⟩ a w' → Run Pl (dealloc s p n k) w a w'
  | reallocOk {s p n k w q m a w'} : Gives w.held s p none → Fresh q n (ranges (dropB p w.held)) → Pl s q →
      Agree (dropB p w.held) w.mem m → Moved w.held p q n w.mem m →
      Run Pl (k (some q)) ⟨⟨s, q, n⟩ :: dropB p w.held, m⟩ a w' → Run Pl (realloc s p n k) w a w'
  | reallocFail {s p n k w a w'} : Gives w.held s p none → Run Pl (k none) w a w' → Run Pl (realloc s p n k) w a w'
  | fromZero {p k w b a w'} : (InZero w.held p → b = true) → (InOther w.held p → b = false) →
      Run Pl (k b) w a w' → Run Pl (fromZero p k) w a w'
  | memcpy {d s n k w a w'} : Run Pl k ⟨w.held, copied w.mem d s n⟩ a w' → Run Pl (memcpy d s n k) w a w'
  | memset {p v n k w a w'} : Run Pl k ⟨w.held, filled w.mem p v n⟩ a w' → Run Pl (memset p v n k) w a w'

/-- `Goes Pl prog w`: with some behaviour of the strategies there is undefined behaviour:
handing back memory that is not held, touching memory that is not held, `memcpy` with
overlapping ranges. -/
inductive Goes {α : Type} (Pl : Nat → Nat → Prop) : MP α → World → Prop where
  | fail {w} : Goes Pl fail w
  | allocOk {s n k w p m} : Fresh p n (ranges w.held) → Pl s p → Agree w.held w.mem m →
      Goes Pl (k (some p)) ⟨⟨s, p, n⟩ :: w.held, m⟩ → Goes Pl (alloc s n k) w
  | allocFail {s n k w m} : Agree w.held w.mem m → Goes Pl (k none) ⟨w.held, m⟩ → Goes Pl (alloc s n k) w
  | badFree {s p n k w} : ¬Gives w.held s p n → Goes Pl (dealloc s p n k) w
  | dealloc {s p n k w m} : Gives w.held s p n → Agree (dropB p w.held) w.mem m →
      Goes Pl k ⟨dropB p w.held, m⟩ → Goes Pl (dealloc s p n k) w
  | badRealloc {s p n k w} : ¬Gives w.held s p none → Goes Pl (realloc s p n k) w
  | reallocOk {s p n k w q m} : Gives w.held s p none → Fresh q n (ranges (dropB p w.held)) → Pl s q →
      Agree (dropB p w.held) w.mem m → Moved w.held p q n w.mem m →
      Goes Pl (k (some q)) ⟨⟨s, q, n⟩ :: dropB p w.held, m⟩ → Goes Pl (realloc s p n k) w
  | reallocFail {s p n k w} : Gives w.held s p none → Goes Pl (k none) w → Goes Pl (realloc s p n k) w
  | fromZero {p k w b} : (InZero w.held p → b = true) → (InOther w.held p → b = false) →
      Goes Pl (k b) w → Goes Pl (fromZero p k) w
  | badCopy {d s n k w} : ¬(Usable w.held d n ∧ Usable w.held s n ∧ (n = 0 ∨ Disj d n s n)) → Goes Pl (memcpy d s n k) w
  | memcpy {d s n k w} : Goes Pl k ⟨w.held, copied w.mem d s n⟩ → Goes Pl (memcpy d s n k) w
  | badSet {p v n k w} : ¬Usable w.held p n → Goes Pl (memset p v n k) w
  | memset {p v n k w} : Goes Pl k ⟨w.held, filled w.mem p v n⟩ → Goes Pl (memset p v n k) w

/-- Every behaviour of the strategies leads to a result satisfying `Q`, without undefined
behaviour. -/
def wp {α : Type} (Pl : Nat → Nat → Prop) : MP α → World → (α → World → Prop) → Prop
  | ret a, w, Q => Q a w
  | fail, _, _ => False
  | alloc s n k, w, Q =>
    (∀ p m, Fresh p n (ranges w.held) → Pl s p → Agree w.held w.mem m → wp Pl (k (some p)) ⟨⟨s, p, n⟩ :: w.held, m⟩ Q) ∧
    ∀ m, Agree w.held w.mem m → wp Pl (k none) ⟨w.held, m⟩ Q
  | dealloc s p n k, w, Q =>
    Gives w.held s p n ∧ ∀ m, Agree (dropB p w.held) w.mem m → wp Pl k ⟨dropB p w.held, m⟩ Q
  | realloc s p n k, w, Q =>
    Gives w.held s p none ∧
    (∀ q m, Fresh q n (ranges (dropB p w.held)) → Pl s q → Agree (dropB p w.held) w.mem m → Moved w.held p q n w.mem m →
      wp Pl (k (some q)) ⟨⟨s, q, n⟩ :: dropB p w.held, m⟩ Q) ∧
    wp Pl (k none) w Q
  | fromZero p k, w, Q => ∀ b, (InZero w.held p → b = true) → (InOther w.held p → b = false) → wp Pl (k b) w Q
  | memcpy d s n k, w, Q =>
    (Usable w.held d n ∧ Usable w.held s n ∧ (n = 0 ∨ Disj d n s n)) ∧ wp Pl k ⟨w.held, copied w.mem d s n⟩ Q
  | memset p v n k, w, Q => Usable w.held p n ∧ wp Pl k ⟨w.held, filled w.mem p v n⟩ Q

theorem wp_run {α : Type} {Pl : Nat → Nat → Prop} {p : MP α} {w : World} {Q : α → World → Prop} (h : wp Pl p w Q) {a : α} {w' : World}
    (hr : Run Pl p w a w') : Q a w' := by
  induction hr with
  | ret => exact h
  | allocOk h1 h2 h3 _ ih => exact ih (h.1 _ _ h1 h2 h3)
  | allocFail h1 _ ih => exact ih (h.2 _ h1)
  | dealloc _ h2 _ ih => exact ih (h.2 _ h2)
  | reallocOk _ h2 h3 h4 h5 _ ih => exact ih (h.2.1 _ _ h2 h3 h4 h5)
  | reallocFail _ _ ih => exact ih h.2.2
  | fromZero h1 h2 _ ih => exact ih (h _ h1 h2)
  | memcpy _ ih => exact ih h.2
  | memset _ ih => exact ih h.2

theorem wp_goes {α : Type} {Pl : Nat → Nat → Prop} {p : MP α} {w : World} {Q : α → World → Prop} (h : wp Pl p w Q) : ¬Goes Pl p w := by
  intro hg
  induction hg with
  | fail => exact h
  | allocOk h1 h2 h3 _ ih => exact ih (h.1 _ _ h1 h2 h3)
  | allocFail h1 _ ih => exact ih (h.2 _ h1)
  | badFree hb => exact hb h.1
  | dealloc _ h2 _ ih => exact ih (h.2 _ h2)
  | badRealloc hb => exact hb h.1
  | reallocOk _ h2 h3 h4 h5 _ ih => exact ih (h.2.1 _ _ h2 h3 h4 h5)
  | reallocFail _ _ ih => exact ih h.2.2
  | fromZero h1 h2 _ ih => exact ih (h _ h1 h2)
  | badCopy hb => exact hb h.1
  | memcpy _ ih => exact ih h.2
  | badSet hb => exact hb h.1
  | memset _ ih => exact ih h.2

theorem wp_bind {α β : Type} {Pl : Nat → Nat → Prop} {p : MP α} {f : α → MP β} {w : World} {Q : β → World → Prop}
    (h : wp Pl p w fun a w' => wp Pl (f a) w' Q) : wp Pl (p.bind f) w Q := by
  induction p generalizing w with
  | ret a => exact h
  | fail => exact h
  | alloc s n k ih => exact ⟨fun p m h1 h2 h3 => ih _ (h.1 p m h1 h2 h3), fun m h1 => ih _ (h.2 m h1)⟩
  | dealloc s p n k ih => exact ⟨h.1, fun m h1 => ih (h.2 m h1)⟩
  | realloc s p n k ih => exact ⟨h.1, fun q m h1 h2 h3 h4 => ih _ (h.2.1 q m h1 h2 h3 h4), ih _ h.2.2⟩
  | fromZero p k ih => exact fun b h1 h2 => ih _ (h b h1 h2)
  | memcpy d s n k ih => exact ⟨h.1, ih h.2⟩
  | memset p v n k ih => exact ⟨h.1, ih h.2⟩

theorem wp_mono {α : Type} {Pl : Nat → Nat → Prop} {p : MP α} {w : World} {Q Q' : α → World → Prop} (h : wp Pl p w Q)
    (hq : ∀ a w', Q a w' → Q' a w') : wp Pl p w Q' := by
  induction p generalizing w with
  | ret a => exact hq _ _ h
  | fail => exact h
  | alloc s n k ih => exact ⟨fun p m h1 h2 h3 => ih _ (h.1 p m h1 h2 h3), fun m h1 => ih _ (h.2 m h1)⟩
  | dealloc s p n k ih => exact ⟨h.1, fun m h1 => ih (h.2 m h1)⟩
  | realloc s p n k ih => exact ⟨h.1, fun q m h1 h2 h3 h4 => ih _ (h.2.1 q m h1 h2 h3 h4), ih _ h.2.2⟩
  | fromZero p k ih => exact fun b h1 h2 => ih _ (h b h1 h2)
  | memcpy d s n k ih => exact ⟨h.1, ih h.2⟩
  | memset p v n k ih => exact ⟨h.1, ih h.2⟩

end MP
end Umpire.Mgr
