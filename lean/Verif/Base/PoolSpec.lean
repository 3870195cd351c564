import Verif.Base.Prog
/-!
# Vocabulary for stating properties of pools

Nothing here mentions the internals of any pool.  `held` are the ranges a pool
holds from its parent, `live` the allocations its user has not given back (as
pointer and requested size).
-/
set_option autoImplicit false
set_option linter.unusedSimpArgs false
namespace Umpire
open Umpire.Prog

/-- The least multiple of the alignment not below `n`, for positive alignment. -/
def ceil (a n : Nat) : Nat := (n + (a - 1)) / a * a

/-- Usable part of a block obtained from the parent: from the first aligned
address on, the alignment's worth of slack removed. -/
def usable (a : Nat) (o : Nat × Nat) : Nat × Nat := (ceil a o.1, o.2 - a)

/-- Blocks in which no live allocation has a byte. -/
def freeBlocks (held live : Held) : Held :=
  held.filter fun o => live.all fun l => decide (Disj l.1 l.2 o.1 o.2)

/-- A range of pool memory that no live (rounded up) allocation touches. -/
def Gap (a : Nat) (held live : Held) (p n : Nat) : Prop :=
  0 < n ∧ (∃ o ∈ held, Within p n (usable a o).1 (usable a o).2) ∧
  ∀ l ∈ live, Disj p n l.1 (ceil a l.2)

/-- A gap that cannot be extended. -/
def MaxGap (a : Nat) (held live : Held) (p n : Nat) : Prop :=
  Gap a held live p n ∧ ∀ q m, Gap a held live q m → Within p n q m → q = p ∧ m = n

/-- Bytes held from the parent, without the alignment slack. -/
def heldBytes (a : Nat) (O : Held) : Nat := (O.map fun o => o.2 - a).sum

/-- Bytes in use, rounded up. -/
def liveBytes (a : Nat) (L : Held) : Nat := (L.map fun l => ceil a l.2).sum

/-- The largest `heldBytes` at any moment of an execution with the given
interactions. -/
def peak (a : Nat) : Held → List Ev → Nat
  | O, [] => heldBytes a O
  | O, .got p n :: t => max (heldBytes a O) (peak a ((p, n) :: O) t)
  | O, .refused _ :: t => peak a O t
  | O, .freed p _ :: t => max (heldBytes a O) (peak a (drop p O) t)

end Umpire
