import Verif.Base.PoolSpec
/-!
# What coalescing should achieve

Stated with the vocabulary of `PoolSpec.lean` only.
-/
set_option autoImplicit false
set_option linter.unusedSimpArgs false
namespace Umpire
open Umpire.Prog

/-- Blocks in which some live allocation has a byte. -/
def usedBlocks (held live : Held) : Held :=
  held.filter fun o => live.any fun l => !decide (Disj l.1 l.2 o.1 o.2)

theorem mem_usedBlocks {O L : Held} {o : Nat × Nat} :
    o ∈ usedBlocks O L ↔ o ∈ O ∧ ∃ l ∈ L, ¬ Disj l.1 l.2 o.1 o.2 := by
  unfold usedBlocks
  simp [List.mem_filter, List.any_eq_true]

/-- `after` is what a pool that aims at `goal` bytes should hold, given that the
blocks `used` have to stay: nothing more if `used` is enough, or if the missing
bytes are available in one piece inside `used`; and otherwise one more block, as
large as the missing bytes (but not below the configured minimum). -/
def Consolidated (align first next goal : Nat) (used live after : Held) : Prop :=
  (goal ≤ heldBytes align used ∧ after = used) ∨
  (heldBytes align used < goal ∧ after = used ∧
    ∃ q k, Gap align used live q k ∧ ceil align (goal - heldBytes align used) ≤ k) ∨
  (heldBytes align used < goal ∧
    (∀ q k, Gap align used live q k → k < ceil align (goal - heldBytes align used)) ∧
    ∃ d, after = (d, max (ceil align (goal - heldBytes align used)) (if used = [] then first else next) + align) :: used)

/-- A sublist with the members of a filtered list is that list. -/
theorem eq_filter_of_sublist {α : Type} [DecidableEq α] {l o : List α} {P : α → Bool} (hn : l.Nodup) (hs : o.Sublist l)
    (ho : ∀ x, x ∈ o ↔ x ∈ l ∧ P x = true) : o = l.filter P := by
  have h1 : o.filter P = o := List.filter_eq_self.2 fun x hx => ((ho x).1 hx).2
  have h2 : o.Sublist (l.filter P) := h1 ▸ hs.filter P
  refine h2.eq_of_length ?_
  refine ((List.perm_ext_iff_of_nodup (hs.nodup hn) (hn.filter _)).2 fun x => ?_).length_eq
  rw [ho x, List.mem_filter]

end Umpire
