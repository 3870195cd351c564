/-!
# Machine words as bitmaps

`src/umpire/util/find_first_set.hpp` and the bitmap operations of FixedPool.
A 32-bit word is a natural number; only its bits 0 to 31 are used.
-/
set_option autoImplicit false
set_option linter.unusedSimpArgs false
namespace Umpire

/-- Scan upwards from bit `i`, at most `fuel` bits. -/
def ffsFrom (w : Nat) : Nat → Nat → Nat
  | 0, _ => 0
  | fuel + 1, i => if w.testBit i then i + 1 else ffsFrom w fuel (i + 1)

/-- POSIX `ffs` on a 32-bit `int`, as used by `find_first_set`
(find_first_set.hpp:32). -/
def ffs (w : Nat) : Nat := ffsFrom w 32 0

/-- `find_first_set` in the Windows build (find_first_set.hpp:23-30), on top of
`_BitScanForward`: `bsf w` is `none` when that function returns 0 and otherwise
the index it stores. -/
def ffsMsvc (bsf : Nat → Option Nat) (w : Nat) : Nat :=
  match bsf w with
  | none => 0
  | some i => i + 1

theorem ffsFrom_spec {w fuel i : Nat} :
    (ffsFrom w fuel i = 0 ∧ ∀ j, i ≤ j → j < i + fuel → w.testBit j = false) ∨
    ∃ b, ffsFrom w fuel i = b + 1 ∧ i ≤ b ∧ b < i + fuel ∧ w.testBit b = true ∧ ∀ j, i ≤ j → j < b → w.testBit j = false := by
  induction fuel generalizing i with
  | zero => left; exact ⟨rfl, fun j h1 h2 => by omega⟩
  | succ fuel ih =>
    unfold ffsFrom
    by_cases h : w.testBit i = true
    · right
      exact ⟨i, by simp [h], Nat.le_refl _, by omega, h, fun j h1 h2 => by omega⟩
    · simp only [h]
      have hf : w.testBit i = false := by simpa using h
      rcases ih (i := i + 1) with ⟨h1, h2⟩ | ⟨b, h1, h2, h3, h4, h5⟩
      · left
        refine ⟨by simpa using h1, fun j hj hj2 => ?_⟩
        by_cases hji : j = i
        · subst hji; exact hf
        · exact h2 j (by omega) (by omega)
      · right
        refine ⟨b, by simpa using h1, by omega, by omega, h4, fun j hj hj2 => ?_⟩
        by_cases hji : j = i
        · subst hji; exact hf
        · exact h5 j (by omega) hj2

theorem ffs_zero {w : Nat} (h : ffs w = 0) : ∀ j < 32, w.testBit j = false := by
  rcases ffsFrom_spec (w := w) (fuel := 32) (i := 0) with ⟨_, h2⟩ | ⟨b, h1, _⟩
  · intro j hj; exact h2 j (by omega) (by omega)
  · unfold ffs at h; omega

theorem ffs_succ {w b : Nat} (h : ffs w = b + 1) : b < 32 ∧ w.testBit b = true ∧ ∀ j < b, w.testBit j = false := by
  rcases ffsFrom_spec (w := w) (fuel := 32) (i := 0) with ⟨h1, _⟩ | ⟨c, h1, h2, h3, h4, h5⟩
  · unfold ffs at h; omega
  · unfold ffs at h
    have : b = c := by omega
    subst this
    exact ⟨by omega, h4, fun j hj => h5 j (by omega) hj⟩

/-- Flip bit `b`. -/
def flipBit (w b : Nat) : Nat := w ^^^ (1 <<< b)

theorem flipBit_test (w b j : Nat) : (flipBit w b).testBit j = if j = b then !w.testBit b else w.testBit j := by
  unfold flipBit
  rw [Nat.testBit_xor, Nat.one_shiftLeft]
  rw [Nat.testBit_two_pow]
  by_cases h : j = b
  · subst h; simp
  · have : ¬ b = j := fun e => h e.symm
    simp [h, this]

/-- Bit `i` of a bitmap of 32-bit words. -/
def bitAt (ws : List Nat) (i : Nat) : Bool := (ws.getD (i / 32) 0).testBit (i % 32)

/-- Flip bit `b` of word `k`. -/
def flipAt (ws : List Nat) (k b : Nat) : List Nat := ws.modify k (flipBit · b)

theorem flipAt_length (ws : List Nat) (k b : Nat) : (flipAt ws k b).length = ws.length := by
  unfold flipAt; simp

theorem flipAt_bit {ws : List Nat} {i : Nat} (hi : i / 32 < ws.length) (j : Nat) :
    bitAt (flipAt ws (i / 32) (i % 32)) j = if j = i then !bitAt ws i else bitAt ws j := by
  unfold bitAt flipAt
  simp only [List.getD_eq_getElem?_getD, List.getElem?_modify]
  by_cases hk : i / 32 = j / 32
  · have hj : j / 32 < ws.length := by omega
    rw [← hk, List.getElem?_eq_getElem hi]
    simp only [Option.map_eq_map, Option.map_some, Option.getD_some, if_true]
    rw [flipBit_test]
    by_cases hm : j % 32 = i % 32
    · have : j = i := by omega
      simp [hm, this]
    · have : j ≠ i := fun e => hm (by rw [e])
      simp [hm, this]
  · have : j ≠ i := fun e => hk (by rw [e])
    simp [hk, this]

end Umpire
