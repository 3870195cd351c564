import Verif.Replay.Model
/-!
# The histogram bucket function is the floor of the binary logarithm
-/
set_option autoImplicit false
set_option linter.unusedSimpArgs false
namespace Umpire.Replay

theorem testBit_orShift (s v i : Nat) : (orShift s v).testBit i = (v.testBit i || v.testBit (i + s)) := by
  unfold orShift
  rw [Nat.testBit_or, Nat.testBit_shiftRight, Nat.add_comm s i]

/-- `v` smeared over `w` positions. -/
def Smeared (v w u : Nat) : Prop := ∀ i, u.testBit i = true ↔ ∃ j, j < w ∧ v.testBit (i + j) = true

theorem smeared_step {v w u : Nat} (h : Smeared v w u) : Smeared v (2 * w) (orShift w u) := by
  intro i
  rw [testBit_orShift, Bool.or_eq_true, h i, h (i + w)]
  constructor
  · rintro (⟨j, hj, hb⟩ | ⟨j, hj, hb⟩)
    · exact ⟨j, by omega, hb⟩
    · exact ⟨w + j, by omega, by rw [← Nat.add_assoc]; exact hb⟩
  · rintro ⟨j, hj, hb⟩
    by_cases hjw : j < w
    · exact Or.inl ⟨j, hjw, hb⟩
    · refine Or.inr ⟨j - w, by omega, ?_⟩
      have : i + w + (j - w) = i + j := by omega
      rw [this]; exact hb

theorem smeared_smear (v : Nat) : Smeared v 64 (smear v) := by
  have h0 : Smeared v 1 v := by
    intro i
    constructor
    · intro h; exact ⟨0, by omega, h⟩
    · rintro ⟨j, hj, hb⟩
      have : j = 0 := by omega
      subst this; exact hb
  exact smeared_step (w := 32) (smeared_step (w := 16) (smeared_step (w := 8) (smeared_step (w := 4)
    (smeared_step (w := 2) (smeared_step (w := 1) h0)))))

theorem smear_eq {v k : Nat} (hk : 2 ^ k ≤ v) (hk2 : v < 2 ^ (k + 1)) (h64 : k < 64) : smear v = 2 ^ (k + 1) - 1 := by
  apply Nat.eq_of_testBit_eq
  intro i
  rw [Nat.testBit_two_pow_sub_one]
  have hs := smeared_smear v i
  by_cases hi : i < k + 1
  · have htop : v.testBit k = true := by
      have h1 : v / 2 ^ k = 1 := by
        apply Nat.div_eq_of_lt_le
        · omega
        · rw [Nat.pow_succ] at hk2; omega
      rw [Nat.testBit_eq_decide_div_mod_eq, h1]; rfl
    have : (smear v).testBit i = true := hs.mpr ⟨k - i, by omega, by
      have : i + (k - i) = k := by omega
      rw [this]; exact htop⟩
    rw [this]; simp [hi]
  · have : ¬ (smear v).testBit i = true := by
      rw [hs]
      rintro ⟨j, _, hb⟩
      have : v < 2 ^ (i + j) := Nat.lt_of_lt_of_le hk2 (Nat.pow_le_pow_right (by omega) (by omega))
      rw [Nat.testBit_lt_two_pow this] at hb
      exact absurd hb (by simp)
    have h2 : (smear v).testBit i = false := by simpa using this
    rw [h2]; simp [hi]

theorem top_bit {v k : Nat} (hk : 2 ^ k ≤ v) (hk2 : v < 2 ^ (k + 1)) (h64 : k < 64) :
    smear v - smear v >>> 1 = 2 ^ k := by
  rw [smear_eq hk hk2 h64, Nat.shiftRight_eq_div_pow]
  have : 2 ^ (k + 1) = 2 * 2 ^ k := by rw [Nat.pow_succ]; omega
  have hp : 0 < 2 ^ k := Nat.pos_of_ne_zero (by simp)
  omega

theorem table_exact : ∀ k : Fin 64, tab64.getD (hashIndex (2 ^ k.val)) 0 = k.val := by decide +kernel

theorem log2_of_range {v k : Nat} (hk : 2 ^ k ≤ v) (hk2 : v < 2 ^ (k + 1)) (h64 : k < 64) : log2_64 v = k := by
  unfold log2_64
  simp only [top_bit hk hk2 h64]
  exact table_exact ⟨k, h64⟩

end Umpire.Replay
