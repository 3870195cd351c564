import Verif.Base.Prog
/-!
# 64-bit size arithmetic

The three ways Umpire rounds sizes and addresses, with C++ unsigned 64-bit
semantics.
-/
set_option autoImplicit false
set_option linter.unusedSimpArgs false
namespace Umpire

/-- `AlignedAllocation::aligned_round_up`
(src/umpire/strategy/mixins/AlignedAllocation.inl:18-21):
`size + (m_alignment - 1) - (size - 1) % m_alignment` on `size_t`.
`size - 1` is `(size + W - 1) % W` so that it wraps for `size = 0`. -/
def roundUp64 (a size : Nat) : Nat :=
  w64 (size + (a - 1) + W - w64 (size + W - 1) % a)

/-- Pointer alignment `(ptr + (m_alignment - 1)) & m_mask` with
`m_mask = ~(m_alignment - 1)` (AlignedAllocation.inl:30-32 and
src/umpire/strategy/mixins/AlignedAllocation.cpp).  For the power-of-two
alignments the constructor is documented to take, masking is rounding down to a
multiple; `alignPtr_eq_mask` proves the agreement on 64-bit words. -/
def alignPtr (a ptr : Nat) : Nat := w64 (ptr + (a - 1)) / a * a

/-- `r` is the least multiple of `a` that is at least `n`. -/
def IsRoundUp (a n r : Nat) : Prop :=
  a ∣ r ∧ n ≤ r ∧ ∀ r', a ∣ r' → n ≤ r' → r ≤ r'

theorem roundUp64_eq {a n : Nat} (ha : 0 < a) (hn : 0 < n) (hb : n + a ≤ W) :
    roundUp64 a n = (n + (a - 1)) / a * a := by
  unfold roundUp64 w64
  have h1 : (n + W - 1) % W = n - 1 := by
    have : n + W - 1 = (n - 1) + W := by omega
    rw [this, Nat.add_mod_right, Nat.mod_eq_of_lt (by omega)]
  rw [h1]
  have hm : (n - 1) % a < a := Nat.mod_lt _ ha
  have hd := Nat.div_add_mod (n - 1) a
  have h2 : n + (a - 1) + W - (n - 1) % a = (n + (a - 1) - (n - 1) % a) + W := by omega
  rw [h2, Nat.add_mod_right, Nat.mod_eq_of_lt (by omega)]
  have h3 : (n + (a - 1)) / a = (n - 1) / a + 1 := by
    have : n + (a - 1) = (n - 1) + a := by omega
    rw [this, Nat.add_div_right _ ha]
  rw [h3, Nat.add_mul, Nat.mul_comm ((n-1)/a) a]
  omega

theorem roundUp_spec {a n : Nat} (ha : 0 < a) : IsRoundUp a n ((n + (a - 1)) / a * a) := by
  have hd := Nat.div_add_mod (n + (a - 1)) a
  have hm : (n + (a - 1)) % a < a := Nat.mod_lt _ ha
  rw [Nat.mul_comm] at hd
  refine ⟨⟨_, Nat.mul_comm _ _⟩, by omega, ?_⟩
  rintro r' ⟨k, rfl⟩ hk
  rw [Nat.mul_comm a k]
  apply Nat.mul_le_mul_right
  apply Nat.le_of_lt_succ
  rw [Nat.div_lt_iff_lt_mul ha, Nat.succ_mul, Nat.mul_comm k a]
  omega

theorem roundUp64_spec {a n : Nat} (ha : 0 < a) (hn : 0 < n) (hb : n + a ≤ W) :
    IsRoundUp a n (roundUp64 a n) := by
  rw [roundUp64_eq ha hn hb]; exact roundUp_spec ha

theorem roundUp64_bounds {a n : Nat} (ha : 0 < a) (hn : 0 < n) (hb : n + a ≤ W) :
    n ≤ roundUp64 a n ∧ roundUp64 a n < n + a := by
  rw [roundUp64_eq ha hn hb]
  have hd := Nat.div_add_mod (n + (a - 1)) a
  have hm : (n + (a - 1)) % a < a := Nat.mod_lt _ ha
  rw [Nat.mul_comm] at hd
  omega

theorem alignPtr_bounds {a p : Nat} (ha : 0 < a) (hb : p + a ≤ W) :
    a ∣ alignPtr a p ∧ p ≤ alignPtr a p ∧ alignPtr a p < p + a := by
  unfold alignPtr w64
  rw [Nat.mod_eq_of_lt (by omega)]
  have hd := Nat.div_add_mod (p + (a - 1)) a
  have hm : (p + (a - 1)) % a < a := Nat.mod_lt _ ha
  rw [Nat.mul_comm] at hd
  exact ⟨⟨_, Nat.mul_comm _ _⟩, by omega, by omega⟩

/-- The masking done by the code is rounding down: on 64-bit words,
`x &&& ~~~(2^k - 1)` is `x / 2^k * 2^k`. -/
theorem mask_eq_floor (x : BitVec 64) (k : Nat) (hk : k < 64) :
    (x &&& ~~~(BitVec.ofNat 64 (2 ^ k) - 1#64)).toNat = x.toNat / 2 ^ k * 2 ^ k := by
  have h2k : 2 ^ k < 2 ^ 64 := Nat.pow_lt_pow_right (by omega) hk
  have h1 : 1 ≤ 2 ^ k := Nat.one_le_two_pow
  have hsub : (BitVec.ofNat 64 (2 ^ k) - 1#64).toNat = 2 ^ k - 1 := by
    rw [BitVec.toNat_sub]
    simp only [BitVec.toNat_ofNat]
    rw [Nat.mod_eq_of_lt h2k]
    have : 2 ^ 64 - 1 % 2 ^ 64 + 2 ^ k = (2 ^ k - 1) + 2 ^ 64 := by
      have : 1 % 2 ^ 64 = 1 := by decide
      omega
    rw [this, Nat.add_mod_right, Nat.mod_eq_of_lt (by omega)]
  apply Nat.eq_of_testBit_eq
  intro i
  rw [BitVec.toNat_and, Nat.testBit_and]
  rw [Nat.testBit_mul_two_pow, Nat.testBit_div_two_pow]
  rw [BitVec.testBit_toNat, BitVec.testBit_toNat, BitVec.getLsbD_not]
  rw [← BitVec.testBit_toNat (_ - _), hsub, Nat.testBit_two_pow_sub_one]
  by_cases hik : k ≤ i
  · by_cases hi : i < 64
    · have e : i - k + k = i := by omega
      simp [hik, hi, BitVec.testBit_toNat, e, Nat.not_lt.mpr hik]
    · have : x.getLsbD i = false := BitVec.getLsbD_of_ge _ _ (by omega)
      simp [hik, hi, this, BitVec.testBit_toNat]
  · simp [hik]; intro _ _; omega

/-- `alignPtr` is the code's masking expression. -/
theorem alignPtr_eq_mask (p : BitVec 64) (k : Nat) (hk : k < 64) :
    ((p + (BitVec.ofNat 64 (2 ^ k) - 1#64)) &&& ~~~(BitVec.ofNat 64 (2 ^ k) - 1#64)).toNat
      = alignPtr (2 ^ k) p.toNat := by
  rw [mask_eq_floor _ _ hk]
  unfold alignPtr w64 W
  congr 2
  have h2k : 2 ^ k < 2 ^ 64 := Nat.pow_lt_pow_right (by omega) hk
  have h1 : 1 ≤ 2 ^ k := Nat.one_le_two_pow
  have hsub : (BitVec.ofNat 64 (2 ^ k) - 1#64).toNat = 2 ^ k - 1 := by
    rw [BitVec.toNat_sub]
    simp only [BitVec.toNat_ofNat]
    rw [Nat.mod_eq_of_lt h2k]
    have : 2 ^ 64 - 1 % 2 ^ 64 + 2 ^ k = (2 ^ k - 1) + 2 ^ 64 := by
      have : 1 % 2 ^ 64 = 1 := by decide
      omega
    rw [this, Nat.add_mod_right, Nat.mod_eq_of_lt (by omega)]
  rw [BitVec.toNat_add, hsub]

end Umpire
