import Verif.Base.Arith
import Verif.Small.Aligned
/-!
# Size computations: C19

The computations of block sizes from requested sizes, with `size_t` semantics.
`roundUp64` (pools) and `Aligned.total` are defined with their users.
-/
set_option autoImplicit false
set_option linter.unusedSimpArgs false
namespace Umpire.SizeArith

/-- `sizeof(T) * size` in `TypedAllocator<T>::allocate` (src/umpire/TypedAllocator.inl:29). -/
def typedBytes (sz n : Nat) : Nat := w64 (sz * n)

/-- `rounded_bytes` in `FileMemoryResource::allocate`
(src/umpire/resource/FileMemoryResource.cpp:71-72). -/
def fileBytes (page n : Nat) : Nat := w64 (n + (page - 1)) / page * page

/-- The rest of `FileMemoryResource::allocate` (FileMemoryResource.cpp:75-91): the
size of the mapping, or `none` when it throws.  `mmap` refuses to map zero bytes
(POSIX: EINVAL); `sys` tells whether the system calls succeed otherwise. -/
def fileAllocate (page n : Nat) (sys : Bool) : Option Nat :=
  if fileBytes page n = 0 then none else if sys then some (fileBytes page n) else none

/-- `mem_size` in the shared memory resource
(src/umpire/resource/HostSharedMemoryResourceImpl.hpp:186, with `m_alignment` 16). -/
def shmBytes (n : Nat) : Nat := w64 (n + 16) / 16 * 16

/-- `shmBytes` is the masking expression in the code. -/
theorem shmBytes_eq_mask (n : BitVec 64) :
    ((n + 16#64) &&& ~~~(16#64 - 1#64)).toNat = shmBytes n.toNat := by
  have := mask_eq_floor (n + 16#64) 4 (by omega)
  rw [show BitVec.ofNat 64 (2 ^ 4) = 16#64 from rfl] at this
  rw [this]
  rfl

/-- Pools: the least multiple of the alignment, as long as it is below 2^64. -/
theorem pool_round_partial {a n : Nat} (ha : 0 < a) (hn : 0 < n) (hb : n + a ≤ W) : IsRoundUp a n (roundUp64 a n) :=
  roundUp64_spec ha hn hb

example : IsRoundUp 16 100 (roundUp64 16 100) := pool_round_partial (by decide) (by decide) (by decide)

theorem two_pow_dvd_W {k : Nat} (hk : k < 64) : 2 ^ k ∣ W := Nat.pow_dvd_pow 2 (by omega)

/-- Pools: for every larger request and every power-of-two alignment the result is
0, so the pool goes on with an empty block. -/
theorem pool_round_counterexample {k n : Nat} (hk : k < 64) (hlt : n < W) (hb : W < n + 2 ^ k) : roundUp64 (2 ^ k) n = 0 := by
  have h1 : 1 ≤ 2 ^ k := Nat.one_le_two_pow
  have h2 : 2 ^ k < W := Nat.pow_lt_pow_right (by omega) hk
  obtain ⟨c, hc⟩ := two_pow_dvd_W hk
  unfold roundUp64 w64
  have e1 : (n + W - 1) % W = n - 1 := by
    rw [show n + W - 1 = (n - 1) + W by omega, Nat.add_mod_right, Nat.mod_eq_of_lt (by omega)]
  rw [e1]
  generalize 2 ^ k = a at *
  have hc1 : 1 ≤ c := by
    rcases Nat.eq_zero_or_pos c with rfl | h
    · omega
    · exact h
  have e2 : a * (c - 1) + a = W := by
    rw [hc, ← Nat.mul_succ, show (c - 1).succ = c by omega]
  have e3 : (n - 1) % a = n - 1 - a * (c - 1) := by
    rw [show n - 1 = (n - 1 - a * (c - 1)) + a * (c - 1) by omega, Nat.add_mul_mod_self_left,
      Nat.mod_eq_of_lt (by omega)]
    omega
  rw [e3]
  rw [show n + (a - 1) + W - (n - 1 - a * (c - 1)) = W + W by omega, Nat.add_mod_right, Nat.mod_self]

example : roundUp64 16 (2 ^ 64 - 1) = 0 := pool_round_counterexample (k := 4) (by decide) (by decide) (by decide)

/-- AlignedAllocator: exact as long as the sum is below 2^64, and too small otherwise. -/
theorem aligned_total {a n : Nat} (ha : 0 < a) (ha' : a + 8 ≤ W) (hn : n < W) :
    (n + 8 + a - 1 < W → Aligned.total a n = n + 8 + a - 1) ∧ (W ≤ n + 8 + a - 1 → Aligned.total a n < n) := by
  unfold Aligned.total w64
  refine ⟨fun h => Nat.mod_eq_of_lt h, fun h => ?_⟩
  rw [Nat.mod_eq_sub_mod h, Nat.mod_eq_of_lt (by omega)]
  omega

example : Aligned.total 16 100 = 123 ∧ Aligned.total 16 (2 ^ 64 - 1) < 2 ^ 64 - 1 :=
  ⟨(aligned_total (by decide) (by decide) (by decide)).1 (by decide), (aligned_total (by decide) (by decide) (by decide)).2 (by decide)⟩

/-- TypedAllocator: exact exactly if the product is below 2^64, and too small otherwise. -/
theorem typed_bytes (sz n : Nat) : (sz * n < W → typedBytes sz n = sz * n) ∧ (W ≤ sz * n → typedBytes sz n < sz * n) := by
  unfold typedBytes w64
  refine ⟨fun h => Nat.mod_eq_of_lt h, fun h => ?_⟩
  have : sz * n % W < W := Nat.mod_lt _ (by decide)
  omega

/-- 2^61 doubles of 8 bytes: a request for zero bytes. -/
theorem typed_bytes_counterexample : typedBytes 8 (2 ^ 61) = 0 := by decide

/-- File resource: the mapping is the least multiple of the page size, or the
request is refused; no exception for sizes. -/
theorem file_bytes {page n r : Nat} {sys : Bool} (hp : 0 < page) (hpw : page ≤ W) (hn : n < W) (h : fileAllocate page n sys = some r) :
    IsRoundUp page n r := by
  unfold fileAllocate at h
  split at h
  · cases h
  · rename_i h0
    split at h
    · injection h with h
      subst h
      unfold fileBytes w64 at h0 ⊢
      by_cases hb : n + (page - 1) < W
      · rw [Nat.mod_eq_of_lt hb]
        exact roundUp_spec hp
      · exfalso
        apply h0
        rw [Nat.mod_eq_sub_mod (by omega), Nat.mod_eq_of_lt (by omega), Nat.div_eq_of_lt (by omega), Nat.zero_mul]
    · cases h

example : fileAllocate 4096 5000 true = some 8192 ∧ IsRoundUp 4096 5000 8192 :=
  ⟨by decide, file_bytes (sys := true) (by decide) (by decide) (by decide) (by decide)⟩

/-- Shared memory: a multiple of 16 larger than the request by at most 16, as long as
the sum is below 2^64. -/
theorem shm_bytes_partial {n : Nat} (h : n + 16 < W) : 16 ∣ shmBytes n ∧ n < shmBytes n ∧ shmBytes n ≤ n + 16 := by
  unfold shmBytes w64
  rw [Nat.mod_eq_of_lt h]
  exact ⟨⟨_, Nat.mul_comm _ _⟩, by omega, by omega⟩

example : shmBytes 100 = 112 ∧ 100 < shmBytes 100 := ⟨by decide, (shm_bytes_partial (by decide)).2.1⟩

/-- Shared memory: for every larger request the result is 0; and it is not the least
multiple if the request already is one. -/
theorem shm_bytes_counterexample : (∀ n, n < W → W ≤ n + 16 → shmBytes n = 0) ∧
    ∀ n, n + 16 < W → 16 ∣ n → shmBytes n = n + 16 ∧ ¬ IsRoundUp 16 n (shmBytes n) := by
  constructor
  · intro n h1 h2
    have hW : 16 ≤ W := by decide
    unfold shmBytes w64
    rw [Nat.mod_eq_sub_mod h2, Nat.mod_eq_of_lt (by omega), Nat.div_eq_of_lt (by omega), Nat.zero_mul]
  · intro n h1 h2
    have : shmBytes n = n + 16 := by
      unfold shmBytes w64
      rw [Nat.mod_eq_of_lt h1]
      omega
    refine ⟨this, fun hr => ?_⟩
    have := hr.2.2 n h2 (Nat.le_refl _)
    omega

end Umpire.SizeArith
