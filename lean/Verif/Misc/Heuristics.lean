import Verif.QuickPool.Props
import Verif.DynPool.Props
/-!
# When the built-in coalescing heuristics trigger (C52)

`percent_releasable(p)` computes its threshold in single precision
(QuickPool.cpp:374-378, DynamicPoolList.cpp:165-169).  The arithmetic is modelled
exactly: IEEE binary32, round to nearest, ties to even, conversion of `size_t` to
`float` included.  No value here is subnormal or overflows.
-/
set_option autoImplicit false
set_option linter.unusedSimpArgs false
namespace Umpire.Heur
open Umpire.Prog

/-- Round a natural number to 24 significant bits, ties to even.  Rounding does
not depend on the exponent, so this serves for fixed-point numbers as well. -/
def round24 (n : Nat) : Nat :=
  if n < 2 ^ 24 then n
  else
    let s := n.log2 - 23
    let q := n / 2 ^ s
    let r := n % 2 ^ s
    (if 2 * r > 2 ^ s ∨ (2 * r = 2 ^ s ∧ q % 2 = 1) then q + 1 else q) * 2 ^ s

/-- `(float)percentage / (float)100.0` (QuickPool.cpp:374), in units of `2^-61`:
the quotient to 60 binary places and one sticky bit, rounded. -/
def fraction (p : Nat) : Nat :=
  round24 (2 * (p * 2 ^ 60 / 100) + (if p * 2 ^ 60 % 100 = 0 then 0 else 1))

/-- `static_cast<std::size_t>(f * pool.getActualSize())` (QuickPool.cpp:377): the
size is converted to `float`, the product rounded, the result truncated. -/
def threshold (p actual : Nat) : Nat := round24 (fraction p * round24 actual) / 2 ^ 61

example : threshold 33 150 = 49 ∧ threshold 50 1000 = 500 ∧ threshold 29 100 = 29 ∧ threshold 1 99 = 0 := by decide +kernel

/-! ## Accuracy of the threshold -/

theorem round24_error (n : Nat) :
    round24 n * 2 ^ 24 ≤ n * (2 ^ 24 + 1) ∧ n * (2 ^ 24 - 1) ≤ round24 n * 2 ^ 24 := by
  unfold round24
  split
  · omega
  · rename_i h
    have hn : n ≠ 0 := by omega
    have h24 : 24 ≤ n.log2 := (Nat.le_log2 hn).mpr (by omega)
    have hlo := Nat.log2_self_le hn
    simp only
    generalize hs : n.log2 - 23 = s
    have hL : n.log2 = s + 23 := by omega
    rw [hL, Nat.pow_add] at hlo
    have hd := Nat.div_add_mod n (2 ^ s)
    have hr := Nat.mod_lt n (show 0 < 2 ^ s from Nat.pos_of_ne_zero (by simp))
    generalize 2 ^ s = t at *
    generalize n / t = q at *
    generalize n % t = r at *
    rw [Nat.mul_comm t q] at hd
    split
    · rename_i hc
      rw [Nat.add_mul, Nat.one_mul]
      generalize q * t = u at *
      have : 2 * r ≥ t := by rcases hc with h | h <;> omega
      omega
    · rename_i hc
      generalize q * t = u at *
      have : 2 * r ≤ t := by
        by_cases h1 : 2 * r > t
        · exact absurd (Or.inl h1) hc
        · omega
      omega

/-- The single-precision quotient is within half a unit of the last place. -/
theorem fraction_error : ∀ p : Fin 100,
    100 * fraction p.val * 2 ^ 24 ≤ p.val * 2 ^ 61 * (2 ^ 24 + 1) ∧
    p.val * 2 ^ 61 * (2 ^ 24 - 1) ≤ 100 * fraction p.val * 2 ^ 24 := by decide +kernel

/-- The threshold is the percentage of the size up to a relative error below
`2^-22` and truncation. -/
theorem threshold_bounds {p : Nat} (hp : p < 100) (a : Nat) :
    100 * threshold p a * 2 ^ 24 ≤ p * a * (2 ^ 24 + 4) ∧
    p * a * (2 ^ 24 - 3) ≤ 100 * (threshold p a + 1) * 2 ^ 24 := by
  obtain ⟨f1, f2⟩ := fraction_error ⟨p, hp⟩
  simp only at f1 f2
  obtain ⟨a1, a2⟩ := round24_error a
  obtain ⟨r1, r2⟩ := round24_error (fraction p * round24 a)
  unfold threshold
  generalize hF : fraction p = F at *
  generalize hA : round24 a = A at *
  generalize hR : round24 (F * A) = R at *
  have hdiv := Nat.div_add_mod R (2 ^ 61)
  have hmod := Nat.mod_lt R (show 0 < 2 ^ 61 by decide)
  generalize hT : R / 2 ^ 61 = T at *
  generalize hM : R % 2 ^ 61 = M at *
  -- products
  have e1 : (100 * F * 2 ^ 24) * (A * 2 ^ 24) ≤ (p * 2 ^ 61 * (2 ^ 24 + 1)) * (a * (2 ^ 24 + 1)) := Nat.mul_le_mul f1 a1
  have e2 : (p * 2 ^ 61 * (2 ^ 24 - 1)) * (a * (2 ^ 24 - 1)) ≤ (100 * F * 2 ^ 24) * (A * 2 ^ 24) := Nat.mul_le_mul f2 a2
  have c1 : (100 * F * 2 ^ 24) * (A * 2 ^ 24) = (F * A) * (100 * 2 ^ 48) := by
    have : (2 : Nat) ^ 48 = 2 ^ 24 * 2 ^ 24 := by decide
    rw [this]; ac_rfl
  have c2 : (p * 2 ^ 61 * (2 ^ 24 + 1)) * (a * (2 ^ 24 + 1)) = (p * a) * (2 ^ 61 * ((2 ^ 24 + 1) * (2 ^ 24 + 1))) := by ac_rfl
  have c3 : (p * 2 ^ 61 * (2 ^ 24 - 1)) * (a * (2 ^ 24 - 1)) = (p * a) * (2 ^ 61 * ((2 ^ 24 - 1) * (2 ^ 24 - 1))) := by ac_rfl
  rw [c1, c2] at e1
  rw [c1, c3] at e2
  generalize F * A = Q at *
  generalize p * a = X at *
  have hT2 : 2 ^ 61 * T ≤ R := by omega
  have hT3 : R ≤ 2 ^ 61 * (T + 1) := by omega
  have hpos : 0 < (2 : Nat) ^ 61 := by decide
  clear f1 f2 a1 a2 c1 c2 c3 hdiv hmod hT hM hR hA hF
  generalize (2 : Nat) ^ 61 = D at *
  rw [← Nat.mul_assoc X] at e1 e2
  constructor
  · refine Nat.le_of_mul_le_mul_left (c := D) ?_ hpos
    have g1 : D * (100 * T * 2 ^ 24) = (D * T) * (100 * 2 ^ 24) := by ac_rfl
    have g2 : D * (X * (2 ^ 24 + 4)) = (X * D) * (2 ^ 24 + 4) := by ac_rfl
    rw [g1, g2]
    generalize X * D = Y at *
    generalize D * T = Z at *
    refine Nat.le_of_mul_le_mul_right (c := 2 ^ 48) ?_ (by decide)
    calc Z * (100 * 2 ^ 24) * 2 ^ 48 ≤ R * (100 * 2 ^ 24) * 2 ^ 48 :=
          Nat.mul_le_mul_right _ (Nat.mul_le_mul_right _ hT2)
      _ = R * 2 ^ 24 * (100 * 2 ^ 48) := by ac_rfl
      _ ≤ Q * (2 ^ 24 + 1) * (100 * 2 ^ 48) := Nat.mul_le_mul_right (100 * 2 ^ 48) r1
      _ = Q * (100 * 2 ^ 48) * (2 ^ 24 + 1) := by ac_rfl
      _ ≤ Y * ((2 ^ 24 + 1) * (2 ^ 24 + 1)) * (2 ^ 24 + 1) := Nat.mul_le_mul_right (2 ^ 24 + 1) e1
      _ = Y * ((2 ^ 24 + 1) * (2 ^ 24 + 1) * (2 ^ 24 + 1)) := by ac_rfl
      _ ≤ Y * ((2 ^ 24 + 4) * 2 ^ 48) := Nat.mul_le_mul_left Y (by decide)
      _ = Y * (2 ^ 24 + 4) * 2 ^ 48 := by ac_rfl
  · refine Nat.le_of_mul_le_mul_left (c := D) ?_ hpos
    have g1 : D * (100 * (T + 1) * 2 ^ 24) = (D * (T + 1)) * (100 * 2 ^ 24) := by ac_rfl
    have g2 : D * (X * (2 ^ 24 - 3)) = (X * D) * (2 ^ 24 - 3) := by ac_rfl
    rw [g1, g2]
    generalize X * D = Y at *
    generalize D * (T + 1) = Z at *
    refine Nat.le_of_mul_le_mul_right (c := 2 ^ 48) ?_ (by decide)
    calc Y * (2 ^ 24 - 3) * 2 ^ 48 = Y * ((2 ^ 24 - 3) * 2 ^ 48) := by ac_rfl
      _ ≤ Y * ((2 ^ 24 - 1) * (2 ^ 24 - 1) * (2 ^ 24 - 1)) := Nat.mul_le_mul_left Y (by decide)
      _ = Y * ((2 ^ 24 - 1) * (2 ^ 24 - 1)) * (2 ^ 24 - 1) := by ac_rfl
      _ ≤ Q * (100 * 2 ^ 48) * (2 ^ 24 - 1) := Nat.mul_le_mul_right _ e2
      _ = Q * (2 ^ 24 - 1) * (100 * 2 ^ 48) := by ac_rfl
      _ ≤ R * 2 ^ 24 * (100 * 2 ^ 48) := Nat.mul_le_mul_right (100 * 2 ^ 48) r2
      _ = R * (100 * 2 ^ 24) * 2 ^ 48 := by ac_rfl
      _ ≤ Z * (100 * 2 ^ 24) * 2 ^ 48 := Nat.mul_le_mul_right _ (Nat.mul_le_mul_right _ hT3)

/-! ## Specification -/

/-- What `percent_releasable(p)`, `0 < p < 100`, answers, `r`, when it would
suggest `v`: `v` if the releasable bytes are `p` percent of the pool or more, `0`
if they are less, up to a relative error below `2^-22` and one byte, within which
it may be either. -/
def Percent (a p : Nat) (O L : Held) (v r : Nat) : Prop :=
  (r = v ∨ r = 0) ∧
  (p * heldBytes a O * (2 ^ 24 + 4) ≤ 100 * heldBytes a (freeBlocks O L) * 2 ^ 24 → r = v) ∧
  (100 * (heldBytes a (freeBlocks O L) + 1) * 2 ^ 24 < p * heldBytes a O * (2 ^ 24 - 3) → r = 0)

theorem percent_of {a p : Nat} (hp : p < 100) {O L : Held} {v x y : Nat} (hx : x = heldBytes a (freeBlocks O L))
    (hy : y = heldBytes a O) : Percent a p O L v (if x ≥ threshold p y then v else 0) := by
  obtain ⟨h1, h2⟩ := threshold_bounds hp y
  subst hx hy
  unfold Percent
  generalize heldBytes a O = A at *
  generalize heldBytes a (freeBlocks O L) = R
  generalize threshold p A = T at *
  refine ⟨by split <;> simp, ?_, ?_⟩
  · intro h
    rw [if_pos]
    omega
  · intro h
    rw [if_neg]
    intro hge
    have : 100 * (T + 1) * 2 ^ 24 ≤ 100 * (R + 1) * 2 ^ 24 :=
      Nat.mul_le_mul_right _ (Nat.mul_le_mul_left _ (Nat.add_le_add_right hge 1))
    omega

theorem freeBlocks_nil (O : Held) : freeBlocks O [] = O := by
  unfold freeBlocks
  exact List.filter_eq_self.2 (by simp)

/-- A pool with a live allocation is not completely releasable. -/
theorem not_all_free {a : Nat} (ha : 0 < a) {q : QuickPool.State} {O L : Held} (h : QuickPool.Inv a q O L) :
    heldBytes a O = heldBytes a (freeBlocks O L) ↔ L = [] := by
  constructor
  · intro he
    have hall := QuickPool.all_free ha h (by
      unfold QuickPool.getActualSize QuickPool.getReleasableSize
      rw [QuickPool.Inv.actual_eq h ha, QuickPool.Inv.relBytes_eq h ha]; exact he)
    cases L with
    | nil => rfl
    | cons l L =>
      exfalso
      obtain ⟨_, o, ho, hw, hu⟩ := QuickPool.Inv.live_held h ha (l := l) (by simp)
      have hreq := h.req l (by simp)
      have hc := (QuickPool.ceil_spec (a := a) (n := l.2) ha).2.1
      rw [← hall] at ho
      have := (List.mem_filter.1 ho).2
      simp only [List.all_cons, Bool.and_eq_true, decide_eq_true_eq] at this
      have hd := this.1
      unfold Disj at hd
      unfold Within at hw hu
      omega
  · intro he
    rw [he, freeBlocks_nil]

/-! ## QuickPool -/

/-- The states in which a heuristic is consulted, with the memory held from the
parent and the live allocations at that moment: on `coalesce()`, and in the middle
of `deallocate`, when the chunk has been freed. -/
inductive Asked (cfg : QuickPool.Cfg) : QuickPool.State → Held → Held → Prop where
  | coalesce {S : QuickPool.Sys} : QuickPool.Reach cfg S → Asked cfg S.pool S.held S.live
  | deallocate {S : QuickPool.Sys} {p n : Nat} {s' : QuickPool.State} : QuickPool.Reach cfg S → (p, n) ∈ S.live →
      QuickPool.deallocCore S.pool p = some s' → Asked cfg s' S.held (drop p S.live)

theorem Asked.inv {cfg : QuickPool.Cfg} (hc : QuickPool.CfgOk cfg) (hh : QuickPool.HeurOk cfg) {s : QuickPool.State}
    {O L : Held} (h : Asked cfg s O L) : QuickPool.Inv cfg.align s O L := by
  cases h with
  | coalesce hS => exact QuickPool.reach_inv hc hh hS
  | deallocate hS hL hd =>
    obtain ⟨s1, h1, h2⟩ := QuickPool.deallocCore_inv (QuickPool.reach_inv hc hh hS) hL
    rw [hd] at h1
    injection h1 with h1
    subst h1
    exact h2

/-- Every built-in heuristic of `QuickPool`, wherever it is consulted.  The answer
`0` means "do not coalesce".  Partial: for percentages strictly between 0 and 100
the comparison is only accurate up to rounding, see
`quickpool_percent_early_counterexample` and `quickpool_percent_late_counterexample`. -/
theorem quickpool_heuristics_partial {cfg : QuickPool.Cfg} (hc : QuickPool.CfgOk cfg) (hh : QuickPool.HeurOk cfg)
    {s : QuickPool.State} {O L : Held} (h : Asked cfg s O L) :
    (∀ n, QuickPool.blocksReleasable n s = if n ≤ (freeBlocks O L).length then heldBytes cfg.align O else 0) ∧
    (∀ n, QuickPool.blocksReleasableHwm n s =
      if n ≤ (freeBlocks O L).length then QuickPool.getAlignedHighwaterMark s else 0) ∧
    (∀ p : Int, (QuickPool.percentReleasable (threshold p.toNat) p = none ↔ p < 0 ∨ 100 < p) ∧
      (QuickPool.percentReleasableHwm (threshold p.toNat) p = none ↔ p < 0 ∨ 100 < p)) ∧
    (∀ f, QuickPool.percentReleasable (threshold 0) 0 = some f ∨ QuickPool.percentReleasableHwm (threshold 0) 0 = some f →
      f s = 0) ∧
    (∀ f, QuickPool.percentReleasable (threshold 100) 100 = some f → f s = if L = [] then heldBytes cfg.align O else 0) ∧
    (∀ f, QuickPool.percentReleasableHwm (threshold 100) 100 = some f →
      f s = if L = [] then QuickPool.getAlignedHighwaterMark s else 0) ∧
    (∀ (p : Nat) f, 0 < p → p < 100 → QuickPool.percentReleasable (threshold p) p = some f →
      Percent cfg.align p O L (heldBytes cfg.align O) (f s)) ∧
    (∀ (p : Nat) f, 0 < p → p < 100 → QuickPool.percentReleasableHwm (threshold p) p = some f →
      Percent cfg.align p O L (QuickPool.getAlignedHighwaterMark s) (f s)) := by
  have hi := h.inv hc hh
  have e1 : QuickPool.getActualSize s = heldBytes cfg.align O := QuickPool.Inv.actual_eq hi hc.al
  have e2 : QuickPool.getReleasableSize s = heldBytes cfg.align (freeBlocks O L) := QuickPool.Inv.relBytes_eq hi hc.al
  have e3 : QuickPool.getReleasableBlocks s = (freeBlocks O L).length := QuickPool.Inv.relBlocks_eq hi hc.al
  have e4 := not_all_free hc.al hi
  refine ⟨fun n => ?_, fun n => ?_, fun p => ⟨?_, ?_⟩, fun f hf => ?_, fun f hf => ?_, fun f hf => ?_,
    fun p f h0 h1 hf => ?_, fun p f h0 h1 hf => ?_⟩
  · unfold QuickPool.blocksReleasable; rw [e1, e3]
  · unfold QuickPool.blocksReleasableHwm; rw [e3]
  · unfold QuickPool.percentReleasable
    split
    · rename_i hp; simpa using hp
    · rename_i hp
      split
      · simpa using hp
      · split <;> simpa using hp
  · unfold QuickPool.percentReleasableHwm
    split
    · rename_i hp; simpa using hp
    · rename_i hp
      split
      · simpa using hp
      · split <;> simpa using hp
  · rcases hf with hf | hf
    · simp only [QuickPool.percentReleasable] at hf
      simp at hf
      subst hf; rfl
    · simp only [QuickPool.percentReleasableHwm] at hf
      simp at hf
      subst hf; rfl
  · simp only [QuickPool.percentReleasable] at hf
    simp at hf
    subst hf
    simp only [e1, e2, e4]
  · simp only [QuickPool.percentReleasableHwm] at hf
    simp at hf
    subst hf
    simp only [e1, e2, e4]
  · unfold QuickPool.percentReleasable at hf
    rw [if_neg (by omega), if_neg (by omega), if_neg (by omega)] at hf
    injection hf with hf
    subst hf
    simp only
    rw [e1]
    exact percent_of h1 e2 rfl
  · unfold QuickPool.percentReleasableHwm at hf
    rw [if_neg (by omega), if_neg (by omega), if_neg (by omega)] at hf
    injection hf with hf
    subst hf
    simp only
    rw [e1]
    exact percent_of h1 e2 rfl

/-- `percent_releasable(p)` on a pool with the default alignment. -/
def cfgP (p : Nat) : QuickPool.Cfg :=
  { align := 16, first := 64, next := 64,
    heur := fun s => if QuickPool.getReleasableSize s ≥ threshold p (QuickPool.getActualSize s) then QuickPool.getActualSize s else 0 }

theorem cfgP_ok (p : Nat) : QuickPool.CfgOk (cfgP p) := ⟨by simp [cfgP], by simp [cfgP, W], by simp [cfgP, W]⟩

theorem cfgP_is {p : Nat} (h0 : 0 < p) (h1 : p < 100) :
    QuickPool.percentReleasable (threshold p) p = some (cfgP p).heur := by
  unfold QuickPool.percentReleasable
  rw [if_neg (by omega), if_neg (by omega), if_neg (by omega)]
  rfl

theorem cfgP_heur {p : Nat} (h0 : 0 < p) (h1 : p < 100) : QuickPool.HeurOk (cfgP p) :=
  QuickPool.builtIn_heurOk (.percent _ _ _ (cfgP_is h0 h1)) (by simp [cfgP]; decide)

/-- Two blocks, of 512 and 1040 bytes, both in use. -/
def sysP : QuickPool.Sys :=
  { pool :=
      { blocks := [[⟨0, 1600, 512, 512, false⟩], [⟨2, 3200, 1040, 1040, false⟩]],
        sizeMap := [], ptrMap := [(3200, 2), (1600, 0)], baseMap := [(3200, 3200, 1056), (1600, 1600, 528)],
        nextId := 4, totalBlocks := 2, releasableBlocks := 0, alignedBytes := 1552, alignedHwm := 1552,
        actualBytes := 1552, releasableBytes := 0, actualHwm := 1552 }
    held := [(3200, 1056), (1600, 528)]
    live := [(3200, 1040), (1600, 512)] }

theorem sysP_reach : QuickPool.Reach (cfgP 33) sysP :=
  QuickPool.play_reach (ops := [.alloc 512 [some 1600], .alloc 1040 [some 3200]]) (by decide +kernel)

/-- `sysP` with the first allocation freed. -/
def poolP : QuickPool.State :=
  { sysP.pool with
    blocks := [[⟨0, 1600, 512, 512, true⟩], [⟨2, 3200, 1040, 1040, false⟩]],
    sizeMap := [(512, 0)], ptrMap := [(3200, 2)], releasableBlocks := 1, alignedBytes := 1040, releasableBytes := 512 }

theorem poolP_asked : Asked (cfgP 33) poolP [(3200, 1056), (1600, 528)] [(3200, 1040)] :=
  .deallocate (p := 1600) (n := 512) sysP_reach (by decide) (by decide +kernel)

example : (cfgP 33).heur poolP = 1552 ∧ QuickPool.blocksReleasable 1 poolP = 1552 ∧ QuickPool.blocksReleasable 2 poolP = 0 := by
  decide +kernel

example : Percent 16 33 [(3200, 1056), (1600, 528)] [(3200, 1040)] 1552 ((cfgP 33).heur poolP) :=
  (quickpool_heuristics_partial (cfgP_ok 33) (cfgP_heur (by decide) (by decide)) poolP_asked).2.2.2.2.2.2.1 33 _
    (by decide) (by decide) (cfgP_is (by decide) (by decide))

/-- Negation of the rest of C52: the threshold is truncated to whole bytes, so that
`percent_releasable(33)` triggers with less than 33 percent of the pool releasable. -/
theorem quickpool_percent_early_counterexample :
    ∃ (cfg : QuickPool.Cfg) (s : QuickPool.State) (O L : Held), QuickPool.CfgOk cfg ∧ QuickPool.HeurOk cfg ∧
      QuickPool.percentReleasable (threshold 33) 33 = some cfg.heur ∧ Asked cfg s O L ∧
      100 * heldBytes cfg.align (freeBlocks O L) < 33 * heldBytes cfg.align O ∧ cfg.heur s ≠ 0 :=
  ⟨cfgP 33, poolP, _, _, cfgP_ok 33, cfgP_heur (by decide) (by decide), cfgP_is (by decide) (by decide), poolP_asked,
    by decide +kernel, by decide +kernel⟩

/-- Two blocks of 2^28 + 48 bytes, the first in use. -/
def sysQ : QuickPool.Sys :=
  { pool :=
      { blocks := [[⟨0, 1600, 268435504, 268435504, false⟩], [⟨2, 1073741824, 268435504, 268435504, true⟩]],
        sizeMap := [(268435504, 2)], ptrMap := [(1600, 0)],
        baseMap := [(1073741824, 1073741824, 268435520), (1600, 1600, 268435520)],
        nextId := 4, totalBlocks := 2, releasableBlocks := 1, alignedBytes := 268435504, alignedHwm := 536871008,
        actualBytes := 536871008, releasableBytes := 268435504, actualHwm := 536871008 }
    held := [(1073741824, 268435520), (1600, 268435520)]
    live := [(1600, 268435504)] }

theorem sysQ_reach : QuickPool.Reach (cfgP 50) sysQ :=
  QuickPool.play_reach (ops := [.alloc 268435504 [some 1600], .alloc 268435504 [some 1073741824],
    .dealloc 1073741824 268435504 5 []]) (by decide +kernel)

/-- Negation of the rest of C52: the size of a pool above 16 MB is rounded to 24
bits, so that `percent_releasable(50)` may not trigger with exactly half of the pool
releasable. -/
theorem quickpool_percent_late_counterexample :
    ∃ (cfg : QuickPool.Cfg) (s : QuickPool.State) (O L : Held), QuickPool.CfgOk cfg ∧ QuickPool.HeurOk cfg ∧
      QuickPool.percentReleasable (threshold 50) 50 = some cfg.heur ∧ Asked cfg s O L ∧
      100 * heldBytes cfg.align (freeBlocks O L) = 50 * heldBytes cfg.align O ∧ cfg.heur s = 0 :=
  ⟨cfgP 50, sysQ.pool, _, _, cfgP_ok 50, cfgP_heur (by decide) (by decide), cfgP_is (by decide) (by decide),
    .coalesce sysQ_reach, by decide +kernel, by decide +kernel⟩

/-! ## DynamicPoolList -/

/-- As `Asked`, for `DynamicPoolList`. -/
inductive AskedD (cfg : DynPool.Cfg) : DynPool.State → Held → Held → Prop where
  | coalesce {S : DynPool.Sys} : DynPool.Reach cfg S → AskedD cfg S.pool S.held S.live
  | deallocate {S : DynPool.Sys} {p n : Nat} : DynPool.Reach cfg S → (p, n) ∈ S.live →
      AskedD cfg (DynPool.deallocCore S.pool p) S.held (drop p S.live)

theorem AskedD.inv {cfg : DynPool.Cfg} (hc : DynPool.CfgOk cfg) {s : DynPool.State}
    {O L : Held} (h : AskedD cfg s O L) : DynPool.DInv cfg.align s O L := by
  cases h with
  | coalesce hS => exact DynPool.reach_inv hc hS
  | deallocate hS hL => exact DynPool.deallocCore_inv (DynPool.reach_inv hc hS) hL

/-- Every built-in heuristic of `DynamicPoolList`, wherever it is consulted, when
`getCurrentSize()` is the sum of the sizes of the live allocations, as it is for an
allocator with introspection.  Partial: percentages strictly between 0 and 100 as
for `QuickPool`; without introspection see
`dynpool_untracked_heuristic_counterexample`. -/
theorem dynpool_heuristics_partial {cfg : DynPool.Cfg} (hc : DynPool.CfgOk cfg)
    {s : DynPool.State} {O L : Held} (h : AskedD cfg s O L) {cur : Nat} (hcur : cur = (L.map (·.2)).sum) :
    (∀ n, DynPool.blocksReleasable n s = if n ≤ (freeBlocks O L).length then heldBytes cfg.align O else 0) ∧
    (∀ n, DynPool.blocksReleasableHwm n s =
      if n ≤ (freeBlocks O L).length then DynPool.getAlignedHighwaterMark s else 0) ∧
    (∀ p : Int, (DynPool.percentReleasable (threshold p.toNat) cur p = none ↔ p < 0 ∨ 100 < p) ∧
      (DynPool.percentReleasableHwm (threshold p.toNat) cur p = none ↔ p < 0 ∨ 100 < p)) ∧
    (∀ f, DynPool.percentReleasable (threshold 0) cur 0 = some f ∨ DynPool.percentReleasableHwm (threshold 0) cur 0 = some f →
      f s = 0) ∧
    (∀ f, DynPool.percentReleasable (threshold 100) cur 100 = some f → f s = if L = [] then heldBytes cfg.align O else 0) ∧
    (∀ f, DynPool.percentReleasableHwm (threshold 100) cur 100 = some f →
      f s = if L = [] then DynPool.getAlignedHighwaterMark s else 0) ∧
    (∀ (p : Nat) f, 0 < p → p < 100 → DynPool.percentReleasable (threshold p) cur p = some f →
      Percent cfg.align p O L (heldBytes cfg.align O) (f s)) ∧
    (∀ (p : Nat) f, 0 < p → p < 100 → DynPool.percentReleasableHwm (threshold p) cur p = some f →
      Percent cfg.align p O L (DynPool.getAlignedHighwaterMark s) (f s)) := by
  obtain ⟨q, hi, hr⟩ := h.inv hc
  have hw := hr.whole_perm hi
  have e1 : DynPool.getActualSize s = heldBytes cfg.align O := by
    unfold DynPool.getActualSize; rw [hr.actual]; exact QuickPool.Inv.actual_eq hi hc.al
  have e2 : DynPool.getReleasableSize s = heldBytes cfg.align (freeBlocks O L) := by
    unfold DynPool.getReleasableSize
    rw [DynPool.foldl_rel, hw.sum_nat, Nat.zero_add, ← hi.relBytes]
    exact QuickPool.Inv.relBytes_eq hi hc.al
  have e3 : DynPool.getReleasableBlocks s = (freeBlocks O L).length := by
    unfold DynPool.getReleasableBlocks; rw [hr.rel]; exact QuickPool.Inv.relBlocks_eq hi hc.al
  have e4 : cur = 0 ↔ L = [] := by
    rw [hcur]
    cases L with
    | nil => simp
    | cons l L => have := (hi.req l (by simp)).1; simp; omega
  refine ⟨fun n => ?_, fun n => ?_, fun p => ⟨?_, ?_⟩, fun f hf => ?_, fun f hf => ?_, fun f hf => ?_,
    fun p f h0 h1 hf => ?_, fun p f h0 h1 hf => ?_⟩
  · unfold DynPool.blocksReleasable; rw [e1, e3]
  · unfold DynPool.blocksReleasableHwm; rw [e3]
  · unfold DynPool.percentReleasable
    split
    · rename_i hp; simpa using hp
    · rename_i hp
      split
      · simpa using hp
      · split <;> simpa using hp
  · unfold DynPool.percentReleasableHwm
    split
    · rename_i hp; simpa using hp
    · rename_i hp
      split
      · simpa using hp
      · split <;> simpa using hp
  · rcases hf with hf | hf
    · simp only [DynPool.percentReleasable] at hf
      simp at hf
      subst hf; rfl
    · simp only [DynPool.percentReleasableHwm] at hf
      simp at hf
      subst hf; rfl
  · simp only [DynPool.percentReleasable] at hf
    simp at hf
    subst hf
    simp only [e1, e2, e4]
  · simp only [DynPool.percentReleasableHwm] at hf
    simp at hf
    subst hf
    simp only [e1, e2, e4]
  · unfold DynPool.percentReleasable at hf
    rw [if_neg (by omega), if_neg (by omega), if_neg (by omega)] at hf
    injection hf with hf
    subst hf
    simp only
    rw [e1]
    exact percent_of h1 e2 rfl
  · unfold DynPool.percentReleasableHwm at hf
    rw [if_neg (by omega), if_neg (by omega), if_neg (by omega)] at hf
    injection hf with hf
    subst hf
    simp only
    rw [e1]
    exact percent_of h1 e2 rfl

example : DynPool.blocksReleasable 1 DynPool.sysX.pool = 128 ∧ DynPool.blocksReleasable 2 DynPool.sysX.pool = 0 := by
  have h := (dynpool_heuristics_partial DynPool.cfgX_ok (.coalesce DynPool.sysX_reach) rfl).1
  exact ⟨(h 1).trans (by decide), (h 2).trans (by decide)⟩

/-- Negation of the rest of C52: an allocator made without introspection never
updates the size `percent_releasable_hwm(100)` looks at (it stays 0), so that the
default heuristic coalesces whenever it is consulted, here with two allocations
live. -/
theorem dynpool_untracked_heuristic_counterexample :
    ∃ (cfg : DynPool.Cfg) (s : DynPool.State) (O L : Held) (f : DynPool.State → Nat), DynPool.CfgOk cfg ∧
      AskedD cfg s O L ∧ DynPool.percentReleasableHwm (threshold 100) 0 100 = some f ∧ L.length = 2 ∧ f s ≠ 0 :=
  ⟨DynPool.cfgX, DynPool.sysX.pool, _, _, _, DynPool.cfgX_ok, .coalesce DynPool.sysX_reach, rfl, rfl, by decide⟩

end Umpire.Heur
