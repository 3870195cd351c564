import Verif.QuickPool.Heur
/-! # A pool whose `deallocate` never returns (helper for the counterexample to C05) -/
set_option autoImplicit false
set_option linter.unusedSimpArgs false
namespace Umpire.QuickPool
open Umpire Umpire.Prog

/-- A pool with the public heuristic `blocks_releasable(1)`. -/
def cfgD : Cfg := { align := 16, first := 64, next := 64, heur := blocksReleasable 1 }

/-- 16 bytes live in the first block, the second block entirely in use. -/
def dUsed (k : Nat) : State :=
  { blocks := [[⟨0, 1600, 16, 64, false⟩, ⟨1, 1616, 48, 64, true⟩], [⟨k, 3200, 64, 64, false⟩]],
    sizeMap := [(48, 1)], ptrMap := [(3200, k), (1600, 0)], baseMap := [(3200, 3200, 80), (1600, 1600, 80)],
    nextId := k + 2, totalBlocks := 2, releasableBlocks := 0, alignedBytes := 80, alignedHwm := 80,
    actualBytes := 128, releasableBytes := 0, actualHwm := 128 }

/-- After the second block has been deallocated. -/
def dFree (k : Nat) : State :=
  { blocks := [[⟨0, 1600, 16, 64, false⟩, ⟨1, 1616, 48, 64, true⟩], [⟨k, 3200, 64, 64, true⟩]],
    sizeMap := [(48, 1), (64, k)], ptrMap := [(1600, 0)], baseMap := [(3200, 3200, 80), (1600, 1600, 80)],
    nextId := k + 2, totalBlocks := 2, releasableBlocks := 1, alignedBytes := 16, alignedHwm := 80,
    actualBytes := 128, releasableBytes := 64, actualHwm := 128 }

/-- After `release`. -/
def dRel (k : Nat) : State :=
  { blocks := [[⟨0, 1600, 16, 64, false⟩, ⟨1, 1616, 48, 64, true⟩]],
    sizeMap := [(48, 1)], ptrMap := [(1600, 0)], baseMap := [(1600, 1600, 80)],
    nextId := k + 2, totalBlocks := 1, releasableBlocks := 0, alignedBytes := 16, alignedHwm := 80,
    actualBytes := 64, releasableBytes := 0, actualHwm := 128 }

theorem d_core {k : Nat} (hk : 2 ≤ k) : deallocCore (dUsed k) 3200 = some (dFree k) := by
  have h0 : ¬ (0 = k) := by omega
  have h1 : ¬ (1 = k) := by omega
  simp [deallocCore, dUsed, dFree, findChunk, freeInBlocks, freeIn, mergeNext, smInsert, h0, h1, List.find?]

theorem d_release {k : Nat} (hk : 2 ≤ k) : release (dFree k) = .dealloc 3200 80 (.ret (dRel k)) := by
  have h0 : ¬ (0 = k) := by omega
  have h1 : ¬ (1 = k) := by omega
  simp [release, releaseLoop, dFree, dRel, findChunk, alignedDealloc, smErase, h0, h1, List.find?]

theorem d_alloc {k : Nat} (hk : 2 ≤ k) :
    Run (allocate cfgD (dRel k) 64) [(1600, 80)] (some 3200, dUsed (k + 2)) [(3200, 80), (1600, 80)] := by
  have h0 : ¬ (0 = k + 2) := by omega
  have h1 : ¬ (1 = k + 2) := by omega
  have hr : roundUp64 16 64 = 64 := by decide
  have hw : w64 80 = 80 := by decide
  have hp : alignPtr 16 3200 = 3200 := by decide
  unfold allocate
  simp only [cfgD, hr, dRel, lowerBound, growSize, List.find?]
  simp only [show decide (64 ≤ 48) = false from rfl, show (64:Nat) ≠ 0 from by decide, if_false, gt_iff_lt, Nat.lt_irrefl, hw]
  refine .allocOk (p := 3200) (by decide) ?_
  simp only [newBlock, useChunk, hp, hw, dUsed]
  simp [splitIn, h0, h1, smInsert]
  exact .ret

theorem d_loop (fuel k : Nat) (hk : 2 ≤ k) :
    Goes (deallocWith cfgD (doCoalesce cfgD fuel) (dUsed k) 3200) [(3200, 80), (1600, 80)] .diverge := by
  induction fuel generalizing k with
  | zero =>
    unfold deallocWith
    rw [d_core hk]
    have : cfgD.heur (dFree k) = 128 := rfl
    simp only [this, doCoalesce]
    exact .fail
  | succ fuel ih =>
    have h := ih (k + 2) (by omega)
    unfold deallocWith
    rw [d_core hk]
    have : cfgD.heur (dFree k) = 128 := rfl
    simp only [this]
    unfold doCoalesce
    rw [d_release hk]
    have hsz : (dFree k).sizeMap.length = 2 := rfl
    simp only [hsz, Nat.lt_succ_self, if_true, show (128 : Nat) ≠ 0 from by decide, Prog.bind, ne_eq, not_false_eq_true]
    refine .dealloc ?_
    have ha : (dRel k).actualBytes = 64 := rfl
    have hd : drop 3200 [(3200, 80), (1600, 80)] = [(1600, 80)] := by decide
    rw [ha, hd]
    exact Goes.bind (d_alloc hk) h

end Umpire.QuickPool
