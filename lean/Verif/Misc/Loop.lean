import Verif.Misc.Heuristics
/-!
# Which built-in heuristics make `deallocate` run for ever (C05)

A pool with 16 bytes in use in a block of 32 bytes and 3200 bytes in use in a block
of their own.  When the latter are deallocated, a heuristic may suggest to coalesce;
`do_coalesce` releases the large block, allocates it again and deallocates it, which
asks the heuristic again.
-/
set_option autoImplicit false
set_option linter.unusedSimpArgs false
namespace Umpire.QuickPool
open Umpire Umpire.Prog

/-- The large block in use. -/
def eUsed (k : Nat) : State :=
  { blocks := [[⟨0, 1600, 16, 32, false⟩, ⟨1, 1616, 16, 32, true⟩], [⟨k, 8000, 3200, 3200, false⟩]],
    sizeMap := [(16, 1)], ptrMap := [(8000, k), (1600, 0)], baseMap := [(8000, 8000, 3216), (1600, 1600, 48)],
    nextId := k + 2, totalBlocks := 2, releasableBlocks := 0, alignedBytes := 3216, alignedHwm := 3232,
    actualBytes := 3232, releasableBytes := 0, actualHwm := 3232 }

/-- After it has been deallocated. -/
def eFree (k : Nat) : State :=
  { blocks := [[⟨0, 1600, 16, 32, false⟩, ⟨1, 1616, 16, 32, true⟩], [⟨k, 8000, 3200, 3200, true⟩]],
    sizeMap := [(16, 1), (3200, k)], ptrMap := [(1600, 0)], baseMap := [(8000, 8000, 3216), (1600, 1600, 48)],
    nextId := k + 2, totalBlocks := 2, releasableBlocks := 1, alignedBytes := 16, alignedHwm := 3232,
    actualBytes := 3232, releasableBytes := 3200, actualHwm := 3232 }

/-- After `release`. -/
def eRel (k : Nat) : State :=
  { blocks := [[⟨0, 1600, 16, 32, false⟩, ⟨1, 1616, 16, 32, true⟩]],
    sizeMap := [(16, 1)], ptrMap := [(1600, 0)], baseMap := [(1600, 1600, 48)],
    nextId := k + 2, totalBlocks := 1, releasableBlocks := 0, alignedBytes := 16, alignedHwm := 3232,
    actualBytes := 32, releasableBytes := 0, actualHwm := 3232 }

theorem e_core {k : Nat} (hk : 2 ≤ k) : deallocCore (eUsed k) 8000 = some (eFree k) := by
  have h0 : ¬ (0 = k) := by omega
  have h1 : ¬ (1 = k) := by omega
  simp [deallocCore, eUsed, eFree, findChunk, freeInBlocks, freeIn, mergeNext, smInsert, h0, h1, List.find?]

theorem e_release {k : Nat} (hk : 2 ≤ k) : release (eFree k) = .dealloc 8000 3216 (.ret (eRel k)) := by
  have h0 : ¬ (0 = k) := by omega
  have h1 : ¬ (1 = k) := by omega
  simp [release, releaseLoop, eFree, eRel, findChunk, alignedDealloc, smErase, h0, h1, List.find?]

/-- The configuration, whatever the heuristic. -/
def cfgE (heur : State → Nat) : Cfg := { align := 16, first := 32, next := 32, heur := heur }

theorem e_alloc {heur : State → Nat} {k : Nat} (hk : 2 ≤ k) :
    Run (allocate (cfgE heur) (eRel k) 3200) [(1600, 48)] (some 8000, eUsed (k + 2)) [(8000, 3216), (1600, 48)] := by
  have h0 : ¬ (0 = k + 2) := by omega
  have h1 : ¬ (1 = k + 2) := by omega
  have hr : roundUp64 16 3200 = 3200 := by decide
  have hw : w64 3216 = 3216 := by decide
  have hp : alignPtr 16 8000 = 8000 := by decide
  unfold allocate
  simp only [cfgE, hr, eRel, lowerBound, growSize, List.find?]
  simp only [show decide (3200 ≤ 16) = false from rfl, show (32:Nat) ≠ 0 from by decide, if_false, gt_iff_lt,
    show (32 : Nat) < 3200 from by decide, if_true, hw]
  refine .allocOk (p := 8000) (by decide) ?_
  simp only [newBlock, useChunk, hp, hw, eUsed]
  simp [splitIn, h0, h1, smInsert]
  exact .ret

theorem e_loop {heur : State → Nat} (hf : ∀ k, heur (eFree k) = 3232) (fuel k : Nat) (hk : 2 ≤ k) :
    Goes (deallocWith (cfgE heur) (doCoalesce (cfgE heur) fuel) (eUsed k) 8000) [(8000, 3216), (1600, 48)] .diverge := by
  induction fuel generalizing k with
  | zero =>
    unfold deallocWith
    rw [e_core hk]
    have : (cfgE heur).heur (eFree k) = 3232 := hf k
    simp only [this, doCoalesce]
    exact .fail
  | succ fuel ih =>
    have h := ih (k + 2) (by omega)
    unfold deallocWith
    rw [e_core hk]
    have : (cfgE heur).heur (eFree k) = 3232 := hf k
    simp only [this]
    unfold doCoalesce
    rw [e_release hk]
    have hsz : (eFree k).sizeMap.length = 2 := rfl
    simp only [hsz, Nat.lt_succ_self, if_true, show (3232 : Nat) ≠ 0 from by decide, Prog.bind, ne_eq, not_false_eq_true]
    refine .dealloc ?_
    have ha : (eRel k).actualBytes = 32 := rfl
    have hd : drop 8000 [(8000, 3216), (1600, 48)] = [(1600, 48)] := by decide
    rw [ha, hd]
    exact Goes.bind (e_alloc hk) h

/-- The situation, as a state of the system. -/
def sysE : Sys := ⟨eUsed 3, [(8000, 3216), (1600, 48)], [(8000, 3200), (1600, 16)]⟩

/-- How it is reached. -/
def opsE : List Op := [.alloc 16 [some 1600], .alloc 16 [], .alloc 3200 [some 8000], .dealloc 1616 16 1 []]

/-- There is a live allocation whose `deallocate` runs for ever. -/
def Loops (heur : State → Nat) : Prop :=
  ∃ (cfg : Cfg) (S : Sys) (p n : Nat), CfgOk cfg ∧ HeurOk cfg ∧ cfg.heur = heur ∧ Reach cfg S ∧
    (p, n) ∈ S.live ∧ ∀ fuel, Goes (deallocate cfg fuel S.pool p) S.held .diverge

theorem loops_of {heur : State → Nat} (hb : BuiltIn heur) (hp : play (cfgE heur) opsE = some sysE)
    (hf : ∀ k, heur (eFree k) = 3232) : Loops heur := by
  refine ⟨cfgE heur, sysE, 8000, 3200, ⟨show 0 < 16 by decide, show 32 + 16 < W by decide, show 32 + 16 < W by decide⟩, ?_, rfl, play_reach hp, by decide, ?_⟩
  · exact builtIn_heurOk hb (show 2 * 16 ≤ AMax by decide)
  · intro fuel; exact e_loop hf fuel 3 (by decide)

/-- Negation of C05 for `blocks_releasable(n)` and `blocks_releasable_hwm(n)`, n < 2. -/
theorem quickpool_blocks_diverges_counterexample {n : Nat} (hn : n < 2) :
    Loops (blocksReleasable n) ∧ Loops (blocksReleasableHwm n) := by
  have h : n = 0 ∨ n = 1 := by omega
  rcases h with rfl | rfl
  · exact ⟨loops_of (.blocks 0) (by decide +kernel) fun _ => rfl, loops_of (.blocksHwm 0) (by decide +kernel) fun _ => rfl⟩
  · exact ⟨loops_of (.blocks 1) (by decide +kernel) fun _ => rfl, loops_of (.blocksHwm 1) (by decide +kernel) fun _ => rfl⟩

theorem thr_mid : ∀ p : Fin 100, 0 < p.val → Heur.threshold p.val 3232 ≤ 3200 := by
  decide +kernel

theorem percent_play : ∀ p : Fin 100, 0 < p.val →
    play (cfgE fun s => if getReleasableSize s ≥ Heur.threshold p.val (getActualSize s) then getActualSize s else 0) opsE =
      some sysE := by
  decide +kernel

theorem percent_play_hwm : ∀ p : Fin 100, 0 < p.val →
    play (cfgE fun s => if getReleasableSize s ≥ Heur.threshold p.val (getActualSize s) then getAlignedHighwaterMark s else 0)
      opsE = some sysE := by
  decide +kernel

/-- Negation of C05 for every percentage between 1 and 99, of the actual size and of
the high watermark, with the threshold computed in single precision. -/
theorem quickpool_percent_diverges_counterexample {p : Nat} (h0 : 0 < p) (h1 : p < 100) :
    (∃ f, percentReleasable (Heur.threshold p) p = some f ∧ Loops f) ∧
    (∃ f, percentReleasableHwm (Heur.threshold p) p = some f ∧ Loops f) := by
  have hm := thr_mid ⟨p, h1⟩ h0
  constructor
  · have hf : percentReleasable (Heur.threshold p) p =
        some fun s => if getReleasableSize s ≥ Heur.threshold p (getActualSize s) then getActualSize s else 0 := by
      unfold percentReleasable
      rw [if_neg (by omega), if_neg (by omega), if_neg (by omega)]
    exact ⟨_, hf, loops_of (.percent _ _ _ hf) (percent_play ⟨p, h1⟩ h0) fun k => if_pos hm⟩
  · have hf : percentReleasableHwm (Heur.threshold p) p =
        some fun s => if getReleasableSize s ≥ Heur.threshold p (getActualSize s) then getAlignedHighwaterMark s else 0 := by
      unfold percentReleasableHwm
      rw [if_neg (by omega), if_neg (by omega), if_neg (by omega)]
    exact ⟨_, hf, loops_of (.percentHwm _ _ _ hf) (percent_play_hwm ⟨p, h1⟩ h0) fun k => if_pos hm⟩

end Umpire.QuickPool
