import Verif.DynPool.Props
import Verif.QuickPool.Merge
/-!
# What coalescing a `DynamicPoolList` achieves (C61)
-/
set_option autoImplicit false
set_option linter.unusedSimpArgs false
namespace Umpire.DynPool
open Umpire Umpire.Prog
open Umpire.QuickPool (usedBlocks_idem usedBlocks_cons_free)

theorem DInv.held_nodup {a : Nat} {d : State} {O L : Held} (h : DInv a d O L) : O.Nodup :=
  List.Pairwise.of_map (·.1) (fun _ _ hxy hne => hxy (congrArg _ hne)) h.held_keys

theorem freeReleased_used {a : Nat} (ha : 0 < a) {s s' : State} {O O' L : Held} (h : DInv a s O L)
    (hr : Run (freeReleased s) O s' O') : O' = usedBlocks O L ∧ DInv a s' O' L := by
  have hp := wp_run (freeReleased_wp h) hr
  refine ⟨eq_filter_of_sublist h.held_nodup hp.2.2.1 fun o => ?_, hp.1⟩
  rw [freed_held ha hp o]
  simp [List.any_eq_true]

theorem DInv.empty_iff {a : Nat} (ha : 0 < a) {d : State} {O L : Held} (h : DInv a d O L) :
    (d.free = [] ∧ d.used = []) ↔ O = [] := by
  obtain ⟨q, hq, hr⟩ := h
  have hu := (QuickPool.Inv.usable_perm hq ha).length_eq
  simp only [List.length_map] at hu
  have hf := hr.free.length_eq
  have hs := hr.used.length_eq
  simp only [List.length_map] at hf hs
  constructor
  · rintro ⟨h1, h2⟩
    rw [h1] at hf
    rw [h2] at hs
    have hz : q.blocks.flatten = [] := by
      apply List.eq_nil_iff_forall_not_mem.2
      intro c hc
      cases hcf : c.free with
      | true =>
        have : c ∈ QuickPool.freeL q.blocks.flatten := List.mem_filter.2 ⟨hc, hcf⟩
        rw [List.length_eq_zero_iff.1 hf.symm] at this
        cases this
      | false =>
        have : c ∈ QuickPool.usedL q.blocks.flatten := List.mem_filter.2 ⟨hc, by simp [hcf]⟩
        rw [List.length_eq_zero_iff.1 hs.symm] at this
        cases this
    have hb : q.blocks = [] := by
      apply List.eq_nil_iff_forall_not_mem.2
      intro b hb
      have hne := (hq.blk b hb).ne
      obtain ⟨c, hc⟩ := List.exists_mem_of_ne_nil _ hne
      have : c ∈ q.blocks.flatten := List.mem_flatten.2 ⟨b, hb, hc⟩
      rw [hz] at this
      cases this
    rw [hb] at hu
    exact List.length_eq_zero_iff.1 hu
  · rintro rfl
    have hb : q.blocks = [] := List.length_eq_zero_iff.1 hu.symm
    rw [hb] at hf hs
    exact ⟨List.length_eq_zero_iff.1 hf, List.length_eq_zero_iff.1 hs⟩

/-- `allocate` on a pool without releasable blocks. -/
theorem allocate_held {cfg : Cfg} (hc : CfgOk cfg) {s s' : State} {O O' L : Held} (h : DInv cfg.align s O L)
    (hu : usedBlocks O L = O) {n p : Nat} (hn : ReqOk cfg n) (hr : Run (allocate cfg s n) O (some p, s') O') :
    (O' = O ∧ ∃ q k, Gap cfg.align O L q k ∧ ceil cfg.align n ≤ k) ∨
    ((∀ q k, Gap cfg.align O L q k → k < ceil cfg.align n) ∧
      ∃ d, O' = (d, max (ceil cfg.align n) (if O = [] then cfg.first else cfg.next) + cfg.align) :: O) := by
  have hce : roundUp64 cfg.align n = ceil cfg.align n :=
    QuickPool.roundUp64_eq_ceil hc.al hn.1 (by have := hn.2; omega)
  have hg := (growSize_bounds (s := s) hc hn).2.2
  rw [hce] at hg
  have hsz : growSize cfg s (ceil cfg.align n) = max (ceil cfg.align n) (if O = [] then cfg.first else cfg.next) := by
    unfold growSize
    by_cases h0 : O = []
    · rw [if_pos ((h.empty_iff hc.al).2 h0), if_pos h0]
    · rw [if_neg (fun hz => h0 ((h.empty_iff hc.al).1 hz)), if_neg h0]
  have hw : w64 (growSize cfg s (ceil cfg.align n) + cfg.align) = growSize cfg s (ceil cfg.align n) + cfg.align :=
    Nat.mod_eq_of_lt hg
  obtain ⟨q, hi, hrel⟩ := h
  obtain ⟨-, h2, -, -⟩ := QuickPool.Inv.gaps_spec hi hc.al
  have hgp := gaps_perm hrel
  have hm : ∀ p n, (∃ b ∈ s.free, b.data = p ∧ b.size = n) ↔ MaxGap cfg.align O L p n := by
    intro p n
    rw [← h2, ← hgp.mem_iff]
    simp only [List.mem_map, Prod.mk.injEq]
  unfold allocate at hr
  simp only [hce] at hr
  split at hr
  · rename_i pos hl
    left
    have hsp := findLoop_spec (by simp) hl
    cases hr
    refine ⟨rfl, pos.2.1.data, pos.2.1.size, ((hm _ _).1 ⟨pos.2.1, ?_, rfl, rfl⟩).1, hsp.2⟩
    rw [List.nil_append] at hsp
    rw [← hsp.1]; simp
  · rename_i hl
    right
    constructor
    · intro p k hgp
      obtain ⟨c, hcm, hwi⟩ := QuickPool.Inv.gap_chunk hi hc.al hgp
      obtain ⟨b, hb, -, hbs⟩ := (hm c.data c.size).2 ((QuickPool.Inv.maxGap_iff hi hc.al).2 ⟨c, hcm, rfl, rfl⟩)
      have := (findLoop_none hl).2 b hb
      unfold Within at hwi
      omega
    · rw [hw, hsz] at hr
      cases hr with
      | allocOk hp hr => cases hr; exact ⟨_, rfl⟩
      | allocFail hr =>
        obtain ⟨s1, O1, h1, h2⟩ := Run.of_bind hr
        obtain ⟨rfl, -⟩ := freeReleased_used hc.al ⟨q, hi, hrel⟩ h1
        rw [hu] at h2
        cases h2 with
        | allocOk hp h2 => cases h2; exact ⟨_, rfl⟩
        | allocFail h2 => cases h2

/-- Facts about the observers, for any state satisfying the invariant. -/
theorem DInv.view {a : Nat} (ha : 0 < a) {d : State} {O L : Held} (h : DInv a d O L) :
    d.actualBytes = heldBytes a O ∧ getFreeBlocks d = (freeBlocks O L).length ∧
    getReleasableBlocks d = (freeBlocks O L).length := by
  obtain ⟨q, hi, hr⟩ := h
  have hb := QuickPool.Inv.relBlocks_eq hi ha
  refine ⟨by rw [hr.actual]; exact QuickPool.Inv.actual_eq hi ha, ?_, by unfold getReleasableBlocks; rw [hr.rel]; exact hb⟩
  unfold getFreeBlocks
  have h1 := (hr.whole_perm hi).length_eq
  have h2 := hi.relBlocks
  simp only [List.length_map] at h1
  omega

theorem coalesceTo_merged {cfg : Cfg} (hc : CfgOk cfg) {s s' : State} {O O' L : Held} {g : Nat}
    (h : DInv cfg.align s O L) (hs : g + 2 * cfg.align ≤ W) {t : List Ev}
    (hr : RunT (coalesceTo cfg s g) O t (true, s') O') :
    ((freeBlocks O L).length ≤ 1 → s' = s ∧ O' = O ∧ t = []) ∧
    (2 ≤ (freeBlocks O L).length → Consolidated cfg.align cfg.first cfg.next g (usedBlocks O L) L O') := by
  have hv := (h.view hc.al).2.1
  unfold coalesceTo at hr
  constructor
  · intro hle
    rw [if_neg (by omega)] at hr
    cases hr
    exact ⟨rfl, rfl, rfl⟩
  · intro hle
    rw [if_pos (by omega)] at hr
    obtain ⟨s1, O1, hr1, hr⟩ := Run.of_bind hr.run
    obtain ⟨hO1, hi1⟩ := freeReleased_used hc.al h hr1
    have hab : s1.actualBytes = heldBytes cfg.align (usedBlocks O L) := by rw [(hi1.view hc.al).1, hO1]
    by_cases hlt : s1.actualBytes < g
    · rw [if_pos hlt] at hr
      obtain ⟨s2, O2, hr2, hr⟩ := Run.of_bind hr
      obtain ⟨hO2, hi2⟩ := freeReleased_used hc.al hi1 hr2
      rw [hO1, usedBlocks_idem] at hO2
      obtain ⟨⟨r, s3⟩, O3, hr3, hr⟩ := Run.of_bind hr
      cases r with
      | none => cases hr
      | some p =>
        cases hr
        have := allocate_held hc hi2 (by rw [hO2, usedBlocks_idem]) ⟨by omega, by omega⟩ hr3
        rw [hab, hO2] at this
        rw [hab] at hlt
        rcases this with ⟨ha, hb⟩ | ⟨ha, hb⟩
        · exact .inr (.inl ⟨hlt, ha, hb⟩)
        · exact .inr (.inr ⟨hlt, ha, hb⟩)
    · rw [if_neg hlt] at hr
      cases hr
      exact .inl ⟨by omega, hO1⟩

/-! ## C61 -/

/-- `coalesce` does nothing when the heuristic is silent or there are not two blocks without
live allocations; otherwise, if it returns, the pool is consolidated towards the
suggested size. -/
theorem dynpool_coalesce_consolidates {cfg : Cfg} (hc : CfgOk cfg) {heur : State → Nat} (hh : HeurOk cfg heur) {S : Sys}
    (h : Reach cfg S) {s' : State} {O' : Held} {t : List Ev} (hr : RunT (coalesce cfg heur S.pool) S.held t s' O') :
    (heur S.pool = 0 ∨ (freeBlocks S.held S.live).length ≤ 1 → s' = S.pool ∧ O' = S.held ∧ t = []) ∧
    (heur S.pool ≠ 0 → 2 ≤ (freeBlocks S.held S.live).length →
      Consolidated cfg.align cfg.first cfg.next (heur S.pool) (usedBlocks S.held S.live) S.live O') := by
  have hi := reach_inv hc h
  unfold coalesce at hr
  by_cases h0 : heur S.pool ≠ 0
  · rw [if_pos h0] at hr
    obtain ⟨t1, t2, ⟨b, s1⟩, O1, rfl, hr1, hr2⟩ := RunT.of_bind hr
    cases b with
    | false => cases hr2
    | true =>
      cases hr2
      obtain ⟨h1, h2⟩ := coalesceTo_merged hc hi (hh.bound hi) hr1
      refine ⟨?_, fun _ => h2⟩
      rintro (hx | hx)
      · exact absurd hx h0
      · obtain ⟨ha, hb, hc'⟩ := h1 hx
        exact ⟨ha, hb, by rw [hc']; rfl⟩
  · rw [if_neg h0] at hr
    cases hr
    exact ⟨fun _ => ⟨rfl, rfl, rfl⟩, fun hx => absurd hx h0⟩

/-- `deallocate` followed by the heuristic, when no exception leaves it. -/
theorem dynpool_deallocate_consolidates {cfg : Cfg} (hc : CfgOk cfg) {heur : State → Nat} (hh : HeurOk cfg heur) {S : Sys}
    (h : Reach cfg S) {p n : Nat} (hL : (p, n) ∈ S.live)
    {s' : State} {O' : Held} {t : List Ev} (hr : RunT (deallocate cfg heur S.pool p) S.held t (true, s') O') :
    ∃ s1, getActualSize s1 = heldBytes cfg.align S.held ∧
      getReleasableBlocks s1 = (freeBlocks S.held (drop p S.live)).length ∧
      (heur s1 = 0 ∨ (freeBlocks S.held (drop p S.live)).length ≤ 1 → s' = s1 ∧ O' = S.held ∧ t = []) ∧
      (heur s1 ≠ 0 → 2 ≤ (freeBlocks S.held (drop p S.live)).length →
        Consolidated cfg.align cfg.first cfg.next (heur s1) (usedBlocks S.held (drop p S.live)) (drop p S.live) O') := by
  have hi := deallocCore_inv (reach_inv hc h) hL
  have hv := hi.view hc.al
  refine ⟨deallocCore S.pool p, hv.1, hv.2.2, ?_⟩
  unfold deallocate at hr
  simp only at hr
  by_cases h0 : heur (deallocCore S.pool p) ≠ 0
  · rw [if_pos h0] at hr
    obtain ⟨h1, h2⟩ := coalesceTo_merged hc hi (hh.bound hi) hr
    refine ⟨?_, fun _ => h2⟩
    rintro (hx | hx)
    · exact absurd hx h0
    · exact h1 hx
  · rw [if_neg h0] at hr
    cases hr
    exact ⟨fun _ => ⟨rfl, rfl, rfl⟩, fun hx => absurd hx h0⟩

/-- With `blocks_releasable(k)`, `k ≥ 2`. -/
theorem dynpool_blocks_releasable {cfg : Cfg} (hc : CfgOk cfg) (ha : 2 * cfg.align ≤ AMax) {k : Nat} (hk : 2 ≤ k) {S : Sys}
    (h : Reach cfg S) {p n : Nat} (hL : (p, n) ∈ S.live)
    {s' : State} {O' : Held} {t : List Ev}
    (hr : RunT (deallocate cfg (blocksReleasable k) S.pool p) S.held t (true, s') O') :
    ((freeBlocks S.held (drop p S.live)).length < k → O' = S.held ∧ t = []) ∧
    (k ≤ (freeBlocks S.held (drop p S.live)).length →
      Consolidated cfg.align cfg.first cfg.next (heldBytes cfg.align S.held)
        (usedBlocks S.held (drop p S.live)) (drop p S.live) O') := by
  obtain ⟨s1, hv1, hv2, h1, h2⟩ := dynpool_deallocate_consolidates hc (builtIn_heurOk ha (.blocks k)) h hL hr
  constructor
  · intro hlt
    refine (h1 (.inl ?_)).2
    unfold blocksReleasable
    rw [if_neg (by omega)]
  · intro hle
    have he : blocksReleasable k s1 = heldBytes cfg.align S.held := by
      unfold blocksReleasable
      rw [if_pos (by omega), hv1]
    rw [he] at h2
    refine h2 ?_ (by omega)
    intro h0
    obtain ⟨q, hq, _⟩ := reach_inv hc h
    have := (QuickPool.Inv.actual_zero hc.al hq).1 (by rw [QuickPool.Inv.actual_eq hq hc.al]; exact h0)
    rw [this] at hle
    simp [freeBlocks] at hle
    omega

/-- A small allocation, and a block without live allocations. -/
def sysY : Sys :=
  { pool :=
      { used := [⟨1600, 16, 64⟩], free := [⟨1616, 48, 0⟩, ⟨3200, 64, 64⟩],
        baseMap := [(3200, 3200, 80), (1600, 1600, 80)], alignedBytes := 16, alignedHwm := 80, actualBytes := 128,
        actualHwm := 128, releasableBlocks := 1, totalBlocks := 2 }
    held := [(3200, 80), (1600, 80)]
    live := [(1600, 16)] }

theorem sysY_reach : Reach cfgX sysY :=
  play_reach heurX_ok (ops := [.alloc 16 [some 1600], .alloc 64 [some 3200], .dealloc 3200 64 []]) (by decide +kernel)

/-- The pool afterwards. -/
def poolY : State :=
  { used := [], free := [⟨4800, 128, 128⟩], baseMap := [(4800, 4800, 144)], alignedBytes := 0, alignedHwm := 128,
    actualBytes := 128, actualHwm := 128, releasableBlocks := 1, totalBlocks := 1 }

example : (1600, 16) ∈ sysY.live ∧ 2 ≤ (freeBlocks sysY.held (drop 1600 sysY.live)).length ∧
    Run (deallocate cfgX (blocksReleasable 2) sysY.pool 1600) sysY.held (true, poolY) [(4800, 144)] :=
  ⟨by decide, by decide, execOk_run [some 4800] (by decide +kernel)⟩

end Umpire.DynPool
