import Verif.DynPool.Ops
/-!
# Properties of `DynamicPoolList` (C08 - C10, C54)

`Reach cfg S` ranges over every sequence of operations, every behaviour of the
parent allocator, and every heuristic that does not suggest sizes near 2^64
(`HeurOk`; shown for all built-in heuristics in `builtIn_heurOk`).
-/
set_option autoImplicit false
set_option linter.unusedSimpArgs false
namespace Umpire.DynPool
open Umpire.Prog
open Umpire.QuickPool (Chunk Inv Inv0 start freeL usedL whole ceil_spec roundUp64_eq_ceil mem_freeBlocks frees_perm
  perm_of_release gaps)

/-! ## Non-vacuity: two live allocations in one block, a second block free -/

def cfgX : Cfg := { align := 16, first := 64, next := 64 }

theorem cfgX_ok : CfgOk cfgX := ⟨by decide, by decide, by decide⟩

/-- `percent_releasable_hwm(100)`, the default, while other allocations are live. -/
def heurX : State → Nat := fun s => if 56 = 0 then getAlignedHighwaterMark s else 0

theorem heurX_ok : HeurOk cfgX heurX := builtIn_heurOk (by decide) (.percentHwm (fun n => n) 56 100 _ rfl)

/-- The state after `allocate(16)`, `allocate(64)`, `allocate(40)`, and deallocating the second. -/
def sysX : Sys :=
  { pool :=
      { used := [⟨1616, 48, 0⟩, ⟨1600, 16, 64⟩], free := [⟨3200, 64, 64⟩],
        baseMap := [(3200, 3190, 80), (1600, 1600, 80)], alignedBytes := 64, alignedHwm := 128,
        actualBytes := 128, actualHwm := 128, releasableBlocks := 1, totalBlocks := 2 }
    held := [(3190, 80), (1600, 80)]
    live := [(1616, 40), (1600, 16)] }

theorem sysX_reach : Reach cfgX sysX :=
  play_reach heurX_ok (ops := [.alloc 16 [some 1600], .alloc 64 [some 3190], .alloc 40 [], .dealloc 3200 64 []])
    (by decide +kernel)

/-! ## C08 -/

/-- Live allocations are pairwise disjoint, and each lies inside a block
currently held from the parent. -/
theorem dynpool_live_disjoint {cfg : Cfg} (hc : CfgOk cfg) {S : Sys} (h : Reach cfg S) :
    (S.live.Pairwise fun x y => Disj x.1 x.2 y.1 y.2) ∧
    ∀ l ∈ S.live, ∃ o ∈ S.held, Within l.1 l.2 o.1 o.2 := by
  obtain ⟨q, hi, _⟩ := reach_inv hc h
  constructor
  · refine List.Pairwise.imp ?_ (QuickPool.Inv.live_disj hi hc.al)
    intro x y hd
    have hx := (ceil_spec (a := cfg.align) (n := x.2) hc.al).2.1
    have hy := (ceil_spec (a := cfg.align) (n := y.2) hc.al).2.1
    unfold Disj at *; omega
  · intro l hl
    obtain ⟨_, o, ho, h1, h2⟩ := QuickPool.Inv.live_held hi hc.al hl
    have hx := (ceil_spec (a := cfg.align) (n := l.2) hc.al).2.1
    exact ⟨o, ho, by unfold Within at *; omega⟩

example : (sysX.live.Pairwise fun x y => Disj x.1 x.2 y.1 y.2) ∧
    ∀ l ∈ sysX.live, ∃ o ∈ sysX.held, Within l.1 l.2 o.1 o.2 :=
  dynpool_live_disjoint cfgX_ok sysX_reach

/-- Every live allocation is aligned, and the least multiple of the alignment not
below the request is reserved for it.  Partial: only for requests with
`n + 2 * align ≤ 2^64` (`ReqOk`, part of `Reach`); see
`dynpool_overflow_counterexample` for what happens beyond. -/
theorem dynpool_aligned_partial {cfg : Cfg} (hc : CfgOk cfg) {S : Sys} (h : Reach cfg S) :
    (∀ l ∈ S.live, cfg.align ∣ l.1 ∧ ∀ r, IsRoundUp cfg.align l.2 r → ∃ o ∈ S.held, Within l.1 r o.1 o.2) ∧
    S.live.Pairwise fun x y => ∀ r r', IsRoundUp cfg.align x.2 r → IsRoundUp cfg.align y.2 r' → Disj x.1 r y.1 r' := by
  obtain ⟨q, hi, _⟩ := reach_inv hc h
  have hun : ∀ {n r}, IsRoundUp cfg.align n r → r = ceil cfg.align n := by
    intro n r hr
    have h2 := ceil_spec (a := cfg.align) (n := n) hc.al
    have := hr.2.2 _ h2.1 h2.2.1
    have := h2.2.2 _ hr.1 hr.2.1
    omega
  constructor
  · intro l hl
    obtain ⟨hd, o, ho, h1, h2⟩ := QuickPool.Inv.live_held hi hc.al hl
    refine ⟨hd, fun r hr => ⟨o, ho, ?_⟩⟩
    rw [hun hr]
    unfold Within at *; omega
  · refine List.Pairwise.imp ?_ (QuickPool.Inv.live_disj hi hc.al)
    intro x y hd r r' hr hr'
    rw [hun hr, hun hr']; exact hd

example : (∀ l ∈ sysX.live, 16 ∣ l.1 ∧ ∀ r, IsRoundUp 16 l.2 r → ∃ o ∈ sysX.held, Within l.1 r o.1 o.2) :=
  (dynpool_aligned_partial cfgX_ok sysX_reach).1

/-- A request of 2^64 - 1 bytes is served, with an empty piece, and the next
request is given the very same pointer. -/
theorem dynpool_overflow_counterexample :
    ∃ (cfg : Cfg) (s1 s2 : State) (O : Held) (p : Nat), CfgOk cfg ∧
      Run (allocate cfg init (W - 1)) [] (some p, s1) O ∧
      Run (allocate cfg s1 16) O (some p, s2) O := by
  refine ⟨cfgX, ?s1, ?s2, [(1600, 80)], 1600, cfgX_ok, ?h1, ?h2⟩
  case s1 => exact
      { used := [⟨1600, 0, 64⟩], free := [⟨1600, 64, 0⟩], baseMap := [(1600, 1600, 80)], alignedBytes := 0,
        alignedHwm := 0, actualBytes := 64, actualHwm := 64, releasableBlocks := 0, totalBlocks := 1 }
  case s2 => exact
      { used := [⟨1600, 16, 0⟩, ⟨1600, 0, 64⟩], free := [⟨1616, 48, 0⟩], baseMap := [(1600, 1600, 80)],
        alignedBytes := 16, alignedHwm := 16, actualBytes := 64, actualHwm := 64, releasableBlocks := 0, totalBlocks := 1 }
  case h1 => exact execOk_run [some 1600] (by decide +kernel)
  case h2 => exact execOk_run [] (by decide +kernel)

/-! ## C09 -/

/-- The size observers are exact functions of the blocks held and the
allocations live. -/
theorem dynpool_sizes_exact {cfg : Cfg} (hc : CfgOk cfg) {S : Sys} (h : Reach cfg S) :
    getActualSize S.pool = heldBytes cfg.align S.held ∧
    getTotalBlocks S.pool = S.held.length ∧
    getAlignedSize S.pool = liveBytes cfg.align S.live ∧
    getInUseBlocks S.pool = S.live.length ∧
    getReleasableBlocks S.pool = (freeBlocks S.held S.live).length ∧
    getFreeBlocks S.pool = (freeBlocks S.held S.live).length ∧
    getReleasableSize S.pool = heldBytes cfg.align (freeBlocks S.held S.live) := by
  obtain ⟨q, hi, hr⟩ := reach_inv hc h
  have hw := hr.whole_perm hi
  have hb := QuickPool.Inv.relBlocks_eq hi hc.al
  refine ⟨?_, ?_, ?_, ?_, ?_, ?_, ?_⟩
  · unfold getActualSize; rw [hr.actual]; exact QuickPool.Inv.actual_eq hi hc.al
  · unfold getTotalBlocks; rw [hr.total]; exact QuickPool.Inv.total_eq hi hc.al
  · unfold getAlignedSize; rw [hr.aligned]; exact QuickPool.Inv.aligned_eq hi hc.al
  · unfold getInUseBlocks
    have h1 := hr.used.length_eq
    have h2 := hi.live.length_eq
    simp only [List.length_map] at h1 h2
    omega
  · unfold getReleasableBlocks; rw [hr.rel]; exact hb
  · unfold getFreeBlocks
    have h1 := hw.length_eq
    have h2 := hi.relBlocks
    simp only [List.length_map] at h1
    omega
  · unfold getReleasableSize
    rw [foldl_rel, hw.sum_nat, Nat.zero_add, ← hi.relBytes]
    exact QuickPool.Inv.relBytes_eq hi hc.al

example : getReleasableSize sysX.pool = heldBytes 16 (freeBlocks sysX.held sysX.live) ∧
    heldBytes 16 (freeBlocks sysX.held sysX.live) = 64 :=
  ⟨(dynpool_sizes_exact cfgX_ok sysX_reach).2.2.2.2.2.2, by decide⟩

theorem gaps_perm {d : State} {q : QuickPool.State} (hr : Rel d q) :
    (d.free.map fun b => (b.data, b.size)).Perm (gaps q) := by
  have := hr.free.map fun b : Blk => (b.data, b.size)
  rw [List.map_map] at this
  exact this

/-- `getBlocksInPool` counts the live allocations and the maximal free gaps;
`getLargestAvailableBlock` is the size of the largest gap. -/
theorem dynpool_gaps_exact {cfg : Cfg} (hc : CfgOk cfg) {S : Sys} (h : Reach cfg S) :
    ∃ gs : Held, gs.Nodup ∧ (∀ p n, (p, n) ∈ gs ↔ MaxGap cfg.align S.held S.live p n) ∧
      getBlocksInPool S.pool = S.live.length + gs.length ∧
      (∀ p n, Gap cfg.align S.held S.live p n → n ≤ getLargestAvailableBlock S.pool) ∧
      (getLargestAvailableBlock S.pool = 0 ∧ gs = [] ∨
        ∃ p, MaxGap cfg.align S.held S.live p (getLargestAvailableBlock S.pool)) := by
  obtain ⟨q, hi, hr⟩ := reach_inv hc h
  obtain ⟨h1, h2, -, -⟩ := QuickPool.Inv.gaps_spec hi hc.al
  have hg := gaps_perm hr
  have hm : ∀ p n, (∃ b ∈ S.pool.free, b.data = p ∧ b.size = n) ↔ MaxGap cfg.align S.held S.live p n := by
    intro p n
    rw [← h2, ← hg.mem_iff]
    simp only [List.mem_map, Prod.mk.injEq]
  obtain ⟨-, f2, f3⟩ := foldl_max S.pool.free 0
  refine ⟨gaps q, h1, h2, ?_, ?_, ?_⟩
  · have h3 := hr.used.length_eq
    have h4 := hi.live.length_eq
    have h5 := hg.length_eq
    simp only [List.length_map] at h3 h4 h5
    unfold getBlocksInPool
    omega
  · intro p n hgp
    obtain ⟨c, hcm, hw⟩ := QuickPool.Inv.gap_chunk hi hc.al hgp
    obtain ⟨b, hb, -, hbs⟩ := (hm c.data c.size).2 ((QuickPool.Inv.maxGap_iff hi hc.al).2 ⟨c, hcm, rfl, rfl⟩)
    have := f2 b hb
    unfold Within at hw
    unfold getLargestAvailableBlock
    omega
  · rcases f3 with hz | ⟨b, hb, hbs⟩
    · left
      refine ⟨hz, ?_⟩
      have hpos : ∀ g ∈ gaps q, False := by
        intro g hgm
        have hgm' := hg.mem_iff.2 hgm
        obtain ⟨b, hb, rfl⟩ := List.mem_map.1 hgm'
        have h6 := f2 b hb
        obtain ⟨c, hcm, _, hcs⟩ := (QuickPool.Inv.maxGap_iff hi hc.al).1 ((hm _ _).1 ⟨b, hb, rfl, rfl⟩)
        have := hi.pos_of (List.mem_filter.1 hcm).1
        omega
      exact List.eq_nil_iff_forall_not_mem.2 hpos
    · right
      exact ⟨b.data, (hm _ _).1 ⟨b, hb, rfl, hbs⟩⟩

example : ∃ p, MaxGap 16 sysX.held sysX.live p (getLargestAvailableBlock sysX.pool) := by
  obtain ⟨gs, _, _, _, _, h5⟩ := dynpool_gaps_exact cfgX_ok sysX_reach
  rcases h5 with ⟨h0, _⟩ | h5
  · exact absurd h0 (by decide)
  · exact h5

/-! ## C10 -/

/-- Memory is handed back to the parent only while no live allocation overlaps
it.  (During `deallocate p` the allocation `p` itself is no longer live.) -/
theorem dynpool_returns_only_free {cfg : Cfg} (hc : CfgOk cfg) {S : Sys} (h : Reach cfg S) (q m : Nat) :
    (∀ n, ReqOk cfg n → Frees (allocate cfg S.pool n) S.held q m → ∀ l ∈ S.live, Disj l.1 l.2 q m) ∧
    (∀ heur p n, HeurOk cfg heur → (p, n) ∈ S.live → Frees (deallocate cfg heur S.pool p) S.held q m →
      ∀ l ∈ S.live, l.1 ≠ p → Disj l.1 l.2 q m) ∧
    (Frees (release S.pool) S.held q m → ∀ l ∈ S.live, Disj l.1 l.2 q m) ∧
    (∀ heur, HeurOk cfg heur → Frees (coalesce cfg heur S.pool) S.held q m → ∀ l ∈ S.live, Disj l.1 l.2 q m) := by
  have hi := reach_inv hc h
  refine ⟨fun n hn hf => (wp_frees (allocate_wp hi hc hn) hf).2, fun heur p n hh hL hf => ?_,
    fun hf => (wp_frees (freeReleased_wp hi) hf).2, fun heur hh hf => (wp_frees (coalesce_wp hi hc hh) hf).2⟩
  intro l hl hne
  exact (wp_frees (deallocate_wp hi hc hh hL) hf).2 l (mem_drop.2 ⟨hl, hne⟩)

/-- No operation hands back memory that is not held at that moment, or with a
size other than the one requested for it (so no block is handed back twice), and
no operation performs any other undefined behaviour.  All operations finish; only
`coalesce` can end the program (see `dynpool_coalesce_aborts`). -/
theorem dynpool_no_undefined_behaviour {cfg : Cfg} (hc : CfgOk cfg) {S : Sys} (h : Reach cfg S) :
    (∀ n, ReqOk cfg n → ∀ b, ¬ Goes (allocate cfg S.pool n) S.held b) ∧
    (∀ heur p n, HeurOk cfg heur → (p, n) ∈ S.live → ∀ b, ¬ Goes (deallocate cfg heur S.pool p) S.held b) ∧
    (∀ b, ¬ Goes (release S.pool) S.held b) ∧
    (∀ heur b, HeurOk cfg heur → Goes (coalesce cfg heur S.pool) S.held b → b = .abort) := by
  have hi := reach_inv hc h
  exact ⟨fun n hn b hg => wp_safe (allocate_wp hi hc hn) hg,
    fun heur p n hh hL b hg => wp_safe (deallocate_wp hi hc hh hL) hg,
    fun b hg => wp_safe (freeReleased_wp hi) hg, fun heur b hh hg => wp_safe (coalesce_wp hi hc hh) hg⟩

theorem DInv.held_keys {a : Nat} {d : State} {O L : Held} (h : DInv a d O L) : (O.map (·.1)).Nodup := by
  obtain ⟨q, hq, _⟩ := h
  exact QuickPool.Inv.held_keys hq

/-- `release` hands back exactly the blocks without live allocations, each once. -/
theorem dynpool_release_exact {cfg : Cfg} (hc : CfgOk cfg) {S : Sys} (h : Reach cfg S)
    {s' : State} {O' : Held} {t : List Ev} (hr : RunT (release S.pool) S.held t s' O') :
    (∀ o, o ∈ O' ↔ o ∈ S.held ∧ ∃ l ∈ S.live, ¬ Disj l.1 l.2 o.1 o.2) ∧
    t.Perm ((freeBlocks S.held S.live).map fun o => Ev.freed o.1 o.2) := by
  have hi := reach_inv hc h
  have hO := freed_held hc.al (wp_run (freeReleased_wp hi) hr.run)
  refine ⟨hO, ?_⟩
  obtain ⟨fr, rfl, hp⟩ := frees_perm hr (freeReleased_wp hi) hi.held_keys (freeLoop_only_frees hr)
  refine List.Perm.map _ (perm_of_release ?_ hp ?_)
  · exact List.Pairwise.of_map (·.1) (fun x y hxy hne => hxy (congrArg _ hne)) hi.held_keys
  · intro o
    rw [hO o]
    simp

/-- Once nothing is live, `release` leaves the pool holding nothing. -/
theorem dynpool_release_all {cfg : Cfg} (hc : CfgOk cfg) {S : Sys} (h : Reach cfg S)
    (hl : S.live = []) {s' : State} {O' : Held} (hr : Run (release S.pool) S.held s' O') :
    O' = [] ∧ getActualSize s' = 0 ∧ getTotalBlocks s' = 0 := by
  obtain ⟨t, ht⟩ := hr.trace
  have h1 := (dynpool_release_exact hc h ht).1
  rw [hl] at h1
  have h2 : O' = [] := by
    apply List.eq_nil_iff_forall_not_mem.2
    intro o ho
    obtain ⟨_, l, hl, _⟩ := (h1 o).1 ho
    cases hl
  have hT : Reach cfg ⟨s', O', S.live⟩ := .step h (.release hr)
  have h3 := dynpool_sizes_exact hc hT
  simp only [h2] at h3
  exact ⟨h2, h3.1, h3.2.1⟩

example : ∃ s', Run (release sysX.pool) sysX.held s' [(1600, 80)] := by
  obtain ⟨r, hr⟩ : ∃ r, (release sysX.pool).execOk [] sysX.held = some r := ⟨_, rfl⟩
  have h0 : ((release sysX.pool).execOk [] sysX.held).map (·.2) = some [(1600, 80)] := by decide +kernel
  obtain ⟨s', O'⟩ := r
  rw [hr] at h0
  simp only [Option.map_some, Option.some.injEq] at h0
  subst h0
  exact ⟨s', execOk_run [] hr⟩

/-! ## C54 -/

/-- A successful `allocate` either takes the beginning of a smallest maximal gap
that is large enough, without contacting the parent, or no gap is large enough. -/
theorem dynpool_best_fit {cfg : Cfg} (hc : CfgOk cfg) {S : Sys} (h : Reach cfg S)
    {n : Nat} (hn : ReqOk cfg n) {r : Option Nat} {s' : State} {O' : Held} {t : List Ev}
    (hr : RunT (allocate cfg S.pool n) S.held t (r, s') O') :
    (t = [] ∧ ∃ p m, r = some p ∧ MaxGap cfg.align S.held S.live p m ∧ ceil cfg.align n ≤ m ∧
      ∀ q k, MaxGap cfg.align S.held S.live q k → ceil cfg.align n ≤ k → m ≤ k) ∨
    (t ≠ [] ∧ ∀ q k, Gap cfg.align S.held S.live q k → k < ceil cfg.align n) := by
  obtain ⟨q, hi, hrel⟩ := reach_inv hc h
  obtain ⟨-, h2, -, -⟩ := QuickPool.Inv.gaps_spec hi hc.al
  have hg := gaps_perm hrel
  have hm : ∀ p n, (∃ b ∈ S.pool.free, b.data = p ∧ b.size = n) ↔ MaxGap cfg.align S.held S.live p n := by
    intro p n
    rw [← h2, ← hg.mem_iff]
    simp only [List.mem_map, Prod.mk.injEq]
  have hce : roundUp64 cfg.align n = ceil cfg.align n :=
    roundUp64_eq_ceil hc.al hn.1 (by have := hn.2; omega)
  unfold allocate at hr
  simp only [hce] at hr
  split at hr
  · rename_i pos hl
    left
    have hsp := findLoop_spec (by simp) hl
    have hmin := findLoop_min (by simp) hl
    cases hr
    refine ⟨rfl, pos.2.1.data, pos.2.1.size, rfl, ?_, ?_, ?_⟩
    · refine (hm _ _).1 ⟨pos.2.1, ?_, rfl, rfl⟩
      rw [List.nil_append] at hsp
      rw [← hsp.1]; simp
    · exact hsp.2
    · intro q k hqk hk
      obtain ⟨b, hb, -, rfl⟩ := (hm q k).2 hqk
      exact hmin.2 b hb hk
  · rename_i hl
    right
    refine ⟨by cases hr <;> simp, ?_⟩
    intro p k hgp
    obtain ⟨c, hcm, hw⟩ := QuickPool.Inv.gap_chunk hi hc.al hgp
    obtain ⟨b, hb, -, hbs⟩ := (hm c.data c.size).2 ((QuickPool.Inv.maxGap_iff hi hc.al).2 ⟨c, hcm, rfl, rfl⟩)
    have := (findLoop_none hl).2 b hb
    unfold Within at hw
    omega

/-- When `allocate` reports failure, the parent has refused the same request
twice, with all blocks without live allocations handed back in between, and
exactly the blocks with live allocations are still held. -/
theorem dynpool_failed_allocate {cfg : Cfg} (hc : CfgOk cfg) {S : Sys} (h : Reach cfg S)
    {n : Nat} (hn : ReqOk cfg n) {s' : State} {O' : Held} {t : List Ev}
    (hr : RunT (allocate cfg S.pool n) S.held t (none, s') O') :
    Reach cfg ⟨s', O', S.live⟩ ∧
    (∀ o, o ∈ O' ↔ o ∈ S.held ∧ ∃ l ∈ S.live, ¬ Disj l.1 l.2 o.1 o.2) ∧
    ∃ m fr, t = .refused m :: (fr ++ [.refused m]) ∧
      fr.Perm ((freeBlocks S.held S.live).map fun o => Ev.freed o.1 o.2) := by
  have hi := reach_inv hc h
  have hpost := wp_run (allocate_wp hi hc hn) hr.run
  refine ⟨.step h (.allocErr hn hr.run), freed_held hc.al hpost, ?_⟩
  unfold allocate at hr
  simp only at hr
  split at hr
  · cases hr
  · cases hr with
    | allocOk hp hr => cases hr
    | allocFail hr =>
      obtain ⟨t1, t2, s1, O1, rfl, hr1, hr2⟩ := RunT.of_bind hr
      have hx := dynpool_release_exact hc h hr1
      cases hr2 with
      | allocOk hp hr2 => cases hr2
      | allocFail hr2 => cases hr2; exact ⟨_, t1, rfl, hx.2⟩

/-- Some allocation does fail from a reachable state. -/
example : ∃ s' O' t, RunT (allocate cfgX sysX.pool 100) sysX.held t (none, s') O' := by
  obtain ⟨r, hr⟩ : ∃ r, (allocate cfgX sysX.pool 100).execOk [] sysX.held = some r := ⟨_, rfl⟩
  have h0 : ((allocate cfgX sysX.pool 100).execOk [] sysX.held).map (fun r => r.1.1) = some none := by decide +kernel
  obtain ⟨⟨r, s'⟩, O'⟩ := r
  rw [hr] at h0
  simp only [Option.map_some, Option.some.injEq] at h0
  subst h0
  obtain ⟨t, ht⟩ := (execOk_run [] hr).trace
  exact ⟨s', O', t, ht⟩

/-- `coalesce` is `noexcept` but allocates: when the parent refuses, the program
is terminated.  `deallocate` lets the exception escape instead, after the
allocation has been given up. -/
theorem dynpool_coalesce_aborts :
    ∃ (cfg : Cfg) (heur : State → Nat) (S : Sys) (s' : State) (O' : Held), CfgOk cfg ∧ BuiltIn heur ∧
      HeurOk cfg heur ∧ Reach cfg S ∧ Goes (coalesce cfg heur S.pool) S.held .abort ∧
      ∃ (T : Sys) (p n : Nat), Reach cfg T ∧ (p, n) ∈ T.live ∧
        Run (deallocate cfg heur T.pool p) T.held (false, s') O' := by
  refine ⟨cfgX, blocksReleasable 2, ⟨?s, [(3200, 80), (1600, 80)], []⟩, ?s', [], cfgX_ok, .blocks 2,
    builtIn_heurOk (by decide) (.blocks 2), ?r, ?g, ⟨?t, [(3200, 80), (1600, 80)], [(1600, 16)]⟩, 1600, 16, ?rt,
    List.mem_singleton.2 rfl, ?d⟩
  case s => exact
      { used := [], free := [⟨1600, 64, 64⟩, ⟨3200, 64, 64⟩], baseMap := [(3200, 3200, 80), (1600, 1600, 80)],
        alignedBytes := 0, alignedHwm := 80, actualBytes := 128, actualHwm := 128, releasableBlocks := 2, totalBlocks := 2 }
  case t => exact
      { used := [⟨1600, 16, 64⟩], free := [⟨1616, 48, 0⟩, ⟨3200, 64, 64⟩],
        baseMap := [(3200, 3200, 80), (1600, 1600, 80)],
        alignedBytes := 16, alignedHwm := 80, actualBytes := 128, actualHwm := 128, releasableBlocks := 1, totalBlocks := 2 }
  case s' => exact
      { used := [], free := [], baseMap := [], alignedBytes := 0, alignedHwm := 80, actualBytes := 0,
        actualHwm := 128, releasableBlocks := 0, totalBlocks := 0 }
  case r => 
      exact play_reach heurX_ok
        (ops := [.alloc 16 [some 1600], .alloc 64 [some 3200], .dealloc 3200 64 [], .dealloc 1600 16 []]) (by decide +kernel)
  case rt => 
      exact play_reach heurX_ok
        (ops := [.alloc 16 [some 1600], .alloc 64 [some 3200], .dealloc 3200 64 []]) (by decide +kernel)
  case g => exact execBad_goes [] (by decide +kernel)
  case d => exact execOk_run [] (by decide +kernel)

end Umpire.DynPool
