import Verif.QuickPool.Fit
/-!
# Properties of `QuickPool` (C01 - C07)

`Reach cfg S` ranges over every sequence of operations, every behaviour of the
parent allocator and every heuristic (`HeurOk`: it does not suggest sizes near
2^64; shown for all built-in heuristics in `builtIn_heurOk`).
-/
set_option autoImplicit false
set_option linter.unusedSimpArgs false
namespace Umpire.QuickPool
open Umpire Umpire.Prog

/-! ## Non-vacuity: a reachable pool with two live allocations, a gap, and a free block -/

/-- Default-like configuration: alignment 16, coalescing only when entirely free. -/
def cfgX : Cfg :=
  { align := 16, first := 64, next := 64,
    heur := fun s => if getActualSize s = getReleasableSize s then getAlignedHighwaterMark s else 0 }

theorem cfgX_ok : CfgOk cfgX := ⟨by decide, by decide, by decide⟩

theorem cfgX_builtIn : BuiltIn cfgX.heur := .percentHwm (fun n => n) 100 _ rfl

theorem cfgX_heur : HeurOk cfgX := builtIn_heurOk cfgX_builtIn (by decide)

/-- The state after `allocate(16)`, `allocate(64)`, `allocate(40)`, and deallocating the second. -/
def sysX : Sys :=
  { pool :=
      { blocks := [[⟨0, 1600, 16, 64, false⟩, ⟨1, 1616, 48, 64, false⟩], [⟨2, 3200, 64, 64, true⟩]],
        sizeMap := [(64, 2)], ptrMap := [(1616, 1), (1600, 0)],
        baseMap := [(3200, 3190, 80), (1600, 1600, 80)],
        nextId := 5, totalBlocks := 2, releasableBlocks := 1, alignedBytes := 64, alignedHwm := 128,
        actualBytes := 128, releasableBytes := 64, actualHwm := 128 }
    held := [(3190, 80), (1600, 80)]
    live := [(1616, 40), (1600, 16)] }

theorem sysX_reach : Reach cfgX sysX :=
  play_reach (ops := [.alloc 16 [some 1600], .alloc 64 [some 3190], .alloc 40 [], .dealloc 3200 64 5 []])
    (by decide +kernel)

/-! ## C01 -/

/-- Live allocations are pairwise disjoint, and each lies inside a block
currently held from the parent. -/
theorem quickpool_live_disjoint {cfg : Cfg} (hc : CfgOk cfg) (hh : HeurOk cfg) {S : Sys} (h : Reach cfg S) :
    (S.live.Pairwise fun x y => Disj x.1 x.2 y.1 y.2) ∧
    ∀ l ∈ S.live, ∃ o ∈ S.held, Within l.1 l.2 o.1 o.2 := by
  have hi := reach_inv hc hh h
  constructor
  · refine List.Pairwise.imp ?_ (Inv.live_disj hi hc.al)
    intro x y hd
    have hx := (ceil_spec (a := cfg.align) (n := x.2) hc.al).2.1
    have hy := (ceil_spec (a := cfg.align) (n := y.2) hc.al).2.1
    unfold Disj at *; omega
  · intro l hl
    obtain ⟨_, o, ho, h1, h2⟩ := Inv.live_held hi hc.al hl
    have hx := (ceil_spec (a := cfg.align) (n := l.2) hc.al).2.1
    exact ⟨o, ho, by unfold Within at *; omega⟩

example : (sysX.live.Pairwise fun x y => Disj x.1 x.2 y.1 y.2) ∧
    ∀ l ∈ sysX.live, ∃ o ∈ sysX.held, Within l.1 l.2 o.1 o.2 :=
  quickpool_live_disjoint cfgX_ok cfgX_heur sysX_reach

/-! ## C02 -/

/-- Every live allocation is aligned, and the least multiple of the alignment not
below the request is reserved for it: these rounded ranges are disjoint and
inside blocks held from the parent.  Partial: only for requests with
`n + 2 * align ≤ 2^64` (`ReqOk`, part of `Reach`); see
`quickpool_overflow_counterexample` for what happens beyond. -/
theorem quickpool_aligned_partial {cfg : Cfg} (hc : CfgOk cfg) (hh : HeurOk cfg) {S : Sys} (h : Reach cfg S) :
    (∀ l ∈ S.live, cfg.align ∣ l.1 ∧ ∀ r, IsRoundUp cfg.align l.2 r → ∃ o ∈ S.held, Within l.1 r o.1 o.2) ∧
    S.live.Pairwise fun x y => ∀ r r', IsRoundUp cfg.align x.2 r → IsRoundUp cfg.align y.2 r' → Disj x.1 r y.1 r' := by
  have hi := reach_inv hc hh h
  have hun : ∀ {n r}, IsRoundUp cfg.align n r → r = ceil cfg.align n := by
    intro n r hr
    have h2 := ceil_spec (a := cfg.align) (n := n) hc.al
    have := hr.2.2 _ h2.1 h2.2.1
    have := h2.2.2 _ hr.1 hr.2.1
    omega
  constructor
  · intro l hl
    obtain ⟨hd, o, ho, h1, h2⟩ := Inv.live_held hi hc.al hl
    refine ⟨hd, fun r hr => ⟨o, ho, ?_⟩⟩
    rw [hun hr]
    unfold Within at *; omega
  · refine List.Pairwise.imp ?_ (Inv.live_disj hi hc.al)
    intro x y hd r r' hr hr'
    rw [hun hr, hun hr']; exact hd

example : (∀ l ∈ sysX.live, 16 ∣ l.1 ∧ ∀ r, IsRoundUp 16 l.2 r → ∃ o ∈ sysX.held, Within l.1 r o.1 o.2) :=
  (quickpool_aligned_partial cfgX_ok cfgX_heur sysX_reach).1

/-- Negation of the rest of C02: a request of 2^64 - 1 bytes is served, with an
empty chunk, and the next request is given the very same pointer. -/
theorem quickpool_overflow_counterexample :
    ∃ (cfg : Cfg) (s1 s2 : State) (O : Held) (p : Nat), CfgOk cfg ∧ HeurOk cfg ∧
      Run (allocate cfg init (W - 1)) [] (some p, s1) O ∧
      Run (allocate cfg s1 16) O (some p, s2) O := by
  refine ⟨cfgX, ?s1, ?s2, [(1600, 80)], 1600, cfgX_ok, cfgX_heur, ?h1, ?h2⟩
  case s1 => exact
      { blocks := [[⟨0, 1600, 0, 64, false⟩, ⟨1, 1600, 64, 64, true⟩]], sizeMap := [(64, 1)], ptrMap := [(1600, 0)],
        baseMap := [(1600, 1600, 80)], nextId := 2, totalBlocks := 1, releasableBlocks := 0, alignedBytes := 0,
        alignedHwm := 0, actualBytes := 64, releasableBytes := 0, actualHwm := 64 }
  case s2 => exact
      { blocks := [[⟨0, 1600, 0, 64, false⟩, ⟨1, 1600, 16, 64, false⟩, ⟨2, 1616, 48, 64, true⟩]], sizeMap := [(48, 2)],
        ptrMap := [(1600, 0)], baseMap := [(1600, 1600, 80)], nextId := 3, totalBlocks := 1, releasableBlocks := 0 - 1,
        alignedBytes := 16, alignedHwm := 16, actualBytes := 64, releasableBytes := 0 - 64, actualHwm := 64 }
  case h1 => exact execOk_run [some 1600] (by decide +kernel)
  case h2 => exact execOk_run [] (by decide +kernel)

/-! ## C03 -/

/-- The size observers are exact functions of the blocks held and the
allocations live. -/
theorem quickpool_sizes_exact {cfg : Cfg} (hc : CfgOk cfg) (hh : HeurOk cfg) {S : Sys} (h : Reach cfg S) :
    getActualSize S.pool = heldBytes cfg.align S.held ∧
    getTotalBlocks S.pool = S.held.length ∧
    getAlignedSize S.pool = liveBytes cfg.align S.live ∧
    getReleasableBlocks S.pool = (freeBlocks S.held S.live).length ∧
    getReleasableSize S.pool = heldBytes cfg.align (freeBlocks S.held S.live) := by
  have hi := reach_inv hc hh h
  exact ⟨Inv.actual_eq hi hc.al, Inv.total_eq hi hc.al, Inv.aligned_eq hi hc.al, Inv.relBlocks_eq hi hc.al,
    Inv.relBytes_eq hi hc.al⟩

example : getReleasableBlocks sysX.pool = (freeBlocks sysX.held sysX.live).length ∧
    (freeBlocks sysX.held sysX.live).length = 1 :=
  ⟨(quickpool_sizes_exact cfgX_ok cfgX_heur sysX_reach).2.2.2.1, by decide⟩

/-- `getBlocksInPool` counts the live allocations and the maximal free gaps;
`getLargestAvailableBlock` is the size of the largest gap. -/
theorem quickpool_gaps_exact {cfg : Cfg} (hc : CfgOk cfg) (hh : HeurOk cfg) {S : Sys} (h : Reach cfg S) :
    ∃ gs : Held, gs.Nodup ∧ (∀ p n, (p, n) ∈ gs ↔ MaxGap cfg.align S.held S.live p n) ∧
      getBlocksInPool S.pool = S.live.length + gs.length ∧
      (∀ p n, Gap cfg.align S.held S.live p n → n ≤ getLargestAvailableBlock S.pool) ∧
      (getLargestAvailableBlock S.pool = 0 ∧ gs = [] ∨
        ∃ p, MaxGap cfg.align S.held S.live p (getLargestAvailableBlock S.pool)) := by
  have hi := reach_inv hc hh h
  obtain ⟨h1, h2, h3, h4⟩ := Inv.gaps_spec hi hc.al
  have h5 := Inv.largest_eq hi
  have h6 := Inv.ptrMap_length hi
  refine ⟨gaps S.pool, h1, h2, ?_, ?_, ?_⟩
  · unfold getBlocksInPool; omega
  · intro p n hg
    obtain ⟨c, hcm, hw⟩ := Inv.gap_chunk hi hc.al hg
    have hm : c.size ∈ S.pool.sizeMap.map (·.1) :=
      h4.mem_iff.1 (List.mem_map.2 ⟨(c.data, c.size), List.mem_map.2 ⟨c, hcm, rfl⟩, rfl⟩)
    have := h5.1 _ hm
    unfold Within at hw
    omega
  · rcases h5.2 with ⟨hz, hn⟩ | hm
    · left
      refine ⟨hz, ?_⟩
      rw [hn] at h3
      exact List.length_eq_zero_iff.1 h3
    · right
      obtain ⟨g, hg, hge⟩ := List.mem_map.1 (h4.mem_iff.2 hm)
      refine ⟨g.1, ?_⟩
      rw [← hge]
      exact (h2 g.1 g.2).1 hg

example : ∃ p, MaxGap 16 sysX.held sysX.live p (getLargestAvailableBlock sysX.pool) := by
  obtain ⟨gs, _, _, _, _, h5⟩ := quickpool_gaps_exact cfgX_ok cfgX_heur sysX_reach
  rcases h5 with ⟨h0, _⟩ | h5
  · exact absurd h0 (by decide)
  · exact h5

/-- `getActualHighwaterMark` is the largest amount of memory ever held. -/
theorem quickpool_actual_hwm_exact {cfg : Cfg} (hc : CfgOk cfg) (hh : HeurOk cfg) {S : Sys} {m : Nat}
    (h : ReachHeld cfg S m) : getActualHighwaterMark S.pool = m := reachHeld_hwm hc hh h

example : ∃ m, ReachHeld cfgX sysX m ∧ m = 128 := by
  obtain ⟨m, hm⟩ := reach_reachHeld sysX_reach
  exact ⟨m, hm, (quickpool_actual_hwm_exact cfgX_ok cfgX_heur hm).symm⟩

/-- `getAlignedHighwaterMark` is the largest amount of memory ever in use when
coalescing never aims at more than the mark itself (so for the heuristics
`blocks_releasable_hwm` and `percent_releasable_hwm`, among them the default), and
never smaller.  Partial: with the other heuristics it can be larger, see
`quickpool_aligned_hwm_counterexample`. -/
theorem quickpool_aligned_hwm_partial {cfg : Cfg} (hc : CfgOk cfg) (hh : HeurOk cfg) {S : Sys} {m : Nat}
    (h : ReachLive cfg S m) :
    m ≤ getAlignedHighwaterMark S.pool ∧ ((∀ s, cfg.heur s ≤ getAlignedHighwaterMark s) → getAlignedHighwaterMark S.pool = m) :=
  ⟨reachLive_le hc hh h, fun hz => (reachLive_hwm hc hh hz h).1⟩

/-- The condition holds for the `_hwm` heuristics. -/
theorem hwm_builtIn (thr : Nat → Nat) :
    (∀ n s, blocksReleasableHwm n s ≤ getAlignedHighwaterMark s) ∧
    (∀ p f, percentReleasableHwm thr p = some f → ∀ s, f s ≤ getAlignedHighwaterMark s) := by
  constructor
  · intro n s; unfold blocksReleasableHwm; split <;> omega
  · intro p f hp s
    unfold percentReleasableHwm at hp
    split at hp
    · cases hp
    split at hp
    · injection hp with hp; subst hp; simp
    split at hp
    · injection hp with hp; subst hp; simp only; split <;> omega
    · injection hp with hp; subst hp; simp only; split <;> omega

example : ∀ m, ReachLive cfgX sysX m → m = 128 := fun m hm =>
  ((quickpool_aligned_hwm_partial cfgX_ok cfgX_heur hm).2 fun s => by
    show (if _ then _ else _) ≤ _; split <;> omega).symm

/-- A pool coalescing to `getActualSize` when entirely free (`percent_releasable(100)`). -/
def cfgP : Cfg :=
  { align := 16, first := 64, next := 64,
    heur := fun s => if getActualSize s = getReleasableSize s then getActualSize s else 0 }

theorem cfgP_ok : CfgOk cfgP := ⟨by decide, by decide, by decide⟩
theorem cfgP_heur : HeurOk cfgP := builtIn_heurOk (.percent (fun n => n) 100 _ rfl) (by decide)

/-- With coalescing, `getAlignedHighwaterMark` can exceed the largest amount of
memory ever in use: coalescing allocates and deallocates a block internally. -/
theorem quickpool_aligned_hwm_counterexample :
    ∃ (cfg : Cfg) (S : Sys) (m : Nat), CfgOk cfg ∧ HeurOk cfg ∧ BuiltIn cfg.heur ∧ ReachLive cfg S m ∧
      m < getAlignedHighwaterMark S.pool := by
  refine ⟨cfgP, ⟨?s, [(3200, 144)], []⟩, 80, cfgP_ok, cfgP_heur, .percent (fun n => n) 100 _ rfl,
    playLive_reach [.alloc 16 [some 1600], .alloc 64 [some 3200], .dealloc 3200 64 5 [], .dealloc 1600 16 5 [some 3200]] ?h, ?lt⟩
  case s => exact
      { blocks := [[⟨4, 3200, 128, 128, true⟩]], sizeMap := [(128, 4)], ptrMap := [], baseMap := [(3200, 3200, 144)],
        nextId := 6, totalBlocks := 1, releasableBlocks := 1, alignedBytes := 0, alignedHwm := 128,
        actualBytes := 128, releasableBytes := 128, actualHwm := 128 }
  case h => decide +kernel
  case lt => decide

/-! ## C04 -/

/-- Memory is handed back to the parent only while no live allocation overlaps
it.  (During `deallocate p` the allocation `p` itself is no longer live.) -/
theorem quickpool_returns_only_free {cfg : Cfg} (hc : CfgOk cfg) (hh : HeurOk cfg) {S : Sys} (h : Reach cfg S)
    (q m : Nat) :
    (∀ n, ReqOk cfg n → Frees (allocate cfg S.pool n) S.held q m → ∀ l ∈ S.live, Disj l.1 l.2 q m) ∧
    (∀ p n fuel, (p, n) ∈ S.live → Frees (deallocate cfg fuel S.pool p) S.held q m →
      ∀ l ∈ S.live, l.1 ≠ p → Disj l.1 l.2 q m) ∧
    (Frees (release S.pool) S.held q m → ∀ l ∈ S.live, Disj l.1 l.2 q m) ∧
    (∀ fuel, Frees (coalesce cfg fuel S.pool) S.held q m → ∀ l ∈ S.live, Disj l.1 l.2 q m) := by
  have hi := reach_inv hc hh h
  refine ⟨fun n hn hf => (wp_frees (allocate_wp hi hc hn) hf).2, fun p n fuel hL hf => ?_,
    fun hf => (wp_frees (release_wp hi) hf).2, fun fuel hf => (wp_frees (coalesce_wp hc hh hi) hf).2⟩
  intro l hl hne
  exact (wp_frees (deallocate_wp (fuel := fuel) hc hh hi hL) hf).2 l (mem_drop.2 ⟨hl, hne⟩)

/-- No operation hands back memory that is not held at that moment, or with a
size other than the one requested for it (so no block is handed back twice), and
no operation performs any other undefined behaviour. -/
theorem quickpool_no_undefined_behaviour {cfg : Cfg} (hc : CfgOk cfg) (hh : HeurOk cfg) {S : Sys} (h : Reach cfg S) :
    (∀ n, ReqOk cfg n → ∀ b, ¬ Goes (allocate cfg S.pool n) S.held b) ∧
    (∀ p n fuel, (p, n) ∈ S.live → ¬ Goes (deallocate cfg fuel S.pool p) S.held .ub) ∧
    (∀ b, ¬ Goes (release S.pool) S.held b) ∧
    (∀ fuel, ¬ Goes (coalesce cfg fuel S.pool) S.held .ub) := by
  have hi := reach_inv hc hh h
  exact ⟨fun n hn b hg => wp_safe (allocate_wp hi hc hn) hg,
    fun p n fuel hL hg => wp_safe (deallocate_wp (fuel := fuel) hc hh hi hL) hg rfl,
    fun b hg => wp_safe (release_wp hi) hg, fun fuel hg => wp_safe (coalesce_wp hc hh hi) hg rfl⟩

/-- `release` hands back exactly the blocks without live allocations, each once. -/
theorem quickpool_release_exact {cfg : Cfg} (hc : CfgOk cfg) (hh : HeurOk cfg) {S : Sys} (h : Reach cfg S)
    {s' : State} {O' : Held} {t : List Ev} (hr : RunT (release S.pool) S.held t s' O') :
    (∀ o, o ∈ O' ↔ o ∈ S.held ∧ ∃ l ∈ S.live, ¬ Disj l.1 l.2 o.1 o.2) ∧
    t.Perm ((freeBlocks S.held S.live).map fun o => Ev.freed o.1 o.2) := by
  have hi := reach_inv hc hh h
  obtain ⟨h1, h2, h3, h4⟩ := wp_run (release_wp hi) hr.run
  have hO := released_held hc.al h1 h2 h3 h4
  refine ⟨hO, ?_⟩
  obtain ⟨fr, rfl, hp⟩ := frees_perm hr (release_wp hi) (Inv.held_keys hi) (releaseLoop_only_frees hr)
  refine List.Perm.map _ (perm_of_release ?_ hp ?_)
  · exact List.Pairwise.of_map (·.1) (fun x y hxy hne => hxy (congrArg _ hne)) (Inv.held_keys hi)
  · intro o
    rw [hO o]
    simp

/-- Once nothing is live, `release` leaves the pool holding nothing. -/
theorem quickpool_release_all {cfg : Cfg} (hc : CfgOk cfg) (hh : HeurOk cfg) {S : Sys} (h : Reach cfg S)
    (hl : S.live = []) {s' : State} {O' : Held} (hr : Run (release S.pool) S.held s' O') :
    O' = [] ∧ getActualSize s' = 0 ∧ getTotalBlocks s' = 0 := by
  obtain ⟨t, ht⟩ := hr.trace
  have h1 := (quickpool_release_exact hc hh h ht).1
  rw [hl] at h1
  have h2 : O' = [] := by
    apply List.eq_nil_iff_forall_not_mem.2
    intro o ho
    obtain ⟨_, l, hl, _⟩ := (h1 o).1 ho
    cases hl
  have hT : Reach cfg ⟨s', O', S.live⟩ := .step h (.release hr)
  have h3 := quickpool_sizes_exact hc hh hT
  simp only [h2] at h3
  exact ⟨h2, h3.1, h3.2.1⟩

example : ∃ s', Run (release sysX.pool) sysX.held s' [(1600, 80)] := by
  obtain ⟨r, hr⟩ : ∃ r, (release sysX.pool).execOk [] sysX.held = some r := ⟨_, rfl⟩
  have h0 : ((release sysX.pool).execOk [] sysX.held).map (·.2) = some [(1600, 80)] := by decide +kernel
  obtain ⟨s', O'⟩ := r
  rw [hr] at h0
  simp only [Option.map_some, Option.some.injEq] at h0
  subst h0
  exact ⟨s', execOk_run [] hr⟩

/-! ## C05 -/

/-- Negation of C05: with the public heuristic `blocks_releasable(1)` there is a
reachable pool and a live allocation whose `deallocate` runs for ever (whatever
bound on the recursion depth is given, some well-behaved parent exceeds it). -/
theorem quickpool_coalesce_diverges :
    ∃ (cfg : Cfg) (S : Sys) (p n : Nat), CfgOk cfg ∧ HeurOk cfg ∧ cfg.heur = blocksReleasable 1 ∧ Reach cfg S ∧
      (p, n) ∈ S.live ∧ ∀ fuel, Goes (deallocate cfg fuel S.pool p) S.held .diverge := by
  refine ⟨cfgD, ⟨dUsed 2, [(3200, 80), (1600, 80)], [(3200, 64), (1600, 16)]⟩, 3200, 64, ?_, ?_, rfl, ?_, ?_, ?_⟩
  · exact ⟨by decide, by decide, by decide⟩
  · exact builtIn_heurOk (.blocks 1) (by decide)
  · exact play_reach (ops := [.alloc 16 [some 1600], .alloc 64 [some 3200]]) (by decide +kernel)
  · decide
  · intro fuel; exact d_loop fuel 2 (by decide)

/-- Termination for every heuristic that fires only when at least two blocks are
releasable or the whole pool is (`Quiet`): the recursion between `deallocate`
and `do_coalesce` is at most two deep.  Partial: fails for
`blocks_releasable(0)`, `blocks_releasable(1)` and `percent_releasable(1..99)`. -/
theorem quickpool_terminates_partial {cfg : Cfg} (hc : CfgOk cfg) (hh : HeurOk cfg) (hq : Quiet cfg) {S : Sys}
    (h : Reach cfg S) (fuel : Nat) :
    (∀ p n, (p, n) ∈ S.live → ¬ Goes (deallocate cfg (fuel + 2) S.pool p) S.held .diverge) ∧
    ¬ Goes (coalesce cfg (fuel + 2) S.pool) S.held .diverge := by
  have hi := reach_inv hc hh h
  constructor
  · intro p n hL hg
    obtain ⟨s1, hs, hi1⟩ := deallocCore_inv hi hL
    unfold deallocate deallocWith at hg
    rw [hs] at hg
    simp only at hg
    split at hg
    · have := wp_safe (doCoalesce_term (fuel := fuel) hc hq hi1 (hh _ _ _ hi1)) hg
      cases this
    · cases hg
  · intro hg
    unfold QuickPool.coalesce at hg
    split at hg
    · have := wp_safe (doCoalesce_term (fuel := fuel) hc hq hi (hh _ _ _ hi)) hg
      cases this
    · cases hg

/-- The built-in heuristics covered by `quickpool_terminates_partial`, among them the
default `percent_releasable_hwm(100)`. -/
theorem quiet_builtIn (cfg : Cfg) (thr : Nat → Nat) :
    (∀ n, 2 ≤ n → cfg.heur = blocksReleasable n ∨ cfg.heur = blocksReleasableHwm n → Quiet cfg) ∧
    (∀ p, p = 0 ∨ p = 100 → percentReleasable thr p = some cfg.heur ∨ percentReleasableHwm thr p = some cfg.heur →
      Quiet cfg) := by
  constructor
  · rintro n hn (he | he) s hs <;> rw [he] at hs
    · unfold blocksReleasable at hs; split at hs
      · left; omega
      · exact absurd rfl hs
    · unfold blocksReleasableHwm at hs; split at hs
      · left; omega
      · exact absurd rfl hs
  · rintro p (rfl | rfl) (he | he) s hs
    · simp [percentReleasable] at he; rw [← he] at hs; exact absurd rfl hs
    · simp [percentReleasableHwm] at he; rw [← he] at hs; exact absurd rfl hs
    · simp [percentReleasable] at he; rw [← he] at hs
      simp only at hs
      split at hs
      · right; assumption
      · exact absurd rfl hs
    · simp [percentReleasableHwm] at he; rw [← he] at hs
      simp only at hs
      split at hs
      · right; assumption
      · exact absurd rfl hs

example : ¬ Goes (coalesce cfgX 2 sysX.pool) sysX.held .diverge :=
  (quickpool_terminates_partial cfgX_ok cfgX_heur
    ((quiet_builtIn cfgX (fun n => n)).2 100 (.inr rfl) (.inr rfl)) sysX_reach 0).2

/-! ## C06 -/

/-- When `allocate` reports failure, the parent has refused the same request
twice, with all blocks without live allocations handed back in between, and
exactly the blocks with live allocations are still held.  All theorems about
reachable states apply to the state afterwards (`Step.allocErr`), so live
allocations are intact and the reported sizes exact. -/
theorem quickpool_failed_allocate {cfg : Cfg} (hc : CfgOk cfg) (hh : HeurOk cfg) {S : Sys} (h : Reach cfg S)
    {n : Nat} (hn : ReqOk cfg n) {s' : State} {O' : Held} {t : List Ev}
    (hr : RunT (allocate cfg S.pool n) S.held t (none, s') O') :
    Reach cfg ⟨s', O', S.live⟩ ∧
    (∀ o, o ∈ O' ↔ o ∈ S.held ∧ ∃ l ∈ S.live, ¬ Disj l.1 l.2 o.1 o.2) ∧
    ∃ m fr, t = .refused m :: (fr ++ [.refused m]) ∧
      fr.Perm ((freeBlocks S.held S.live).map fun o => Ev.freed o.1 o.2) := by
  have hi := reach_inv hc hh h
  refine ⟨.step h (.allocErr hn hr.run), ?_, ?_⟩
  · obtain ⟨h1, h2, h3, h4⟩ := wp_run (allocate_wp hi hc hn) hr.run
    exact released_held hc.al h1 h2 h3 h4
  · unfold allocate at hr
    simp only at hr
    split at hr
    · cases hr with
      | allocOk hp hr => cases hr
      | allocFail hr =>
        obtain ⟨t1, t2, s1, O1, rfl, hr1, hr2⟩ := RunT.of_bind hr
        have hx := quickpool_release_exact hc hh h hr1
        cases hr2 with
        | allocOk hp hr2 => cases hr2
        | allocFail hr2 => cases hr2; exact ⟨_, t1, rfl, hx.2⟩
    · split at hr <;> cases hr

/-- Some allocation does fail from a reachable state. -/
example : ∃ s' O' t, RunT (allocate cfgX sysX.pool 100) sysX.held t (none, s') O' := by
  obtain ⟨r, hr⟩ : ∃ r, (allocate cfgX sysX.pool 100).execOk [] sysX.held = some r := ⟨_, rfl⟩
  have h0 : ((allocate cfgX sysX.pool 100).execOk [] sysX.held).map (fun r => r.1.1) = some none := by decide +kernel
  obtain ⟨⟨r, s'⟩, O'⟩ := r
  rw [hr] at h0
  simp only [Option.map_some, Option.some.injEq] at h0
  subst h0
  obtain ⟨t, ht⟩ := (execOk_run [] hr).trace
  exact ⟨s', O', t, ht⟩

/-- What C06 promises does not hold for the allocation made inside
`coalesce`: that function is `noexcept`, so when the parent refuses, the program
is terminated. -/
theorem quickpool_coalesce_aborts :
    ∃ (cfg : Cfg) (S : Sys) (p n fuel : Nat), CfgOk cfg ∧ HeurOk cfg ∧ BuiltIn cfg.heur ∧ Reach cfg S ∧
      (p, n) ∈ S.live ∧ Goes (deallocate cfg fuel S.pool p) S.held .abort := by
  refine ⟨cfgX, ⟨?s, [(3200, 80), (1600, 80)], [(1600, 16)]⟩, 1600, 16, 5, cfgX_ok, cfgX_heur, cfgX_builtIn, ?r, List.mem_singleton.2 rfl, ?g⟩
  case s => exact
      { blocks := [[⟨0, 1600, 16, 64, false⟩, ⟨1, 1616, 48, 64, true⟩], [⟨2, 3200, 64, 64, true⟩]],
        sizeMap := [(48, 1), (64, 2)], ptrMap := [(1600, 0)], baseMap := [(3200, 3200, 80), (1600, 1600, 80)],
        nextId := 4, totalBlocks := 2, releasableBlocks := 1, alignedBytes := 16, alignedHwm := 80,
        actualBytes := 128, releasableBytes := 64, actualHwm := 128 }
  case r => exact play_reach (ops := [.alloc 16 [some 1600], .alloc 64 [some 3200], .dealloc 3200 64 5 []]) (by decide +kernel)
  case g => exact execBad_goes [] (by decide +kernel)

/-! ## C07 -/

/-- A successful `allocate` either takes the beginning of a smallest maximal gap
that is large enough, without contacting the parent, or no gap is large enough. -/
theorem quickpool_best_fit {cfg : Cfg} (hc : CfgOk cfg) (hh : HeurOk cfg) {S : Sys} (h : Reach cfg S)
    {n p : Nat} (hn : ReqOk cfg n) {s' : State} {O' : Held} {t : List Ev}
    (hr : RunT (allocate cfg S.pool n) S.held t (some p, s') O') :
    (t = [] ∧ ∃ m, MaxGap cfg.align S.held S.live p m ∧ ceil cfg.align n ≤ m ∧
      ∀ q k, MaxGap cfg.align S.held S.live q k → ceil cfg.align n ≤ k → m ≤ k) ∨
    (t ≠ [] ∧ ∀ q k, Gap cfg.align S.held S.live q k → k < ceil cfg.align n) := by
  have hi := reach_inv hc hh h
  have hce : roundUp64 cfg.align n = ceil cfg.align n :=
    roundUp64_eq_ceil hc.al hn.1 (by have := hn.2; omega)
  unfold allocate at hr
  simp only [hce] at hr
  split at hr
  · rename_i hl
    right
    refine ⟨by cases hr <;> simp, ?_⟩
    intro q k hg
    obtain ⟨c, hcm, hw⟩ := Inv.gap_chunk hi hc.al hg
    have hm := hi.sm.mem_iff.2 (List.mem_map.2 ⟨c, hcm, rfl⟩)
    have := lowerBound_none hl _ hm
    unfold Within at hw
    simp only at this
    omega
  · rename_i e hl
    left
    obtain ⟨hem, hen⟩ := lowerBound_spec hl
    obtain ⟨c, hcm, hf, rfl, hfind⟩ := hi.sm_chunk hem
    simp only [hfind] at hr
    cases hr
    refine ⟨rfl, c.size, ?_, hen, ?_⟩
    · exact (Inv.maxGap_iff hi hc.al).2 ⟨c, List.mem_filter.2 ⟨hcm, hf⟩, rfl, rfl⟩
    · intro q k hg hk
      obtain ⟨d, hd, _, rfl⟩ := (Inv.maxGap_iff hi hc.al).1 hg
      exact lowerBound_min hi.sorted hl (d.size, d.id) (hi.sm.mem_iff.2 (List.mem_map.2 ⟨d, hd, rfl⟩)) hk

/-- Whatever `allocate` asks its parent for, it does so only when no gap is large
enough. -/
theorem quickpool_asks_only_when_needed {cfg : Cfg} (hc : CfgOk cfg) (hh : HeurOk cfg) {S : Sys} (h : Reach cfg S)
    {n : Nat} (hn : ReqOk cfg n) {r : Option Nat} {s' : State} {O' : Held} {t : List Ev}
    (hr : RunT (allocate cfg S.pool n) S.held t (r, s') O') (ht : t ≠ []) :
    ∀ q k, Gap cfg.align S.held S.live q k → k < ceil cfg.align n := by
  cases r with
  | some p =>
    rcases quickpool_best_fit hc hh h hn hr with ⟨h0, _⟩ | ⟨_, h1⟩
    · exact absurd h0 ht
    · exact h1
  | none =>
    have hi := reach_inv hc hh h
    have hce : roundUp64 cfg.align n = ceil cfg.align n :=
      roundUp64_eq_ceil hc.al hn.1 (by have := hn.2; omega)
    unfold allocate at hr
    simp only [hce] at hr
    split at hr
    · rename_i hl
      intro q k hg
      obtain ⟨c, hcm, hw⟩ := Inv.gap_chunk hi hc.al hg
      have hm := hi.sm.mem_iff.2 (List.mem_map.2 ⟨c, hcm, rfl⟩)
      have := lowerBound_none hl _ hm
      unfold Within at hw
      simp only at this
      omega
    · split at hr <;> cases hr

/-- A block without live allocations is available in one piece: its whole usable
part can be allocated without contacting the parent. -/
theorem quickpool_free_block_usable {cfg : Cfg} (hc : CfgOk cfg) (hh : HeurOk cfg) {S : Sys} (h : Reach cfg S)
    {o : Nat × Nat} (ho : o ∈ freeBlocks S.held S.live) {n : Nat} (hn : ReqOk cfg n)
    (hfit : ceil cfg.align n ≤ o.2 - cfg.align) {r : Option Nat} {s' : State} {O' : Held} {t : List Ev}
    (hr : RunT (allocate cfg S.pool n) S.held t (r, s') O') : t = [] ∧ r.isSome := by
  have hi := reach_inv hc hh h
  obtain ⟨hoO, hod⟩ := mem_freeBlocks.1 ho
  have hg : Gap cfg.align S.held S.live (usable cfg.align o).1 (usable cfg.align o).2 := by
    obtain ⟨b, hb, hu, _⟩ := Inv.block_of_held hi hc.al hoO
    obtain ⟨c, rfl, hcf⟩ := (Inv.block_free hi hc.al hb hoO hu).1 hod
    have hcg := Inv.chunk_gap hi hc.al (c := c)
      (List.mem_filter.2 ⟨List.mem_flatten.2 ⟨[c], hb, by simp⟩, hcf⟩)
    rw [hu]
    simpa [start] using hcg
  by_cases ht : t = []
  · refine ⟨ht, ?_⟩
    subst ht
    cases r with
    | some p => rfl
    | none =>
      obtain ⟨_, _, m, fr, he, _⟩ := quickpool_failed_allocate hc hh h hn hr
      exact absurd he (by simp)
  · have h1 := quickpool_asks_only_when_needed hc hh h hn hr ht _ _ hg
    simp only [usable] at h1
    omega

example : (3190, 80) ∈ freeBlocks sysX.held sysX.live ∧ ceil 16 60 ≤ 80 - 16 := by decide

end Umpire.QuickPool
