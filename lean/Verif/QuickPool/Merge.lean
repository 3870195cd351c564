import Verif.QuickPool.Props
import Verif.QuickPool.Peak
import Verif.Base.MergeSpec
/-!
# What `QuickPool::coalesce` achieves (C61)
-/
set_option autoImplicit false
set_option linter.unusedSimpArgs false
namespace Umpire.QuickPool
open Umpire Umpire.Prog

theorem Inv.held_nodup {a : Nat} {s : State} {O L : Held} (h : Inv a s O L) : O.Nodup :=
  List.Pairwise.of_map (·.1) (fun _ _ hxy hne => hxy (congrArg _ hne)) (Inv.held_keys h)

/-- After `release` the pool holds exactly the used blocks, in the same order. -/
theorem release_used {a : Nat} (ha : 0 < a) {s s' : State} {O O' L : Held} (h : Inv a s O L)
    (hr : Run (release s) O s' O') : O' = usedBlocks O L ∧ Inv a s' O' L ∧ ReleasedAll s s' := by
  obtain ⟨h1, h2, h3, h4⟩ := wp_run (release_wp h) hr
  refine ⟨eq_filter_of_sublist (Inv.held_nodup h) h3 fun o => ?_, h1, h2⟩
  rw [released_held ha h1 h2 h3 h4 o]
  simp [List.any_eq_true]

theorem usedBlocks_idem {O L : Held} : usedBlocks (usedBlocks O L) L = usedBlocks O L := by
  unfold usedBlocks
  rw [List.filter_filter]
  simp only [Bool.and_self]

theorem usedBlocks_cons_free {O L : Held} {o : Nat × Nat} (h : ∀ l ∈ L, Disj l.1 l.2 o.1 o.2) :
    usedBlocks (o :: O) L = usedBlocks O L := by
  unfold usedBlocks
  rw [List.filter_cons, if_neg]
  simpa [List.any_eq_true] using h

theorem Inv.actual_zero {a : Nat} (ha : 0 < a) {s : State} {O L : Held} (h : Inv a s O L) :
    s.actualBytes = 0 ↔ O = [] := by
  rw [Inv.actual_eq h ha]
  constructor
  · intro h0
    cases O with
    | nil => rfl
    | cons o O =>
      obtain ⟨b, hb, hu, _⟩ := Inv.block_of_held h ha (List.mem_cons_self (a := o))
      have := Inv.bsize_pos h hb
      have e := congrArg Prod.snd hu
      simp only [usable] at e
      simp only [List.map_cons, List.sum_cons] at h0
      omega
  · rintro rfl; rfl

/-- `allocate` on a pool without releasable blocks. -/
theorem allocate_held {cfg : Cfg} (hc : CfgOk cfg) {s s' : State} {O O' L : Held} (h : Inv cfg.align s O L)
    (hu : usedBlocks O L = O) {n p : Nat} (hn : ReqOk cfg n) (hr : Run (allocate cfg s n) O (some p, s') O') :
    (O' = O ∧ ∃ q k, Gap cfg.align O L q k ∧ ceil cfg.align n ≤ k) ∨
    ((∀ q k, Gap cfg.align O L q k → k < ceil cfg.align n) ∧
      ∃ d, O' = (d, max (ceil cfg.align n) (if O = [] then cfg.first else cfg.next) + cfg.align) :: O) := by
  have hce : roundUp64 cfg.align n = ceil cfg.align n :=
    roundUp64_eq_ceil hc.al hn.1 (by have := hn.2; omega)
  have hg := (growSize_bounds (s := s) hc hn).2.2
  rw [hce] at hg
  have hsz : growSize cfg s (ceil cfg.align n) = max (ceil cfg.align n) (if O = [] then cfg.first else cfg.next) := by
    unfold growSize
    simp only
    by_cases h0 : O = []
    · rw [if_pos ((Inv.actual_zero hc.al h).2 h0), if_pos h0]; split <;> omega
    · rw [if_neg (fun hz => h0 ((Inv.actual_zero hc.al h).1 hz)), if_neg h0]; split <;> omega
  have hw : w64 (growSize cfg s (ceil cfg.align n) + cfg.align) = growSize cfg s (ceil cfg.align n) + cfg.align :=
    Nat.mod_eq_of_lt hg
  unfold allocate at hr
  simp only [hce] at hr
  split at hr
  · rename_i hl
    right
    constructor
    · intro q k hgp
      obtain ⟨c, hcm, hwi⟩ := Inv.gap_chunk h hc.al hgp
      have hm := h.sm.mem_iff.2 (List.mem_map.2 ⟨c, hcm, rfl⟩)
      have := lowerBound_none hl _ hm
      unfold Within at hwi
      simp only at this
      omega
    · rw [hw, hsz] at hr
      cases hr with
      | allocOk hp hr => cases hr; exact ⟨_, rfl⟩
      | allocFail hr =>
        obtain ⟨s1, O1, h1, h2⟩ := Run.of_bind hr
        obtain ⟨rfl, -, -⟩ := release_used hc.al h h1
        rw [hu] at h2
        cases h2 with
        | allocOk hp h2 => cases h2; exact ⟨_, rfl⟩
        | allocFail h2 => cases h2
  · rename_i e hl
    left
    obtain ⟨hem, hen⟩ := lowerBound_spec hl
    obtain ⟨c, hcm, hf, rfl, hfind⟩ := h.sm_chunk hem
    simp only [hfind] at hr
    cases hr
    exact ⟨rfl, c.data, c.size, Inv.chunk_gap h hc.al (List.mem_filter.2 ⟨hcm, hf⟩), hen⟩

/-- `do_coalesce` when there are two free pieces: the pool is consolidated towards
the last size suggested. -/
theorem doCoalesce_merged {cfg : Cfg} (hc : CfgOk cfg) (hh : HeurOk cfg) {fuel : Nat} {s s' : State} {O O' L : Held}
    {g : Nat} (h : Inv cfg.align s O L) (hs : g + 2 * cfg.align ≤ W) (h1 : 1 < s.sizeMap.length)
    {t : List Ev} (hr : RunT (doCoalesce cfg fuel s g) O t s' O') :
    Inv cfg.align s' O' L ∧
    (∃ g', Consolidated cfg.align cfg.first cfg.next g' (usedBlocks O L) L O' ∧ (Quiet cfg → g' = g)) ∧
    (Quiet cfg → peak cfg.align O t = max (heldBytes cfg.align O) (heldBytes cfg.align O')) := by
  induction fuel generalizing s O g t with
  | zero => unfold doCoalesce at hr; cases hr
  | succ fuel ih =>
    unfold doCoalesce at hr
    rw [if_pos h1] at hr
    obtain ⟨t1, t2, s1, O1, rfl, hr1, hr⟩ := RunT.of_bind hr
    obtain ⟨hO1, hi1, hra⟩ := release_used hc.al h hr1.run
    have hp1 := release_peak (a := cfg.align) hr1
    have hfr := release_free hc.al hi1 hra
    have hab : s1.actualBytes = heldBytes cfg.align (usedBlocks O L) := by
      rw [Inv.actual_eq hi1 hc.al, hO1]; rfl
    have hidem : usedBlocks O1 L = O1 := by rw [hO1, usedBlocks_idem]
    by_cases hlt : s1.actualBytes < g
    · rw [if_pos hlt] at hr
      have hreq : ReqOk cfg (g - s1.actualBytes) := ⟨by omega, by omega⟩
      obtain ⟨t3, t4, ⟨r, s2⟩, O2, rfl, hr2, hr⟩ := RunT.of_bind hr
      have hpost := wp_run (allocate_wp hi1 hc hreq) hr2.run
      have hp2 := allocate_peak (a := cfg.align) hr2
      cases r with
      | none => cases hr
      | some p =>
        have hheld := allocate_held hc hi1 hidem hreq hr2.run
        simp only [AllocPost] at hpost
        obtain ⟨hpost, _, _, _⟩ := hpost
        have hnd := hpost.live_fst_nodup
        simp only [List.map_cons, List.nodup_cons, List.mem_map, not_exists, not_and] at hnd
        have hdr := drop_cons_fresh (L := L) (p := p) (n := g - s1.actualBytes) (fun r hr => fun he => hnd.1 r hr he)
        obtain ⟨s3, hs3, hi3⟩ := deallocCore_inv (ptr := p) (n := g - s1.actualBytes) hpost (by simp)
        rw [hdr] at hi3
        have hcons : Consolidated cfg.align cfg.first cfg.next g (usedBlocks O L) L O2 := by
          rw [hab] at hheld hlt
          rw [hO1] at hheld
          rcases hheld with ⟨ha, hb⟩ | ⟨ha, hb⟩
          · exact .inr (.inl ⟨hlt, ha, hb⟩)
          · exact .inr (.inr ⟨hlt, ha, hb⟩)
        simp only [deallocWith, hs3] at hr
        by_cases hne : cfg.heur s3 ≠ 0
        · rw [if_pos hne] at hr
          by_cases hl3 : 1 < s3.sizeMap.length
          · obtain ⟨hi4, ⟨g', hg', _⟩, _⟩ := ih hi3 (hh _ _ _ hi3) hl3 hr
            -- the new block, if any, is free in `s3`
            have hnq : ¬ Quiet cfg := by
              intro hq
              have hle : (freeBlocks O2 L).length ≤ 1 := by
                rcases hheld with ⟨ha, _⟩ | ⟨_, d, ha⟩
                · rw [ha, hfr]; simp
                · rw [ha]
                  unfold freeBlocks at hfr ⊢
                  generalize (d, _ + cfg.align) = x
                  rw [List.filter_cons, hfr]
                  split <;> simp
              rcases hq s3 hne with h2 | h2
              · unfold getReleasableBlocks at h2
                rw [Inv.relBlocks_eq hi3 hc.al] at h2
                omega
              · have hall := all_free hc.al hi3 h2
                have hcount := freeCount hc.al hi3 hall
                rw [hall] at hle
                omega
            have hsame : usedBlocks O2 L = usedBlocks O L := by
              rcases hheld with ⟨ha, _⟩ | ⟨_, d, ha⟩
              · rw [ha, hidem, hO1]
              · have hd : ∀ l ∈ L, Disj l.1 l.2 d (max (ceil cfg.align (g - s1.actualBytes))
                    (if O1 = [] then cfg.first else cfg.next) + cfg.align) := by
                  intro l hl
                  obtain ⟨_, o, ho, hw1, hw2⟩ := Inv.live_held hi1 hc.al hl
                  have hdis := hi3.disj
                  rw [ha] at hdis
                  have := (List.pairwise_cons.1 hdis).1 o ho
                  have hce := (ceil_spec (a := cfg.align) (n := l.2) hc.al).2.1
                  unfold Disj at this ⊢
                  unfold Within at *
                  simp only at this
                  omega
                rw [ha, usedBlocks_cons_free hd, hidem, hO1]
            rw [hsame] at hg'
            exact ⟨hi4, ⟨g', hg', fun hq => absurd hq hnq⟩, fun hq => absurd hq hnq⟩
          · cases fuel with
            | zero => unfold doCoalesce at hr; cases hr
            | succ fuel =>
              unfold doCoalesce at hr
              rw [if_neg hl3] at hr
              cases hr
              refine ⟨hi3, ⟨g, hcons, fun _ => rfl⟩, fun _ => ?_⟩
              rw [List.append_nil, peak_append hr1 (le_peak _ _), hp1.1, hp2, ← Nat.max_assoc, Nat.max_eq_left hp1.2]
        · rw [if_neg hne] at hr
          cases hr
          refine ⟨hi3, ⟨g, hcons, fun _ => rfl⟩, fun _ => ?_⟩
          rw [List.append_nil, peak_append hr1 (le_peak _ _), hp1.1, hp2, ← Nat.max_assoc, Nat.max_eq_left hp1.2]
    · rw [if_neg hlt] at hr
      cases hr
      refine ⟨hi1, ⟨g, .inl ⟨by omega, hO1⟩, fun _ => rfl⟩, fun _ => ?_⟩
      rw [List.append_nil, hp1.1]
      omega

/-! ## C61 -/

/-- `coalesce` changes nothing and does not contact the parent when the heuristic
is silent or when there are not two separate free pieces. -/
theorem quickpool_coalesce_idle {cfg : Cfg} (hc : CfgOk cfg) (hh : HeurOk cfg) {S : Sys} (h : Reach cfg S)
    (hx : cfg.heur S.pool = 0 ∨ ∀ p n q m, MaxGap cfg.align S.held S.live p n → MaxGap cfg.align S.held S.live q m →
      (p, n) = (q, m))
    {fuel : Nat} {s' : State} {O' : Held} {t : List Ev} (hr : RunT (coalesce cfg fuel S.pool) S.held t s' O') :
    s' = S.pool ∧ O' = S.held ∧ t = [] := by
  have hi := reach_inv hc hh h
  unfold coalesce at hr
  by_cases h0 : cfg.heur S.pool ≠ 0
  · rw [if_pos h0] at hr
    rcases hx with hx | hx
    · exact absurd hx h0
    obtain ⟨hn, hm, hl, -⟩ := Inv.gaps_spec hi hc.al
    have hle : ¬ 1 < S.pool.sizeMap.length := by
      rw [← hl]
      intro hlt
      match hg : gaps S.pool, hlt with
      | x :: y :: r, _ =>
        have := hx x.1 x.2 y.1 y.2 ((hm _ _).1 (by rw [hg]; simp)) ((hm _ _).1 (by rw [hg]; simp))
        rw [hg] at hn
        simp only [List.nodup_cons, List.mem_cons, not_or] at hn
        exact hn.1.1 this
    cases fuel with
    | zero => unfold doCoalesce at hr; cases hr
    | succ fuel =>
      unfold doCoalesce at hr
      rw [if_neg hle] at hr
      cases hr
      exact ⟨rfl, rfl, rfl⟩
  · rw [if_neg h0] at hr
    cases hr
    exact ⟨rfl, rfl, rfl⟩

/-- Otherwise, if `coalesce` returns, the pool is consolidated: the blocks with live
allocations are kept, all others are gone, and there is at most one new block.  The size
aimed at is the one suggested by the heuristic, if the heuristic is `Quiet`;
for other heuristics it is the one suggested last. -/
theorem quickpool_coalesce_consolidates {cfg : Cfg} (hc : CfgOk cfg) (hh : HeurOk cfg) {S : Sys} (h : Reach cfg S)
    (h0 : cfg.heur S.pool ≠ 0) {p n q m : Nat} (hp : MaxGap cfg.align S.held S.live p n)
    (hq : MaxGap cfg.align S.held S.live q m) (hne : (p, n) ≠ (q, m))
    {fuel : Nat} {s' : State} {O' : Held} {t : List Ev} (hr : RunT (coalesce cfg fuel S.pool) S.held t s' O') :
    (∃ goal, Consolidated cfg.align cfg.first cfg.next goal (usedBlocks S.held S.live) S.live O' ∧
      (Quiet cfg → goal = cfg.heur S.pool)) ∧
    (Quiet cfg → peak cfg.align S.held t = max (heldBytes cfg.align S.held) (heldBytes cfg.align O')) := by
  have hi := reach_inv hc hh h
  obtain ⟨hn, hm, hl, -⟩ := Inv.gaps_spec hi hc.al
  have hlt : 1 < S.pool.sizeMap.length := by
    rw [← hl]
    have h1 := (hm p n).2 hp
    have h2 := (hm q m).2 hq
    match hg : gaps S.pool with
    | [] => rw [hg] at h1; cases h1
    | [x] =>
      rw [hg, List.mem_singleton] at h1 h2
      exact absurd (h1.trans h2.symm) hne
    | x :: y :: r => simp
  unfold coalesce at hr
  rw [if_pos h0] at hr
  exact (doCoalesce_merged hc hh hi (hh _ _ _ hi) hlt hr).2

/-- A consolidated pool serves the bytes that were missing from the size aimed at in one
piece, without contacting the parent.  (`O`: the blocks before; `L`: the allocations
that stayed live, all in those blocks.) -/
theorem quickpool_consolidated_serves {cfg : Cfg} (hc : CfgOk cfg) (hh : HeurOk cfg) {s' : State} {O O' L : Held}
    (hreach : Reach cfg ⟨s', O', L⟩) {goal : Nat} (hin : ∀ l ∈ L, ∃ o ∈ O, Within l.1 l.2 o.1 o.2)
    (hcon : Consolidated cfg.align cfg.first cfg.next goal (usedBlocks O L) L O')
    {k : Nat} (hk : ReqOk cfg k) (hle : k + heldBytes cfg.align (usedBlocks O L) ≤ goal)
    {r : Option Nat} {s2 : State} {O2 : Held} {t : List Ev} (ha : RunT (allocate cfg s' k) O' t (r, s2) O2) :
    t = [] ∧ r.isSome ∧ O2 = O' := by
  have hmono : ceil cfg.align k ≤ ceil cfg.align (goal - heldBytes cfg.align (usedBlocks O L)) := by
    unfold ceil
    exact Nat.mul_le_mul_right _ (Nat.div_le_div_right (by omega))
  have hfree : (∃ q k', Gap cfg.align O' L q k' ∧ ceil cfg.align k ≤ k') ∨
      ∃ o ∈ freeBlocks O' L, ceil cfg.align k ≤ o.2 - cfg.align := by
    rcases hcon with ⟨h1, -⟩ | ⟨_, rfl, q, k', hg, hk'⟩ | ⟨_, _, d, hO⟩
    · have := hk.1; omega
    · exact .inl ⟨q, k', hg, by omega⟩
    · right
      refine ⟨_, mem_freeBlocks.2 ⟨by rw [hO]; exact List.mem_cons_self, ?_⟩, ?_⟩
      · intro l hl
        have hi' := reach_inv hc hh hreach
        obtain ⟨o, ho, hw⟩ := hin l hl
        have hl0 := (hi'.req l hl).1
        have hou : o ∈ usedBlocks O L := by
          refine mem_usedBlocks.2 ⟨ho, l, hl, ?_⟩
          unfold Disj Within at *
          omega
        have hdis := hi'.disj
        simp only at hdis
        rw [hO] at hdis
        have := (List.pairwise_cons.1 hdis).1 o hou
        unfold Disj Within at *
        simp only at this ⊢
        omega
      · simp only
        omega
  have key : t = [] ∧ r.isSome := by
    rcases hfree with ⟨q, k', hg, hk'⟩ | ⟨o, ho, hok⟩
    · by_cases ht : t = []
      · refine ⟨ht, ?_⟩
        subst ht
        cases r with
        | some p => rfl
        | none =>
          obtain ⟨_, _, m, fr, he, _⟩ := quickpool_failed_allocate hc hh hreach hk ha
          exact absurd he (by simp)
      · have := quickpool_asks_only_when_needed hc hh hreach hk ha ht _ _ hg
        omega
    · exact quickpool_free_block_usable hc hh hreach ho hk hok ha
  refine ⟨key.1, key.2, ?_⟩
  have : ∀ {α : Type} {p : Prog α} {O O' : Held} {t : List Ev} {x : α}, RunT p O t x O' → t = [] → O' = O := by
    intro α p O O' t x h ht
    cases h with
    | ret => rfl
    | allocOk => cases ht
    | allocFail => cases ht
    | dealloc => cases ht
  exact this ha key.1

/-! ### The built-in heuristics, as they act in `deallocate` -/

theorem freeBlocks_nil {O : Held} : freeBlocks O [] = O := by
  unfold freeBlocks
  exact List.filter_eq_self.2 fun _ _ => rfl

/-- What the heuristic sees in `deallocate`. -/
theorem deallocCore_view {cfg : Cfg} (hc : CfgOk cfg) (hh : HeurOk cfg) {S : Sys} (h : Reach cfg S) {p n : Nat}
    (hL : (p, n) ∈ S.live) :
    ∃ s1, deallocCore S.pool p = some s1 ∧ Inv cfg.align s1 S.held (drop p S.live) ∧
      getActualSize s1 = heldBytes cfg.align S.held ∧
      getReleasableBlocks s1 = (freeBlocks S.held (drop p S.live)).length ∧
      getAlignedHighwaterMark s1 = getAlignedHighwaterMark S.pool ∧
      (getActualSize s1 = getReleasableSize s1 ↔ drop p S.live = []) := by
  have hi := reach_inv hc hh h
  obtain ⟨s1, hs1, hi1⟩ := deallocCore_inv hi hL
  refine ⟨s1, hs1, hi1, Inv.actual_eq hi1 hc.al, Inv.relBlocks_eq hi1 hc.al, (deallocCore_hwm hs1).2, ?_⟩
  constructor
  · intro he
    have hall := all_free hc.al hi1 he
    apply Classical.byContradiction
    intro hne
    obtain ⟨l, hl⟩ := List.exists_mem_of_ne_nil _ hne
    obtain ⟨_, o, ho, hw1, hw2⟩ := Inv.live_held hi1 hc.al hl
    have hce := (ceil_spec (a := cfg.align) (n := l.2) hc.al).2.1
    have hl0 := (hi1.req l hl).1
    rw [← hall] at ho
    have := (mem_freeBlocks.1 ho).2 l hl
    unfold Disj Within at *
    omega
  · intro he
    unfold getActualSize getReleasableSize
    rw [Inv.actual_eq hi1 hc.al, Inv.relBytes_eq hi1 hc.al, he, freeBlocks_nil]

/-- Two blocks without live allocations are two separate free pieces. -/
theorem two_gaps {a : Nat} (ha : 0 < a) {s : State} {O L : Held} (h : Inv a s O L)
    (h2 : 2 ≤ (freeBlocks O L).length) : 1 < s.sizeMap.length := by
  have h1 := (Inv.free_perm h ha).length_eq
  simp only [List.length_map] at h1
  have h4 := h.sm.length_eq
  simp only [List.length_map] at h4
  have h5 : ∀ bs : List (List Chunk), (bs.filter isFree).length ≤ (freeL bs.flatten).length := by
    intro bs
    induction bs with
    | nil => exact Nat.le_refl _
    | cons b bs ih =>
      unfold freeL at *
      rw [List.filter_cons, List.flatten_cons, List.filter_append, List.length_append]
      split
      · obtain ⟨c, rfl, hc⟩ := isFree_iff.1 ‹_›
        simp only [List.length_cons, List.filter_cons, hc, if_true, List.filter_nil, List.length_nil]
        omega
      · omega
  have := h5 s.blocks
  omega

theorem deallocate_merged {cfg : Cfg} (hc : CfgOk cfg) (hh : HeurOk cfg) (hq : Quiet cfg) {s s1 s' : State}
    {O O' L : Held} {p fuel : Nat} {t : List Ev} (hs1 : deallocCore s p = some s1) (hi1 : Inv cfg.align s1 O L)
    (hr : RunT (deallocate cfg fuel s p) O t s' O') :
    (cfg.heur s1 = 0 ∨ ¬ 1 < s1.sizeMap.length → s' = s1 ∧ O' = O ∧ t = []) ∧
    (cfg.heur s1 ≠ 0 → 1 < s1.sizeMap.length →
      Consolidated cfg.align cfg.first cfg.next (cfg.heur s1) (usedBlocks O L) L O' ∧
      peak cfg.align O t = max (heldBytes cfg.align O) (heldBytes cfg.align O')) := by
  simp only [deallocate, deallocWith, hs1] at hr
  constructor
  · intro h
    by_cases hne : cfg.heur s1 ≠ 0
    · rw [if_pos hne] at hr
      rcases h with h | h
      · exact absurd h hne
      cases fuel with
      | zero => unfold doCoalesce at hr; cases hr
      | succ fuel =>
        unfold doCoalesce at hr
        rw [if_neg h] at hr
        cases hr
        exact ⟨rfl, rfl, rfl⟩
    · rw [if_neg hne] at hr
      cases hr
      exact ⟨rfl, rfl, rfl⟩
  · intro hne hlt
    rw [if_pos hne] at hr
    obtain ⟨_, ⟨g, hg, hgq⟩, hp⟩ := doCoalesce_merged hc hh hi1 (hh _ _ _ hi1) hlt hr
    have := hgq hq
    subst this
    exact ⟨hg, hp hq⟩

theorem hwm_pos {cfg : Cfg} (hc : CfgOk cfg) (hh : HeurOk cfg) {S : Sys} (h : Reach cfg S) {p n : Nat}
    (hL : (p, n) ∈ S.live) : 0 < S.pool.alignedHwm := by
  have hi := reach_inv hc hh h
  have h3 := Inv.liveBytes_le hc.al hi
  have h4 : ceil cfg.align n ≤ liveBytes cfg.align S.live := by
    obtain ⟨l1, l2, hl⟩ := List.append_of_mem hL
    unfold liveBytes
    rw [hl]
    simp only [List.map_append, List.map_cons, List.sum_append, List.sum_cons]
    omega
  have h5 := (ceil_spec (a := cfg.align) (n := n) hc.al).2.1
  have h6 := (hi.req _ hL).1
  simp only at h6
  omega

/-- With `blocks_releasable(k)`, `k ≥ 2`: a `deallocate` after which fewer than `k`
blocks are free leaves the blocks alone; one after which there are `k` consolidates
towards the amount held.  During this the pool never holds more than
before or after. -/
theorem quickpool_blocks_releasable {cfg : Cfg} (hc : CfgOk cfg) {k : Nat} (hk : 2 ≤ k)
    (hf : cfg.heur = blocksReleasable k) (hh : HeurOk cfg) {S : Sys} (h : Reach cfg S) {p n : Nat} (hL : (p, n) ∈ S.live)
    {fuel : Nat} {s' : State} {O' : Held} {t : List Ev} (hr : RunT (deallocate cfg fuel S.pool p) S.held t s' O') :
    ((freeBlocks S.held (drop p S.live)).length < k → O' = S.held ∧ t = []) ∧
    (k ≤ (freeBlocks S.held (drop p S.live)).length →
      Consolidated cfg.align cfg.first cfg.next (heldBytes cfg.align S.held)
        (usedBlocks S.held (drop p S.live)) (drop p S.live) O' ∧
      peak cfg.align S.held t = max (heldBytes cfg.align S.held) (heldBytes cfg.align O')) := by
  obtain ⟨s1, hs1, hi1, hv1, hv2, _, _⟩ := deallocCore_view hc hh h hL
  have hq := (quiet_builtIn cfg id).1 k hk (.inl hf)
  obtain ⟨h1, h2⟩ := deallocate_merged hc hh hq hs1 hi1 hr
  constructor
  · intro hlt
    have : cfg.heur s1 = 0 := by rw [hf]; unfold blocksReleasable; rw [if_neg (by omega)]
    exact (h1 (.inl this)).2
  · intro hle
    have h2g := two_gaps hc.al hi1 (by omega)
    have he : cfg.heur s1 = heldBytes cfg.align S.held := by
      rw [hf, ← hv1]; unfold blocksReleasable; rw [if_pos (by omega)]
    have hpos : heldBytes cfg.align S.held ≠ 0 := by
      rw [← hv1]
      intro h0
      have := (Inv.actual_zero hc.al hi1).1 h0
      rw [this] at hle
      simp [freeBlocks] at hle
      omega
    have := h2 (by rw [he]; exact hpos) h2g
    rw [he] at this
    exact this

/-- With `blocks_releasable_hwm(k)`, `k ≥ 2`: as before, towards the largest amount ever
in use. -/
theorem quickpool_blocks_releasable_hwm {cfg : Cfg} (hc : CfgOk cfg) {k : Nat} (hk : 2 ≤ k)
    (hf : cfg.heur = blocksReleasableHwm k) (hh : HeurOk cfg) {S : Sys} {m : Nat} (h : ReachLive cfg S m) {p n : Nat}
    (hL : (p, n) ∈ S.live)
    {fuel : Nat} {s' : State} {O' : Held} {t : List Ev} (hr : RunT (deallocate cfg fuel S.pool p) S.held t s' O') :
    ((freeBlocks S.held (drop p S.live)).length < k → O' = S.held ∧ t = []) ∧
    (k ≤ (freeBlocks S.held (drop p S.live)).length →
      Consolidated cfg.align cfg.first cfg.next m
        (usedBlocks S.held (drop p S.live)) (drop p S.live) O' ∧
      peak cfg.align S.held t = max (heldBytes cfg.align S.held) (heldBytes cfg.align O')) := by
  obtain ⟨s1, hs1, hi1, hv1, hv2, hv3, _⟩ := deallocCore_view hc hh (reachLive_reach h) hL
  have hm := (quickpool_aligned_hwm_partial hc hh h).2 (by rw [hf]; exact (hwm_builtIn id).1 k)
  have hq := (quiet_builtIn cfg id).1 k hk (.inr hf)
  obtain ⟨h1, h2⟩ := deallocate_merged hc hh hq hs1 hi1 hr
  constructor
  · intro hlt
    have : cfg.heur s1 = 0 := by rw [hf]; unfold blocksReleasableHwm; rw [if_neg (by omega)]
    exact (h1 (.inl this)).2
  · intro hle
    have h2g := two_gaps hc.al hi1 (by omega)
    have he : cfg.heur s1 = m := by
      rw [hf, ← hm, ← hv3]; unfold blocksReleasableHwm; rw [if_pos (by omega)]
    have hpos : m ≠ 0 := by
      rw [← hm]
      exact Nat.ne_of_gt (hwm_pos hc hh (reachLive_reach h) hL)
    rw [← he]
    exact h2 (by rw [he]; exact hpos) h2g

/-- With the default `percent_releasable_hwm(100)`: a `deallocate` after which something
is live leaves the blocks alone; one after which nothing is live leaves one block, the
old one if there was only one, and otherwise a new one for the largest amount
ever in use. -/
theorem quickpool_default_heuristic {cfg : Cfg} (hc : CfgOk cfg) {thr : Nat → Nat}
    (hf : percentReleasableHwm thr 100 = some cfg.heur) (hh : HeurOk cfg) {S : Sys} {m : Nat} (h : ReachLive cfg S m)
    {p n : Nat} (hL : (p, n) ∈ S.live)
    {fuel : Nat} {s' : State} {O' : Held} {t : List Ev} (hr : RunT (deallocate cfg fuel S.pool p) S.held t s' O') :
    (drop p S.live ≠ [] ∨ S.held.length ≤ 1 → O' = S.held ∧ t = []) ∧
    (drop p S.live = [] → 2 ≤ S.held.length → ∃ d, O' = [(d, max m cfg.first + cfg.align)]) := by
  obtain ⟨s1, hs1, hi1, hv1, hv2, hv3, hv4⟩ := deallocCore_view hc hh (reachLive_reach h) hL
  have hq := (quiet_builtIn cfg thr).2 100 (.inr rfl) (.inr hf)
  obtain ⟨h1, h2⟩ := deallocate_merged hc hh hq hs1 hi1 hr
  have hle : ∀ s, cfg.heur s ≤ getAlignedHighwaterMark s := (hwm_builtIn thr).2 100 _ hf
  obtain ⟨hm, hdvd⟩ := reachLive_hwm hc hh hle h
  have hheur : ∀ s, cfg.heur s = if getActualSize s = getReleasableSize s then getAlignedHighwaterMark s else 0 := by
    intro s
    simp [percentReleasableHwm] at hf
    rw [← hf]
  constructor
  · intro hx
    by_cases hne : drop p S.live = []
    · rcases hx with hx | hx
      · exact absurd hne hx
      · refine (h1 (.inr ?_)).2
        have hall : freeBlocks S.held (drop p S.live) = S.held := by
          rw [hne, freeBlocks_nil]
        rw [freeCount hc.al hi1 hall]
        omega
    · have : cfg.heur s1 = 0 := by rw [hheur, if_neg (fun he => hne (hv4.1 he))]
      exact (h1 (.inl this)).2
  · intro hne h2l
    have hall : freeBlocks S.held (drop p S.live) = S.held := by
      rw [hne, freeBlocks_nil]
    have he : cfg.heur s1 = m := by
      rw [hheur, if_pos (hv4.2 hne), hv3]; exact hm
    have hpos : 0 < m := by
      rw [← hm]
      exact hwm_pos hc hh (reachLive_reach h) hL
    have := (h2 (by omega) (two_gaps hc.al hi1 (by rw [hall]; exact h2l))).1
    rw [he, hne] at this
    have hu : usedBlocks S.held [] = [] := by unfold usedBlocks; simp
    have hceil : ceil cfg.align m = m := by
      obtain ⟨j, rfl⟩ := hdvd
      unfold ceil
      have hal := hc.al
      rw [Nat.mul_comm cfg.align j, Nat.mul_comm j, Nat.mul_add_div hal, Nat.div_eq_of_lt (by omega), Nat.add_zero, Nat.mul_comm]
    rw [hu] at this
    rcases this with ⟨hx, _⟩ | ⟨_, _, q, j, hg, _⟩ | ⟨_, _, d, hO⟩
    · simp [heldBytes] at hx; omega
    · obtain ⟨_, ⟨o, ho, _⟩, _⟩ := hg
      cases ho
    · refine ⟨d, ?_⟩
      rw [hO]
      simp [heldBytes, hceil]

/-- `allocate` does not increase the number of releasable blocks. -/
theorem allocate_releasable {cfg : Cfg} (hc : CfgOk cfg) {s s' : State} {O O' L : Held} (h : Inv cfg.align s O L)
    {n : Nat} {r : Option Nat} (hr : Run (allocate cfg s n) O (r, s') O') :
    s'.releasableBlocks ≤ s.releasableBlocks := by
  have hrel : ∀ {s1 : State} {O1 : Held}, Run (release s) O s1 O1 → s1.releasableBlocks = 0 := by
    intro s1 O1 h1
    obtain ⟨_, hi1, hra⟩ := release_used hc.al h h1
    rw [Inv.relBlocks_eq hi1 hc.al, release_free hc.al hi1 hra]
    rfl
  have hgot : ∀ (s : State) (size p k : Nat),
      (useChunk (newBlock cfg s size p).2 (newBlock cfg s size p).1 k).2.releasableBlocks = s.releasableBlocks := by
    intro s size p k
    simp [useChunk, newBlock]
  unfold allocate at hr
  simp only at hr
  split at hr
  · cases hr with
    | allocOk hp hr =>
      cases hr
      exact Nat.le_of_eq (hgot _ _ _ _)
    | allocFail hr =>
      obtain ⟨s1, O1, h1, h2⟩ := Run.of_bind hr
      have h0 := hrel h1
      cases h2 with
      | allocOk hp h2 =>
        cases h2
        have := hgot s1 (growSize cfg s (roundUp64 cfg.align n)) ‹_› (roundUp64 cfg.align n)
        omega
      | allocFail h2 =>
        cases h2
        omega
  · split at hr
    · cases hr
    · cases hr
      simp only [useChunk]
      split <;> simp only <;> omega

theorem consolidated_free {a f x g : Nat} {O L O' : Held} (h : Consolidated a f x g (usedBlocks O L) L O') :
    (freeBlocks O' L).length ≤ 1 := by
  have hz : freeBlocks (usedBlocks O L) L = [] := by
    apply List.eq_nil_iff_forall_not_mem.2
    intro o ho
    obtain ⟨h1, h2⟩ := mem_freeBlocks.1 ho
    obtain ⟨_, l, hl, hd⟩ := mem_usedBlocks.1 h1
    exact hd (h2 l hl)
  rcases h with ⟨_, rfl⟩ | ⟨_, rfl, _⟩ | ⟨_, _, d, rfl⟩
  · rw [hz]; simp
  · rw [hz]; simp
  · generalize (d, _ + a) = y
    unfold freeBlocks at hz ⊢
    rw [List.filter_cons, hz]
    split <;> simp

/-- With `blocks_releasable(k)` or `blocks_releasable_hwm(k)`, `k ≥ 2`, fewer than `k` blocks
are free between operations. -/
theorem blocks_settled {cfg : Cfg} (hc : CfgOk cfg) {k : Nat} (hk : 2 ≤ k)
    (hf : cfg.heur = blocksReleasable k ∨ cfg.heur = blocksReleasableHwm k) (hh : HeurOk cfg) {S : Sys}
    (h : Reach cfg S) : S.pool.releasableBlocks < k := by
  have hq := (quiet_builtIn cfg id).1 k hk hf
  have hz : ∀ s, s.releasableBlocks < k → cfg.heur s = 0 := by
    intro s hs
    rcases hf with hf | hf <;> rw [hf]
    · unfold blocksReleasable getReleasableBlocks; rw [if_neg (by omega)]
    · unfold blocksReleasableHwm getReleasableBlocks; rw [if_neg (by omega)]
  induction h with
  | init => show 0 < k; omega
  | @step S T hS hs ih =>
    have hi := reach_inv hc hh hS
    cases hs with
    | allocOk hn hr => exact Nat.lt_of_le_of_lt (allocate_releasable hc hi hr) ih
    | allocErr hn hr => exact Nat.lt_of_le_of_lt (allocate_releasable hc hi hr) ih
    | dealloc hL hr =>
      obtain ⟨t, ht⟩ := hr.trace
      obtain ⟨s1, hs1, hi1, _, hv2, _, _⟩ := deallocCore_view hc hh hS hL
      obtain ⟨h1, h2⟩ := deallocate_merged hc hh hq hs1 hi1 ht
      by_cases hlt : s1.releasableBlocks < k
      · rw [(h1 (.inl (hz _ hlt))).1]; exact hlt
      · have hT := reach_inv hc hh (.step hS (.dealloc hL hr))
        unfold getReleasableBlocks at hv2
        have h2g := two_gaps hc.al hi1 (by omega)
        by_cases h0 : cfg.heur s1 = 0
        · -- then nothing was ever in use
          exfalso
          have hpos : 0 < s1.actualBytes := by
            apply Nat.pos_of_ne_zero
            intro hx
            have := (Inv.actual_zero hc.al hi1).1 hx
            rw [this] at hv2
            simp [freeBlocks] at hv2
            omega
          rcases hf with hf | hf <;> rw [hf] at h0
          · unfold blocksReleasable getReleasableBlocks getActualSize at h0
            rw [if_pos (by omega)] at h0
            omega
          · unfold blocksReleasableHwm getReleasableBlocks getAlignedHighwaterMark at h0
            rw [if_pos (by omega)] at h0
            have h4 := (deallocCore_hwm hs1).2
            have := hwm_pos hc hh hS hL
            omega
        · have := consolidated_free (h2 h0 h2g).1
          have h8 := Inv.relBlocks_eq hT hc.al
          simp only at h8 ⊢
          omega
    | release hr =>
      obtain ⟨_, hi1, hra⟩ := release_used hc.al hi hr
      simp only
      rw [Inv.relBlocks_eq hi1 hc.al, release_free hc.al hi1 hra]
      show 0 < k
      omega
    | coalesce hr =>
      unfold QuickPool.coalesce at hr
      rw [hz _ ih, if_neg (by simp)] at hr
      cases hr
      exact ih

/-- With `percent_releasable(100)` or `percent_releasable_hwm(100)`, between operations something
is live or at most one block is held. -/
theorem percent_settled {cfg : Cfg} (hc : CfgOk cfg) {thr : Nat → Nat}
    (hf : percentReleasable thr 100 = some cfg.heur ∨ percentReleasableHwm thr 100 = some cfg.heur) (hh : HeurOk cfg)
    {S : Sys} (h : Reach cfg S) : S.live ≠ [] ∨ S.held.length ≤ 1 := by
  have hq := (quiet_builtIn cfg thr).2 100 (.inr rfl) hf
  have hne : ∀ s, getActualSize s = getReleasableSize s → 0 < getActualSize s → 0 < s.alignedHwm → cfg.heur s ≠ 0 := by
    intro s h1 h2 h3
    rcases hf with hf | hf
    · simp [percentReleasable] at hf
      rw [← hf]
      simp only
      rw [if_pos h1]
      omega
    · simp [percentReleasableHwm] at hf
      rw [← hf]
      simp only
      rw [if_pos h1]
      unfold getAlignedHighwaterMark
      omega
  induction h with
  | init => right; exact Nat.zero_le 1
  | @step S T hS hs ih =>
    have hi := reach_inv hc hh hS
    cases hs with
    | allocOk hn hr => left; simp
    | allocErr hn hr =>
      have := (wp_run (allocate_wp hi hc hn) hr).2.2.1.length_le
      rcases ih with ih | ih
      · exact .inl ih
      · right; simp only at this ⊢; omega
    | @dealloc p n fuel s' O' hL hr =>
      obtain ⟨t, ht⟩ := hr.trace
      obtain ⟨s1, hs1, hi1, _, _, _, hv4⟩ := deallocCore_view hc hh hS hL
      obtain ⟨h1, h2⟩ := deallocate_merged hc hh hq hs1 hi1 ht
      by_cases hemp : drop p S.live = []
      · right
        have hall : freeBlocks S.held (drop p S.live) = S.held := by rw [hemp, freeBlocks_nil]
        have hcnt := freeCount hc.al hi1 hall
        by_cases hlt : 1 < s1.sizeMap.length
        · have h0 : cfg.heur s1 ≠ 0 := by
            refine hne s1 (hv4.2 hemp) ?_ ?_
            · apply Nat.pos_of_ne_zero
              intro hx
              have := (Inv.actual_zero hc.al hi1).1 hx
              rw [this, List.length_nil] at hcnt
              omega
            · rw [(deallocCore_hwm hs1).2]
              exact hwm_pos hc hh hS hL
          have hcf := consolidated_free (h2 h0 hlt).1
          rw [hemp, freeBlocks_nil] at hcf
          exact hcf
        · rw [(h1 (.inr hlt)).2.1]
          simp only
          omega
      · exact .inl hemp
    | release hr =>
      have := (wp_run (release_wp hi) hr).2.2.1.length_le
      rcases ih with ih | ih
      · exact .inl ih
      · right; simp only at this ⊢; omega
    | @coalesce fuel s' O' hr =>
      rcases ih with ih | ih
      · exact .inl ih
      · by_cases hemp : S.live = []
        · right
          have hall : freeBlocks S.held S.live = S.held := by rw [hemp, freeBlocks_nil]
          have hcnt := freeCount hc.al hi hall
          unfold QuickPool.coalesce at hr
          split at hr
          · cases fuel with
            | zero => unfold doCoalesce at hr; cases hr
            | succ fuel =>
              unfold doCoalesce at hr
              rw [if_neg (by omega)] at hr
              cases hr
              exact ih
          · cases hr; exact ih
        · exact .inl hemp

/-- With the heuristics above an explicit `coalesce` has no effect whatever: `deallocate`
has already done everything the heuristic asks for. -/
theorem quickpool_explicit_coalesce_idle {cfg : Cfg} (hc : CfgOk cfg) (hh : HeurOk cfg) {thr : Nat → Nat}
    (hf : (∃ k, 2 ≤ k ∧ (cfg.heur = blocksReleasable k ∨ cfg.heur = blocksReleasableHwm k)) ∨
      percentReleasable thr 100 = some cfg.heur ∨ percentReleasableHwm thr 100 = some cfg.heur)
    {S : Sys} (h : Reach cfg S) {fuel : Nat} {s' : State} {O' : Held} {t : List Ev}
    (hr : RunT (coalesce cfg fuel S.pool) S.held t s' O') : s' = S.pool ∧ O' = S.held ∧ t = [] := by
  have hi := reach_inv hc hh h
  rcases hf with ⟨k, hk, hf⟩ | hf
  · refine quickpool_coalesce_idle hc hh h (.inl ?_) hr
    have := blocks_settled hc hk hf hh h
    rcases hf with hf | hf <;> rw [hf]
    · unfold blocksReleasable getReleasableBlocks; rw [if_neg (by omega)]
    · unfold blocksReleasableHwm getReleasableBlocks; rw [if_neg (by omega)]
  · unfold coalesce at hr
    by_cases h0 : cfg.heur S.pool ≠ 0
    · rw [if_pos h0] at hr
      have he : getActualSize S.pool = getReleasableSize S.pool := by
        apply Classical.byContradiction
        intro hx
        rcases hf with hf | hf
        · simp [percentReleasable] at hf
          rw [← hf] at h0
          simp only at h0
          rw [if_neg hx] at h0
          exact h0 rfl
        · simp [percentReleasableHwm] at hf
          rw [← hf] at h0
          simp only at h0
          rw [if_neg hx] at h0
          exact h0 rfl
      have hall := all_free hc.al hi he
      have hcnt := freeCount hc.al hi hall
      have hle : S.held.length ≤ 1 := by
        rcases percent_settled hc hf hh h with hl | hl
        · obtain ⟨l, hl⟩ := List.exists_mem_of_ne_nil _ hl
          obtain ⟨_, o, ho, hw1, hw2⟩ := Inv.live_held hi hc.al hl
          have hce := (ceil_spec (a := cfg.align) (n := l.2) hc.al).2.1
          have hl0 := (hi.req l hl).1
          rw [← hall] at ho
          have := (mem_freeBlocks.1 ho).2 l hl
          unfold Disj Within at *
          omega
        · exact hl
      cases fuel with
      | zero => unfold doCoalesce at hr; cases hr
      | succ fuel =>
        unfold doCoalesce at hr
        rw [if_neg (by omega)] at hr
        cases hr
        exact ⟨rfl, rfl, rfl⟩
    · rw [if_neg h0] at hr
      cases hr
      exact ⟨rfl, rfl, rfl⟩

/-! ### Concrete cases -/

/-- `blocks_releasable(2)` with a large first block. -/
def cfgB : Cfg := { align := 16, first := 1024, next := 16, heur := blocksReleasable 2 }

theorem cfgB_ok : CfgOk cfgB := ⟨by decide, by decide, by decide⟩
theorem cfgB_heur : HeurOk cfgB := builtIn_heurOk (.blocks 2) (by decide)

/-- Two small blocks, one of them free; the first block has been released. -/
def sysG : Sys :=
  { pool :=
      { blocks := [[⟨3, 4800, 16, 16, true⟩], [⟨5, 1600, 16, 16, false⟩]], sizeMap := [(16, 3)], ptrMap := [(1600, 5)],
        baseMap := [(1600, 1600, 32), (4800, 4800, 32)], nextId := 7, totalBlocks := 2, releasableBlocks := 1,
        alignedBytes := 16, alignedHwm := 1040, actualBytes := 32, releasableBytes := 16, actualHwm := 1040 }
    held := [(1600, 32), (4800, 32)]
    live := [(1600, 16)] }

theorem sysG_reach : Reach cfgB sysG :=
  play_reach (ops := [.alloc 16 [some 1600], .alloc 1008 [], .alloc 16 [some 4800], .dealloc 1600 16 5 [],
    .dealloc 1616 1008 5 [], .release, .alloc 16 [some 1600], .dealloc 4800 16 5 []]) (by decide +kernel)

/-- Coalescing can make a pool much larger: two free blocks with 32 usable bytes are
replaced by one of 1024, because the minimum for the first block applies again. -/
theorem quickpool_coalesce_grows_counterexample :
    ∃ (cfg : Cfg) (S : Sys) (p n fuel : Nat) (s' : State) (O' : Held), CfgOk cfg ∧ HeurOk cfg ∧ BuiltIn cfg.heur ∧
      Reach cfg S ∧ (p, n) ∈ S.live ∧ Run (deallocate cfg fuel S.pool p) S.held s' O' ∧
      heldBytes cfg.align S.held = 32 ∧ heldBytes cfg.align O' = 1024 := by
  refine ⟨cfgB, sysG, 1600, 16, 5,
    { blocks := [[⟨7, 1600, 1024, 1024, true⟩]], sizeMap := [(1024, 7)], ptrMap := [], baseMap := [(1600, 1600, 1040)],
      nextId := 9, totalBlocks := 1, releasableBlocks := 1, alignedBytes := 0, alignedHwm := 1040, actualBytes := 1024,
      releasableBytes := 1024, actualHwm := 1040 }, [(1600, 1040)], cfgB_ok, cfgB_heur, .blocks 2, sysG_reach, by decide,
    execOk_run [some 1600] (by decide +kernel), by decide, by decide⟩

/-- Two blocks without live allocations after deallocating `6400`, and a gap of 1008 bytes
in the block that stays. -/
def sysH : Sys :=
  { pool :=
      { blocks := [[⟨0, 1600, 16, 1024, false⟩, ⟨1, 1616, 1008, 1024, true⟩], [⟨3, 4800, 64, 64, true⟩],
          [⟨5, 6400, 64, 64, false⟩]],
        sizeMap := [(64, 3), (1008, 1)], ptrMap := [(6400, 5), (1600, 0)],
        baseMap := [(6400, 6400, 80), (4800, 4800, 80), (1600, 1600, 1040)], nextId := 7, totalBlocks := 3,
        releasableBlocks := 1, alignedBytes := 80, alignedHwm := 1152, actualBytes := 1152, releasableBytes := 64,
        actualHwm := 1152 }
    held := [(6400, 80), (4800, 80), (1600, 1040)]
    live := [(6400, 64), (1600, 16)] }

theorem sysH_reach : Reach cfgB sysH :=
  play_reach (ops := [.alloc 16 [some 1600], .alloc 1008 [], .alloc 64 [some 4800], .alloc 64 [some 6400],
    .dealloc 1616 1008 5 [], .dealloc 4800 64 5 []]) (by decide +kernel)

/-- The amount the heuristic asks for need not be reached: if a gap between live
allocations is as large as the missing bytes, the free blocks are given back and
nothing replaces them. -/
theorem quickpool_coalesce_shrinks_counterexample :
    ∃ (cfg : Cfg) (S : Sys) (p n fuel : Nat) (s' : State) (O' : Held), CfgOk cfg ∧ HeurOk cfg ∧
      cfg.heur = blocksReleasable 2 ∧ Reach cfg S ∧ (p, n) ∈ S.live ∧
      2 ≤ (freeBlocks S.held (drop p S.live)).length ∧ Run (deallocate cfg fuel S.pool p) S.held s' O' ∧
      heldBytes cfg.align O' < heldBytes cfg.align S.held := by
  refine ⟨cfgB, sysH, 6400, 64, 5,
    { blocks := [[⟨0, 1600, 16, 1024, false⟩, ⟨1, 1616, 1008, 1024, true⟩]], sizeMap := [(1008, 1)], ptrMap := [(1600, 0)],
      baseMap := [(1600, 1600, 1040)], nextId := 8, totalBlocks := 1, releasableBlocks := 0, alignedBytes := 16,
      alignedHwm := 1152, actualBytes := 1024, releasableBytes := 0, actualHwm := 1152 }, [(1600, 1040)],
    cfgB_ok, cfgB_heur, rfl, sysH_reach, by decide, by decide, execOk_run [] (by decide +kernel), by decide⟩

/-- `quickpool_blocks_releasable` on `sysG`. -/
example : ∃ s' O' t, RunT (deallocate cfgB 5 sysG.pool 1600) sysG.held t s' O' ∧
    Consolidated 16 1024 16 32 [] [] O' := by
  have hr : Run (deallocate cfgB 5 sysG.pool 1600) sysG.held
      { blocks := [[⟨7, 1600, 1024, 1024, true⟩]], sizeMap := [(1024, 7)], ptrMap := [], baseMap := [(1600, 1600, 1040)],
        nextId := 9, totalBlocks := 1, releasableBlocks := 1, alignedBytes := 0, alignedHwm := 1040, actualBytes := 1024,
        releasableBytes := 1024, actualHwm := 1040 } [(1600, 1040)] := execOk_run [some 1600] (by decide +kernel)
  obtain ⟨t, ht⟩ := hr.trace
  exact ⟨_, _, t, ht, ((quickpool_blocks_releasable cfgB_ok (Nat.le_refl 2) rfl cfgB_heur sysG_reach
    (p := 1600) (n := 16) (by decide) ht).2 (by decide)).1⟩

/-- `quickpool_consolidated_serves` on the state after that. -/
example {r : Option Nat} {s2 : State} {O2 : Held} {t : List Ev}
    (ha : RunT (allocate cfgB
      { blocks := [[⟨7, 1600, 1024, 1024, true⟩]], sizeMap := [(1024, 7)], ptrMap := [], baseMap := [(1600, 1600, 1040)],
        nextId := 9, totalBlocks := 1, releasableBlocks := 1, alignedBytes := 0, alignedHwm := 1040, actualBytes := 1024,
        releasableBytes := 1024, actualHwm := 1040 } 32) [(1600, 1040)] t (r, s2) O2) : t = [] := by
  have hr : Run (deallocate cfgB 5 sysG.pool 1600) sysG.held
      { blocks := [[⟨7, 1600, 1024, 1024, true⟩]], sizeMap := [(1024, 7)], ptrMap := [], baseMap := [(1600, 1600, 1040)],
        nextId := 9, totalBlocks := 1, releasableBlocks := 1, alignedBytes := 0, alignedHwm := 1040, actualBytes := 1024,
        releasableBytes := 1024, actualHwm := 1040 } [(1600, 1040)] := execOk_run [some 1600] (by decide +kernel)
  obtain ⟨t0, ht⟩ := hr.trace
  have h1 := (quickpool_blocks_releasable cfgB_ok (Nat.le_refl 2) rfl cfgB_heur sysG_reach
    (p := 1600) (n := 16) (by decide) ht).2 (by decide)
  have h2 := Reach.step sysG_reach (.dealloc (p := 1600) (n := 16) (by decide) hr)
  exact (quickpool_consolidated_serves cfgB_ok cfgB_heur h2 (O := sysG.held) (by decide) h1.1 ⟨by decide, by decide⟩
    (by decide) ha).1

/-- `percent_releasable_hwm(10)`, for which an explicit `coalesce` can have work to do. -/
def cfgT : Cfg :=
  { align := 16, first := 64, next := 128,
    heur := fun s => if getReleasableSize s ≥ getActualSize s / 10 then getAlignedHighwaterMark s else 0 }

theorem cfgT_ok : CfgOk cfgT := ⟨by decide, by decide, by decide⟩
theorem cfgT_heur : HeurOk cfgT := builtIn_heurOk (.percentHwm (fun n => n / 10) 10 _ rfl) (by decide)

def sysT : Sys :=
  { pool :=
      { blocks := [[⟨0, 1600, 64, 64, true⟩], [⟨2, 3200, 128, 128, false⟩],
          [⟨4, 4800, 80, 128, false⟩, ⟨5, 4880, 48, 128, true⟩]],
        sizeMap := [(48, 5), (64, 0)], ptrMap := [(4800, 4), (3200, 2)],
        baseMap := [(4800, 4800, 144), (3200, 3200, 144), (1600, 1600, 80)], nextId := 6, totalBlocks := 3,
        releasableBlocks := 1, alignedBytes := 208, alignedHwm := 208, actualBytes := 320, releasableBytes := 64,
        actualHwm := 320 }
    held := [(4800, 144), (3200, 144), (1600, 80)]
    live := [(4800, 80), (3200, 128)] }

theorem sysT_reach : Reach cfgT sysT :=
  play_reach (ops := [.alloc 64 [some 1600], .alloc 128 [some 3200], .dealloc 1600 64 5 [], .alloc 80 [some 4800]])
    (by decide +kernel)

/-- The hypotheses of `quickpool_coalesce_consolidates` on `sysT`. -/
example : cfgT.heur sysT.pool ≠ 0 ∧ MaxGap 16 sysT.held sysT.live 1600 64 ∧ MaxGap 16 sysT.held sysT.live 4880 48 ∧
    ∃ s', Run (coalesce cfgT 5 sysT.pool) sysT.held s' [(4800, 144), (3200, 144)] := by
  have hi := reach_inv cfgT_ok cfgT_heur sysT_reach
  refine ⟨by decide, (Inv.maxGap_iff hi (by decide)).2 ⟨⟨0, 1600, 64, 64, true⟩, by decide, rfl, rfl⟩,
    (Inv.maxGap_iff hi (by decide)).2 ⟨⟨5, 4880, 48, 128, true⟩, by decide, rfl, rfl⟩,
    { blocks := [[⟨2, 3200, 128, 128, false⟩], [⟨4, 4800, 80, 128, false⟩, ⟨5, 4880, 48, 128, true⟩]],
      sizeMap := [(48, 5)], ptrMap := [(4800, 4), (3200, 2)],
      baseMap := [(4800, 4800, 144), (3200, 3200, 144)], nextId := 6, totalBlocks := 2,
      releasableBlocks := 0, alignedBytes := 208, alignedHwm := 208, actualBytes := 256, releasableBytes := 0,
      actualHwm := 320 }, execOk_run [] (by decide +kernel)⟩

/-- Two blocks, the second one free. -/
def poolD : State :=
  { blocks := [[⟨0, 1600, 16, 64, false⟩, ⟨1, 1616, 48, 64, true⟩], [⟨2, 3200, 64, 64, true⟩]],
    sizeMap := [(48, 1), (64, 2)], ptrMap := [(1600, 0)], baseMap := [(3200, 3200, 80), (1600, 1600, 80)],
    nextId := 4, totalBlocks := 2, releasableBlocks := 1, alignedBytes := 16, alignedHwm := 80,
    actualBytes := 128, releasableBytes := 64, actualHwm := 128 }

/-- `quickpool_default_heuristic`: the last `deallocate` merges two blocks into one of 80 bytes. -/
example : ∃ s' O' t, RunT (deallocate cfgX 5 poolD 1600) [(3200, 80), (1600, 80)] t s' O' ∧ ∃ d, O' = [(d, 96)] := by
  have hr : Run (deallocate cfgX 5 poolD 1600) [(3200, 80), (1600, 80)]
      { blocks := [[⟨4, 4800, 80, 80, true⟩]], sizeMap := [(80, 4)], ptrMap := [], baseMap := [(4800, 4800, 96)],
        nextId := 6, totalBlocks := 1, releasableBlocks := 1, alignedBytes := 0, alignedHwm := 80,
        actualBytes := 80, releasableBytes := 80, actualHwm := 128 } [(4800, 96)] :=
    execOk_run [some 4800] (by decide +kernel)
  obtain ⟨t, ht⟩ := hr.trace
  have hl : ReachLive cfgX ⟨poolD, [(3200, 80), (1600, 80)], [(1600, 16)]⟩ 80 :=
    playLive_reach [.alloc 16 [some 1600], .alloc 64 [some 3200], .dealloc 3200 64 5 []] (by decide +kernel)
  exact ⟨_, _, t, ht, (quickpool_default_heuristic cfgX_ok (thr := fun n => n) rfl cfgX_heur hl
    (List.mem_singleton.2 rfl) ht).2 (by decide) (by decide)⟩

end Umpire.QuickPool
