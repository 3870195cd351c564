import Verif.FixedPool.Spec
import Verif.QuickPool.Fit
/-!
# Properties of `FixedPool` (C11, C12, C50)

`Reach cfg S m` ranges over every history and every behaviour of the parent.
-/
set_option autoImplicit false
set_option linter.unusedSimpArgs false
namespace Umpire.FixedPool
open Umpire.Prog
open Umpire.QuickPool (drop_perm frees_perm perm_of_release)

theorem create_wp {cfg : Cfg} :
    (create cfg).wp ⟨fun b => b = .abort, fun _ _ => True⟩ [] fun s O => Inv cfg s O [] ∧ s.hwm = 0 := by
  refine ⟨fun d hd => ⟨?_, rfl⟩, rfl⟩
  have h0 : Inv cfg { pools := [], current := 0, actual := 0, hwm := 0 } [] [] :=
    ⟨by simp, by simp, List.Pairwise.nil, by simp, by simp, rfl, Nat.le_refl _⟩
  exact h0.add hd

theorem step_inv {cfg : Cfg} (hc : CfgOk cfg) {S T : Sys} (h : Inv cfg S.pool S.held S.live) (hs : Step cfg S T) :
    Inv cfg T.pool T.held T.live ∧ T.pool.hwm = max S.pool.hwm T.pool.current := by
  have hh := h.hwm
  cases hs with
  | allocOk hr => exact wp_run (allocate_wp h hc _) hr
  | allocErr hr =>
    obtain ⟨h1, h2⟩ := wp_run (allocate_wp h hc _) hr
    simp only at h1 h2
    subst h1 h2
    exact ⟨h, by simp only; omega⟩
  | @dealloc p _ _ _ _ hl hr =>
    obtain ⟨s', he, h1, h2⟩ := deallocate_wp h hc hl
    simp only at he h1
    rw [he] at hr
    cases hr
    refine ⟨h1, ?_⟩
    have := h1.cur
    have := h.cur
    have h3 : (drop p S.live).length ≤ S.live.length := List.length_filter_le _ _
    have h4 := Nat.mul_le_mul_left cfg.obj h3
    simp only
    omega
  | release hr =>
    obtain ⟨h1, _, h2, _⟩ := wp_run (release_wp h hc) hr
    refine ⟨h1, ?_⟩
    have := h1.cur
    have := h.cur
    simp only
    omega

theorem reach_inv {cfg : Cfg} (hc : CfgOk cfg) {S : Sys} {m : Nat} (h : Reach cfg S m) :
    Inv cfg S.pool S.held S.live ∧ S.pool.hwm = cfg.obj * m := by
  induction h with
  | init hr =>
    have := wp_run create_wp hr
    exact ⟨this.1, by simpa using this.2⟩
  | step hS hs ih =>
    obtain ⟨h1, h2⟩ := step_inv hc ih.1 hs
    refine ⟨h1, ?_⟩
    rw [h2, ih.2, h1.cur, Nat.mul_max_mul_left]

/-! ## Non-vacuity: two objects per pool, three live at one time -/

def cfgX : Cfg := { obj := 24, per := 2 }

theorem cfgX_ok : CfgOk cfgX := ⟨by decide, by decide, by decide⟩

/-- Three objects were allocated, from two pools, and the first was deallocated. -/
def sysX : Sys :=
  { pool := { pools := [⟨1600, [2 ^ 32 - 3], 1⟩, ⟨3200, [2 ^ 32 - 2], 1⟩], current := 48, actual := 98, hwm := 72 }
    held := [(3200, 48), (1600, 48)]
    live := [(3200, 24), (1624, 24)] }

theorem sysX_reach : Reach cfgX sysX 3 :=
  play_reach (d := 1600) (ops := [.alloc [], .alloc [], .alloc [some 3200], .dealloc 1600 24]) (by decide +kernel)

/-! ## C11 -/

/-- Live objects are pairwise disjoint, and each lies in a block held from the
parent, a whole number of object sizes from its beginning.  Partial: only for
`obj * per < 2^64` and `0 < per` (`CfgOk`); see the two counterexamples below. -/
theorem fixedpool_live_disjoint_partial {cfg : Cfg} (hc : CfgOk cfg) {S : Sys} {m : Nat} (h : Reach cfg S m) :
    (S.live.Pairwise fun x y => Disj x.1 x.2 y.1 y.2) ∧
    ∀ l ∈ S.live, l.2 = cfg.obj ∧ ∃ o ∈ S.held, Within l.1 l.2 o.1 o.2 ∧ cfg.obj ∣ l.1 - o.1 := by
  have hi := (reach_inv hc h).1
  refine ⟨hi.live_nodup hc, fun l hl => ?_⟩
  obtain ⟨a, p, b, i, hs, h1, h2, rfl⟩ := hi.slot hl
  refine ⟨rfl, rng cfg p, hi.held.mem_iff.2 (List.mem_map.2 ⟨p, by rw [hs]; simp, rfl⟩), slot_in hc h1, i, ?_⟩
  simp [rng]

example : (sysX.live.Pairwise fun x y => Disj x.1 x.2 y.1 y.2) ∧
    ∀ l ∈ sysX.live, l.2 = 24 ∧ ∃ o ∈ sysX.held, Within l.1 l.2 o.1 o.2 ∧ 24 ∣ l.1 - o.1 :=
  fixedpool_live_disjoint_partial cfgX_ok sysX_reach

theorem sum_used {cfg : Cfg} {ps : List Pool} (h : ∀ p ∈ ps, PoolOk cfg p) :
    (ps.flatMap (objs cfg)).length + (ps.map (·.numAvail)).sum = cfg.per * ps.length := by
  induction ps with
  | nil => rfl
  | cons p ps ih =>
    have h1 := (h p (by simp)).count
    have h2 := ih fun q hq => h q (by simp [hq])
    simp only [List.flatMap_cons, List.length_append, List.map_cons, List.sum_cons, List.length_cons, Nat.mul_succ, objs,
      List.length_map] at h2 ⊢
    omega

/-- While fewer objects are live than fit the blocks held, `allocate` succeeds
without contacting the parent.  Otherwise it asks for exactly one more block,
serves the request from the new block when it gets one, and reports failure
without any change when it does not. -/
theorem fixedpool_exhaustion {cfg : Cfg} (hc : CfgOk cfg) {S : Sys} {m : Nat} (h : Reach cfg S m) (fuel : Nat)
    {r : Option Nat} {s' : State} {O' : Held} {t : List Ev}
    (hr : RunT (allocate cfg (fuel + 2) S.pool) S.held t (r, s') O') :
    (S.live.length < cfg.per * S.held.length → t = [] ∧ O' = S.held ∧ ∃ p, r = some p) ∧
    (cfg.per * S.held.length ≤ S.live.length →
      (∃ d p, t = [.got d (cfg.obj * cfg.per)] ∧ O' = (d, cfg.obj * cfg.per) :: S.held ∧ r = some p ∧
        Within p cfg.obj d (cfg.obj * cfg.per)) ∨
      (t = [.refused (cfg.obj * cfg.per)] ∧ O' = S.held ∧ s' = S.pool ∧ r = none)) := by
  have hi := (reach_inv hc h).1
  have hsum := sum_used hi.pools
  have hlen := hi.live.length_eq
  have hheld := hi.held.length_eq
  simp only [List.length_map] at hheld
  unfold allocate at hr
  split at hr
  · rename_i ptr ps hl
    cases hr
    obtain ⟨a, p, p', b, h1, -, h3⟩ := allocLoop_some hl
    have hp : p ∈ S.pool.pools := by
      rw [← List.mem_reverse, h1]; simp
    have hn : p.numAvail ≠ 0 := by
      intro hz
      unfold allocInPool at h3
      rw [if_pos hz] at h3
      cases h3
    have hle : p.numAvail ≤ (S.pool.pools.map (·.numAvail)).sum :=
      le_sum_of_mem (List.mem_map.2 ⟨p, hp, rfl⟩)
    rw [hheld]
    exact ⟨fun _ => ⟨rfl, rfl, ptr, rfl⟩, fun hle => by omega⟩
  · rename_i hl
    have hz : ∀ p ∈ S.pool.pools, p.numAvail = 0 := fun p hp =>
      allocInPool_none (hi.pools p hp) (allocLoop_none hl p (List.mem_reverse.2 hp))
    have hz : (S.pool.pools.map (·.numAvail)).sum = 0 := by
      rw [List.sum_eq_zero_iff_forall_eq_nat]
      intro x hx
      obtain ⟨p, hp, rfl⟩ := List.mem_map.1 hx
      exact hz p hp
    rw [hheld]
    refine ⟨fun hlt => by omega, fun _ => ?_⟩
    rw [hc.data] at hr
    cases hr with
    | allocFail hr => cases hr; right; exact ⟨rfl, rfl, rfl, rfl⟩
    | @allocOk _ _ _ d t _ _ hd hr =>
      left
      simp only at hr
      have hrev : (addPool cfg S.pool d).pools.reverse = mkPool cfg d :: S.pool.pools.reverse := by simp [addPool]
      unfold allocate at hr
      rw [hrev] at hr
      have hne := allocInPool_none (mkPool_ok (cfg := cfg) (d := d))
      unfold allocLoop at hr
      split at hr
      · rename_i ptr ps hal
        split at hal
        · rename_i ptr' p' hap
          cases hr
          injection hal with hal
          injection hal with ha1 ha2
          subst ha1
          refine ⟨d, ptr', rfl, rfl, rfl, ?_⟩
          obtain ⟨-, -, hperm⟩ := allocInPool_some (mkPool_ok) hap
          unfold allocInPool at hap
          rw [if_neg (by have := hc.per; simp only [mkPool]; omega)] at hap
          obtain ⟨⟨k, ws⟩, hsc, he⟩ := Option.map_eq_some_iff.1 hap
          injection he with he1 _
          obtain ⟨j, hj1, hj2, -⟩ := scan_some hsc
          rw [← he1, ← hc.data]
          exact slot_in (p := mkPool cfg d) hc hj2
        · rename_i hap
          have := hne hap
          have hp := hc.per
          simp only [mkPool] at this
          omega
      · rename_i hal
        split at hal
        · cases hal
        · rename_i hap
          have := hne hap
          have hp := hc.per
          simp only [mkPool] at this
          omega

/-- Deallocating a live object succeeds without contacting the parent and makes
exactly its slot available: the state reached is one in which just this object is
no longer live (so by `fixedpool_exhaustion` one more allocation succeeds), and the
blocks held are the same. -/
theorem fixedpool_deallocate {cfg : Cfg} (hc : CfgOk cfg) {S : Sys} {m : Nat} (h : Reach cfg S m)
    {p n : Nat} (hl : (p, n) ∈ S.live) {b : Bool} {s' : State} {O' : Held} {t : List Ev}
    (hr : RunT (deallocate cfg S.pool p) S.held t (b, s') O') :
    t = [] ∧ b = true ∧ O' = S.held ∧ Reach cfg ⟨s', O', drop p S.live⟩ m ∧
      (drop p S.live).length + 1 = S.live.length ∧
      ∀ fuel r s'' O'' t', RunT (allocate cfg (fuel + 2) s') O' t' (r, s'') O'' → t' = [] ∧ O'' = S.held ∧ r ≠ none := by
  have hi := (reach_inv hc h).1
  obtain ⟨s1, he, h1, h2⟩ := deallocate_wp hi hc hl
  simp only at he h1
  have hstep := Step.dealloc hl hr.run
  have hreach := Reach.step h hstep
  have hm : S.live.length ≤ m := by
    clear hr hstep hreach hl he h1 hi
    cases h with
    | init => exact Nat.zero_le _
    | step => exact Nat.le_max_right _ _
  have hle : (drop p S.live).length ≤ S.live.length := List.length_filter_le _ _
  simp only at hreach
  rw [Nat.max_eq_left (by omega)] at hreach
  rw [he] at hr
  cases hr
  have hlen : (drop p S.live).length + 1 = S.live.length := by
    have hn : (S.live.map (·.1)).Nodup := by
      rw [List.Nodup, List.pairwise_map]
      refine List.Pairwise.imp_of_mem ?_ (hi.live_nodup hc)
      intro x y hx hy hd
      obtain ⟨_, _, _, _, _, _, _, rfl⟩ := hi.slot hx
      obtain ⟨_, _, _, _, _, _, _, rfl⟩ := hi.slot hy
      have := hc.obj
      unfold Disj at hd
      simp only at hd ⊢
      omega
    have := (drop_perm hn hl).length_eq
    simpa using this
  refine ⟨rfl, rfl, rfl, hreach, hlen, ?_⟩
  intro fuel r s'' O'' t' hr'
  have hx := (fixedpool_exhaustion hc hreach fuel hr').1 ?_
  · obtain ⟨h4, h5, q, rfl⟩ := hx
    exact ⟨h4, h5, by simp⟩
  · simp only
    have e3 := sum_used hi.pools
    have e4 := hi.live.length_eq
    have e5 := hi.held.length_eq
    simp only [List.length_map] at e5
    rw [e5]
    omega

example : ∃ s', RunT (deallocate cfgX sysX.pool 3200) sysX.held [] (true, s') sysX.held := by
  refine ⟨?s, ?h⟩
  case s =>
    exact { pools := [⟨1600, [2 ^ 32 - 3], 1⟩, ⟨3200, [2 ^ 32 - 1], 2⟩], current := 24, actual := 98, hwm := 72 }
  case h =>
    obtain ⟨t, ht⟩ := (execOk_run (p := deallocate cfgX sysX.pool 3200) [] (O := sysX.held)
      (a := (true, { pools := [⟨1600, [2 ^ 32 - 3], 1⟩, ⟨3200, [2 ^ 32 - 1], 2⟩], current := 24, actual := 98, hwm := 72 }))
      (O' := sysX.held) (by decide +kernel)).trace
    have := (fixedpool_deallocate cfgX_ok sysX_reach (n := 24) (by decide) ht).1
    subst this
    exact ht

/-- No operation performs undefined behaviour, ends the program or runs forever,
and memory is handed back only while no live object overlaps it. -/
theorem fixedpool_safe {cfg : Cfg} (hc : CfgOk cfg) {S : Sys} {m : Nat} (h : Reach cfg S m) :
    (∀ fuel b, ¬ Goes (allocate cfg (fuel + 2) S.pool) S.held b) ∧
    (∀ p n, (p, n) ∈ S.live → ∀ b, ¬ Goes (deallocate cfg S.pool p) S.held b) ∧
    (∀ b, ¬ Goes (release cfg S.pool) S.held b) ∧
    (∀ b, ¬ Goes (destroy cfg S.pool) S.held b) ∧
    (∀ q k, Frees (release cfg S.pool) S.held q k → ∀ l ∈ S.live, Disj l.1 l.2 q k) := by
  have hi := (reach_inv hc h).1
  refine ⟨fun fuel b hg => wp_safe (allocate_wp hi hc fuel) hg, fun p n hl b hg => ?_,
    fun b hg => wp_safe (release_wp hi hc) hg, fun b hg => wp_safe (destroy_wp hi hc) hg,
    fun q k hf => (wp_frees (release_wp hi hc) hf).2⟩
  obtain ⟨s', he, _⟩ := deallocate_wp hi hc hl
  simp only at he
  rw [he] at hg
  cases hg

/-- A pointer outside every block held is rejected without any change;
`pointerIsFromPool` tells exactly whether a pointer is in a block held. -/
theorem fixedpool_foreign {cfg : Cfg} (hc : CfgOk cfg) {S : Sys} {m : Nat} (h : Reach cfg S m) (p : Nat) :
    (pointerIsFromPool cfg S.pool p = true ↔ ∃ o ∈ S.held, o.1 ≤ p ∧ p < o.1 + o.2) ∧
    ((∀ o ∈ S.held, ¬ (o.1 ≤ p ∧ p < o.1 + o.2)) → deallocate cfg S.pool p = .ret (false, S.pool)) := by
  have hi := (reach_inv hc h).1
  have hmem : ∀ q ∈ S.pool.pools, rng cfg q ∈ S.held := fun q hq => hi.held.mem_iff.2 (List.mem_map.2 ⟨q, hq, rfl⟩)
  constructor
  · unfold pointerIsFromPool
    rw [List.any_eq_true]
    constructor
    · rintro ⟨q, hq, hin⟩
      refine ⟨rng cfg q, hmem q hq, ?_⟩
      unfold inPool at hin
      simp only [decide_eq_true_eq] at hin
      simp only [rng]
      omega
    · rintro ⟨o, ho, h1⟩
      obtain ⟨q, hq, rfl⟩ := List.mem_map.1 (hi.held.mem_iff.1 ho)
      refine ⟨q, hq, ?_⟩
      unfold inPool
      simp only [decide_eq_true_eq]
      simp only [rng] at h1
      omega
  · intro hno
    unfold deallocate
    rw [deallocLoop_none.2]
    intro q hq
    have := hno _ (hmem q hq)
    unfold inPool
    simp only [decide_eq_false_iff_not]
    simp only [rng] at this
    omega

example : deallocate cfgX sysX.pool 1648 = .ret (false, sysX.pool) :=
  (fixedpool_foreign cfgX_ok sysX_reach 1648).2 (by decide)

theorem freeFull_only_frees {cfg : Cfg} {ps : List Pool} {O O' : Held} {t : List Ev} {u : Unit}
    (h : RunT (freeFull cfg ps) O t u O') : ∀ e ∈ t, ∃ q m, e = .freed q m := by
  induction ps generalizing O t with
  | nil => cases h; simp
  | cons p ps ih =>
    unfold freeFull at h
    split at h
    · cases h with
      | dealloc h =>
        intro e he
        rcases List.mem_cons.1 he with rfl | he
        · exact ⟨_, _, rfl⟩
        · exact ih h e he
    · exact ih h

/-- `release` hands back exactly the blocks without live objects, each once. -/
theorem fixedpool_release_exact {cfg : Cfg} (hc : CfgOk cfg) {S : Sys} {m : Nat} (h : Reach cfg S m)
    {s' : State} {O' : Held} {t : List Ev} (hr : RunT (release cfg S.pool) S.held t s' O') :
    (∀ o, o ∈ O' ↔ o ∈ S.held ∧ ∃ l ∈ S.live, ¬ Disj l.1 l.2 o.1 o.2) ∧
    t.Perm ((freeBlocks S.held S.live).map fun o => Ev.freed o.1 o.2) := by
  have hi := (reach_inv hc h).1
  obtain ⟨h1, -, -, h2, h3, h4⟩ := wp_run (release_wp hi hc) hr.run
  have hO : ∀ o, o ∈ O' ↔ o ∈ S.held ∧ ∃ l ∈ S.live, ¬ Disj l.1 l.2 o.1 o.2 := by
    intro o
    constructor
    · intro ho
      refine ⟨h3.subset ho, ?_⟩
      obtain ⟨p, hp, rfl⟩ := List.mem_map.1 (h1.held.mem_iff.1 ho)
      obtain ⟨i, hi'⟩ := List.exists_mem_of_ne_nil _ (h2 p hp)
      refine ⟨(p.data + cfg.obj * i, cfg.obj),
        h1.live.mem_iff.2 (List.mem_flatMap.2 ⟨p, hp, List.mem_map.2 ⟨i, hi', rfl⟩⟩), ?_⟩
      have hw := slot_in (p := p) hc (List.mem_range.1 (List.mem_filter.1 hi').1)
      have := hc.obj
      unfold Within at hw
      unfold Disj
      simp only [rng]
      omega
    · rintro ⟨ho, l, hl, hd⟩
      rcases h4 o ho with h5 | h5
      · exact h5
      · exact absurd (h5 l hl) hd
  refine ⟨hO, ?_⟩
  have hf : ∀ e ∈ t, ∃ q m, e = .freed q m := by
    unfold release at hr
    obtain ⟨t1, t2, a, O1, rfl, hr1, hr2⟩ := RunT.of_bind hr
    cases hr2
    rw [List.append_nil]
    exact freeFull_only_frees hr1
  obtain ⟨fr, rfl, hp⟩ := frees_perm hr (release_wp hi hc) (hi.held_keys hc) hf
  refine List.Perm.map _ (perm_of_release ?_ hp ?_)
  · exact List.Pairwise.of_map (·.1) (fun x y hxy hne => hxy (congrArg _ hne)) (hi.held_keys hc)
  · intro o
    rw [hO o]
    simp

/-- The destructor hands back everything if nothing is live, and nothing if any
object still is. -/
theorem fixedpool_destroy {cfg : Cfg} (hc : CfgOk cfg) {S : Sys} {m : Nat} (h : Reach cfg S m)
    {u : Unit} {O' : Held} (hr : Run (destroy cfg S.pool) S.held u O') :
    (S.live = [] → O' = []) ∧ (S.live ≠ [] → O' = S.held) := by
  have := wp_run (destroy_wp (reach_inv hc h).1 hc) hr
  constructor
  · intro hL; rwa [if_pos hL] at this
  · intro hL; rwa [if_neg hL] at this

/-- When object size times objects per pool exceeds 64 bits, the block asked for
is too small and the object handed out reaches far beyond it. -/
theorem fixedpool_overflow_counterexample :
    ∃ (cfg : Cfg) (s s' : State) (O : Held) (p : Nat), 0 < cfg.per ∧ Run (create cfg) [] s O ∧
      Run (allocate cfg 2 s) O (some p, s') O ∧ ¬ ∃ o ∈ O, Within p cfg.obj o.1 o.2 := by
  refine ⟨⟨2 ^ 63 + 16, 2⟩, ?s, ?s', [(1600, 32)], 1600, by decide, ?h1, ?h2, by decide +kernel⟩
  case s => exact { pools := [⟨1600, [2 ^ 32 - 1], 2⟩], current := 0, actual := 33, hwm := 0 }
  case s' => exact { pools := [⟨1600, [2 ^ 32 - 2], 1⟩], current := 2 ^ 63 + 16, actual := 33, hwm := 2 ^ 63 + 16 }
  case h1 => exact execOk_run [some 1600] (by decide +kernel)
  case h2 => exact execOk_run [] (by decide +kernel)

/-- With zero objects per pool, `allocate` can recurse without end (for every
recursion depth there is a run that exceeds it). -/
theorem fixedpool_zero_diverges_counterexample (obj fuel : Nat) :
    ∃ (s : State) (O : Held), Run (create ⟨obj, 0⟩) [] s O ∧ Goes (allocate ⟨obj, 0⟩ fuel s) O .diverge := by
  have hdata : Cfg.data ⟨obj, 0⟩ = 0 := rfl
  have hfresh : ∀ O : Held, (∀ o ∈ O, o = (16, 0)) → Fresh 16 (Cfg.data ⟨obj, 0⟩) O := by
    intro O hO
    refine ⟨by decide, by rw [hdata]; decide, ?_⟩
    intro o ho
    rw [hO o ho, hdata]
    exact Or.inl (by decide)
  have hrun : ∀ (fuel : Nat) (s : State) (O : Held), (∀ p ∈ s.pools, p.numAvail = 0) → (∀ o ∈ O, o = (16, 0)) →
      Goes (allocate ⟨obj, 0⟩ fuel s) O .diverge := by
    intro fuel
    induction fuel with
    | zero => intro s O _ _; exact .fail
    | succ fuel ih =>
      intro s O hs hO
      have hl : allocLoop ⟨obj, 0⟩ s.pools.reverse = none := by
        have : ∀ ps : List Pool, (∀ p ∈ ps, p.numAvail = 0) → allocLoop ⟨obj, 0⟩ ps = none := by
          intro ps
          induction ps with
          | nil => intro _; rfl
          | cons p ps ihp =>
            intro hps
            unfold allocLoop allocInPool
            rw [if_pos (hps p (by simp))]
            simp only
            rw [ihp fun q hq => hps q (by simp [hq])]
            rfl
        exact this _ fun p hp => hs p (List.mem_reverse.1 hp)
      unfold allocate
      rw [hl]
      refine .allocOk (hfresh O hO) (ih _ _ ?_ ?_)
      · intro p hp
        simp only [addPool, List.mem_append, List.mem_singleton] at hp
        rcases hp with hp | rfl
        · exact hs p hp
        · rfl
      · intro o ho
        rcases List.mem_cons.1 ho with rfl | ho
        · rw [hdata]
        · exact hO o ho
  refine ⟨_, _, .allocOk (hfresh [] (by simp)) .ret, hrun fuel _ _ ?_ ?_⟩
  · intro p hp
    simp only [addPool, List.nil_append, List.mem_singleton] at hp
    subst hp
    rfl
  · intro o ho
    rw [List.mem_singleton.1 ho, hdata]

/-- The constructor is `noexcept`: when the parent refuses the first block the
program is terminated. -/
theorem fixedpool_create_aborts (cfg : Cfg) : Goes (create cfg) [] .abort := .allocFail .fail

/-! ## C12 -/

/-- `getCurrentSize` is the object size times the number of live objects,
`numPools` the number of blocks held, and `getHighWatermark` the object size times
the largest number of objects that were live at one time. -/
theorem fixedpool_current_size {cfg : Cfg} (hc : CfgOk cfg) {S : Sys} {m : Nat} (h : Reach cfg S m) :
    getCurrentSize S.pool = cfg.obj * S.live.length ∧ numPools S.pool = S.held.length ∧
    getHighWatermark S.pool = cfg.obj * m := by
  obtain ⟨h1, h2⟩ := reach_inv hc h
  refine ⟨h1.cur, ?_, h2⟩
  have := h1.held.length_eq
  rw [List.length_map] at this
  exact this.symm

example : getCurrentSize sysX.pool = 24 * 2 ∧ getHighWatermark sysX.pool = 24 * 3 :=
  ⟨(fixedpool_current_size cfgX_ok sysX_reach).1, (fixedpool_current_size cfgX_ok sysX_reach).2.2⟩

/-- Histories without `release`. -/
inductive Grows (cfg : Cfg) : Sys → Prop where
  | init {s O} : Run (create cfg) [] s O → Grows cfg ⟨s, O, []⟩
  | step {S T : Sys} : Grows cfg S → Step cfg S T → S.held.length ≤ T.held.length → Grows cfg T

theorem allocate_actual {cfg : Cfg} {fuel : Nat} {s : State} {O : Held} {r : Option Nat × State} {O' : Held}
    (hr : Run (allocate cfg fuel s) O r O') :
    r.2.actual + (cfg.words + cfg.data) * O.length = s.actual + (cfg.words + cfg.data) * O'.length := by
  induction fuel generalizing s O with
  | zero => cases hr
  | succ fuel ih =>
    unfold allocate at hr
    split at hr
    · cases hr; rfl
    · cases hr with
      | allocOk _ hr =>
        have := ih hr
        simp only [addPool, List.length_cons, Nat.mul_succ] at this
        omega
      | allocFail hr => cases hr; rfl

/-- As long as no block has been given back, `getActualSize` is the bytes held
from the parent plus one for every 32-bit word of the bitmaps.  Partial: the claim
wants exactly the bytes held, for histories with `release`; see
`fixedpool_actual_size_counterexample`. -/
theorem fixedpool_actual_size_partial {cfg : Cfg} (hc : CfgOk cfg) {S : Sys} (h : Grows cfg S) :
    getActualSize S.pool = (cfg.obj * cfg.per + (cfg.per / 32 + 1)) * S.held.length := by
  rw [← hc.data]
  have hmain : (∃ m, Reach cfg S m) ∧ S.pool.actual = (cfg.words + cfg.data) * S.held.length := by
    induction h with
    | init hr =>
      refine ⟨⟨0, .init hr⟩, ?_⟩
      cases hr with
      | allocOk _ hr => cases hr; simp [addPool]
      | allocFail hr => cases hr
    | @step S T hS hs hle ih =>
      obtain ⟨⟨m, hm⟩, ih⟩ := ih
      refine ⟨⟨_, .step hm hs⟩, ?_⟩
      have hi := (reach_inv hc hm).1
      cases hs with
      | allocOk hr => have := allocate_actual hr; simp only at this ⊢; omega
      | allocErr hr => have := allocate_actual hr; simp only at this ⊢; omega
      | dealloc hl hr =>
        unfold deallocate at hr
        split at hr
        · cases hr; exact ih
        · cases hr
        · cases hr; exact ih
      | release hr =>
        obtain ⟨-, h1, -, -, h2, -⟩ := wp_run (release_wp hi hc) hr
        have := h2.eq_of_length_le hle
        simp only at h1 ⊢
        rw [h1, this]
        exact ih
  unfold getActualSize
  rw [hmain.2, Nat.add_comm cfg.data]
  rfl

/-- `getActualSize` is not reduced by `release`: a reachable pool that holds
nothing at all reports 49 bytes. -/
theorem fixedpool_actual_size_counterexample :
    ∃ (cfg : Cfg) (S : Sys), CfgOk cfg ∧ Reach cfg S 1 ∧ S.held = [] ∧ S.live = [] ∧ getActualSize S.pool = 49 := by
  refine ⟨cfgX, ⟨?s, [], []⟩, cfgX_ok, ?h, rfl, rfl, ?e⟩
  case s => exact { pools := [], current := 0, actual := 49, hwm := 24 }
  case h => exact play_reach (d := 1600) (ops := [.alloc [], .dealloc 1600 24, .release]) (by decide +kernel)
  case e => rfl

end Umpire.FixedPool

namespace Umpire

/-! ## C50 -/

/-- `find_first_set` returns one plus the index of the lowest set bit, or zero
when no bit is set. -/
theorem find_first_set_spec (w : Nat) (hw : w < 2 ^ 32) :
    (ffs w = 0 ↔ w = 0) ∧
    ∀ b, ffs w = b + 1 ↔ b < 32 ∧ w.testBit b = true ∧ ∀ j < b, w.testBit j = false := by
  have hbig : ∀ j, 32 ≤ j → w.testBit j = false := fun j hj =>
    Nat.testBit_lt_two_pow (Nat.lt_of_lt_of_le hw (Nat.pow_le_pow_right (by decide) hj))
  have hz : ffs w = 0 → w = 0 := by
    intro h
    apply Nat.eq_of_testBit_eq
    intro j
    rw [Nat.zero_testBit]
    by_cases hj : j < 32
    · exact ffs_zero h j hj
    · exact hbig j (by omega)
  refine ⟨⟨hz, fun h => by subst h; decide⟩, fun b => ⟨ffs_succ, ?_⟩⟩
  rintro ⟨hb, h1, h2⟩
  cases hf : ffs w with
  | zero =>
    have := ffs_zero hf b hb
    rw [h1] at this; cases this
  | succ c =>
    obtain ⟨-, h4, h5⟩ := ffs_succ hf
    rcases Nat.lt_trichotomy b c with h | h | h
    · rw [h5 b h] at h1; cases h1
    · rw [h]
    · rw [h2 c h] at h4; cases h4

example : ffs 0x50 = 5 ∧ ffs (2 ^ 31) = 32 := by decide

/-- The Windows code path agrees with the other one, for every `_BitScanForward`
that does what it is documented to do. -/
theorem find_first_set_windows (bsf : Nat → Option Nat)
    (hb : ∀ w, w < 2 ^ 32 → (bsf w = none ↔ w = 0) ∧
      ∀ i, bsf w = some i → w.testBit i = true ∧ ∀ j < i, w.testBit j = false)
    (w : Nat) (hw : w < 2 ^ 32) : ffsMsvc bsf w = ffs w := by
  obtain ⟨h1, h2⟩ := find_first_set_spec w hw
  obtain ⟨h3, h4⟩ := hb w hw
  unfold ffsMsvc
  split
  · rename_i hn
    exact (h1.2 (h3.1 hn)).symm
  · rename_i i hn
    obtain ⟨h5, h6⟩ := h4 i hn
    refine ((h2 i).2 ⟨?_, h5, h6⟩).symm
    apply Classical.byContradiction
    intro hge
    rw [Nat.testBit_lt_two_pow (Nat.lt_of_lt_of_le hw (Nat.pow_le_pow_right (by decide) (by omega)))] at h5
    cases h5

example : ∃ bsf : Nat → Option Nat, ∀ w, w < 2 ^ 32 → (bsf w = none ↔ w = 0) ∧
      ∀ i, bsf w = some i → w.testBit i = true ∧ ∀ j < i, w.testBit j = false := by
  refine ⟨fun w => if ffs w = 0 then none else some (ffs w - 1), fun w hw => ?_⟩
  obtain ⟨h1, h2⟩ := find_first_set_spec w hw
  refine ⟨by simp [h1], fun i hi => ?_⟩
  simp only at hi
  split at hi
  · cases hi
  · rename_i hne
    injection hi with hi
    exact ((h2 i).1 (by omega)).2

end Umpire
