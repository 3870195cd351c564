import Verif.Deny.Props
import Verif.FixedPool.Props
import Verif.Small.SizeLimiter
/-!
# `FixedPool` and `SizeLimiter` over a parent that refuses memory (C83)
-/
set_option autoImplicit false
set_option linter.unusedSimpArgs false

namespace Umpire.Deny.Fixed
open Umpire Umpire.FixedPool Umpire.Deny.Prog2

/-- The loop of `release` (FixedPool.cpp:179-184); false: the parent threw. -/
def freeFull2 (cfg : Cfg) : List Pool → Prog2 Bool
  | [] => .ret true
  | p :: ps =>
    if cfg.per = p.numAvail then .dealloc p.data cfg.data fun
      | true => freeFull2 cfg ps
      | false => .ret false
    else freeFull2 cfg ps

/-- `release` (FixedPool.cpp:177-187): nothing is erased when the parent threw. -/
def release2 (cfg : Cfg) (s : State) : Prog2 (Bool × State) :=
  (freeFull2 cfg s.pools).bind fun
    | true => .ret (true, { s with pools := s.pools.filter fun p => cfg.per ≠ p.numAvail })
    | false => .ret (false, s)

/-- Hand back all pools in the destructor (FixedPool.cpp:88-91), which is `noexcept`. -/
def freeAll2 (cfg : Cfg) : List Pool → Prog2 Unit
  | [] => .ret ()
  | p :: ps => .dealloc p.data cfg.data fun
    | true => freeAll2 cfg ps
    | false => .fail .abort

/-- The destructor (FixedPool.cpp:56-93). -/
def destroy2 (cfg : Cfg) (s : State) : Prog2 Unit :=
  if s.pools.any (leaks cfg) then .ret () else freeAll2 cfg s.pools

/-! ## What a run of the loop does -/

/-- What is left when the whole pools among `a` are gone. -/
def left (cfg : Cfg) (a : List Pool) (O : Held) : Held := O.filter fun r => decide (∀ q ∈ a, cfg.per = q.numAvail → r.1 ≠ q.data)

theorem left_nil {cfg : Cfg} {O : Held} : left cfg [] O = O := List.filter_eq_self.2 fun r _ => by simp

theorem left_whole {cfg : Cfg} {p : Pool} {a : List Pool} {O : Held} (hp : cfg.per = p.numAvail) :
    left cfg a (drop p.data O) = left cfg (p :: a) O := by
  unfold left drop
  rw [List.filter_filter]
  refine List.filter_congr fun r _ => ?_
  simp only [List.mem_cons, forall_eq_or_imp, Bool.decide_and]
  rw [Bool.and_comm]
  congr 1
  simp [hp]

theorem left_used {cfg : Cfg} {p : Pool} {a : List Pool} {O : Held} (hp : ¬ cfg.per = p.numAvail) :
    left cfg (p :: a) O = left cfg a O := by
  refine List.filter_congr fun r _ => ?_
  simp only [List.mem_cons, forall_eq_or_imp, hp, false_implies, true_and]

theorem freeFull2_run {cfg : Cfg} {ps : List Pool} {M M' : Mem} {ok : Bool} (h : Run2 (freeFull2 cfg ps) M ok M') :
    (ok = true → M' = ⟨left cfg ps M.held, M.refused, M.nulls⟩) ∧
    (ok = false → ∃ a p b, ps = a ++ p :: b ∧ cfg.per = p.numAvail ∧ M' = Mem.back ⟨left cfg a M.held, M.refused, M.nulls⟩ p.data cfg.data false) := by
  induction ps generalizing M with
  | nil => cases h; exact ⟨fun _ => by rw [left_nil], fun h => nomatch h⟩
  | cons p ps ih =>
    unfold freeFull2 at h
    split at h
    · rename_i hp
      cases h with
      | dealloc b h =>
        cases b with
        | false => cases h; exact ⟨fun h => (nomatch h), fun _ => ⟨[], p, ps, rfl, hp, by rw [left_nil]⟩⟩
        | true =>
          obtain ⟨h1, h2⟩ := ih h
          refine ⟨fun ht => ?_, fun hf => ?_⟩
          · rw [h1 ht]; simp only [Mem.back]; rw [left_whole hp]
          · obtain ⟨a, q, b, rfl, hq, hM⟩ := h2 hf
            refine ⟨p :: a, q, b, rfl, hq, ?_⟩
            rw [hM]; simp only [Mem.back]; rw [left_whole hp]
    · rename_i hp
      obtain ⟨h1, h2⟩ := ih h
      refine ⟨fun ht => ?_, fun hf => ?_⟩
      · rw [h1 ht, left_used hp]
      · obtain ⟨a, q, b, rfl, hq, hM⟩ := h2 hf
        exact ⟨p :: a, q, b, rfl, hq, by rw [hM, left_used hp]⟩

theorem run_bind_inv {α β : Type} {p : Prog2 α} {f : α → Prog2 β} {M M' : Mem} {b : β} (h : Run2 (p.bind f) M b M') :
    ∃ a M1, Run2 p M a M1 ∧ Run2 (f a) M1 b M' := by
  induction p generalizing M with
  | ret a => exact ⟨a, M, .ret, h⟩
  | fail b => cases h
  | alloc n k ih =>
    cases h with
    | allocOk hp h => obtain ⟨a, M1, h1, h2⟩ := ih _ h; exact ⟨a, M1, .allocOk hp h1, h2⟩
    | allocFail h => obtain ⟨a, M1, h1, h2⟩ := ih _ h; exact ⟨a, M1, .allocFail h1, h2⟩
  | dealloc p n k ih =>
    cases h with
    | dealloc ok h => obtain ⟨a, M1, h1, h2⟩ := ih _ h; exact ⟨a, M1, .dealloc ok h1, h2⟩

theorem release2_run {cfg : Cfg} {s s' : State} {M M' : Mem} {ok : Bool} (h : Run2 (release2 cfg s) M (ok, s') M') :
    Run2 (freeFull2 cfg s.pools) M ok M' ∧ (ok = false → s' = s) := by
  obtain ⟨b, M1, h1, h2⟩ := run_bind_inv h
  cases b with
  | true => cases h2; exact ⟨h1, fun h => nomatch h⟩
  | false => cases h2; exact ⟨h1, fun _ => rfl⟩

/-! ## Whole pools and free blocks -/

section
variable {cfg : Cfg} {s : State} {O L : Held}

theorem whole_iff (h : Inv cfg s O L) (hc : CfgOk cfg) {p : Pool} (hp : p ∈ s.pools) :
    cfg.per = p.numAvail ↔ ∀ l ∈ L, Disj l.1 l.2 p.data cfg.data := by
  rw [full_iff (h.pools p hp)]
  refine ⟨h.full hc hp, fun hd => ?_⟩
  cases hu : used cfg p with
  | nil => rfl
  | cons i is =>
    exfalso
    have hi : i ∈ used cfg p := by rw [hu]; simp
    have hl : (p.data + cfg.obj * i, cfg.obj) ∈ L := h.live.mem_iff.2 (List.mem_flatMap.2 ⟨p, hp, List.mem_map.2 ⟨i, hi, rfl⟩⟩)
    have h1 := hd _ hl
    have h2 := slot_in (p := p) hc (List.mem_range.1 (List.mem_filter.1 hi).1)
    have h3 := hc.obj
    unfold Disj at h1
    unfold Within at h2
    simp only at h1
    omega

theorem free_perm (h : Inv cfg s O L) (hc : CfgOk cfg) :
    (freeBlocks O L).Perm ((s.pools.filter fun p => decide (cfg.per = p.numAvail)).map (rng cfg)) := by
  refine (h.held.filter _).trans (.of_eq ?_)
  rw [List.filter_map]
  refine congrArg (List.map (rng cfg)) (List.filter_congr fun p hp => ?_)
  have := whole_iff h hc hp
  rw [Bool.eq_iff_iff]
  simp only [Function.comp, List.all_eq_true, decide_eq_true_eq]
  exact this.symm

theorem free_of_whole (h : Inv cfg s O L) (hc : CfgOk cfg) {p : Pool} (hp : p ∈ s.pools) (hw : cfg.per = p.numAvail) :
    rng cfg p ∈ freeBlocks O L :=
  (free_perm h hc).mem_iff.2 (List.mem_map.2 ⟨p, List.mem_filter.2 ⟨hp, by simpa using hw⟩, rfl⟩)

theorem data_ne (h : Inv cfg s O L) {p : Pool} (hp : p ∈ s.pools) : p.data ≠ 0 :=
  (h.rngs (rng cfg p) (h.held.mem_iff.2 (List.mem_map.2 ⟨p, hp, rfl⟩))).1

end

/-! ## Properties -/

/-- When the parent refuses a pool, `release` throws and its state is as before, but the free pools before it are gone: what is no
longer held was free; the refused pool and everything in use is still held. -/
theorem fixed_refused {cfg : Cfg} (hc : CfgOk cfg) {S : Sys} {m : Nat} (h : Reach cfg S m) {s' : State} {M' : Mem}
    (hr : Run2 (release2 cfg S.pool) ⟨S.held, [], false⟩ (false, s') M') :
    s' = S.pool ∧ (∃ r ∈ freeBlocks S.held S.live, M'.refused = [r] ∧ r ∈ M'.held) ∧ (∀ r ∈ M'.held, r ∈ S.held) ∧
    (∀ r ∈ S.held, r ∉ M'.held → r ∈ freeBlocks S.held S.live) := by
  have hi := (reach_inv hc h).1
  obtain ⟨h1, h2⟩ := release2_run hr
  obtain ⟨a, p, b, hs, hp, rfl⟩ := (freeFull2_run h1).2 rfl
  have hpm : p ∈ S.pool.pools := by rw [hs]; simp
  have hk := hi.keys hc
  rw [hs, List.map_append, List.map_cons, List.nodup_append] at hk
  refine ⟨h2 rfl, ⟨rng cfg p, free_of_whole hi hc hpm hp, ?_, ?_⟩, ?_, ?_⟩
  · simp only [Mem.back, data_ne hi hpm, if_false]; rfl
  · simp only [Mem.back, left]
    refine List.mem_filter.2 ⟨hi.held.mem_iff.2 (List.mem_map.2 ⟨p, hpm, rfl⟩), ?_⟩
    simp only [decide_eq_true_eq]
    intro q hq _ he
    exact hk.2.2 _ (List.mem_map.2 ⟨q, hq, rfl⟩) _ (List.mem_cons_self) he.symm
  · intro r hr; exact (List.mem_filter.1 hr).1
  · intro r hr hn
    simp only [Mem.back, left, List.mem_filter, hr, true_and, decide_eq_true_eq] at hn
    simp only [Classical.not_forall] at hn
    obtain ⟨q, hq, hw, he⟩ := hn
    have hqm : q ∈ S.pool.pools := by rw [hs]; simp [hq]
    have : r = rng cfg q := by
      have hrq : rng cfg q ∈ S.held := hi.held.mem_iff.2 (List.mem_map.2 ⟨q, hqm, rfl⟩)
      exact nodup_map_inj (hi.held_keys hc) hr hrq (by simpa [rng] using Decidable.not_not.1 he)
    rw [this]
    exact free_of_whole hi hc hqm hw

/-- When `release` returns, nothing was refused and exactly the free blocks are gone, from the pool too. -/
theorem fixed_taken {cfg : Cfg} (hc : CfgOk cfg) {S : Sys} {m : Nat} (h : Reach cfg S m) {s' : State} {M' : Mem}
    (hr : Run2 (release2 cfg S.pool) ⟨S.held, [], false⟩ (true, s') M') :
    M'.refused = [] ∧ (∀ r, r ∈ M'.held ↔ r ∈ S.held ∧ r ∉ freeBlocks S.held S.live) ∧ numPools s' = M'.held.length := by
  have hi := (reach_inv hc h).1
  obtain ⟨b, M1, h1, h2⟩ := run_bind_inv hr
  cases b with
  | false => cases h2
  | true =>
    cases h2
    rw [(freeFull2_run h1).1 rfl]
    have key : ∀ r ∈ S.held, (∀ q ∈ S.pool.pools, cfg.per = q.numAvail → r.1 ≠ q.data) ↔ r ∉ freeBlocks S.held S.live := by
      intro r hr
      constructor
      · intro hq hf
        obtain ⟨q, hqm, rfl⟩ := List.mem_map.1 ((free_perm hi hc).mem_iff.1 hf)
        obtain ⟨hq1, hq2⟩ := List.mem_filter.1 hqm
        exact hq q hq1 (by simpa using hq2) rfl
      · intro hn q hq hw he
        refine hn ?_
        have : r = rng cfg q := nodup_map_inj (hi.held_keys hc) hr (hi.held.mem_iff.2 (List.mem_map.2 ⟨q, hq, rfl⟩)) he
        rw [this]; exact free_of_whole hi hc hq hw
    refine ⟨rfl, fun r => ?_, ?_⟩
    · simp only [left, List.mem_filter, decide_eq_true_eq]
      exact ⟨fun hh => ⟨hh.1, (key r hh.1).1 hh.2⟩, fun hh => ⟨hh.1, (key r hh.1).2 hh.2⟩⟩
    · have hp := hi.held.filter (fun r => decide (∀ q ∈ S.pool.pools, cfg.per = q.numAvail → r.1 ≠ q.data))
      simp only [left, numPools]
      rw [hp.length_eq, List.filter_map, List.length_map]
      refine congrArg List.length (List.filter_congr fun p hp => ?_)
      rw [Bool.eq_iff_iff]
      simp only [Function.comp]
      rw [decide_eq_true_eq, decide_eq_true_eq]
      constructor
      · intro hw q hq hqw he
        have : p = q := nodup_map_inj (hi.keys hc) hp hq he
        subst this
        exact hw hqw
      · intro hh hw
        exact hh p hp hw rfl

/-- If at most one block is free, a refusal changes nothing at all; so the caller may go on, and try again.  Partial: see
`fixed_refused_ub`. -/
theorem fixed_refused_partial {cfg : Cfg} (hc : CfgOk cfg) {S : Sys} {m : Nat} (h : Reach cfg S m) {s' : State} {M' : Mem}
    (h1 : (freeBlocks S.held S.live).length ≤ 1) (hr : Run2 (release2 cfg S.pool) ⟨S.held, [], false⟩ (false, s') M') :
    s' = S.pool ∧ M'.held = S.held := by
  have hi := (reach_inv hc h).1
  obtain ⟨hr1, hs'⟩ := release2_run hr
  obtain ⟨a, p, b, hs, hp, rfl⟩ := (freeFull2_run hr1).2 rfl
  refine ⟨hs' rfl, ?_⟩
  rw [(free_perm hi hc).length_eq, List.length_map, hs, List.filter_append, List.filter_cons_of_pos (by simpa using hp),
    List.length_append, List.length_cons] at h1
  have ha : a.filter (fun p => decide (cfg.per = p.numAvail)) = [] := List.length_eq_zero_iff.1 (by omega)
  simp only [Mem.back, left]
  refine List.filter_eq_self.2 fun r _ => ?_
  simp only [decide_eq_true_eq]
  intro q hq hw
  exact absurd hw (by simpa using List.filter_eq_nil_iff.1 ha q hq)

/-- Only one pool is free. -/
def sysZ : Sys :=
  { pool := { pools := [⟨1600, [2 ^ 32 - 3], 1⟩, ⟨3200, [2 ^ 32 - 1], 2⟩], current := 24, actual := 98, hwm := 72 }
    held := [(3200, 48), (1600, 48)]
    live := [(1624, 24)] }

theorem sysZ_reach : Reach cfgX sysZ 3 :=
  play_reach (d := 1600) (ops := [.alloc [], .alloc [], .alloc [some 3200], .dealloc 1600 24, .dealloc 3200 24]) (by decide +kernel)

theorem sysZ_refused : Run2 (release2 cfgX sysZ.pool) ⟨sysZ.held, [], false⟩ (false, sysZ.pool) ⟨sysZ.held, [(3200, 48)], false⟩ :=
  exec2Ok_run [] [false] (by decide +kernel)

example : sysZ.held = sysZ.held := (fixed_refused_partial cfgX_ok sysZ_reach (by decide) sysZ_refused).2
example : ∃ r ∈ freeBlocks sysZ.held sysZ.live, [(3200, 48)] = [r] ∧ r ∈ sysZ.held := (fixed_refused cfgX_ok sysZ_reach sysZ_refused).2.1

example : ∃ s', Run2 (release2 cfgX sysZ.pool) ⟨sysZ.held, [], false⟩ (true, s') ⟨[(1600, 48)], [], false⟩ ∧ numPools s' = 1 := by
  have h : Run2 (release2 cfgX sysZ.pool) ⟨sysZ.held, [], false⟩ (true, ⟨[⟨1600, [2 ^ 32 - 3], 1⟩], 24, 98, 72⟩) ⟨[(1600, 48)], [], false⟩ :=
    exec2Ok_run [] [true] (by decide +kernel)
  exact ⟨_, h, (fixed_taken cfgX_ok sysZ_reach h).2.2⟩

theorem split_two {α : Type} {f : α → Bool} {l : List α} (h : 2 ≤ (l.filter f).length) :
    ∃ a x b y c, l = a ++ x :: (b ++ y :: c) ∧ f x = true ∧ f y = true ∧ a.filter f = [] ∧ b.filter f = [] := by
  induction l with
  | nil => simp at h
  | cons z l ih =>
    by_cases hz : f z = true
    · rw [List.filter_cons_of_pos hz, List.length_cons] at h
      have : ∀ l : List α, 1 ≤ (l.filter f).length → ∃ b y c, l = b ++ y :: c ∧ f y = true ∧ b.filter f = [] := by
        intro l
        induction l with
        | nil => intro h; simp at h
        | cons w l ih =>
          intro h
          by_cases hw : f w = true
          · exact ⟨[], w, l, rfl, hw, rfl⟩
          · rw [List.filter_cons_of_neg hw] at h
            obtain ⟨b, y, c, rfl, hy, hb⟩ := ih h
            exact ⟨w :: b, y, c, rfl, hy, by rw [List.filter_cons_of_neg hw, hb]⟩
      obtain ⟨b, y, c, rfl, hy, hb⟩ := this l (by omega)
      exact ⟨[], z, b, y, c, rfl, hz, hy, rfl, hb⟩
    · rw [List.filter_cons_of_neg hz] at h
      obtain ⟨a, x, b, y, c, rfl, hx, hy, ha, hb⟩ := ih h
      exact ⟨z :: a, x, b, y, c, rfl, hx, hy, by rw [List.filter_cons_of_neg hz, ha], hb⟩

theorem freeFull2_skip {cfg : Cfg} {a ps : List Pool} (ha : a.filter (fun p => decide (cfg.per = p.numAvail)) = []) :
    freeFull2 cfg (a ++ ps) = freeFull2 cfg ps := by
  induction a with
  | nil => rfl
  | cons p a ih =>
    have hp : ¬ cfg.per = p.numAvail := by simpa using List.filter_eq_nil_iff.1 ha p (by simp)
    rw [List.filter_cons_of_neg (by simpa using hp)] at ha
    rw [List.cons_append, freeFull2, if_neg hp, ih ha]

/-- If two blocks are free, a refusal can leave the pool with one that it no longer holds: the next `release` gives it back a second
time. -/
theorem fixed_refused_ub {cfg : Cfg} (hc : CfgOk cfg) {S : Sys} {m : Nat} (h : Reach cfg S m) (h2 : 2 ≤ (freeBlocks S.held S.live).length) :
    ∃ M', Run2 (release2 cfg S.pool) ⟨S.held, [], false⟩ (false, S.pool) M' ∧ Goes2 (release2 cfg S.pool) M' .ub := by
  have hi := (reach_inv hc h).1
  rw [(free_perm hi hc).length_eq, List.length_map] at h2
  obtain ⟨a, x, b, y, c, hs, hx, hy, ha, hb⟩ := split_two h2
  have hx : cfg.per = x.numAvail := by simpa using hx
  have hy : cfg.per = y.numAvail := by simpa using hy
  have heq : freeFull2 cfg S.pool.pools = .dealloc x.data cfg.data fun
      | true => .dealloc y.data cfg.data fun
        | true => freeFull2 cfg c
        | false => .ret false
      | false => .ret false := by
    rw [hs, freeFull2_skip ha, freeFull2, if_pos hx]
    congr 1
    funext ok
    cases ok with
    | false => rfl
    | true =>
      simp only
      rw [freeFull2_skip hb, freeFull2, if_pos hy]
  have hrun : Run2 (freeFull2 cfg S.pool.pools) ⟨S.held, [], false⟩ false (Mem.back (Mem.back ⟨S.held, [], false⟩ x.data cfg.data true) y.data cfg.data false) := by
    rw [heq]; exact .dealloc true (.dealloc false .ret)
  refine ⟨_, Run2.bind hrun .ret, ?_⟩
  unfold release2
  rw [heq]
  refine .badFree (data_ne hi (by rw [hs]; simp)) ?_
  simp [Mem.back, drop]

/-- Two pools, everything deallocated. -/
def sysY : Sys :=
  { pool := { pools := [⟨1600, [2 ^ 32 - 1], 2⟩, ⟨3200, [2 ^ 32 - 1], 2⟩], current := 0, actual := 98, hwm := 72 }
    held := [(3200, 48), (1600, 48)]
    live := [] }

theorem sysY_reach : Reach cfgX sysY 3 :=
  play_reach (d := 1600) (ops := [.alloc [], .alloc [], .alloc [some 3200], .dealloc 1600 24, .dealloc 3200 24, .dealloc 1624 24])
    (by decide +kernel)

example : ∃ M', Run2 (release2 cfgX sysY.pool) ⟨sysY.held, [], false⟩ (false, sysY.pool) M' ∧ Goes2 (release2 cfgX sysY.pool) M' .ub :=
  fixed_refused_ub cfgX_ok sysY_reach (by decide)

/-- Or it hands out memory that it no longer holds. -/
theorem fixed_stale_counterexample :
    ∃ M', Run2 (release2 cfgX sysY.pool) ⟨sysY.held, [], false⟩ (false, sysY.pool) M' ∧
      ∃ s1 s2 s3, Prog.Run (allocate cfgX 2 sysY.pool) M'.held (some 3200, s1) M'.held ∧
        Prog.Run (allocate cfgX 2 s1) M'.held (some 3224, s2) M'.held ∧ Prog.Run (allocate cfgX 2 s2) M'.held (some 1600, s3) M'.held ∧
        ∀ o ∈ M'.held, ¬ Within 1600 24 o.1 o.2 := by
  refine ⟨⟨[(3200, 48)], [(3200, 48)], false⟩, exec2Ok_run [] [true, false] (by decide +kernel), ?_⟩
  refine ⟨⟨[⟨1600, [2 ^ 32 - 1], 2⟩, ⟨3200, [2 ^ 32 - 2], 1⟩], 24, 98, 72⟩, ⟨[⟨1600, [2 ^ 32 - 1], 2⟩, ⟨3200, [2 ^ 32 - 4], 0⟩], 48, 98, 72⟩,
    ⟨[⟨1600, [2 ^ 32 - 2], 1⟩, ⟨3200, [2 ^ 32 - 4], 0⟩], 72, 98, 72⟩, Prog.execOk_run [] (by decide +kernel), Prog.execOk_run [] (by decide +kernel),
    Prog.execOk_run [] (by decide +kernel), ?_⟩
  intro o ho
  simp only [List.mem_singleton] at ho
  subst ho
  unfold Within
  omega

/-- A refusal in the destructor ends the program: possible whenever nothing is in use and some block is held. -/
theorem fixed_destroy_abort {cfg : Cfg} (hc : CfgOk cfg) {S : Sys} {m : Nat} (h : Reach cfg S m) (hL : S.live = []) (hO : S.held ≠ []) :
    Goes2 (destroy2 cfg S.pool) ⟨S.held, [], false⟩ .abort := by
  have hi := (reach_inv hc h).1
  have hno : ¬ S.pool.pools.any (leaks cfg) = true := by
    rw [List.any_eq_true]
    rintro ⟨p, hp, hl⟩
    obtain ⟨i, hi'⟩ := List.exists_mem_of_ne_nil _ ((leaks_iff (hi.pools p hp)).1 hl)
    have : (p.data + cfg.obj * i, cfg.obj) ∈ S.live :=
      hi.live.mem_iff.2 (List.mem_flatMap.2 ⟨p, hp, List.mem_map.2 ⟨i, hi', rfl⟩⟩)
    rw [hL] at this
    exact nomatch this
  unfold destroy2
  rw [if_neg hno]
  cases hps : S.pool.pools with
  | nil => have := hi.held; rw [hps] at this; exact absurd (List.perm_nil.1 this) hO
  | cons p ps => exact .dealloc false .fail

example : Goes2 (destroy2 cfgX sysY.pool) ⟨sysY.held, [], false⟩ .abort :=
  fixed_destroy_abort cfgX_ok sysY_reach rfl (by decide)

end Umpire.Deny.Fixed

namespace Umpire.Deny.Limit
open Umpire Umpire.SizeLimiter Umpire.Deny.Prog2

/-- `allocate` (SizeLimiter.cpp:23-33). -/
def allocate2 (s : State) (n : Nat) : Prog2 (Res × State) :=
  let s' := { s with total := w64 (s.total + n) }
  if s'.total > s.limit then .ret (.limit, { s' with total := w64 (s'.total + (W - w64 n)) })
  else .alloc n fun
    | some p => .ret (.ok p, s')
    | none => .ret (.parent, s')

/-- `deallocate` (SizeLimiter.cpp:35-39): the total is reduced first. -/
def deallocate2 (s : State) (p n : Nat) : Prog2 (Bool × State) :=
  .dealloc p n fun ok => .ret (ok, { s with total := w64 (s.total + (W - w64 n)) })

/-- A limiter in use; `leaked` is the total size of the requests the parent has refused. -/
structure Sys3 where
  st : State
  mem : Mem
  live : Held
  leaked : Nat

/-- One operation of the user that completes.  After an exception of `deallocate` the user does not use the memory any more: `Allocator`
has already forgotten the pointer (Allocator.inl:103-105). -/
inductive Step3 : Sys3 → Sys3 → Prop where
  | alloc {S : Sys3} {n p : Nat} {s' : State} {M' : Mem} : 0 < n → n + S.st.limit < W → Run2 (allocate2 S.st n) S.mem (.ok p, s') M' →
      Step3 S ⟨s', M', (p, n) :: S.live, S.leaked⟩
  | allocLimit {S : Sys3} {n : Nat} {s' : State} {M' : Mem} : 0 < n → n + S.st.limit < W → Run2 (allocate2 S.st n) S.mem (.limit, s') M' →
      Step3 S ⟨s', M', S.live, S.leaked⟩
  | allocParent {S : Sys3} {n : Nat} {s' : State} {M' : Mem} : 0 < n → n + S.st.limit < W → Run2 (allocate2 S.st n) S.mem (.parent, s') M' →
      Step3 S ⟨s', M', S.live, S.leaked + n⟩
  | dealloc {S : Sys3} {p n : Nat} {ok : Bool} {s' : State} {M' : Mem} : (p, n) ∈ S.live → Run2 (deallocate2 S.st p n) S.mem (ok, s') M' →
      Step3 S ⟨s', M', drop p S.live, S.leaked⟩

inductive Reach3 (limit : Nat) : Sys3 → Prop where
  | init : Reach3 limit ⟨create limit, ⟨[], [], false⟩, [], 0⟩
  | step {S T : Sys3} : Reach3 limit S → Step3 S T → Reach3 limit T

structure Inv3 (limit : Nat) (S : Sys3) : Prop where
  limEq : S.st.limit = limit
  held : S.mem.held.Perm (S.live ++ S.mem.refused)
  pos : ∀ r ∈ S.mem.held, r.1 ≠ 0 ∧ 0 < r.2
  disj : S.mem.held.Disjoint
  total : S.st.total = (S.live.map (·.2)).sum + S.leaked
  le : S.st.total ≤ limit
  lt : limit < W

theorem Inv3.keys {limit : Nat} {S : Sys3} (h : Inv3 limit S) : (S.mem.held.map (·.1)).Nodup := by
  rw [List.Nodup, List.pairwise_map]
  refine List.Pairwise.imp_of_mem ?_ h.disj
  intro x y hx hy hd
  have := (h.pos x hx).2
  have := (h.pos y hy).2
  unfold Disj at hd
  omega

theorem allocate2_eq {limit : Nat} {S : Sys3} (h : Inv3 limit S) {n : Nat} (hn : n + limit < W) :
    allocate2 S.st n =
      if limit < (S.live.map (·.2)).sum + S.leaked + n then .ret (.limit, S.st)
      else .alloc n fun
        | some p => .ret (.ok p, { S.st with total := S.st.total + n })
        | none => .ret (.parent, { S.st with total := S.st.total + n }) := by
  have h1 := h.le
  have h2 := h.limEq
  have h3 := h.total
  have hw : w64 (S.st.total + n) = S.st.total + n := Nat.mod_eq_of_lt (by omega)
  have hw2 : w64 n = n := Nat.mod_eq_of_lt (by omega)
  have hw3 : w64 (S.st.total + n + (W - n)) = S.st.total := by
    have : S.st.total + n + (W - n) = S.st.total + W := by omega
    rw [this]
    unfold w64
    rw [Nat.add_mod_right, Nat.mod_eq_of_lt (by omega)]
  unfold allocate2
  simp only [hw, hw2, hw3]
  rw [← h3, ← h2]

theorem step3_inv {limit : Nat} {S T : Sys3} (h : Inv3 limit S) (hs : Step3 S T) : Inv3 limit T := by
  have hle := h.le
  have ht := h.total
  cases hs with
  | @alloc n p s' M' hn hb hr =>
    rw [h.limEq] at hb
    rw [allocate2_eq h hb] at hr
    split at hr
    · cases hr
    · cases hr with
      | allocOk hp hr =>
        cases hr
        refine ⟨h.limEq, h.held.cons _, ?_, List.pairwise_cons.2 ⟨hp.2.2, h.disj⟩, ?_, ?_, h.lt⟩
        · intro r hr
          rcases List.mem_cons.1 hr with rfl | hr
          · exact ⟨hp.1, hn⟩
          · exact h.pos r hr
        · simp only [List.map_cons, List.sum_cons]; omega
        · simp only; omega
      | allocFail hr => cases hr
  | @allocLimit n s' M' hn hb hr =>
    rw [h.limEq] at hb
    rw [allocate2_eq h hb] at hr
    split at hr
    · cases hr; exact h
    · cases hr with
      | allocOk hp hr => cases hr
      | allocFail hr => cases hr
  | @allocParent n s' M' hn hb hr =>
    rw [h.limEq] at hb
    rw [allocate2_eq h hb] at hr
    split at hr
    · cases hr
    · cases hr with
      | allocOk hp hr => cases hr
      | allocFail hr =>
        cases hr
        refine ⟨h.limEq, h.held, h.pos, h.disj, ?_, ?_, h.lt⟩
        · simp only; omega
        · simp only; omega
  | @dealloc p n ok s' M' hl hr =>
    have h4 := h.lt
    have hlen : n ≤ (S.live.map (·.2)).sum := le_sum_of_mem (List.mem_map.2 ⟨_, hl, rfl⟩)
    have hw : w64 n = n := Nat.mod_eq_of_lt (by omega)
    have hw3 : w64 (S.st.total + (W - n)) = S.st.total - n := by
      have : S.st.total + (W - n) = S.st.total - n + W := by omega
      rw [this]
      unfold w64
      rw [Nat.add_mod_right, Nat.mod_eq_of_lt (by omega)]
    have hk2 : ((S.live ++ S.mem.refused).map (·.1)).Nodup := (h.held.map _).nodup_iff.1 h.keys
    have hkl : (S.live.map (·.1)).Nodup := by rw [List.map_append, List.nodup_append] at hk2; exact hk2.1
    have hp := QuickPool.drop_perm hkl hl
    have hsum := (hp.map (·.2)).sum_nat
    simp only [List.map_cons, List.sum_cons] at hsum
    have hpm : (p, n) ∈ S.mem.held := h.held.mem_iff.2 (List.mem_append_left _ hl)
    unfold deallocate2 at hr
    cases hr with
    | dealloc b hr =>
      cases hr
      have htot : ({ S.st with total := w64 (S.st.total + (W - w64 n)) } : State).total = ((drop p S.live).map (·.2)).sum + S.leaked := by
        simp only; rw [hw, hw3]; omega
      have hle' : ({ S.st with total := w64 (S.st.total + (W - w64 n)) } : State).total ≤ limit := by
        simp only; rw [hw, hw3]; omega
      cases ok with
      | true =>
        refine ⟨h.limEq, ?_, fun r hr => h.pos r (drop_sub r hr), h.disj.drop p, htot, hle', h.lt⟩
        have h1 := QuickPool.drop_perm h.keys hpm
        have h2 := (h1.trans h.held).trans (hp.symm.append_right S.mem.refused)
        exact h2.cons_inv
      | false =>
        refine ⟨h.limEq, ?_, h.pos, h.disj, htot, hle', h.lt⟩
        have h0 : p ≠ 0 := (h.pos _ hpm).1
        simp only [Mem.back, h0, if_false]
        exact (h.held.trans (hp.symm.append_right S.mem.refused)).trans List.perm_middle.symm

theorem reach3_inv {limit : Nat} (hl : limit < W) {S : Sys3} (h : Reach3 limit S) : Inv3 limit S := by
  induction h with
  | init => exact ⟨rfl, .refl _, by simp, List.Pairwise.nil, rfl, Nat.zero_le _, hl⟩
  | step _ hs ih => exact step3_inv ih hs

/-- What is in use stays within the limit, and no more is taken from the parent than the limit and what it refused to take back.
Partial: see `limit_exceeded`. -/
theorem limit_partial {limit : Nat} (hl : limit < W) {S : Sys3} (h : Reach3 limit S) :
    (S.live.map (·.2)).sum ≤ limit ∧ (S.mem.held.map (·.2)).sum ≤ limit + (S.mem.refused.map (·.2)).sum := by
  have hi := reach3_inv hl h
  have h1 := hi.total
  have h2 := hi.le
  have h3 := (hi.held.map (·.2)).sum_nat
  rw [List.map_append, List.sum_append] at h3
  omega

/-- Memory that the parent refused no longer counts: after a refused `deallocate` a request of the same size is passed on, so that
more than the limit is taken from the parent if the limit had been reached. -/
theorem limit_exceeded {limit : Nat} (hl : limit < W) {S : Sys3} (h : Reach3 limit S) (h0 : S.leaked = 0)
    (hfull : (S.live.map (·.2)).sum = limit) {p n q : Nat} (hp : (p, n) ∈ S.live) (hn : n + limit < W) (hq : Fresh q n S.mem.held) :
    ∃ T U, Step3 S T ∧ Step3 T U ∧ U.live = (q, n) :: drop p S.live ∧ (U.mem.held.map (·.2)).sum = limit + n + (S.mem.refused.map (·.2)).sum := by
  have hi := reach3_inv hl h
  have hpos : 0 < n := (hi.pos _ (hi.held.mem_iff.2 (List.mem_append_left _ hp))).2
  have s1 : Step3 S _ := .dealloc (ok := false) hp (.dealloc false .ret)
  have hi' := step3_inv hi s1
  have hpn : p ≠ 0 := (hi.pos _ (hi.held.mem_iff.2 (List.mem_append_left _ hp))).1
  have hk2 : ((S.live ++ S.mem.refused).map (·.1)).Nodup := (hi.held.map _).nodup_iff.1 hi.keys
  have hkl : (S.live.map (·.1)).Nodup := by rw [List.map_append, List.nodup_append] at hk2; exact hk2.1
  have hsum := ((QuickPool.drop_perm hkl hp).map (·.2)).sum_nat
  simp only [List.map_cons, List.sum_cons] at hsum
  refine ⟨_, _, s1, .alloc (n := n) (p := q) (s' := ⟨S.st.limit, w64 (S.st.total + (W - w64 n)) + n⟩)
    (M' := ⟨(q, n) :: S.mem.held, (p, n) :: S.mem.refused, S.mem.nulls⟩) hpos (by rw [hi'.limEq]; exact hn) ?_, rfl, ?_⟩
  · rw [allocate2_eq hi' hn, if_neg (by simp only; omega)]
    refine .allocOk hq ?_
    have : Mem.back S.mem p n false = ⟨S.mem.held, (p, n) :: S.mem.refused, S.mem.nulls⟩ := by simp [Mem.back, hpn]
    rw [this]
    exact .ret
  · have h3 := (hi.held.map (·.2)).sum_nat
    rw [List.map_append, List.sum_append] at h3
    simp only [List.map_cons, List.sum_cons]
    omega

/-- Limit 60, with 60 bytes in use. -/
def sysL : Sys3 := ⟨⟨60, 60⟩, ⟨[(1600, 60)], [], false⟩, [(1600, 60)], 0⟩

theorem sysL_reach : Reach3 60 sysL :=
  .step .init (.alloc (S := ⟨create 60, ⟨[], [], false⟩, [], 0⟩) (n := 60) (p := 1600) (s' := ⟨60, 60⟩) (M' := ⟨[(1600, 60)], [], false⟩)
    (by decide) (by decide) (exec2Ok_run [some 1600] [] (by decide +kernel)))

/-- 120 bytes are taken from the parent under a limit of 60. -/
example : ∃ T U, Step3 sysL T ∧ Step3 T U ∧ U.live = [(3200, 60)] ∧ (U.mem.held.map (·.2)).sum = 120 :=
  limit_exceeded (by decide) sysL_reach rfl rfl (p := 1600) (n := 60) (q := 3200) (by decide) (by decide) (by decide)

example : (sysL.live.map (·.2)).sum ≤ 60 ∧ (sysL.mem.held.map (·.2)).sum ≤ 60 + (sysL.mem.refused.map (·.2)).sum :=
  limit_partial (by decide) sysL_reach

end Umpire.Deny.Limit
