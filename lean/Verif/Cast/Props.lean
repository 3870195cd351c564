import Verif.Cast.Model
import Verif.QuickPool.Merge
import Verif.DynPool.Peak
import Verif.Shm.Cases
/-!
# C88: functions for one kind of allocator act on that kind and refuse the others

`coalesce`, `try_coalesce` and `find_pointer_from_name` over every kind of allocator.
-/
set_option autoImplicit false
set_option linter.unusedSimpArgs false
namespace Umpire.Cast
open Umpire Umpire.Prog

/-- The allocator is itself a pool that can be coalesced. -/
inductive IsPool : Obj → Prop
  | quick (cfg : QuickPool.Cfg) (s : QuickPool.State) : IsPool (.quick cfg s)
  | list (cfg : DynPool.Cfg) (heur : DynPool.State → Nat) (s : DynPool.State) : IsPool (.list cfg heur s)

theorem try_quick {fuel : Nat} {cfg : QuickPool.Cfg} {s : QuickPool.State} {O O' : Held} {t : List Ev} {r : Bool} {a' : Obj}
    (h : RunT (tryCoalesce fuel (.quick cfg s)) O t (r, a') O') :
    r = true ∧ ∃ s', a' = .quick cfg s' ∧ RunT (QuickPool.coalesce cfg fuel s) O t s' O' := by
  unfold tryCoalesce at h
  obtain ⟨t1, t2, a, O1, rfl, h1, h2⟩ := RunT.of_bind h
  obtain ⟨t3, t4, s', O2, rfl, h3, h4⟩ := RunT.of_bind h1
  cases h4
  cases h2
  exact ⟨rfl, s', rfl, by simpa using h3⟩

theorem try_list {fuel : Nat} {cfg : DynPool.Cfg} {heur : DynPool.State → Nat} {s : DynPool.State} {O O' : Held} {t : List Ev} {r : Bool} {a' : Obj}
    (h : RunT (tryCoalesce fuel (.list cfg heur s)) O t (r, a') O') :
    r = true ∧ ∃ s', a' = .list cfg heur s' ∧ RunT (DynPool.coalesce cfg heur s) O t s' O' := by
  unfold tryCoalesce at h
  obtain ⟨t1, t2, a, O1, rfl, h1, h2⟩ := RunT.of_bind h
  cases h1
  obtain ⟨t3, t4, s', O2, rfl, h3, h4⟩ := RunT.of_bind h2
  cases h4
  exact ⟨rfl, s', rfl, by simpa using h3⟩

theorem try_other {fuel : Nat} {a : Obj} (hn : ¬IsPool a) : tryCoalesce fuel a = .ret (false, a) := by
  cases a with
  | quick cfg s => exact absurd (.quick cfg s) hn
  | list cfg heur s => exact absurd (.list cfg heur s) hn
  | shared b l m => rfl
  | over o => rfl
  | other => rfl

section
variable {fuel : Nat} {a a' : Obj} {O O' : Held} {t : List Ev}

/-- **C88**: `try_coalesce` says whether the allocator is itself a pool that can be coalesced; if not nothing happens. -/
theorem cast_try {r : Bool} (h : RunT (tryCoalesce fuel a) O t (r, a') O') :
    (r = true ↔ IsPool a) ∧ (r = false → a' = a ∧ O' = O ∧ t = []) := by
  by_cases hp : IsPool a
  · have : r = true := by
      cases hp with
      | quick cfg s => exact (try_quick h).1
      | list cfg heur s => exact (try_list h).1
    subst this
    exact ⟨⟨fun _ => hp, fun _ => rfl⟩, fun h => (nomatch h)⟩
  · rw [try_other hp] at h
    cases h
    exact ⟨⟨fun h => (nomatch h), fun h => absurd h hp⟩, fun _ => ⟨rfl, rfl, rfl⟩⟩

/-- **C88**: `coalesce` throws exactly if the allocator is not itself a pool that can be coalesced, and then nothing has
happened. -/
theorem cast_throws {r : Done} (h : RunT (coalesce fuel a) O t (r, a') O') :
    (r = .threw ↔ ¬IsPool a) ∧ (r = .threw → a' = a ∧ O' = O ∧ t = []) := by
  unfold coalesce at h
  obtain ⟨t1, t2, ⟨b, a1⟩, O1, rfl, h1, h2⟩ := RunT.of_bind h
  have hc := cast_try h1
  cases b with
  | true =>
    cases h2
    exact ⟨⟨fun h => (nomatch h), fun h => absurd (hc.1.1 rfl) h⟩, fun h => (nomatch h)⟩
  | false =>
    cases h2
    obtain ⟨rfl, rfl, rfl⟩ := hc.2 rfl
    exact ⟨⟨fun _ h => (nomatch hc.1.2 h), fun _ => rfl⟩, fun _ => ⟨rfl, rfl, rfl⟩⟩

end

/-- **C88**: coalescing a `QuickPool` through these functions leaves a pool that some history of calls leads to, with the
same live allocations, so that everything proved of such pools (C01–C07) still holds. -/
theorem cast_quick {cfg : QuickPool.Cfg} {S : QuickPool.Sys} (h : QuickPool.Reach cfg S) {fuel : Nat} {r : Bool} {a' : Obj} {O' : Held}
    {t : List Ev} (hr : RunT (tryCoalesce fuel (.quick cfg S.pool)) S.held t (r, a') O') :
    ∃ s', a' = .quick cfg s' ∧ QuickPool.Reach cfg ⟨s', O', S.live⟩ := by
  obtain ⟨_, s', rfl, h1⟩ := try_quick hr
  exact ⟨s', rfl, .step h (.coalesce h1.run)⟩

/-- **C88**: the same for a `DynamicPoolList`. -/
theorem cast_list {cfg : DynPool.Cfg} {S : DynPool.Sys} (h : DynPool.Reach cfg S) {heur : DynPool.State → Nat} (hh : DynPool.HeurOk cfg heur)
    {fuel : Nat} {r : Bool} {a' : Obj} {O' : Held} {t : List Ev} (hr : RunT (tryCoalesce fuel (.list cfg heur S.pool)) S.held t (r, a') O') :
    ∃ s', a' = .list cfg heur s' ∧ DynPool.Reach cfg ⟨s', O', S.live⟩ := by
  obtain ⟨_, s', rfl, h1⟩ := try_list hr
  exact ⟨s', rfl, .step h (.coalesce hh h1.run)⟩

/-- The hypotheses of `cast_list`, on a pool with a free block besides the one in use. -/
example : ∃ a', DynPool.Reach DynPool.cfgX DynPool.sysY ∧ DynPool.HeurOk DynPool.cfgX (DynPool.blocksReleasableHwm 2) ∧
    Run (tryCoalesce 5 (.list DynPool.cfgX (DynPool.blocksReleasableHwm 2) DynPool.sysY.pool)) DynPool.sysY.held (true, a') DynPool.sysY.held := by
  have hf : DynPool.HeurOk DynPool.cfgX (DynPool.blocksReleasableHwm 2) := DynPool.builtIn_heurOk (by decide) (.blocksHwm 2)
  obtain ⟨k, hk⟩ := DynPool.playLive_hist (cfg := DynPool.cfgX) (P := fun _ _ => True)
    (g := fun _ => DynPool.blocksReleasableHwm 2) (fun _ => hf) (fun _ => trivial)
    [.alloc 16 [some 1600], .alloc 64 [some 3200], .dealloc 3200 64 []] (S := DynPool.sysY) (m := 80) (by decide +kernel)
  exact ⟨_, hk.reach, hf, Run.bind .ret (Run.bind (a := DynPool.sysY.pool) (execOk_run [] (by decide +kernel)) .ret)⟩

/-- **C88, counterexample** (general): with `blocks_releasable(k)`, `k ≥ 2`, `percent_releasable(100)` or their `_hwm` variants
`try_coalesce` of a `QuickPool` says that it has coalesced, and never has. -/
theorem cast_idle {cfg : QuickPool.Cfg} (hc : QuickPool.CfgOk cfg) (hh : QuickPool.HeurOk cfg) {thr : Nat → Nat}
    (hf : (∃ k, 2 ≤ k ∧ (cfg.heur = QuickPool.blocksReleasable k ∨ cfg.heur = QuickPool.blocksReleasableHwm k)) ∨
      QuickPool.percentReleasable thr 100 = some cfg.heur ∨ QuickPool.percentReleasableHwm thr 100 = some cfg.heur)
    {S : QuickPool.Sys} (h : QuickPool.Reach cfg S) {fuel : Nat} {r : Bool} {a' : Obj} {O' : Held} {t : List Ev}
    (hr : RunT (tryCoalesce fuel (.quick cfg S.pool)) S.held t (r, a') O') :
    r = true ∧ a' = .quick cfg S.pool ∧ O' = S.held ∧ t = [] := by
  obtain ⟨hr1, s', rfl, h1⟩ := try_quick hr
  obtain ⟨rfl, h2, h3⟩ := QuickPool.quickpool_explicit_coalesce_idle hc hh hf h h1
  exact ⟨hr1, rfl, h2, h3⟩

/-- Its hypotheses, on a pool with a free block besides the one in use: `coalesce` returns. -/
example : QuickPool.Reach QuickPool.cfgB QuickPool.sysG ∧ QuickPool.cfgB.heur = QuickPool.blocksReleasable 2 ∧
    ∃ a', Run (tryCoalesce 5 (.quick QuickPool.cfgB QuickPool.sysG.pool)) QuickPool.sysG.held (true, a') QuickPool.sysG.held :=
  ⟨QuickPool.sysG_reach, rfl, _, .bind (Run.bind (a := QuickPool.sysG.pool) (execOk_run [] (by decide +kernel)) .ret) .ret⟩

/-- **C88, counterexample**: a pool that is coalesced when asked itself, which hands back the block at 1600, is not when
asked through a strategy over it (`ThreadSafeAllocator`): `try_coalesce` says `false` and `coalesce` throws. -/
theorem cast_over_counterexample :
    (∃ a', Run (tryCoalesce 5 (.quick QuickPool.cfgT QuickPool.sysT.pool)) QuickPool.sysT.held (true, a') [(4800, 144), (3200, 144)]) ∧
    tryCoalesce 5 (.over (.quick QuickPool.cfgT QuickPool.sysT.pool)) = .ret (false, .over (.quick QuickPool.cfgT QuickPool.sysT.pool)) ∧
    coalesce 5 (.over (.quick QuickPool.cfgT QuickPool.sysT.pool)) = .ret (.threw, .over (.quick QuickPool.cfgT QuickPool.sysT.pool)) := by
  refine ⟨⟨.quick QuickPool.cfgT
    { blocks := [[⟨2, 3200, 128, 128, false⟩], [⟨4, 4800, 80, 128, false⟩, ⟨5, 4880, 48, 128, true⟩]],
      sizeMap := [(48, 5)], ptrMap := [(4800, 4), (3200, 2)],
      baseMap := [(4800, 4800, 144), (3200, 3200, 144)], nextId := 6, totalBlocks := 2,
      releasableBlocks := 0, alignedBytes := 208, alignedHwm := 208, actualBytes := 256, releasableBytes := 0,
      actualHwm := 320 }, ?_⟩, rfl, rfl⟩
  exact .bind (Run.bind (execOk_run [] (by decide +kernel)) .ret) .ret

/-! ### Names -/

/-- **C88**: on the shared memory resource `find_pointer_from_name` gives the address of the allocation with that name, or a
null pointer if none is live. -/
theorem cast_find_shared {S lim : Nat} (h1 : 120 ≤ S) (h2 : S < AMax) (h3 : S ≤ lim) {ops : List Shm.Op} {m : Mem} {L : List Shm.Rec}
    (h : Shm.Run S lim ops m L) (base : Nat) (name : List Nat) :
    (name ∉ L.map (·.name) → findPointer true (.shared base lim m) name = .null) ∧
    (name ∈ L.map (·.name) → ∃ r ∈ L, r.name = name ∧ findPointer true (.shared base lim m) name = .ptr (base + r.off)) := by
  unfold findPointer
  rw [if_pos rfl]
  dsimp only
  rcases Shm.shm_find_partial h1 h2 h3 h base name with ⟨_, hn, e⟩ | ⟨_, r, hr, hn, e⟩
  · rw [e]
    exact ⟨fun _ => rfl, fun h => absurd h hn⟩
  · rw [e]
    exact ⟨fun h => absurd (List.mem_map.2 ⟨r, hr, hn⟩) h, fun _ => ⟨r, hr, hn, rfl⟩⟩

/-- **C88**: in a build without shared memory it throws for every allocator. -/
theorem cast_find_without (a : Obj) (name : List Nat) : findPointer false a name = .threw := rfl

/-- **C88, counterexample** (general): in a build with shared memory it never throws, and is undefined for every allocator other
than the shared memory resource itself: the one that "is not a Shared Memory Allocator", and a pool over the resource. -/
theorem cast_find_counterexample (a : Obj) (name : List Nat) :
    findPointer true a name ≠ .threw ∧ ((∀ base lim m, a ≠ .shared base lim m) → findPointer true a name = .ub) := by
  constructor
  · unfold findPointer
    rw [if_pos rfl]
    (repeat' split) <;> exact fun h => (nomatch h)
  · intro h
    cases a with
    | shared b l m => exact absurd rfl (h b l m)
    | quick cfg s => rfl
    | list cfg heur s => rfl
    | over o => rfl
    | other => rfl

example : findPointer true (.shared 4096 4096 Shm.s4) [97] = .ptr 4224 ∧ findPointer true (.shared 4096 4096 Shm.s4) [99] = .null := by
  have h := cast_find_shared (by decide) (by decide) (by decide) Shm.run4 4096
  refine ⟨?_, (h [99]).1 (by decide)⟩
  obtain ⟨r, hr, hn, e⟩ := (h [97]).2 (by decide)
  simp only [List.mem_cons, List.not_mem_nil, or_false] at hr
  rcases hr with rfl | rfl
  · cases hn
  · exact e

end Umpire.Cast
