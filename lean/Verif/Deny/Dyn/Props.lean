import Verif.Deny.Dyn.Proof
import Verif.Deny.Props
/-!
# Memory that the parent refuses to take back: `DynamicPoolList` (C83)

As Verif/Deny/Props.lean, for a `DynamicPoolList`.  The heuristic may be another one in every call.
-/
set_option autoImplicit false
set_option linter.unusedSimpArgs false
namespace Umpire.Deny.Dyn
open Umpire DynPool Prog2
open Umpire.QuickPool (Chunk Inv Inv0 bsize start freeL usedL whole ceil_spec)

/-! ## Histories -/

/-- A pool, the memory of its parent and the allocations of its user. -/
structure Sys2 where
  pool : State
  mem : Mem
  live : Held

/-- One operation of the user that completes, normally or with an exception. -/
inductive Step2 (cfg : Cfg) : Sys2 → Sys2 → Prop where
  | allocOk {S : Sys2} {n p : Nat} {s' : State} {M' : Mem} : ReqOk cfg n →
      Run2 (allocate2 cfg S.pool n) S.mem (some p, s') M' → Step2 cfg S ⟨s', M', (p, n) :: S.live⟩
  | allocErr {S : Sys2} {n : Nat} {s' : State} {M' : Mem} : ReqOk cfg n →
      Run2 (allocate2 cfg S.pool n) S.mem (none, s') M' → Step2 cfg S ⟨s', M', S.live⟩
  | dealloc {S : Sys2} {heur : State → Nat} {p n : Nat} {ok : Bool} {s' : State} {M' : Mem} : HeurOk2 cfg heur → (p, n) ∈ S.live →
      Run2 (deallocate2 cfg heur S.pool p) S.mem (ok, s') M' → Step2 cfg S ⟨s', M', drop p S.live⟩
  | release {S : Sys2} {ok : Bool} {s' : State} {M' : Mem} : Run2 (release2 S.pool) S.mem (ok, s') M' → Step2 cfg S ⟨s', M', S.live⟩
  | coalesce {S : Sys2} {heur : State → Nat} {s' : State} {M' : Mem} : HeurOk2 cfg heur →
      Run2 (coalesce2 cfg heur S.pool) S.mem s' M' → Step2 cfg S ⟨s', M', S.live⟩

/-- Everything from `S` on. -/
inductive Later (cfg : Cfg) (S : Sys2) : Sys2 → Prop where
  | refl : Later cfg S S
  | step {T U : Sys2} : Later cfg S T → Step2 cfg T U → Later cfg S U

/-- Everything from a new pool on. -/
def Reach2 (cfg : Cfg) (S : Sys2) : Prop := Later cfg ⟨init, ⟨[], [], false⟩, []⟩ S

theorem Later.trans {cfg : Cfg} {S T U : Sys2} (h1 : Later cfg S T) (h2 : Later cfg T U) : Later cfg S U := by
  induction h2 with
  | refl => exact h1
  | step _ hs ih => exact .step ih hs

/-- Which arguments a pool is used with: no overflow in `size + alignment`. -/
structure Fine (cfg : Cfg) : Prop where
  ok : CfgOk cfg
  al : 2 * cfg.align ≤ AMax

theorem step_inv {cfg : Cfg} (hf : Fine cfg) {S T : Sys2} (h : InvF cfg.align S.pool S.mem S.live) (hs : Step2 cfg S T) :
    InvF cfg.align T.pool T.mem T.live := by
  cases hs with
  | allocOk hn hr => exact wp_run (allocate2_wp h hf.ok hn) hr
  | allocErr hn hr => exact wp_run (allocate2_wp h hf.ok hn) hr
  | dealloc hh hl hr => exact wp_run (deallocate2_wp hf.ok hf.al hh h hl) hr
  | release hr =>
    obtain ⟨_, _, _, h, hd⟩ := h
    exact (wp_run (release2_wp h hd) hr).invF
  | coalesce hh hr => exact wp_run (coalesce2_wp hf.ok hf.al hh h) hr

theorem reach2_inv {cfg : Cfg} (hf : Fine cfg) {S : Sys2} (h : Reach2 cfg S) : InvF cfg.align S.pool S.mem S.live := by
  unfold Reach2 at h
  induction h with
  | refl => exact init_invF _
  | step _ hs ih => exact step_inv hf ih hs

/-! ### A pool with two blocks of which one is refused -/

/-- 16-byte alignment, blocks of 64 bytes. -/
def cfgE : Cfg := { align := 16, first := 64, next := 64 }

theorem cfgE_fine : Fine cfgE := ⟨⟨by decide, by decide, by decide⟩, by decide⟩

theorem two_ok : HeurOk2 cfgE (blocksReleasable 2) := builtIn_ok2 (.blocks 2) (by decide)

/-- After `allocate(64)`. -/
def sysA : Sys2 :=
  ⟨{ used := [⟨1600, 64, 64⟩], free := [], baseMap := [(1600, 1600, 80)], alignedBytes := 64, alignedHwm := 64, actualBytes := 64,
     actualHwm := 64, releasableBlocks := 0, totalBlocks := 1 }, ⟨[(1600, 80)], [], false⟩, [(1600, 64)]⟩

theorem sysA_alloc : Run2 (allocate2 cfgE init 64) ⟨[], [], false⟩ (some 1600, sysA.pool) sysA.mem :=
  exec2Ok_run [some 1600] [] (by decide +kernel)

theorem sysA_reach : Reach2 cfgE sysA :=
  .step .refl (.allocOk (S := ⟨init, ⟨[], [], false⟩, []⟩) ⟨by decide, by decide⟩ sysA_alloc)

/-- After `allocate(64)` twice. -/
def sysB : Sys2 :=
  ⟨{ used := [⟨3200, 64, 64⟩, ⟨1600, 64, 64⟩], free := [], baseMap := [(3200, 3190, 80), (1600, 1600, 80)], alignedBytes := 128,
     alignedHwm := 128, actualBytes := 128, actualHwm := 128, releasableBlocks := 0, totalBlocks := 2 },
   ⟨[(3190, 80), (1600, 80)], [], false⟩, [(3200, 64), (1600, 64)]⟩

theorem sysB_alloc : Run2 (allocate2 cfgE sysA.pool 64) sysA.mem (some 3200, sysB.pool) sysB.mem :=
  exec2Ok_run [some 3190] [] (by decide +kernel)

theorem sysB_reach : Reach2 cfgE sysB := .step sysA_reach (.allocOk (S := sysA) ⟨by decide, by decide⟩ sysB_alloc)

/-- One of them deallocated. -/
def sysC : Sys2 :=
  ⟨{ used := [⟨1600, 64, 64⟩], free := [⟨3200, 64, 64⟩], baseMap := [(3200, 3190, 80), (1600, 1600, 80)], alignedBytes := 64,
     alignedHwm := 128, actualBytes := 128, actualHwm := 128, releasableBlocks := 1, totalBlocks := 2 },
   ⟨[(3190, 80), (1600, 80)], [], false⟩, [(1600, 64)]⟩

theorem sysC_dealloc : Run2 (deallocate2 cfgE (blocksReleasable 2) sysB.pool 3200) sysB.mem (true, sysC.pool) sysC.mem :=
  exec2Ok_run [] [] (by decide +kernel)

theorem sysC_reach : Reach2 cfgE sysC := .step sysB_reach (.dealloc (S := sysB) (n := 64) two_ok (by decide) sysC_dealloc)

/-- `release()` threw: the block is still in the pool, its base pointer is gone. -/
def sysD : Sys2 :=
  ⟨{ used := [⟨1600, 64, 64⟩], free := [⟨3200, 64, 64⟩], baseMap := [(1600, 1600, 80)], alignedBytes := 64,
     alignedHwm := 128, actualBytes := 64, actualHwm := 128, releasableBlocks := 0, totalBlocks := 1 },
   ⟨[(3190, 80), (1600, 80)], [(3190, 80)], false⟩, [(1600, 64)]⟩

theorem sysD_release : Run2 (release2 sysC.pool) sysC.mem (false, sysD.pool) sysD.mem :=
  exec2Ok_run [] [false] (by decide +kernel)

theorem sysD_reach : Reach2 cfgE sysD := .step sysC_reach (.release (S := sysC) sysD_release)

/-! ## Safety -/

section
attribute [local irreducible] sub64 add64

/-- Whatever the parent refuses, no operation has undefined behaviour, and only `coalesce` can end the program.  Partial: see
`dyn_coalesce_terminates`. -/
theorem dyn_safe_partial {cfg : Cfg} (hf : Fine cfg) {S : Sys2} (h : Reach2 cfg S) :
    (∀ n, ReqOk cfg n → ∀ b, ¬ Goes2 (allocate2 cfg S.pool n) S.mem b) ∧
    (∀ b, ¬ Goes2 (release2 S.pool) S.mem b) ∧ (∀ b, ¬ Goes2 (destroy2 S.pool) S.mem b) ∧
    (∀ heur p n, HeurOk2 cfg heur → (p, n) ∈ S.live → ∀ b, ¬ Goes2 (deallocate2 cfg heur S.pool p) S.mem b) ∧
    (∀ heur b, HeurOk2 cfg heur → Goes2 (coalesce2 cfg heur S.pool) S.mem b → b = .abort) := by
  have hi := reach2_inv hf h
  obtain ⟨_, _, _, hm, hd⟩ := reach2_inv hf h
  exact ⟨fun n hn b hg => wp_safe (allocate2_wp hi hf.ok hn) hg, fun b hg => wp_safe (release2_wp hm hd) hg,
    fun b hg => wp_safe (destroy2_wp hi) hg, fun heur p n hh hl b hg => wp_safe (deallocate2_wp hf.ok hf.al hh hi hl) hg,
    fun heur b hh hg => wp_safe (coalesce2_wp hf.ok hf.al hh hi) hg⟩

example : ∀ b, ¬ Goes2 (deallocate2 cfgE (blocksReleasable 2) sysD.pool 1600) sysD.mem b :=
  (dyn_safe_partial cfgE_fine sysD_reach).2.2.2.1 _ 1600 64 two_ok (by decide)

/-- Live allocations stay disjoint and inside memory the parent counts as allocated to the pool; what the parent refused is part of it. -/
theorem dyn_live {cfg : Cfg} (hf : Fine cfg) {S : Sys2} (h : Reach2 cfg S) :
    (S.live.Pairwise fun x y => Disj x.1 x.2 y.1 y.2) ∧
    (∀ l ∈ S.live, cfg.align ∣ l.1 ∧ ∃ o ∈ S.mem.held, Within l.1 l.2 o.1 o.2) ∧
    S.mem.held.Disjoint ∧ ∀ r ∈ S.mem.refused, r ∈ S.mem.held := by
  obtain ⟨lost, leaked, k, hi, _⟩ := reach2_inv hf h
  obtain ⟨q, hq, _⟩ := hi.core
  have hal := hf.ok.al
  refine ⟨?_, ?_, hi.disj, fun r hr => hi.ref_held hr⟩
  · refine List.Pairwise.imp ?_ (QuickPool.Inv.live_disj hq hal)
    intro x y hd
    have hx := (ceil_spec (a := cfg.align) (n := x.2) hal).2.1
    have hy := (ceil_spec (a := cfg.align) (n := y.2) hal).2.1
    unfold Disj at *; omega
  · intro l hl
    obtain ⟨hd, o, ho, h1, h2⟩ := QuickPool.Inv.live_held hq hal hl
    have hx := (ceil_spec (a := cfg.align) (n := l.2) hal).2.1
    exact ⟨hd, o, hi.held.mem_iff.2 (List.mem_append_left _ ho), by unfold Within at *; omega⟩

example : ∀ r ∈ sysD.mem.refused, r ∈ sysD.mem.held := (dyn_live cfgE_fine sysD_reach).2.2.2

/-! ## What was refused is lost -/

/-- A pool hands back `nullptr` or memory that it holds, that was never refused before and in which no live allocation has a byte. -/
theorem dyn_offers {cfg : Cfg} (hf : Fine cfg) {S : Sys2} (h : Reach2 cfg S) {p m : Nat} {M' : Mem} (hp : p ≠ 0) :
    (∀ n, ReqOk cfg n → Offers (allocate2 cfg S.pool n) S.mem p m M' → (p, m) ∈ M'.held ∧ (p, m) ∉ M'.refused ∧ ∀ l ∈ S.live, Disj l.1 l.2 p m) ∧
    (Offers (release2 S.pool) S.mem p m M' → (p, m) ∈ M'.held ∧ (p, m) ∉ M'.refused ∧ ∀ l ∈ S.live, Disj l.1 l.2 p m) ∧
    (Offers (destroy2 S.pool) S.mem p m M' → (p, m) ∈ M'.held ∧ (p, m) ∉ M'.refused ∧ ∀ l ∈ S.live, Disj l.1 l.2 p m) ∧
    (∀ heur q n, HeurOk2 cfg heur → (q, n) ∈ S.live → Offers (deallocate2 cfg heur S.pool q) S.mem p m M' →
      (p, m) ∈ M'.held ∧ (p, m) ∉ M'.refused ∧ ∀ l ∈ drop q S.live, Disj l.1 l.2 p m) ∧
    (∀ heur, HeurOk2 cfg heur → Offers (coalesce2 cfg heur S.pool) S.mem p m M' →
      (p, m) ∈ M'.held ∧ (p, m) ∉ M'.refused ∧ ∀ l ∈ S.live, Disj l.1 l.2 p m) := by
  have hi := reach2_inv hf h
  obtain ⟨_, _, _, hm, hd⟩ := reach2_inv hf h
  have key : ∀ {L : Held} {M' : Mem}, (p = 0 ∨ ((p, m) ∈ M'.held ∧ (p, m) ∉ M'.refused ∧ 0 < m ∧ ∀ l ∈ L, Disj l.1 l.2 p m)) →
      (p, m) ∈ M'.held ∧ (p, m) ∉ M'.refused ∧ ∀ l ∈ L, Disj l.1 l.2 p m := by
    rintro L M' (h0 | ⟨h1, h2, _, h3⟩)
    · exact absurd h0 hp
    · exact ⟨h1, h2, h3⟩
  exact ⟨fun n hn ho => key (wp_offers (allocate2_wp hi hf.ok hn) ho), fun ho => key (wp_offers (release2_wp hm hd) ho),
    fun ho => key (wp_offers (destroy2_wp hi) ho), fun heur q n hh hl ho => key (wp_offers (deallocate2_wp hf.ok hf.al hh hi hl) ho),
    fun heur hh ho => key (wp_offers (coalesce2_wp hf.ok hf.al hh hi) ho)⟩

/-- The pool of `sysC` does offer its free block. -/
example : Offers (release2 sysC.pool) sysC.mem 3190 80 sysC.mem := .here

/-- One refusal and the block is allocated for good: it is among the memory held ever after, and (`dyn_offers`) never handed back again. -/
theorem dyn_leak {cfg : Cfg} (hf : Fine cfg) {S T : Sys2} (h : Reach2 cfg S) (hl : Later cfg S T) {r : Nat × Nat} (hr : r ∈ S.mem.refused) :
    r ∈ T.mem.held ∧ r ∈ T.mem.refused := by
  have hT : r ∈ T.mem.refused := by
    induction hl with
    | refl => exact hr
    | step _ hs ih =>
      cases hs with
      | allocOk _ hr => exact hr.refused r ih
      | allocErr _ hr => exact hr.refused r ih
      | dealloc _ _ hr => exact hr.refused r ih
      | release hr => exact hr.refused r ih
      | coalesce _ hr => exact hr.refused r ih
  exact ⟨(dyn_live hf (Later.trans h hl)).2.2.2 r hT, hT⟩

/-- The second `release` gives `nullptr` back instead, and forgets the block. -/
def sysE : Sys2 :=
  ⟨{ used := [⟨1600, 64, 64⟩], free := [], baseMap := [(1600, 1600, 80)], alignedBytes := 64,
     alignedHwm := 128, actualBytes := 0, actualHwm := 128, releasableBlocks := 2 ^ 64 - 1, totalBlocks := 0 },
   ⟨[(3190, 80), (1600, 80)], [(3190, 80)], false⟩, [(1600, 64)]⟩

theorem sysE_release : Run2 (release2 sysD.pool) sysD.mem (true, sysE.pool) sysE.mem :=
  exec2Ok_run [] [true] (by decide +kernel)

theorem sysE_later : Later cfgE sysD sysE := .step .refl (.release (S := sysD) sysE_release)

example : (3190, 80) ∈ sysE.mem.held ∧ (3190, 80) ∈ sysE.mem.refused :=
  dyn_leak cfgE_fine sysD_reach sysE_later (by simp [sysD])

/-! ## What `release` tells -/

/-- The free list of a pool and the blocks without live allocations. -/
theorem free_count {a : Nat} (ha : 0 < a) {d : State} {O L : Held} (h : DInv a d O L) :
    (d.free.filter fun b => decide (b.size = b.blockSize)).length = (freeBlocks O L).length := by
  obtain ⟨q, hi, hr⟩ := h
  have h1 := (hr.whole_perm hi).length_eq
  have h2 := hi.relBlocks
  have h3 := QuickPool.Inv.relBlocks_eq hi ha
  simp only [List.length_map] at h1
  omega

theorem relAll_free {a : Nat} (ha : 0 < a) {s' : State} {M' : Mem} {L : Held} {lost : List (Nat × Nat × Nat)} {leaked : Held} {k : Cnt}
    (h : InvM a s' M' L lost leaked k) (hr : ∀ b ∈ s'.free, b.size ≠ b.blockSize) : freeBlocks ((s'.baseMap ++ lost).map (·.2)) L = [] ∧
      ∀ r ∈ M'.held, (∀ l ∈ L, Disj l.1 l.2 r.1 r.2) → r ∈ M'.refused := by
  have h0 : freeBlocks ((s'.baseMap ++ lost).map (·.2)) L = [] := by
    rw [← List.length_eq_zero_iff, ← free_count ha h.core, List.length_eq_zero_iff, List.filter_eq_nil_iff]
    intro b hb
    simpa using hr b hb
  refine ⟨h0, fun r hm hd => ?_⟩
  rcases List.mem_append.1 (h.held.mem_iff.1 hm) with hO | hO
  · have h4 : r ∈ freeBlocks ((s'.baseMap ++ lost).map (·.2)) L := mem_free.2 ⟨hO, hd⟩
    rw [h0] at h4
    exact nomatch h4
  · exact h.ref.mem_iff.2 (List.mem_append_right _ hO)

theorem none_whole {l l' : List Blk} (h : l = l'.filter fun b => decide (b.size ≠ b.blockSize)) : ∀ b ∈ l, b.size ≠ b.blockSize := by
  intro b hb
  rw [h] at hb
  simpa using (List.mem_filter.1 hb).2

/-- `release` throws if and only if something was refused just now.  If it returns, everything without a live allocation has been given
back, except what was refused before. -/
theorem dyn_release {cfg : Cfg} (hf : Fine cfg) {S : Sys2} (h : Reach2 cfg S) {ok : Bool} {s' : State} {M' : Mem}
    (hr : Run2 (release2 S.pool) S.mem (ok, s') M') :
    (ok = true → M'.refused = S.mem.refused ∧ M'.nulls = S.mem.nulls ∧
      ∀ r ∈ M'.held, (∀ l ∈ S.live, Disj l.1 l.2 r.1 r.2) → r ∈ S.mem.refused) ∧
    (ok = false → M'.nulls = true ∨ ∃ x, M'.refused = x :: S.mem.refused) := by
  obtain ⟨_, _, _, hm, hd⟩ := reach2_inv hf h
  obtain ⟨⟨lost, leaked, k, hm', _⟩, h2, h3⟩ := wp_run (release2_wp hm hd) hr
  refine ⟨fun ht => ?_, h3⟩
  obtain ⟨k1, k2, k3⟩ := h2 ht
  refine ⟨k2, k3, fun r hr hd => ?_⟩
  have := (relAll_free hf.ok.al hm' (none_whole k1)).2 r hr hd
  rwa [k2] at this

example : ∀ r ∈ sysE.mem.held, (∀ l ∈ sysD.live, Disj l.1 l.2 r.1 r.2) → r ∈ sysD.mem.refused :=
  ((dyn_release cfgE_fine sysD_reach sysE_release).1 rfl).2.2

/-- The destructor throws nothing, and afterwards the pool holds only what is in use and what was refused. -/
theorem dyn_destroy {cfg : Cfg} (hf : Fine cfg) {S : Sys2} (h : Reach2 cfg S) {ok : Bool} {s' : State} {M' : Mem}
    (hr : Run2 (destroy2 S.pool) S.mem (ok, s') M') :
    ok = true ∧ ∀ r ∈ M'.held, (∀ l ∈ S.live, Disj l.1 l.2 r.1 r.2) → r ∈ M'.refused := by
  obtain ⟨⟨lost, leaked, k, hm⟩, h2, h3⟩ := wp_run (destroy2_wp (reach2_inv hf h)) hr
  exact ⟨h2, (relAll_free hf.ok.al hm (none_whole h3)).2⟩

/-- Two free blocks, the first refused: the destructor goes on and gives the other one back. -/
example : ∃ s', Run2 (destroy2 { sysC.pool with used := [], free := [⟨1600, 64, 64⟩, ⟨3200, 64, 64⟩] }) sysC.mem
    (true, s') ⟨[(1600, 80)], [(1600, 80)], false⟩ := by
  refine ⟨⟨[], [], [], 64, 128, 0, 128, 2 ^ 64 - 1, 0⟩, exec2Ok_run [] [false, true] ?_⟩
  decide +kernel

/-! ## Sizes -/

/-- The bytes in use are reported right whatever was refused, also after `deallocate` threw. -/
theorem dyn_in_use {cfg : Cfg} (hf : Fine cfg) {S : Sys2} (h : Reach2 cfg S) :
    getAlignedSize S.pool = liveBytes cfg.align S.live ∧ getInUseBlocks S.pool = S.live.length := by
  obtain ⟨lost, leaked, k, hi, _⟩ := reach2_inv hf h
  obtain ⟨q, hq, hr⟩ := hi.core
  refine ⟨?_, ?_⟩
  · have h1 : S.pool.alignedBytes = q.alignedBytes := hr.aligned
    unfold getAlignedSize; rw [h1]; exact QuickPool.Inv.aligned_eq hq hf.ok.al
  · unfold getInUseBlocks
    have h1 : S.pool.used.length = _ := hr.used.length_eq
    have h2 := hq.live.length_eq
    simp only [List.length_map] at h1 h2
    omega

theorem core_sizes {a : Nat} (ha : 0 < a) {d : State} {lost : List (Nat × Nat × Nat)} {k : Cnt} {O L : Held} (h : DInv a (fix d lost k) O L) :
    k.act = heldBytes a O ∧ k.tot = O.length := by
  obtain ⟨q, hq, hr⟩ := h
  have h1 : k.act = q.actualBytes := hr.actual
  have h2 : k.tot = q.totalBlocks := hr.total
  rw [h1, h2]
  exact ⟨QuickPool.Inv.actual_eq hq ha, QuickPool.Inv.total_eq hq ha⟩

/-- As long as the parent takes `nullptr`, the sizes the pool reports are too small by what was refused, once for every refusal and once
more when the block is forgotten by a later `release`; modulo 2^64. -/
theorem dyn_sizes {cfg : Cfg} (hf : Fine cfg) {S : Sys2} (h : Reach2 cfg S) (hn : S.mem.nulls = false) :
    ∃ kept forgotten : Held, S.mem.refused.Perm (kept ++ forgotten) ∧
      w64 (getActualSize S.pool + heldBytes cfg.align S.mem.refused + heldBytes cfg.align forgotten) = w64 (heldBytes cfg.align S.mem.held) ∧
      w64 (getTotalBlocks S.pool + S.mem.refused.length + forgotten.length) = w64 S.mem.held.length := by
  obtain ⟨lost, leaked, k, hi, db, dn, ho, hd⟩ := reach2_inv hf h
  obtain ⟨d1, d2⟩ := hd hn
  obtain ⟨e1, e2⟩ := core_sizes hf.ok.al hi.core
  refine ⟨_, _, hi.ref, ?_, ?_⟩
  · have h2 := ho.act
    rw [heldBytes_perm hi.held, heldBytes_append, ← e1]
    have d1 : db = heldBytes cfg.align S.mem.refused := d1
    unfold getActualSize
    rw [← d1]
    generalize k.act = x at *
    generalize heldBytes cfg.align leaked = y at *
    unfold w64 W at *
    omega
  · have h2 := ho.tot
    have h3 := hi.held.length_eq
    rw [List.length_append] at h3
    rw [h3, ← e2]
    unfold getTotalBlocks
    rw [← d2]
    generalize k.tot = x at *
    generalize leaked.length = y at *
    unfold w64 W at *
    omega

/-- Nothing refused so far: the size reported is what is held. -/
theorem dyn_sizes_clean {cfg : Cfg} (hf : Fine cfg) {S : Sys2} (h : Reach2 cfg S) (hn : S.mem.nulls = false) (h0 : S.mem.refused = []) :
    getActualSize S.pool = heldBytes cfg.align S.mem.held := by
  obtain ⟨k, f, hp, h1, _⟩ := dyn_sizes hf h hn
  obtain ⟨lost, leaked, _, hi, db, dn, ho, _⟩ := reach2_inv hf h
  rw [h0] at hp h1
  have hkf : k ++ f = [] := List.perm_nil.1 hp.symm
  have hf0 : f = [] := (List.append_eq_nil_iff.1 hkf).2
  subst hf0
  have h2 := heldBytes_le (a := cfg.align) hi.disj hi.range
  have h3 := ho.lt
  have hAM := AMax_add_AMax
  have h4 : 0 < AMax := by decide
  simp only [heldBytes, List.map_nil, List.sum_nil, Nat.add_zero] at h1
  change w64 (getActualSize S.pool) = w64 (heldBytes cfg.align S.mem.held) at h1
  unfold getActualSize at *
  unfold w64 at h1
  rwa [Nat.mod_eq_of_lt h3, Nat.mod_eq_of_lt (by omega)] at h1

example : getActualSize sysC.pool = heldBytes 16 sysC.mem.held ∧ heldBytes 16 sysC.mem.held = 128 :=
  ⟨dyn_sizes_clean cfgE_fine sysC_reach rfl rfl, by decide⟩

/-- The first refusal makes the size reported too small by the size of that block, although the pool still uses it. -/
theorem dyn_first_refusal {cfg : Cfg} (hf : Fine cfg) {S : Sys2} (h : Reach2 cfg S) (h0 : S.mem.refused = []) {s' : State} {M' : Mem}
    (hr : Run2 (release2 S.pool) S.mem (false, s') M') (hn : M'.nulls = false) :
    ∃ p n, M'.refused = [(p, n)] ∧ (p, n) ∈ M'.held ∧ getActualSize s' + (n - cfg.align) = heldBytes cfg.align M'.held := by
  obtain ⟨_, _, _, hm0, hd0⟩ := reach2_inv hf h
  obtain ⟨⟨lost, leaked, k, hm, ⟨db, dn, ho, hd⟩, hl, _⟩, _, h3⟩ := wp_run (release2_wp hm0 hd0) hr
  have hl0 : leaked = [] := by
    cases leaked with
    | nil => rfl
    | cons x xs => have := hl x (by simp); rw [h0] at this; exact nomatch this
  subst hl0
  rcases h3 rfl with h3 | ⟨⟨p, n⟩, hx⟩
  · rw [hn] at h3; exact nomatch h3
  rw [h0] at hx
  obtain ⟨d1, _⟩ := hd hn
  rw [hx] at d1
  simp only [List.map_cons, List.map_nil, List.sum_cons, List.sum_nil, Nat.add_zero] at d1
  have hin : (p, n) ∈ M'.held := hm.ref_held (by rw [hx]; simp)
  refine ⟨p, n, hx, hin, ?_⟩
  have h1 := (core_sizes hf.ok.al hm.core).1
  have h2 := ho.act
  have h5 := heldBytes_le (a := cfg.align) hm.disj hm.range
  have h6 := ho.lt
  have hAM := AMax_add_AMax
  have h8 : n - cfg.align ≤ heldBytes cfg.align M'.held := le_sum_of_mem (List.mem_map.2 ⟨(p, n), hin, rfl⟩)
  rw [heldBytes_perm hm.held, List.append_nil] at h5 h8 ⊢
  dsimp only at h1
  rw [← h1] at h5 h8 ⊢
  unfold getActualSize
  rw [d1] at h2
  dsimp only at h2 h6 ⊢
  generalize k.act = x at *
  generalize s'.actualBytes = y at *
  generalize n - cfg.align = z at *
  clear h1 h3 hm hin hd hx hr ho d1 hm0 hd0 hl
  unfold w64 at h2
  rw [Nat.mod_eq_of_lt (show x < W by have : 0 < AMax := by decide
                                      omega)] at h2
  unfold AMax W at *
  omega

example : ∃ p n, sysD.mem.refused = [(p, n)] ∧ (p, n) ∈ sysD.mem.held ∧ getActualSize sysD.pool + (n - 16) = heldBytes 16 sysD.mem.held :=
  dyn_first_refusal cfgE_fine sysC_reach rfl sysD_release rfl

/-- A pool from which nothing is in use, released without an exception after something was refused, reports a size of at least
2^63 bytes. -/
theorem dyn_absurd_size {cfg : Cfg} (hf : Fine cfg) {S : Sys2} (h : Reach2 cfg S) (hlive : S.live = []) (h0 : S.mem.refused ≠ []) {s' : State}
    {M' : Mem} (hr : Run2 (release2 S.pool) S.mem (true, s') M') (hn : M'.nulls = false) :
    2 ^ 63 ≤ getActualSize s' := by
  obtain ⟨_, _, _, hm0, hd0⟩ := reach2_inv hf h
  obtain ⟨⟨lost, leaked, k, hm, ⟨db, dn, ho, hd⟩, hl, _⟩, h2, _⟩ := wp_run (release2_wp hm0 hd0) hr
  obtain ⟨k1, k2, k3⟩ := h2 rfl
  obtain ⟨d1, _⟩ := hd hn
  have hO : (s'.baseMap ++ lost).map (·.2) = [] := by
    have hfb := (relAll_free hf.ok.al hm (none_whole k1)).1
    rw [hlive] at hfb
    refine List.eq_nil_iff_forall_not_mem.2 fun r hr => ?_
    have h4 : r ∈ freeBlocks ((s'.baseMap ++ lost).map (·.2)) [] := mem_free.2 ⟨hr, by simp⟩
    rw [hfb] at h4
    exact nomatch h4
  have hlost : lost = [] := by
    cases lost with
    | nil => rfl
    | cons x xs => simp at hO
  have h1 := (core_sizes hf.ok.al hm.core).1
  dsimp only at h1
  rw [hO] at h1
  have hact := ho.act
  rw [h1] at hact
  have href : M'.refused.Perm leaked := by have := hm.ref; rw [hlost] at this; simpa using this
  have hheld : M'.held.Perm leaked := by have := hm.held; dsimp only at this; rw [hO] at this; simpa using this
  have hle := heldBytes_le (a := cfg.align) hm.disj hm.range
  rw [heldBytes_perm hheld] at hle
  have hdb : db = heldBytes cfg.align leaked := by rw [← heldBytes_perm href]; exact d1
  have hpos : 0 < heldBytes cfg.align leaked := by
    cases leaked with
    | nil => rw [← k2] at h0; exact absurd (List.perm_nil.1 href) h0
    | cons x xs =>
      have := hm.big x (by simp)
      simp only [heldBytes, List.map_cons, List.sum_cons]
      omega
  have hlt := ho.lt
  rw [hdb] at hact
  have hlt : s'.actualBytes < W := hlt
  have hact : w64 (s'.actualBytes + heldBytes cfg.align leaked) = 0 := hact
  unfold getActualSize
  generalize heldBytes cfg.align leaked = x at *
  generalize s'.actualBytes = y at *
  clear h1 hm hm0 hd0 hd hr ho hl
  unfold w64 W AMax at *
  omega

/-- One block, deallocated. -/
def sysQ : Sys2 :=
  ⟨{ used := [], free := [⟨1600, 64, 64⟩], baseMap := [(1600, 1600, 80)], alignedBytes := 0, alignedHwm := 64, actualBytes := 64,
     actualHwm := 64, releasableBlocks := 1, totalBlocks := 1 }, ⟨[(1600, 80)], [], false⟩, []⟩

theorem sysQ_dealloc : Run2 (deallocate2 cfgE (blocksReleasable 2) sysA.pool 1600) sysA.mem (true, sysQ.pool) sysQ.mem :=
  exec2Ok_run [] [] (by decide +kernel)

theorem sysQ_reach : Reach2 cfgE sysQ := .step sysA_reach (.dealloc (S := sysA) (n := 64) two_ok (by decide) sysQ_dealloc)

/-- Refused. -/
def sysR : Sys2 :=
  ⟨{ sysQ.pool with baseMap := [], totalBlocks := 0, releasableBlocks := 0, actualBytes := 0 },
   ⟨[(1600, 80)], [(1600, 80)], false⟩, []⟩

theorem sysR_release : Run2 (release2 sysQ.pool) sysQ.mem (false, sysR.pool) sysR.mem := exec2Ok_run [] [false] (by decide +kernel)

theorem sysR_reach : Reach2 cfgE sysR := .step sysQ_reach (.release (S := sysQ) sysR_release)

/-- Released again: the pool reports 2^64 - 64 bytes. -/
example : ∃ s', Run2 (release2 sysR.pool) sysR.mem (true, s') sysR.mem ∧ getActualSize s' = 2 ^ 64 - 64 ∧ 2 ^ 63 ≤ getActualSize s' := by
  have h : Run2 (release2 sysR.pool) sysR.mem
      (true, ⟨[], [], [], 0, 64, 2 ^ 64 - 64, 64, 2 ^ 64 - 1, 2 ^ 64 - 1⟩) sysR.mem :=
    exec2Ok_run [] [true] (by decide +kernel)
  exact ⟨_, h, rfl, dyn_absurd_size cfgE_fine sysR_reach rfl (by simp [sysR]) h rfl⟩

/-! ## Exceptions -/

theorem known_refusal {kept rest : List Blk} {s : State} {M : Mem} {b : Blk} (hb : b ∈ rest) (hw : b.size = b.blockSize)
    (hnd : rest.Pairwise fun x y => x.data < y.data) {e : Nat × Nat × Nat} (he : e ∈ s.baseMap) (hk : e.1 = b.data) :
    ∃ s' M', Run2 (freeLoop2 false kept rest s) M (false, s') M' := by
  induction rest generalizing kept s M with
  | nil => exact nomatch hb
  | cons x xs ih =>
    rw [List.pairwise_cons] at hnd
    unfold freeLoop2
    by_cases hx : x.size = x.blockSize
    · rw [if_pos hx]
      unfold alignedDealloc2
      simp only
      cases hb' : s.baseMap.find? (fun e => decide (e.1 = x.data)) with
      | some e' => exact ⟨_, _, .dealloc false .ret⟩
      | none =>
        rcases List.mem_cons.1 hb with rfl | hb
        · exact absurd hk (by simpa using List.find?_eq_none.1 hb' e he)
        · have hlt := hnd.1 b hb
          have he' : e ∈ s.baseMap.filter fun y => decide (y.1 ≠ x.data) :=
            List.mem_filter.2 ⟨he, by rw [hk]; simpa using Nat.ne_of_gt hlt⟩
          obtain ⟨s', M', hrun⟩ := ih (kept := kept)
            (s := { s with
              actualBytes := sub64 s.actualBytes x.size, releasableBlocks := sub64 s.releasableBlocks 1, totalBlocks := sub64 s.totalBlocks 1
              baseMap := s.baseMap.filter fun y => decide (y.1 ≠ x.data), free := kept ++ xs })
            (M := M.back 0 0 true) hb hnd.2 he'
          exact ⟨s', M', .dealloc true hrun⟩
    · rw [if_neg hx]
      rcases List.mem_cons.1 hb with rfl | hb
      · exact absurd hw hx
      · exact ih hb hnd.2 he

/-- The free blocks that were not refused before. -/
theorem whole_of_held {cfg : Cfg} (hf : Fine cfg) {s : State} {M : Mem} {L : Held} (h : InvF cfg.align s M L) {r : Nat × Nat} (hr : r ∈ M.held)
    (hn : r ∉ M.refused) (hd : ∀ l ∈ L, Disj l.1 l.2 r.1 r.2) :
    ∃ b ∈ s.free, b.size = b.blockSize ∧ (s.free.Pairwise fun x y => x.data < y.data) ∧ ∃ e ∈ s.baseMap, e.1 = b.data ∧ e.2 = r := by
  obtain ⟨lost, leaked, k, hi, _⟩ := h
  have hO : r ∈ (s.baseMap ++ lost).map (·.2) := by
    rcases List.mem_append.1 (hi.held.mem_iff.1 hr) with hO | hO
    · exact hO
    · exact absurd (hi.ref.mem_iff.2 (List.mem_append_right _ hO)) hn
  obtain ⟨q, hq, hrel⟩ := hi.core
  obtain ⟨b, hb, hu, hwi⟩ := QuickPool.Inv.block_of_held hq hf.ok.al hO
  obtain ⟨c, rfl, hcf⟩ := (QuickPool.Inv.block_free hq hf.ok.al hb hO hu).1 hd
  have hcm : c ∈ q.blocks.flatten := List.mem_flatten.2 ⟨[c], hb, by simp⟩
  have hw : c.size = c.chunkSize := by
    have := (hq.blk [c] hb).csize c (by simp)
    simp only [QuickPool.bsize_cons, QuickPool.bsize_nil] at this
    omega
  obtain ⟨e, he, heq⟩ := List.mem_map.1 hO
  have hem : e ∈ s.baseMap := by
    rcases List.mem_append.1 he with he | he
    · exact he
    · refine absurd (hi.ref.mem_iff.2 (List.mem_append_left _ (List.mem_map.2 ⟨e, he, heq⟩))) hn
  have hbase : (fix s lost k).baseMap = q.baseMap := hrel.base
  have hk : e.1 = c.data := by
    rw [QuickPool.Inv.key_ceil hq hf.ok.al (by rw [← hbase]; exact he)]
    have : ceil cfg.align r.1 = c.data := congrArg Prod.fst hu
    have h2 : e.2 = r := heq
    rw [h2]; exact this
  refine ⟨toBlk (q.blocks.map start) c, ?_, (whole_iff hq hcm).2 hw, hrel.sorted, e, hem, hk, heq⟩
  exact hrel.free.mem_iff.2 (List.mem_map.2 ⟨c, List.mem_filter.2 ⟨hcm, hcf⟩, rfl⟩)

/-- A block that is entirely free and was not refused before can be refused. -/
theorem dyn_release_can_throw {cfg : Cfg} (hf : Fine cfg) {S : Sys2} (h : Reach2 cfg S) {r : Nat × Nat} (hr : r ∈ S.mem.held)
    (hn : r ∉ S.mem.refused) (hd : ∀ l ∈ S.live, Disj l.1 l.2 r.1 r.2) :
    ∃ s' M', Run2 (release2 S.pool) S.mem (false, s') M' := by
  obtain ⟨b, hb, hw, hs, e, he, hk, _⟩ := whole_of_held hf (reach2_inv hf h) hr hn hd
  exact known_refusal hb hw hs he hk

example : ∃ s' M', Run2 (release2 sysC.pool) sysC.mem (false, s') M' :=
  dyn_release_can_throw cfgE_fine sysC_reach (r := (3190, 80)) (by decide) (by decide) (by decide)

theorem coalesce_can_throw {cfg : Cfg} (hf : Fine cfg) {s : State} {M : Mem} {L : Held} (h : InvF cfg.align s M L) (sug : Nat)
    {r r' : Nat × Nat} (hr : r ∈ M.held) (hn : r ∉ M.refused) (hd : ∀ l ∈ L, Disj l.1 l.2 r.1 r.2)
    (hr' : r' ∈ M.held) (hn' : r' ∉ M.refused) (hd' : ∀ l ∈ L, Disj l.1 l.2 r'.1 r'.2) (hne : r ≠ r') :
    ∃ s' M', Run2 (coalesceTo2 cfg s sug) M (false, s') M' := by
  obtain ⟨b, hb, hw, hs, e, he, hk, her⟩ := whole_of_held hf h hr hn hd
  obtain ⟨b', hb', hw', _, e', he', hk', her'⟩ := whole_of_held hf h hr' hn' hd'
  have hbb : b ≠ b' := by
    rintro rfl
    obtain ⟨lost, leaked, k, hi, _⟩ := h
    have := nodup_map_inj hi.keys (List.mem_append_left _ he) (List.mem_append_left _ he') (hk.trans hk'.symm)
    subst this
    exact hne (her.symm.trans her')
  have h1 : 1 < getFreeBlocks s := by
    unfold getFreeBlocks
    have m1 : b ∈ s.free.filter fun b => decide (b.size = b.blockSize) := List.mem_filter.2 ⟨hb, by simpa using hw⟩
    have m2 : b' ∈ s.free.filter fun b => decide (b.size = b.blockSize) := List.mem_filter.2 ⟨hb', by simpa using hw'⟩
    generalize (s.free.filter fun b => decide (b.size = b.blockSize)) = l at *
    match l, m1, m2 with
    | [], m1, _ => exact nomatch m1
    | [x], m1, m2 => simp at m1 m2; exact absurd (m1.trans m2.symm) hbb
    | x :: y :: l, _, _ => simp
  obtain ⟨s', M', hrun⟩ := known_refusal (kept := []) (s := s) (M := M) hb hw hs he hk
  refine ⟨s', M', ?_⟩
  unfold coalesceTo2
  rw [if_pos h1]
  exact Run2.bind hrun (by simp only [Bool.false_eq_true, if_false]; exact .ret)

/-- A refusal while a pool coalesces ends the program (`coalesce` is `noexcept`): whenever the heuristic asks for it and two blocks without
live allocations were not refused before. -/
theorem dyn_coalesce_terminates {cfg : Cfg} (hf : Fine cfg) {S : Sys2} (h : Reach2 cfg S) {heur : State → Nat} (hheur : heur S.pool ≠ 0)
    {r r' : Nat × Nat} (hr : r ∈ S.mem.held) (hn : r ∉ S.mem.refused) (hd : ∀ l ∈ S.live, Disj l.1 l.2 r.1 r.2)
    (hr' : r' ∈ S.mem.held) (hn' : r' ∉ S.mem.refused) (hd' : ∀ l ∈ S.live, Disj l.1 l.2 r'.1 r'.2) (hne : r ≠ r') :
    Goes2 (coalesce2 cfg heur S.pool) S.mem .abort := by
  obtain ⟨s', M', hrun⟩ := coalesce_can_throw hf (reach2_inv hf h) (heur S.pool) hr hn hd hr' hn' hd' hne
  unfold coalesce2
  rw [if_pos hheur]
  exact Goes2.bind hrun .fail

/-- In the user's `deallocate` the same refusal is an exception, thrown after the allocation has been given up. -/
theorem dyn_deallocate_throws {cfg : Cfg} (hf : Fine cfg) {S : Sys2} (h : Reach2 cfg S) {p n : Nat} (hl : (p, n) ∈ S.live) {heur : State → Nat}
    (hh : HeurOk2 cfg heur) (hheur : heur (deallocCore2 S.pool p) ≠ 0)
    {r r' : Nat × Nat} (hr : r ∈ S.mem.held) (hn : r ∉ S.mem.refused) (hd : ∀ l ∈ drop p S.live, Disj l.1 l.2 r.1 r.2)
    (hr' : r' ∈ S.mem.held) (hn' : r' ∉ S.mem.refused) (hd' : ∀ l ∈ drop p S.live, Disj l.1 l.2 r'.1 r'.2) (hne : r ≠ r') :
    ∃ s' M', Run2 (deallocate2 cfg heur S.pool p) S.mem (false, s') M' ∧ Reach2 cfg ⟨s', M', drop p S.live⟩ ∧
      getAlignedSize s' = liveBytes cfg.align (drop p S.live) := by
  obtain ⟨s', M', hrun⟩ := coalesce_can_throw hf (deallocCore2_inv (reach2_inv hf h) hl) (heur (deallocCore2 S.pool p)) hr hn hd hr' hn' hd' hne
  have hrun' : Run2 (deallocate2 cfg heur S.pool p) S.mem (false, s') M' := by
    unfold deallocate2
    dsimp only
    rw [if_pos hheur]
    exact hrun
  have hre : Reach2 cfg ⟨s', M', drop p S.live⟩ := .step h (.dealloc hh hl hrun')
  exact ⟨s', M', hrun', hre, (dyn_in_use hf hre).1⟩

end

/-- Two blocks, one of them deallocated: the second `deallocate` throws although it has deallocated. -/
example : ∃ s' M', Run2 (deallocate2 cfgE (blocksReleasable 2) sysC.pool 1600) sysC.mem (false, s') M' ∧
    Reach2 cfgE ⟨s', M', drop 1600 sysC.live⟩ ∧ getAlignedSize s' = 0 :=
  dyn_deallocate_throws cfgE_fine sysC_reach (n := 64) (by decide) two_ok (by decide +kernel) (r := (3190, 80)) (r' := (1600, 80))
    (by decide) (by decide) (by decide) (by decide) (by decide) (by decide) (by decide)

/-- Both blocks free, nothing in use. -/
def sysF : Sys2 :=
  ⟨{ used := [], free := [⟨1600, 64, 64⟩, ⟨3200, 64, 64⟩], baseMap := [(3200, 3190, 80), (1600, 1600, 80)], alignedBytes := 0,
     alignedHwm := 128, actualBytes := 128, actualHwm := 128, releasableBlocks := 2, totalBlocks := 2 },
   ⟨[(3190, 80), (1600, 80)], [], false⟩, []⟩

theorem sysF_dealloc : Run2 (deallocate2 cfgE (blocksReleasable 3) sysC.pool 1600) sysC.mem (true, sysF.pool) sysF.mem :=
  exec2Ok_run [] [] (by decide +kernel)

theorem sysF_reach : Reach2 cfgE sysF :=
  .step sysC_reach (.dealloc (S := sysC) (n := 64) (builtIn_ok2 (.blocks 3) (by decide)) (by decide) sysF_dealloc)

example : Goes2 (coalesce2 cfgE (blocksReleasable 2) sysF.pool) sysF.mem .abort :=
  dyn_coalesce_terminates cfgE_fine sysF_reach (by decide +kernel) (r := (3190, 80)) (r' := (1600, 80))
    (by decide) (by decide) (by decide) (by decide) (by decide) (by decide) (by decide)

end Umpire.Deny.Dyn
