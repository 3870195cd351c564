import Verif.QuickPool.Poison
import Verif.Base.Gran
/-!
# `QuickPool` and the granules of the address sanitizer (C62)

`Poison.lean` with the sanitizer as it is: one number for every eight bytes (`Base/Gran.lean`).  The
functions with their calls to the sanitizer are those of `Poison.lean`.
-/
set_option autoImplicit false
set_option linter.unusedSimpArgs false
namespace Umpire.QuickPool
open Umpire Umpire.Prog

/-- One user operation, or something others do with the sanitizer with other memory. -/
inductive StepG (cfg : Cfg) : Sys → Shadow → Sys → Shadow → Prop where
  | allocOk {S : Sys} {sh sh' : Shadow} {n p s' O'} : ReqOk cfg n →
      Run (allocateS cfg S.pool sh n) S.held ((some p, s'), sh') O' → StepG cfg S sh ⟨s', O', (p, n) :: S.live⟩ sh'
  | allocErr {S : Sys} {sh sh' : Shadow} {n s' O'} : ReqOk cfg n →
      Run (allocateS cfg S.pool sh n) S.held ((none, s'), sh') O' → StepG cfg S sh ⟨s', O', S.live⟩ sh'
  | dealloc {S : Sys} {sh sh' : Shadow} {p n fuel s' O'} : (p, n) ∈ S.live →
      Run (deallocateS cfg fuel S.pool sh p) S.held (s', sh') O' → StepG cfg S sh ⟨s', O', drop p S.live⟩ sh'
  | release {S : Sys} {sh : Shadow} {s' O'} : Run (QuickPool.release S.pool) S.held s' O' →
      StepG cfg S sh ⟨s', O', S.live⟩ sh
  | coalesce {S : Sys} {sh sh' : Shadow} {fuel s' O'} :
      Run (coalesceS cfg fuel S.pool sh) S.held (s', sh') O' → StepG cfg S sh ⟨s', O', S.live⟩ sh'
  | others {S : Sys} {sh sh' : Shadow} : Spares S.held sh sh' →
      StepG cfg S sh S sh'

/-- Everything that can happen to a pool, from its construction on, whatever was
marked before. -/
inductive ReachG (cfg : Cfg) : Sys → Shadow → Prop where
  | init {sh : Shadow} : ReachG cfg ⟨init, [], []⟩ sh
  | step {S T : Sys} {sh sh' : Shadow} : ReachG cfg S sh → StepG cfg S sh T sh' → ReachG cfg T sh'

theorem reachG_reach {cfg : Cfg} {S : Sys} {sh : Shadow} (h : ReachG cfg S sh) : Reach cfg S := by
  induction h with
  | init => exact .init
  | step _ hs ih =>
    cases hs with
    | allocOk hn hr => exact .step ih (.allocOk hn (run_erase (allocateS_erase ..) hr))
    | allocErr hn hr => exact .step ih (.allocErr hn (run_erase (allocateS_erase ..) hr))
    | dealloc hL hr => exact .step ih (.dealloc hL (run_erase (deallocateS_erase ..) hr))
    | release hr => exact .step ih (.release hr)
    | coalesce hr => exact .step ih (.coalesce (run_erase (coalesceS_erase ..) hr))
    | others => exact ih

/-- Nothing is lost: every history has its marked version. -/
theorem reach_reachG {cfg : Cfg} {S : Sys} (h : Reach cfg S) : ∃ sh, ReachG cfg S sh := by
  induction h with
  | init => exact ⟨[], .init⟩
  | step _ hs ih =>
    obtain ⟨sh, ih⟩ := ih
    cases hs with
    | allocOk hn hr =>
      obtain ⟨sh', h'⟩ := run_lift (allocateS_erase cfg _ sh _) hr
      exact ⟨sh', .step ih (.allocOk hn h')⟩
    | allocErr hn hr =>
      obtain ⟨sh', h'⟩ := run_lift (allocateS_erase cfg _ sh _) hr
      exact ⟨sh', .step ih (.allocErr hn h')⟩
    | dealloc hL hr =>
      obtain ⟨sh', h'⟩ := run_lift (deallocateS_erase cfg _ _ sh _) hr
      exact ⟨sh', .step ih (.dealloc hL h')⟩
    | release hr => exact ⟨sh, .step ih (.release hr)⟩
    | coalesce hr =>
      obtain ⟨sh', h'⟩ := run_lift (coalesceS_erase cfg _ _ sh) hr
      exact ⟨sh', .step ih (.coalesce h')⟩

/-! ## The marking is kept -/

theorem allocateS_marking {cfg : Cfg} (hc : CfgOk cfg) {M : Held → Held → Shadow → Prop} (hM : Marking cfg.align M) {s : State} {O O' L : Held} (h : Inv cfg.align s O L) {sh sh' : Shadow}
    (hm : M O L sh) {n : Nat} (hn : ReqOk cfg n) {r : Option Nat} {s' : State}
    (hr : Run (allocateS cfg s sh n) O ((r, s'), sh') O') :
    M O' (match r with | some p => (p, n) :: L | none => L) sh' := by
  have hal : ∀ p, r = some p → cfg.align ∣ p := by
    rintro p rfl
    have hpost := wp_run (allocate_wp h hc hn) (run_erase (allocateS_erase ..) hr)
    simp only [AllocPost] at hpost
    exact (Inv.live_held hpost.1 hc.al List.mem_cons_self).1
  unfold allocateS at hr
  simp only at hr
  split at hr
  · cases hr with
    | allocOk hp hr =>
      cases hr
      exact hM.alloc (hM.grow hm hp.2.2 fun l hl => Inv.held_of_live hc.al h hl) (hal _ rfl)
    | allocFail hr =>
      obtain ⟨s1, O1, h1, h2⟩ := Run.of_bind hr
      obtain ⟨hO1, hi1, -⟩ := release_used hc.al h h1
      have hm1 : M O1 L sh := hM.sublist hm (by rw [hO1]; exact List.filter_sublist)
      cases h2 with
      | allocOk hp h2 =>
        cases h2
        exact hM.alloc (hM.grow hm1 hp.2.2 fun l hl => Inv.held_of_live hc.al hi1 hl) (hal _ rfl)
      | allocFail h2 => cases h2; exact hm1
  · split at hr
    · cases hr
    · cases hr
      exact hM.alloc hm (hal _ rfl)

theorem deallocCore_marking {a : Nat} (ha : 0 < a) {M : Held → Held → Shadow → Prop} (hM : Marking a M) {s : State} {O L : Held} (h : Inv a s O L) {sh : Shadow} (hm : M O L sh)
    {p n : Nat} (hL : (p, n) ∈ L) : M O (drop p L) (.poison p (sizeAt s p) :: sh) := by
  rw [Inv.sizeAt_eq ha h hL]
  refine hM.free hm (Inv.live_held h ha hL).1 (ceil_spec ha).1 ?_ ?_
  · intro l hl
    obtain ⟨hl, hne⟩ := mem_drop.1 hl
    have := pairwise_mem (Inv.live_disj h ha) (fun _ _ => Disj.symm) hl hL (fun he => hne (by rw [he]))
    have hc := (ceil_spec (a := a) (n := l.2) ha).2.1
    unfold Disj at *
    simp only at this
    omega
  · intro l hl he
    rw [Inv.live_inj h hl hL he]
    exact (ceil_spec (a := a) (n := n) ha).2.1

theorem deallocWithS_marking {cfg : Cfg} (hc : CfgOk cfg) {M : Held → Held → Shadow → Prop} (hM : Marking cfg.align M) {co : State → Shadow → Nat → Prog (State × Shadow)} {s s' : State}
    {O O' L : Held} {sh sh' : Shadow} {p n : Nat} (h : Inv cfg.align s O L) (hm : M O L sh) (hL : (p, n) ∈ L)
    (hco : ∀ s O L sh s' O' sh', Inv cfg.align s O L → M O L sh → Run (co s sh (cfg.heur s)) O (s', sh') O' → M O' L sh')
    (hr : Run (deallocWithS cfg co s sh p) O (s', sh') O') : M O' (drop p L) sh' := by
  obtain ⟨s1, hs1, hi1⟩ := deallocCore_inv h hL
  have hm1 := deallocCore_marking hc.al hM h hm hL
  simp only [deallocWithS, hs1] at hr
  split at hr
  · exact hco _ _ _ _ _ _ _ hi1 hm1 hr
  · cases hr; exact hm1

theorem doCoalesceS_marking {cfg : Cfg} (hc : CfgOk cfg) {M : Held → Held → Shadow → Prop} (hM : Marking cfg.align M) (hh : HeurOk cfg) {fuel : Nat} {s s' : State} {O O' L : Held}
    {sh sh' : Shadow} {g : Nat} (h : Inv cfg.align s O L) (hg : g + 2 * cfg.align ≤ W) (hm : M O L sh)
    (hr : Run (doCoalesceS cfg fuel s sh g) O (s', sh') O') : M O' L sh' := by
  induction fuel generalizing s O L sh g s' O' sh' with
  | zero => unfold doCoalesceS at hr; cases hr
  | succ fuel ih =>
    unfold doCoalesceS at hr
    split at hr
    · obtain ⟨s1, O1, hr1, hr⟩ := Run.of_bind hr
      obtain ⟨hO1, hi1, -⟩ := release_used hc.al h hr1
      have hm1 : M O1 L sh := hM.sublist hm (by rw [hO1]; exact List.filter_sublist)
      split at hr
      · have hreq : ReqOk cfg (g - s1.actualBytes) := ⟨by omega, by omega⟩
        obtain ⟨⟨⟨r, s2⟩, sh2⟩, O2, hr2, hr⟩ := Run.of_bind hr
        have hm2 := allocateS_marking hc hM hi1 hm1 hreq hr2
        have hpost := wp_run (allocate_wp hi1 hc hreq) (run_erase (allocateS_erase ..) hr2)
        cases r with
        | none => cases hr
        | some p =>
          simp only [AllocPost] at hpost
          replace hpost := hpost.1
          have hnd := hpost.live_fst_nodup
          simp only [List.map_cons, List.nodup_cons, List.mem_map, not_exists, not_and] at hnd
          have hdr := drop_cons_fresh (L := L) (p := p) (n := g - s1.actualBytes) (fun r hr => fun he => hnd.1 r hr he)
          have := deallocWithS_marking hc hM hpost hm2 List.mem_cons_self
            (fun s O L sh s' O' sh' hi hm hr => ih hi (hh s O L hi) hm hr) hr
          rwa [hdr] at this
      · cases hr; exact hm1
    · cases hr; exact hm

theorem reachG_marking {cfg : Cfg} (hc : CfgOk cfg) {M : Held → Held → Shadow → Prop} (hM : Marking cfg.align M) (hh : HeurOk cfg) {S : Sys} {sh : Shadow} 
    (hO : ∀ S sh sh', Reach cfg S → M S.held S.live sh → Spares S.held sh sh' → M S.held S.live sh') (h : ReachG cfg S sh) :
    M S.held S.live sh := by
  induction h with
  | init => exact hM.nil
  | step hS hs ih =>
    have hi := reach_inv hc hh (reachG_reach hS)
    cases hs with
    | allocOk hn hr => exact allocateS_marking hc hM hi ih hn hr
    | allocErr hn hr => exact allocateS_marking hc hM hi ih hn hr
    | dealloc hL hr =>
      exact deallocWithS_marking hc hM hi ih hL (fun s O L sh s' O' sh' hi hm hr => doCoalesceS_marking hc hM hh hi (hh s O L hi) hm hr) hr
    | release hr =>
      obtain ⟨hO1, -, -⟩ := release_used hc.al hi hr
      exact hM.sublist ih (by rw [hO1]; exact List.filter_sublist)
    | coalesce hr =>
      unfold coalesceS at hr
      split at hr
      · exact doCoalesceS_marking hc hM hh hi (hh _ _ _ hi) ih hr
      · cases hr; exact ih
    | others ho => exact hO _ _ _ (reachG_reach hS) ih ho


/-! ## C62 -/

/-- With alignments that are multiples of eight the sanitizer as it is never reports an access to a live allocation, and
reports every other access to memory the pool holds, except in a granule that the pool shares with the memory around a
block of its parent. -/
theorem quickpool_gran_exact {cfg : Cfg} (hc : CfgOk cfg) (h8 : 8 ∣ cfg.align) (hh : HeurOk cfg) {S : Sys} {sh : Shadow} (h : ReachG cfg S sh) :
    (∀ l ∈ S.live, ∀ b, Covers l b → reported sh b = false) ∧
    (∀ o ∈ S.held, ∀ b, Inner o b → (∀ l ∈ S.live, ¬ Covers l b) → reported sh b = true) := by
  have hm := reachG_marking hc (gmarked_marking h8) hh (fun _ _ _ _ hm ho => hm.others ho) h
  have hi := reach_inv hc hh (reachG_reach h)
  constructor
  · intro l hl b hb
    obtain ⟨had, o, ho, hw1, hw2⟩ := Inv.live_held hi hc.al hl
    have hp : 8 ∣ l.1 := Nat.dvd_trans h8 had
    have hn : 8 ∣ ceil cfg.align l.2 := Nat.dvd_trans h8 (ceil_spec hc.al).1
    have hle := (ceil_spec (a := cfg.align) (n := l.2) hc.al).2.1
    have hbo : Inner o b := by unfold Inner; unfold Covers Within at *; omega
    cases hp : reported sh b with
    | false => rfl
    | true => exact absurd ⟨l, hl, hb⟩ ((hm o ho b hbo).1 hp)
  · intro o ho b hb hn
    exact (hm o ho b hb).2 fun ⟨l, hl, hlb⟩ => hn l hl hlb

/-- If the blocks of the parent begin and end at multiples of eight nothing is excepted. -/
theorem quickpool_gran_whole {cfg : Cfg} (hc : CfgOk cfg) (h8 : 8 ∣ cfg.align) (hh : HeurOk cfg) {S : Sys} {sh : Shadow} (h : ReachG cfg S sh)
    (ho8 : ∀ o ∈ S.held, 8 ∣ o.1 ∧ 8 ∣ o.2) :
    ∀ o ∈ S.held, ∀ b, Covers o b → (reported sh b = false ↔ ∃ l ∈ S.live, Covers l b) := by
  intro o ho b hb
  have hx := quickpool_gran_exact hc h8 hh h
  obtain ⟨h1, h2⟩ := ho8 o ho
  constructor
  · intro hf
    refine Classical.byContradiction fun hn => ?_
    have := hx.2 o ho b (by unfold Inner; unfold Covers at hb; omega) fun l hl hlb => hn ⟨l, hl, hlb⟩
    rw [hf] at this
    exact absurd this (by decide)
  · rintro ⟨l, hl, hlb⟩
    exact hx.1 l hl b hlb

/-- Whatever the alignment, the sanitizer as it is never reports an access to a live allocation. -/
theorem quickpool_gran_quiet {cfg : Cfg} (hc : CfgOk cfg) (hh : HeurOk cfg) {S : Sys} {sh : Shadow} (h : ReachG cfg S sh) :
    ∀ l ∈ S.live, ∀ b, Covers l b → reported sh b = false :=
  reachG_marking hc (quiet_marking cfg.align) hh
    (fun _ _ _ hr hm ho => hm.others (fun _ hl => Inv.held_of_live hc.al (reach_inv hc hh hr) hl) ho) h

/-- Alignment 4. -/
def cfgF : Cfg := { cfgX with align := 4 }

theorem cfgF_ok : CfgOk cfgF := ⟨by decide, by decide, by decide⟩

theorem cfgF_heur : HeurOk cfgF := builtIn_heurOk (cfg := cfgF) cfgX_builtIn (by decide)

/-- The pool after `allocate(4)`, after a second one, and after giving the first back. -/
def poolF1 : State :=
  { blocks := [[⟨0, 1600, 4, 64, false⟩, ⟨1, 1604, 60, 64, true⟩]], sizeMap := [(60, 1)], ptrMap := [(1600, 0)], baseMap := [(1600, 1600, 68)], nextId := 2, totalBlocks := 1, releasableBlocks := 0,
    alignedBytes := 4, alignedHwm := 4, actualBytes := 64, releasableBytes := 0, actualHwm := 64 }

@[inherit_doc poolF1]
def poolF2 : State :=
  { blocks := [[⟨0, 1600, 4, 64, false⟩, ⟨1, 1604, 4, 64, false⟩, ⟨2, 1608, 56, 64, true⟩]], sizeMap := [(56, 2)], ptrMap := [(1604, 1), (1600, 0)], baseMap := [(1600, 1600, 68)], nextId := 3, totalBlocks := 1, releasableBlocks := 0,
    alignedBytes := 8, alignedHwm := 8, actualBytes := 64, releasableBytes := 0, actualHwm := 64 }

@[inherit_doc poolF1]
def poolF3 : State :=
  { blocks := [[⟨0, 1600, 4, 64, true⟩, ⟨1, 1604, 4, 64, false⟩, ⟨2, 1608, 56, 64, true⟩]], sizeMap := [(4, 0), (56, 2)], ptrMap := [(1604, 1)], baseMap := [(1600, 1600, 68)], nextId := 3, totalBlocks := 1, releasableBlocks := 0,
    alignedBytes := 4, alignedHwm := 8, actualBytes := 64, releasableBytes := 0, actualHwm := 64 }

/-- With alignment 4, after `allocate(4)` twice and giving the first back: the sanitizer does not report an access to
the freed bytes, because the other four bytes of the granule are in use. -/
theorem quickpool_gran_counterexample : ∃ (cfg : Cfg) (S : Sys) (sh : Shadow), CfgOk cfg ∧ HeurOk cfg ∧ ReachG cfg S sh ∧
    (∀ o ∈ S.held, 8 ∣ o.1) ∧ ∃ o ∈ S.held, ∃ b, Inner o b ∧ (∀ l ∈ S.live, ¬ Covers l b) ∧ reported sh b = false := by
  have h1 : StepG cfgF ⟨init, [], []⟩ [] ⟨poolF1, [(1600, 68)], [(1600, 4)]⟩ [.unpoison 1600 4, .poison 1600 68] :=
    .allocOk ⟨by decide, by decide⟩ (execOk_run [some 1600] (by decide +kernel))
  have h2 : StepG cfgF ⟨poolF1, [(1600, 68)], [(1600, 4)]⟩ [.unpoison 1600 4, .poison 1600 68]
      ⟨poolF2, [(1600, 68)], [(1604, 4), (1600, 4)]⟩ [.unpoison 1604 4, .unpoison 1600 4, .poison 1600 68] :=
    .allocOk ⟨by decide, by decide⟩ (execOk_run [] (by decide +kernel))
  have h3 : StepG cfgF ⟨poolF2, [(1600, 68)], [(1604, 4), (1600, 4)]⟩ [.unpoison 1604 4, .unpoison 1600 4, .poison 1600 68]
      ⟨poolF3, [(1600, 68)], [(1604, 4)]⟩ [.poison 1600 4, .unpoison 1604 4, .unpoison 1600 4, .poison 1600 68] :=
    .dealloc (p := 1600) (n := 4) (fuel := 5) (by decide) (execOk_run [] (by decide +kernel))
  exact ⟨_, _, _, cfgF_ok, cfgF_heur, .step (.step (.step .init h1) h2) h3, by decide, (1600, 68), by decide, 1600, by decide, by decide, by decide⟩

/-- `quickpool_gran_exact` on the state of `Props.lean`: the last byte of the second allocation, the rounding behind it
and the freed allocation; `quickpool_gran_whole` does not apply, since a block begins at 3190. -/
example : ∃ sh, ReachG cfgX sysX sh ∧ reported sh 1655 = false ∧ reported sh 1656 = true ∧ reported sh 3200 = true := by
  obtain ⟨sh, h⟩ := reach_reachG sysX_reach
  have := quickpool_gran_exact cfgX_ok (by decide) cfgX_heur h
  exact ⟨sh, h, this.1 (1616, 40) (by decide) _ (by decide), this.2 (1600, 80) (by decide) _ (by decide) (by decide),
    this.2 (3190, 80) (by decide) _ (by decide) (by decide)⟩

end Umpire.QuickPool
