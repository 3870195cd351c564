import Verif.DynPool.Poison
import Verif.QuickPool.Gran
/-!
# `DynamicSizePool` and the granules of the address sanitizer (C62)

`Poison.lean` with the sanitizer as it is: one number for every eight bytes (`Base/Gran.lean`).
-/
set_option autoImplicit false
set_option linter.unusedSimpArgs false
namespace Umpire.DynPool
open Umpire Umpire.Prog
open Umpire.QuickPool (run_erase run_lift)

/-- One user operation, or something others do with the sanitizer with other memory. -/
inductive StepG (cfg : Cfg) : Sys → Shadow → Sys → Shadow → Prop where
  | allocOk {S : Sys} {sh sh' : Shadow} {n p s' O'} : ReqOk cfg n →
      Run (allocateS cfg S.pool sh n) S.held ((some p, s'), sh') O' → StepG cfg S sh ⟨s', O', (p, n) :: S.live⟩ sh'
  | allocErr {S : Sys} {sh sh' : Shadow} {n s' O'} : ReqOk cfg n →
      Run (allocateS cfg S.pool sh n) S.held ((none, s'), sh') O' → StepG cfg S sh ⟨s', O', S.live⟩ sh'
  | dealloc {S : Sys} {sh sh' : Shadow} {p n heur b s' O'} : (p, n) ∈ S.live → HeurOk cfg heur →
      Run (deallocateS cfg heur S.pool sh p) S.held ((b, s'), sh') O' → StepG cfg S sh ⟨s', O', drop p S.live⟩ sh'
  | release {S : Sys} {sh : Shadow} {s' O'} : Run (DynPool.release S.pool) S.held s' O' →
      StepG cfg S sh ⟨s', O', S.live⟩ sh
  | coalesce {S : Sys} {sh sh' : Shadow} {heur s' O'} : HeurOk cfg heur →
      Run (coalesceS cfg heur S.pool sh) S.held (s', sh') O' → StepG cfg S sh ⟨s', O', S.live⟩ sh'
  | others {S : Sys} {sh sh' : Shadow} : Spares S.held sh sh' →
      StepG cfg S sh S sh'

/-- Everything that can happen to a pool, from its construction on, whatever was
marked before. -/
inductive ReachG (cfg : Cfg) : Sys → Shadow → Prop where
  | init {sh : Shadow} : ReachG cfg ⟨init, [], []⟩ sh
  | step {S T : Sys} {sh sh' : Shadow} : ReachG cfg S sh → StepG cfg S sh T sh' → ReachG cfg T sh'

theorem reachG_reach {cfg : Cfg} {S : Sys} {sh : Shadow} (h : ReachG cfg S sh) : Reach cfg S := by
  induction h with
  | init => exact .init
  | step _ hs ih =>
    cases hs with
    | allocOk hn hr => exact .step ih (.allocOk hn (run_erase (allocateS_erase ..) hr))
    | allocErr hn hr => exact .step ih (.allocErr hn (run_erase (allocateS_erase ..) hr))
    | dealloc hL hh hr => exact .step ih (.dealloc hL hh (run_erase (deallocateS_erase ..) hr))
    | release hr => exact .step ih (.release hr)
    | coalesce hh hr => exact .step ih (.coalesce hh (run_erase (coalesceS_erase ..) hr))
    | others => exact ih

/-- Nothing is lost: every history has its marked version. -/
theorem reach_reachG {cfg : Cfg} {S : Sys} (h : Reach cfg S) : ∃ sh, ReachG cfg S sh := by
  induction h with
  | init => exact ⟨[], .init⟩
  | step _ hs ih =>
    obtain ⟨sh, ih⟩ := ih
    cases hs with
    | allocOk hn hr =>
      obtain ⟨sh', h'⟩ := run_lift (allocateS_erase cfg _ sh _) hr
      exact ⟨sh', .step ih (.allocOk hn h')⟩
    | allocErr hn hr =>
      obtain ⟨sh', h'⟩ := run_lift (allocateS_erase cfg _ sh _) hr
      exact ⟨sh', .step ih (.allocErr hn h')⟩
    | dealloc hL hh hr =>
      obtain ⟨sh', h'⟩ := run_lift (deallocateS_erase cfg _ _ sh _) hr
      exact ⟨sh', .step ih (.dealloc hL hh h')⟩
    | release hr => exact ⟨sh, .step ih (.release hr)⟩
    | coalesce hh hr =>
      obtain ⟨sh', h'⟩ := run_lift (coalesceS_erase cfg _ _ sh) hr
      exact ⟨sh', .step ih (.coalesce hh h')⟩

/-! ## The marking is kept -/

theorem allocateS_marking {cfg : Cfg} (hc : CfgOk cfg) {M : Held → Held → Shadow → Prop} (hM : Marking cfg.align M) {s : State} {O O' L : Held} (h : DInv cfg.align s O L) {sh sh' : Shadow}
    (hm : M O L sh) {n : Nat} (hn : ReqOk cfg n) {r : Option Nat} {s' : State}
    (hr : Run (allocateS cfg s sh n) O ((r, s'), sh') O') :
    M O' (match r with | some p => (p, n) :: L | none => L) sh' := by
  have hal : ∀ p, r = some p → cfg.align ∣ p := by
    rintro p rfl
    have hpost := wp_run (allocate_wp h hc hn) (run_erase (allocateS_erase ..) hr)
    obtain ⟨q, hq, _⟩ := (show DInv cfg.align s' O' ((p, n) :: L) from hpost)
    exact (QuickPool.Inv.live_held hq hc.al List.mem_cons_self).1
  unfold allocateS at hr
  simp only at hr
  split at hr
  · cases hr
    exact hM.alloc hm (hal _ rfl)
  · cases hr with
    | allocOk hp hr =>
      cases hr
      exact hM.alloc (hM.grow hm hp.2.2 fun l hl => h.held_of_live hc.al hl) (hal _ rfl)
    | allocFail hr =>
      obtain ⟨s1, O1, h1, h2⟩ := Run.of_bind hr
      obtain ⟨hO1, hi1⟩ := freeReleased_used hc.al h h1
      have hm1 : M O1 L sh := hM.sublist hm (by rw [hO1]; exact List.filter_sublist)
      cases h2 with
      | allocOk hp h2 =>
        cases h2
        exact hM.alloc (hM.grow hm1 hp.2.2 fun l hl => hi1.held_of_live hc.al hl) (hal _ rfl)
      | allocFail h2 => cases h2; exact hm1

theorem freeMark_marking {a : Nat} (ha : 0 < a) {M : Held → Held → Shadow → Prop} (hM : Marking a M) {s : State} {O L : Held} (h : DInv a s O L) {sh : Shadow} (hm : M O L sh)
    {p n : Nat} (hL : (p, n) ∈ L) : M O (drop p L) (freeMark s sh p) := by
  obtain ⟨q, hq, hrel⟩ := h
  obtain ⟨c, hc, hu, hd, hsz⟩ := hq.live_chunk hL
  have hb : toBlk (q.blocks.map QuickPool.start) c ∈ s.used :=
    hrel.used.mem_iff.2 (List.mem_map.2 ⟨c, List.mem_filter.2 ⟨hc, by simp [hu]⟩, rfl⟩)
  have hfind : ∃ b, s.used.find? (fun b => b.data = p) = some b ∧ b.size = ceil a n := by
    cases hf : s.used.find? (fun b => decide (b.data = p)) with
    | none => rw [List.find?_eq_none] at hf; exact absurd (by simpa [toBlk] using hd) (hf _ hb)
    | some x =>
      have hx := List.mem_of_find?_eq_some hf
      have hp := List.find?_some hf
      simp only [decide_eq_true_eq] at hp
      obtain ⟨d, hdm, rfl⟩ := List.mem_map.1 (hrel.used.mem_iff.1 hx)
      have : d = c := hq.data_inj (List.mem_filter.1 hdm).1 hc (by simpa [toBlk] using hp.trans hd.symm)
      subst this
      refine ⟨_, rfl, ?_⟩
      have hce := QuickPool.Inv.live_ceil hq ha hL
      simp only at hce hsz
      simp only [toBlk]
      rw [hsz, hce]
  obtain ⟨b, hb1, hb2⟩ := hfind
  have := QuickPool.deallocCore_marking ha hM hq hm hL
  rw [QuickPool.Inv.sizeAt_eq ha hq hL] at this
  unfold freeMark
  simp only [hb1, hb2]
  exact this

theorem coalesceToS_marking {cfg : Cfg} (hc : CfgOk cfg) {M : Held → Held → Shadow → Prop} (hM : Marking cfg.align M) {s s' : State} {O O' L : Held} {b : Bool}
    {sh sh' : Shadow} {g : Nat} (h : DInv cfg.align s O L) (hg : g + 2 * cfg.align ≤ W) (hm : M O L sh)
    (hr : Run (coalesceToS cfg s sh g) O ((b, s'), sh') O') : M O' L sh' := by
  unfold coalesceToS at hr
  split at hr
  · obtain ⟨s1, O1, hr1, hr⟩ := Run.of_bind hr
    obtain ⟨hO1, hi1⟩ := freeReleased_used hc.al h hr1
    have hm1 : M O1 L sh := hM.sublist hm (by rw [hO1]; exact List.filter_sublist)
    split at hr
    · have hreq : ReqOk cfg (g - s1.actualBytes) := ⟨by omega, by omega⟩
      obtain ⟨s2, O2, hr2, hr⟩ := Run.of_bind hr
      obtain ⟨hO2, hi2⟩ := freeReleased_used hc.al hi1 hr2
      have hm2 : M O2 L sh := hM.sublist hm1 (by rw [hO2]; exact List.filter_sublist)
      obtain ⟨⟨⟨r, s3⟩, sh3⟩, O3, hr3, hr⟩ := Run.of_bind hr
      have hm3 := allocateS_marking hc hM hi2 hm2 hreq hr3
      have hpost := wp_run (allocate_wp hi2 hc hreq) (run_erase (allocateS_erase ..) hr3)
      cases r with
      | none => cases hr; exact hm3
      | some p =>
        cases hr
        have hdr := drop_cons_self (n := g - s1.actualBytes) (DInv.live_ne hpost)
        have := freeMark_marking hc.al hM hpost hm3 List.mem_cons_self
        rwa [hdr] at this
    · cases hr; exact hm1
  · cases hr; exact hm

theorem reachG_marking {cfg : Cfg} (hc : CfgOk cfg) {M : Held → Held → Shadow → Prop} (hM : Marking cfg.align M) {S : Sys} {sh : Shadow} 
    (hO : ∀ S sh sh', Reach cfg S → M S.held S.live sh → Spares S.held sh sh' → M S.held S.live sh') (h : ReachG cfg S sh) :
    M S.held S.live sh := by
  induction h with
  | init => exact hM.nil
  | step hS hs ih =>
    have hi := reach_inv hc (reachG_reach hS)
    cases hs with
    | allocOk hn hr => exact allocateS_marking hc hM hi ih hn hr
    | allocErr hn hr => exact allocateS_marking hc hM hi ih hn hr
    | dealloc hL hh hr =>
      have h1 := deallocCore_inv hi hL
      have hm1 := freeMark_marking hc.al hM hi ih hL
      unfold deallocateS at hr
      simp only at hr
      split at hr
      · exact coalesceToS_marking hc hM h1 (hh.bound h1) hm1 hr
      · cases hr; exact hm1
    | release hr =>
      obtain ⟨hO1, -⟩ := freeReleased_used hc.al hi hr
      exact hM.sublist ih (by rw [hO1]; exact List.filter_sublist)
    | coalesce hh hr =>
      unfold coalesceS at hr
      split at hr
      · obtain ⟨⟨⟨b, s1⟩, sh1⟩, O1, hr1, hr⟩ := Run.of_bind hr
        have := coalesceToS_marking hc hM hi (hh.bound hi) ih hr1
        cases b with
        | true => cases hr; exact this
        | false => cases hr
      · cases hr; exact ih
    | others ho => exact hO _ _ _ (reachG_reach hS) ih ho

/-! ## C62 -/

/-- With alignments that are multiples of eight the sanitizer as it is never reports an access to a live allocation, and
reports every other access to memory the pool holds, except in a granule that the pool shares with the memory around a
block of its parent. -/
theorem dynpool_gran_exact {cfg : Cfg} (hc : CfgOk cfg) (h8 : 8 ∣ cfg.align) {S : Sys} {sh : Shadow} (h : ReachG cfg S sh) :
    (∀ l ∈ S.live, ∀ b, Covers l b → reported sh b = false) ∧
    (∀ o ∈ S.held, ∀ b, Inner o b → (∀ l ∈ S.live, ¬ Covers l b) → reported sh b = true) := by
  have hm := reachG_marking hc (gmarked_marking h8) (fun _ _ _ _ hm ho => hm.others ho) h
  have hi := reach_inv hc (reachG_reach h)
  constructor
  · intro l hl b hb
    obtain ⟨q, hq, _⟩ := hi
    obtain ⟨had, o, ho, hw1, hw2⟩ := QuickPool.Inv.live_held hq hc.al hl
    have hp : 8 ∣ l.1 := Nat.dvd_trans h8 had
    have hn : 8 ∣ ceil cfg.align l.2 := Nat.dvd_trans h8 (QuickPool.ceil_spec hc.al).1
    have hle := (QuickPool.ceil_spec (a := cfg.align) (n := l.2) hc.al).2.1
    have hbo : Inner o b := by unfold Inner; unfold Covers Within at *; omega
    cases hp : reported sh b with
    | false => rfl
    | true => exact absurd ⟨l, hl, hb⟩ ((hm o ho b hbo).1 hp)
  · intro o ho b hb hn
    exact (hm o ho b hb).2 fun ⟨l, hl, hlb⟩ => hn l hl hlb

/-- If the blocks of the parent begin and end at multiples of eight nothing is excepted. -/
theorem dynpool_gran_whole {cfg : Cfg} (hc : CfgOk cfg) (h8 : 8 ∣ cfg.align) {S : Sys} {sh : Shadow} (h : ReachG cfg S sh)
    (ho8 : ∀ o ∈ S.held, 8 ∣ o.1 ∧ 8 ∣ o.2) :
    ∀ o ∈ S.held, ∀ b, Covers o b → (reported sh b = false ↔ ∃ l ∈ S.live, Covers l b) := by
  intro o ho b hb
  have hx := dynpool_gran_exact hc h8 h
  obtain ⟨h1, h2⟩ := ho8 o ho
  constructor
  · intro hf
    refine Classical.byContradiction fun hn => ?_
    have := hx.2 o ho b (by unfold Inner; unfold Covers at hb; omega) fun l hl hlb => hn ⟨l, hl, hlb⟩
    rw [hf] at this
    exact absurd this (by decide)
  · rintro ⟨l, hl, hlb⟩
    exact hx.1 l hl b hlb

/-- Whatever the alignment, the sanitizer as it is never reports an access to a live allocation. -/
theorem dynpool_gran_quiet {cfg : Cfg} (hc : CfgOk cfg) {S : Sys} {sh : Shadow} (h : ReachG cfg S sh) :
    ∀ l ∈ S.live, ∀ b, Covers l b → reported sh b = false :=
  reachG_marking hc (quiet_marking cfg.align)
    (fun _ _ _ hr hm ho => hm.others (fun _ hl => (reach_inv hc hr).held_of_live hc.al hl) ho) h

/-- Alignment 4. -/
def cfgF : Cfg := { cfgX with align := 4 }

theorem cfgF_ok : CfgOk cfgF := ⟨by decide, by decide, by decide⟩

/-- The pool after `allocate(4)`, after a second one, and after giving the first back. -/
def poolF1 : State :=
  { used := [⟨1600, 4, 64⟩], free := [⟨1604, 60, 0⟩], baseMap := [(1600, 1600, 68)], alignedBytes := 4, alignedHwm := 4,
    actualBytes := 64, actualHwm := 64, releasableBlocks := 0, totalBlocks := 1 }

@[inherit_doc poolF1]
def poolF2 : State :=
  { used := [⟨1604, 4, 0⟩, ⟨1600, 4, 64⟩], free := [⟨1608, 56, 0⟩], baseMap := [(1600, 1600, 68)], alignedBytes := 8, alignedHwm := 8,
    actualBytes := 64, actualHwm := 64, releasableBlocks := 0, totalBlocks := 1 }

@[inherit_doc poolF1]
def poolF3 : State :=
  { used := [⟨1604, 4, 0⟩], free := [⟨1600, 4, 64⟩, ⟨1608, 56, 0⟩], baseMap := [(1600, 1600, 68)], alignedBytes := 4, alignedHwm := 8,
    actualBytes := 64, actualHwm := 64, releasableBlocks := 0, totalBlocks := 1 }

/-- With alignment 4, after `allocate(4)` twice and giving the first back: the sanitizer does not report an access to
the freed bytes, because the other four bytes of the granule are in use. -/
theorem dynpool_gran_counterexample : ∃ (cfg : Cfg) (S : Sys) (sh : Shadow), CfgOk cfg ∧ ReachG cfg S sh ∧
    (∀ o ∈ S.held, 8 ∣ o.1) ∧ ∃ o ∈ S.held, ∃ b, Inner o b ∧ (∀ l ∈ S.live, ¬ Covers l b) ∧ reported sh b = false := by
  have h1 : StepG cfgF ⟨init, [], []⟩ [] ⟨poolF1, [(1600, 68)], [(1600, 4)]⟩ [.unpoison 1600 4, .poison 1600 68] :=
    .allocOk ⟨by decide, by decide⟩ (execOk_run [some 1600] (by decide +kernel))
  have h2 : StepG cfgF ⟨poolF1, [(1600, 68)], [(1600, 4)]⟩ [.unpoison 1600 4, .poison 1600 68]
      ⟨poolF2, [(1600, 68)], [(1604, 4), (1600, 4)]⟩ [.unpoison 1604 4, .unpoison 1600 4, .poison 1600 68] :=
    .allocOk ⟨by decide, by decide⟩ (execOk_run [] (by decide +kernel))
  have h3 : StepG cfgF ⟨poolF2, [(1600, 68)], [(1604, 4), (1600, 4)]⟩ [.unpoison 1604 4, .unpoison 1600 4, .poison 1600 68]
      ⟨poolF3, [(1600, 68)], [(1604, 4)]⟩ [.poison 1600 4, .unpoison 1604 4, .unpoison 1600 4, .poison 1600 68] :=
    .dealloc (p := 1600) (n := 4) (heur := fun _ => 0) (b := true) (by decide) (fun _ => .inl (show 0 + 2 * 4 ≤ W by decide)) (execOk_run [] (by decide +kernel))
  exact ⟨_, _, _, cfgF_ok, .step (.step (.step .init h1) h2) h3, by decide, (1600, 68), by decide, 1600, by decide, by decide, by decide⟩

/-- `dynpool_gran_exact` on the state of `Props.lean`. -/
example : ∃ sh, ReachG cfgX sysX sh ∧ reported sh 1655 = false ∧ reported sh 1656 = true ∧ reported sh 3200 = true := by
  obtain ⟨sh, h⟩ := reach_reachG sysX_reach
  have := dynpool_gran_exact cfgX_ok (by decide) h
  exact ⟨sh, h, this.1 (1616, 40) (by decide) _ (by decide), this.2 (1600, 80) (by decide) _ (by decide) (by decide),
    this.2 (3190, 80) (by decide) _ (by decide) (by decide)⟩

end Umpire.DynPool
