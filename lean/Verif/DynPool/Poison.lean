import Verif.DynPool.Merge
import Verif.QuickPool.Poison
/-!
# `DynamicSizePool` and the address sanitizer (C62)

The functions of `Model.lean` with their calls to the sanitizer: one after every
successful request to the parent (AlignedAllocation.inl:28), one at the end of
`allocate` (DynamicSizePool.hpp:328), one in `deallocate` (347).
-/
set_option autoImplicit false
set_option linter.unusedSimpArgs false
namespace Umpire.DynPool
open Umpire Umpire.Prog
open Umpire.QuickPool (run_erase run_lift)

/-- `allocate` (DynamicSizePool.hpp:304-332) with sanitizer calls. -/
def allocateS (cfg : Cfg) (s : State) (sh : Shadow) (bytes : Nat) : Prog ((Option Nat × State) × Shadow) :=
  let rounded := roundUp64 cfg.align bytes                            -- 307
  match findLoop rounded none [] s.free with                          -- 310
  | some pos =>
    let (r, s) := takeBlock s pos rounded
    .ret ((some r, s), .unpoison r bytes :: sh)                       -- 328
  | none =>
    let size := growSize cfg s rounded                                -- 78-81
    let got (s : State) (p : Nat) : (Option Nat × State) × Shadow :=
      let sh := San.poison p (w64 (size + cfg.align)) :: sh           -- AlignedAllocation.inl:28
      let (pos, s) := addBlock cfg s size p
      let (r, s) := takeBlock s pos rounded
      ((some r, s), .unpoison r bytes :: sh)                          -- 328
    .alloc (w64 (size + cfg.align)) fun                               -- 97
      | some p => .ret (got s p)
      | none => (freeReleased s).bind fun s =>                        -- 102
          .alloc (w64 (size + cfg.align)) fun                         -- 104
            | some p => .ret (got s p)
            | none => .ret ((none, s), sh)                            -- 108

/-- The sanitizer calls of `deallocate` (DynamicSizePool.hpp:339-347): none for a
pointer that is not in use. -/
def freeMark (s : State) (sh : Shadow) (ptr : Nat) : Shadow :=
  match s.used.find? (fun b => b.data = ptr) with
  | none => sh
  | some cur => .poison ptr cur.size :: sh

/-- `coalesce(suggested_size)` (DynamicSizePool.hpp:442-454) with sanitizer calls. -/
def coalesceToS (cfg : Cfg) (s : State) (sh : Shadow) (suggested : Nat) : Prog ((Bool × State) × Shadow) :=
  if 1 < getFreeBlocks s then                                    -- 444
    (freeReleased s).bind fun s =>                               -- 445
      if s.actualBytes < suggested then                          -- 448
        (freeReleased s).bind fun s' =>                          -- 275
          (allocateS cfg s' sh (suggested - s.actualBytes)).bind fun -- 276
            | ((none, s), sh) => .ret ((false, s), sh)
            | ((some p, s), sh) => .ret ((true, deallocCore s p), freeMark s sh p)  -- 277
      else .ret ((true, s), sh)
  else .ret ((true, s), sh)

/-- `DynamicPoolList::deallocate` (DynamicPoolList.cpp:36-49) with sanitizer calls. -/
def deallocateS (cfg : Cfg) (heur : State → Nat) (s : State) (sh : Shadow) (ptr : Nat) : Prog ((Bool × State) × Shadow) :=
  let sh := freeMark s sh ptr
  let s := deallocCore s ptr
  if heur s ≠ 0 then coalesceToS cfg s sh (heur s) else .ret ((true, s), sh)

/-- `DynamicPoolList::coalesce` (DynamicPoolList.cpp:125-137) with sanitizer calls. -/
def coalesceS (cfg : Cfg) (heur : State → Nat) (s : State) (sh : Shadow) : Prog (State × Shadow) :=
  if heur s ≠ 0 then
    (coalesceToS cfg s sh (heur s)).bind fun
      | ((true, s), sh) => .ret (s, sh)
      | ((false, _), _) => .fail .abort
  else .ret (s, sh)

/-! ## Without the sanitizer calls these are the functions of `Model.lean` -/

theorem allocateS_erase (cfg : Cfg) (s : State) (sh : Shadow) (n : Nat) :
    ((allocateS cfg s sh n).bind fun r => .ret r.1) = allocate cfg s n := by
  unfold allocateS allocate
  simp only
  cases findLoop (roundUp64 cfg.align n) none [] s.free with
  | none =>
    simp only [Prog.bind]
    congr 1
    funext r
    cases r with
    | some p => rfl
    | none =>
      simp only [bind_assoc]
      congr 1
      funext s1
      simp only [Prog.bind]
      congr 1
      funext r
      cases r <;> rfl
  | some e => rfl

theorem coalesceToS_erase (cfg : Cfg) (s : State) (sh : Shadow) (g : Nat) :
    ((coalesceToS cfg s sh g).bind fun r => .ret r.1) = coalesceTo cfg s g := by
  unfold coalesceToS coalesceTo
  by_cases h : 1 < getFreeBlocks s
  · rw [if_pos h, if_pos h, bind_assoc]
    congr 1
    funext s1
    by_cases h1 : s1.actualBytes < g
    · rw [if_pos h1, if_pos h1, bind_assoc]
      congr 1
      funext s2
      rw [bind_assoc, ← allocateS_erase cfg s2 sh, bind_assoc]
      congr 1
      funext r
      obtain ⟨⟨r, s3⟩, sh3⟩ := r
      cases r <;> rfl
    · rw [if_neg h1, if_neg h1]; rfl
  · rw [if_neg h, if_neg h]; rfl

theorem deallocateS_erase (cfg : Cfg) (heur : State → Nat) (s : State) (sh : Shadow) (p : Nat) :
    ((deallocateS cfg heur s sh p).bind fun r => .ret r.1) = deallocate cfg heur s p := by
  unfold deallocateS deallocate
  simp only
  split
  · exact coalesceToS_erase ..
  · rfl

theorem coalesceS_erase (cfg : Cfg) (heur : State → Nat) (s : State) (sh : Shadow) :
    ((coalesceS cfg heur s sh).bind fun r => .ret r.1) = coalesce cfg heur s := by
  unfold coalesceS coalesce
  by_cases h : heur s ≠ 0
  · rw [if_pos h, if_pos h, bind_assoc, ← coalesceToS_erase cfg s sh, bind_assoc]
    congr 1
    funext r
    obtain ⟨⟨r, s3⟩, sh3⟩ := r
    cases r <;> rfl
  · rw [if_neg h, if_neg h]; rfl

/-! ## Histories -/

/-- One user operation, or something others do with the sanitizer outside of the
memory this pool holds. -/
inductive StepS (cfg : Cfg) : Sys → Shadow → Sys → Shadow → Prop where
  | allocOk {S : Sys} {sh sh' : Shadow} {n p s' O'} : ReqOk cfg n →
      Run (allocateS cfg S.pool sh n) S.held ((some p, s'), sh') O' → StepS cfg S sh ⟨s', O', (p, n) :: S.live⟩ sh'
  | allocErr {S : Sys} {sh sh' : Shadow} {n s' O'} : ReqOk cfg n →
      Run (allocateS cfg S.pool sh n) S.held ((none, s'), sh') O' → StepS cfg S sh ⟨s', O', S.live⟩ sh'
  | dealloc {S : Sys} {sh sh' : Shadow} {p n heur b s' O'} : (p, n) ∈ S.live → HeurOk cfg heur →
      Run (deallocateS cfg heur S.pool sh p) S.held ((b, s'), sh') O' → StepS cfg S sh ⟨s', O', drop p S.live⟩ sh'
  | release {S : Sys} {sh : Shadow} {s' O'} : Run (DynPool.release S.pool) S.held s' O' →
      StepS cfg S sh ⟨s', O', S.live⟩ sh
  | coalesce {S : Sys} {sh sh' : Shadow} {heur s' O'} : HeurOk cfg heur →
      Run (coalesceS cfg heur S.pool sh) S.held (s', sh') O' → StepS cfg S sh ⟨s', O', S.live⟩ sh'
  | others {S : Sys} {sh sh' : Shadow} : (∀ o ∈ S.held, ∀ b, Covers o b → poisoned sh' b = poisoned sh b) →
      StepS cfg S sh S sh'

/-- Everything that can happen to a pool, from its construction on, whatever was
marked before. -/
inductive ReachS (cfg : Cfg) : Sys → Shadow → Prop where
  | init {sh : Shadow} : ReachS cfg ⟨init, [], []⟩ sh
  | step {S T : Sys} {sh sh' : Shadow} : ReachS cfg S sh → StepS cfg S sh T sh' → ReachS cfg T sh'

theorem reachS_reach {cfg : Cfg} {S : Sys} {sh : Shadow} (h : ReachS cfg S sh) : Reach cfg S := by
  induction h with
  | init => exact .init
  | step _ hs ih =>
    cases hs with
    | allocOk hn hr => exact .step ih (.allocOk hn (run_erase (allocateS_erase ..) hr))
    | allocErr hn hr => exact .step ih (.allocErr hn (run_erase (allocateS_erase ..) hr))
    | dealloc hL hh hr => exact .step ih (.dealloc hL hh (run_erase (deallocateS_erase ..) hr))
    | release hr => exact .step ih (.release hr)
    | coalesce hh hr => exact .step ih (.coalesce hh (run_erase (coalesceS_erase ..) hr))
    | others => exact ih

/-- Nothing is lost: every history has its marked version. -/
theorem reach_reachS {cfg : Cfg} {S : Sys} (h : Reach cfg S) : ∃ sh, ReachS cfg S sh := by
  induction h with
  | init => exact ⟨[], .init⟩
  | step _ hs ih =>
    obtain ⟨sh, ih⟩ := ih
    cases hs with
    | allocOk hn hr =>
      obtain ⟨sh', h'⟩ := run_lift (allocateS_erase cfg _ sh _) hr
      exact ⟨sh', .step ih (.allocOk hn h')⟩
    | allocErr hn hr =>
      obtain ⟨sh', h'⟩ := run_lift (allocateS_erase cfg _ sh _) hr
      exact ⟨sh', .step ih (.allocErr hn h')⟩
    | dealloc hL hh hr =>
      obtain ⟨sh', h'⟩ := run_lift (deallocateS_erase cfg _ _ sh _) hr
      exact ⟨sh', .step ih (.dealloc hL hh h')⟩
    | release hr => exact ⟨sh, .step ih (.release hr)⟩
    | coalesce hh hr =>
      obtain ⟨sh', h'⟩ := run_lift (coalesceS_erase cfg _ _ sh) hr
      exact ⟨sh', .step ih (.coalesce hh h')⟩

/-! ## The marking is kept -/

theorem DInv.held_of_live {a : Nat} (ha : 0 < a) {s : State} {O L : Held} (h : DInv a s O L) {l : Nat × Nat} (hl : l ∈ L) :
    ∃ o ∈ O, Within l.1 l.2 o.1 o.2 := by
  obtain ⟨q, hq, _⟩ := h
  exact QuickPool.Inv.held_of_live ha hq hl

theorem allocateS_marked {cfg : Cfg} (hc : CfgOk cfg) {s : State} {O O' L : Held} (h : DInv cfg.align s O L) {sh sh' : Shadow}
    (hm : Marked O L sh) {n : Nat} {r : Option Nat} {s' : State}
    (hr : Run (allocateS cfg s sh n) O ((r, s'), sh') O') :
    Marked O' (match r with | some p => (p, n) :: L | none => L) sh' := by
  unfold allocateS at hr
  simp only at hr
  split at hr
  · cases hr
    exact hm.alloc
  · cases hr with
    | allocOk hp hr =>
      cases hr
      exact Marked.alloc (hm.grow hp.2.2 fun l hl => h.held_of_live hc.al hl)
    | allocFail hr =>
      obtain ⟨s1, O1, h1, h2⟩ := Run.of_bind hr
      obtain ⟨hO1, hi1⟩ := freeReleased_used hc.al h h1
      have hm1 : Marked O1 L sh := hm.sublist (by rw [hO1]; exact List.filter_sublist)
      cases h2 with
      | allocOk hp h2 =>
        cases h2
        exact Marked.alloc (hm1.grow hp.2.2 fun l hl => hi1.held_of_live hc.al hl)
      | allocFail h2 => cases h2; exact hm1

theorem freeMark_marked {a : Nat} (ha : 0 < a) {s : State} {O L : Held} (h : DInv a s O L) {sh : Shadow} (hm : Marked O L sh)
    {p n : Nat} (hL : (p, n) ∈ L) : Marked O (drop p L) (freeMark s sh p) := by
  obtain ⟨q, hq, hrel⟩ := h
  obtain ⟨c, hc, hu, hd, hsz⟩ := hq.live_chunk hL
  have hb : toBlk (q.blocks.map QuickPool.start) c ∈ s.used :=
    hrel.used.mem_iff.2 (List.mem_map.2 ⟨c, List.mem_filter.2 ⟨hc, by simp [hu]⟩, rfl⟩)
  have hfind : ∃ b, s.used.find? (fun b => b.data = p) = some b ∧ b.size = ceil a n := by
    cases hf : s.used.find? (fun b => decide (b.data = p)) with
    | none => rw [List.find?_eq_none] at hf; exact absurd (by simpa [toBlk] using hd) (hf _ hb)
    | some x =>
      have hx := List.mem_of_find?_eq_some hf
      have hp := List.find?_some hf
      simp only [decide_eq_true_eq] at hp
      obtain ⟨d, hdm, rfl⟩ := List.mem_map.1 (hrel.used.mem_iff.1 hx)
      have : d = c := hq.data_inj (List.mem_filter.1 hdm).1 hc (by simpa [toBlk] using hp.trans hd.symm)
      subst this
      refine ⟨_, rfl, ?_⟩
      have hce := QuickPool.Inv.live_ceil hq ha hL
      simp only at hce hsz
      simp only [toBlk]
      rw [hsz, hce]
  obtain ⟨b, hb1, hb2⟩ := hfind
  have := QuickPool.deallocCore_marked ha hq hm hL
  rw [QuickPool.Inv.sizeAt_eq ha hq hL] at this
  unfold freeMark
  simp only [hb1, hb2]
  exact this

theorem coalesceToS_marked {cfg : Cfg} (hc : CfgOk cfg) {s s' : State} {O O' L : Held} {b : Bool}
    {sh sh' : Shadow} {g : Nat} (h : DInv cfg.align s O L) (hg : g + 2 * cfg.align ≤ W) (hm : Marked O L sh)
    (hr : Run (coalesceToS cfg s sh g) O ((b, s'), sh') O') : Marked O' L sh' := by
  unfold coalesceToS at hr
  split at hr
  · obtain ⟨s1, O1, hr1, hr⟩ := Run.of_bind hr
    obtain ⟨hO1, hi1⟩ := freeReleased_used hc.al h hr1
    have hm1 : Marked O1 L sh := hm.sublist (by rw [hO1]; exact List.filter_sublist)
    split at hr
    · have hreq : ReqOk cfg (g - s1.actualBytes) := ⟨by omega, by omega⟩
      obtain ⟨s2, O2, hr2, hr⟩ := Run.of_bind hr
      obtain ⟨hO2, hi2⟩ := freeReleased_used hc.al hi1 hr2
      have hm2 : Marked O2 L sh := hm1.sublist (by rw [hO2]; exact List.filter_sublist)
      obtain ⟨⟨⟨r, s3⟩, sh3⟩, O3, hr3, hr⟩ := Run.of_bind hr
      have hm3 := allocateS_marked hc hi2 hm2 hr3
      have hpost := wp_run (allocate_wp hi2 hc hreq) (run_erase (allocateS_erase ..) hr3)
      cases r with
      | none => cases hr; exact hm3
      | some p =>
        cases hr
        have hdr := drop_cons_self (n := g - s1.actualBytes) (DInv.live_ne hpost)
        have := freeMark_marked hc.al hpost hm3 List.mem_cons_self
        rwa [hdr] at this
    · cases hr; exact hm1
  · cases hr; exact hm

theorem reachS_marked {cfg : Cfg} (hc : CfgOk cfg) {S : Sys} {sh : Shadow} (h : ReachS cfg S sh) :
    Marked S.held S.live sh := by
  induction h with
  | init => intro o ho; cases ho
  | step hS hs ih =>
    have hi := reach_inv hc (reachS_reach hS)
    cases hs with
    | allocOk hn hr => exact allocateS_marked hc hi ih hr
    | allocErr hn hr => exact allocateS_marked hc hi ih hr
    | dealloc hL hh hr =>
      have h1 := deallocCore_inv hi hL
      have hm1 := freeMark_marked hc.al hi ih hL
      unfold deallocateS at hr
      simp only at hr
      split at hr
      · exact coalesceToS_marked hc h1 (hh.bound h1) hm1 hr
      · cases hr; exact hm1
    | release hr =>
      obtain ⟨hO1, -⟩ := freeReleased_used hc.al hi hr
      exact ih.sublist (by rw [hO1]; exact List.filter_sublist)
    | coalesce hh hr =>
      unfold coalesceS at hr
      split at hr
      · obtain ⟨⟨⟨b, s1⟩, sh1⟩, O1, hr1, hr⟩ := Run.of_bind hr
        have := coalesceToS_marked hc hi (hh.bound hi) ih hr1
        cases b with
        | true => cases hr; exact this
        | false => cases hr
      · cases hr; exact ih
    | others ho => intro o hO b hb; rw [ho o hO b hb]; exact ih o hO b hb

/-! ## C62 -/

/-- The sanitizer never reports an access to a live allocation, and reports every other
access to the memory the pool holds. -/
theorem dynpool_poison_exact {cfg : Cfg} (hc : CfgOk cfg) {S : Sys} {sh : Shadow} (h : ReachS cfg S sh) :
    (∀ l ∈ S.live, ∀ b, Covers l b → poisoned sh b = false) ∧
    (∀ o ∈ S.held, ∀ b, Covers o b → (∀ l ∈ S.live, ¬ Covers l b) → poisoned sh b = true) := by
  have hm := reachS_marked hc h
  have hi := reach_inv hc (reachS_reach h)
  constructor
  · intro l hl b hb
    obtain ⟨o, ho, hw⟩ := hi.held_of_live hc.al hl
    have hbo : Covers o b := by unfold Covers Within at *; omega
    cases hp : poisoned sh b with
    | false => rfl
    | true => exact absurd ⟨l, hl, hb⟩ ((hm o ho b hbo).1 hp)
  · intro o ho b hb hn
    exact (hm o ho b hb).2 fun ⟨l, hl, hlb⟩ => hn l hl hlb

/-- Negation of the rest of C62, for every pool: `release` hands memory back to the
parent with every byte marked as inaccessible. -/
theorem dynpool_returns_poisoned {cfg : Cfg} (hc : CfgOk cfg) {S : Sys} {sh : Shadow} (h : ReachS cfg S sh)
    {s' : State} {O' : Held} (hr : Run (release S.pool) S.held s' O') :
    ∀ o ∈ S.held, o ∉ O' → ∀ b, Covers o b → poisoned sh b = true := by
  intro o ho hno b hb
  have hi := reach_inv hc (reachS_reach h)
  obtain ⟨hO, -⟩ := freeReleased_used hc.al hi hr
  refine (dynpool_poison_exact hc h).2 o ho b hb fun l hl hlb => ?_
  refine hno (hO ▸ mem_usedBlocks.2 ⟨ho, l, hl, fun hd => ?_⟩)
  exact covers_disj hd hlb hb

/-- `sysX` after `release`. -/
def poolR : State :=
  { used := [⟨1616, 48, 0⟩, ⟨1600, 16, 64⟩], free := [], baseMap := [(1600, 1600, 80)], alignedBytes := 64, alignedHwm := 128,
    actualBytes := 64, actualHwm := 128, releasableBlocks := 0, totalBlocks := 1 }

/-- Both theorems on the state of `Props.lean`. -/
example : ∃ sh, ReachS cfgX sysX sh ∧ poisoned sh 1655 = false ∧ poisoned sh 1656 = true ∧
    Run (release sysX.pool) sysX.held poolR [(1600, 80)] ∧ poisoned sh 3190 = true := by
  obtain ⟨sh, h⟩ := reach_reachS sysX_reach
  have := dynpool_poison_exact cfgX_ok h
  have hr : Run (release sysX.pool) sysX.held poolR [(1600, 80)] := execOk_run [] (by decide +kernel)
  exact ⟨sh, h, this.1 (1616, 40) (by decide) _ (by decide), this.2 (1600, 80) (by decide) _ (by decide) (by decide),
    hr, dynpool_returns_poisoned cfgX_ok h hr (3190, 80) (by decide) (by decide) _ (by decide)⟩

end Umpire.DynPool
