import Verif.QuickPool.Merge
import Verif.Base.Poison
import Verif.FixedPool.Model
/-!
# `QuickPool` and the address sanitizer (C62)

The functions of `Model.lean` with their calls to the sanitizer: one after every
successful request to the parent (AlignedAllocation.inl:28), one at the end of
`allocate` (QuickPool.cpp:135), one in `deallocate` (QuickPool.cpp:149).
-/
set_option autoImplicit false
set_option linter.unusedSimpArgs false
namespace Umpire.QuickPool
open Umpire Umpire.Prog

/-- `QuickPool::allocate` (QuickPool.cpp:43-137) with sanitizer calls. -/
def allocateS (cfg : Cfg) (s : State) (sh : Shadow) (bytes : Nat) : Prog ((Option Nat × State) × Shadow) :=
  let rounded := roundUp64 cfg.align bytes                       -- 46
  match lowerBound rounded s.sizeMap with                        -- 47
  | none =>
    let size := growSize cfg s rounded                           -- 52-55
    let got (s : State) (p : Nat) : (Option Nat × State) × Shadow :=
      let sh := San.poison p (w64 (size + cfg.align)) :: sh      -- AlignedAllocation.inl:28
      let (c, s) := newBlock cfg s size p
      let (r, s) := useChunk s c rounded
      ((some r, s), .unpoison r bytes :: sh)                     -- 135
    .alloc (w64 (size + cfg.align)) fun                          -- 69
      | some p => .ret (got s p)
      | none => (release s).bind fun s =>                        -- 74
          .alloc (w64 (size + cfg.align)) fun                    -- 76
            | some p => .ret (got s p)
            | none => .ret ((none, s), sh)                       -- 80
  | some e =>
    match findChunk e.2 s.blocks with                            -- 93
    | none => .fail .ub
    | some c =>
      let (r, s) := useChunk { s with sizeMap := smErase e.2 s.sizeMap } c rounded
      .ret ((some r, s), .unpoison r bytes :: sh)                -- 135

/-- `chunk->size` for the chunk behind a pointer (QuickPool.cpp:142, 149). -/
def sizeAt (s : State) (ptr : Nat) : Nat :=
  (((s.ptrMap.find? fun e => e.1 = ptr).bind fun e => findChunk e.2 s.blocks).map (·.size)).getD 0

/-- `QuickPool::deallocate` (QuickPool.cpp:139-202) with sanitizer calls and the
coalescing routine as a parameter. -/
def deallocWithS (cfg : Cfg) (co : State → Shadow → Nat → Prog (State × Shadow)) (s : State) (sh : Shadow) (ptr : Nat) :
    Prog (State × Shadow) :=
  match deallocCore s ptr with
  | none => .fail .ub
  | some s' =>
    let sh := San.poison ptr (sizeAt s ptr) :: sh                    -- 149
    if cfg.heur s' ≠ 0 then co s' sh (cfg.heur s') else .ret (s', sh)  -- 197-201

/-- `QuickPool::do_coalesce` (QuickPool.cpp:331-346) with sanitizer calls. -/
def doCoalesceS (cfg : Cfg) : Nat → State → Shadow → Nat → Prog (State × Shadow)
  | 0, _, _, _ => .fail .diverge
  | fuel + 1, s, sh, suggested =>
    if 1 < s.sizeMap.length then                                   -- 333
      (release s).bind fun s =>                                    -- 335
        if s.actualBytes < suggested then                          -- 338
          (allocateS cfg s sh (suggested - s.actualBytes)).bind fun -- 342
            | ((none, _), _) => .fail .abort
            | ((some p, s), sh) => deallocWithS cfg (doCoalesceS cfg fuel) s sh p  -- 343
        else .ret (s, sh)
    else .ret (s, sh)

/-- `QuickPool::deallocate` (QuickPool.cpp:139-202) with sanitizer calls. -/
def deallocateS (cfg : Cfg) (fuel : Nat) (s : State) (sh : Shadow) (ptr : Nat) : Prog (State × Shadow) :=
  deallocWithS cfg (doCoalesceS cfg fuel) s sh ptr

/-- `QuickPool::coalesce` (QuickPool.cpp:316-329) with sanitizer calls. -/
def coalesceS (cfg : Cfg) (fuel : Nat) (s : State) (sh : Shadow) : Prog (State × Shadow) :=
  if cfg.heur s ≠ 0 then doCoalesceS cfg fuel s sh (cfg.heur s) else .ret (s, sh)

/-! ## Without the sanitizer calls these are the functions of `Model.lean` -/

theorem allocateS_erase (cfg : Cfg) (s : State) (sh : Shadow) (n : Nat) :
    ((allocateS cfg s sh n).bind fun r => .ret r.1) = allocate cfg s n := by
  unfold allocateS allocate
  simp only
  cases lowerBound (roundUp64 cfg.align n) s.sizeMap with
  | none =>
    simp only [Prog.bind]
    congr 1
    funext r
    cases r with
    | some p => rfl
    | none =>
      simp only [bind_assoc]
      congr 1
      funext s1
      simp only [Prog.bind]
      congr 1
      funext r
      cases r <;> rfl
  | some e =>
    simp only
    cases findChunk e.2 s.blocks <;> rfl

theorem deallocWithS_erase {cfg : Cfg} {co : State → Shadow → Nat → Prog (State × Shadow)} {co' : State → Nat → Prog State}
    (hco : ∀ s sh g, ((co s sh g).bind fun r => .ret r.1) = co' s g) (s : State) (sh : Shadow) (p : Nat) :
    ((deallocWithS cfg co s sh p).bind fun r => .ret r.1) = deallocWith cfg co' s p := by
  unfold deallocWithS deallocWith
  cases deallocCore s p with
  | none => rfl
  | some s' =>
    simp only
    split
    · rw [hco]
    · rfl

theorem doCoalesceS_erase (cfg : Cfg) (fuel : Nat) (s : State) (sh : Shadow) (g : Nat) :
    ((doCoalesceS cfg fuel s sh g).bind fun r => .ret r.1) = doCoalesce cfg fuel s g := by
  induction fuel generalizing s sh g with
  | zero => rfl
  | succ fuel ih =>
    unfold doCoalesceS doCoalesce
    by_cases h : 1 < s.sizeMap.length
    · rw [if_pos h, if_pos h, bind_assoc]
      congr 1
      funext s1
      by_cases h1 : s1.actualBytes < g
      · rw [if_pos h1, if_pos h1, bind_assoc, ← allocateS_erase cfg s1 sh, bind_assoc]
        congr 1
        funext r
        obtain ⟨⟨r, s2⟩, sh2⟩ := r
        cases r with
        | none => rfl
        | some p => exact deallocWithS_erase ih s2 sh2 p
      · rw [if_neg h1, if_neg h1]; rfl
    · rw [if_neg h, if_neg h]; rfl

theorem deallocateS_erase (cfg : Cfg) (fuel : Nat) (s : State) (sh : Shadow) (p : Nat) :
    ((deallocateS cfg fuel s sh p).bind fun r => .ret r.1) = deallocate cfg fuel s p :=
  deallocWithS_erase (doCoalesceS_erase cfg fuel) s sh p

theorem coalesceS_erase (cfg : Cfg) (fuel : Nat) (s : State) (sh : Shadow) :
    ((coalesceS cfg fuel s sh).bind fun r => .ret r.1) = coalesce cfg fuel s := by
  unfold coalesceS coalesce
  split
  · exact doCoalesceS_erase ..
  · rfl

/-- Executions with and without the sanitizer correspond. -/
theorem run_erase {α : Type} {p : Prog (α × Shadow)} {q : Prog α} (he : (p.bind fun r => .ret r.1) = q) {O : Held} {a : α}
    {sh : Shadow} {O' : Held} (h : Run p O (a, sh) O') : Run q O a O' := by
  rw [← he]
  exact h.bind .ret

theorem run_lift {α : Type} {p : Prog (α × Shadow)} {q : Prog α} (he : (p.bind fun r => .ret r.1) = q) {O : Held} {a : α}
    {O' : Held} (h : Run q O a O') : ∃ sh, Run p O (a, sh) O' := by
  rw [← he] at h
  obtain ⟨⟨a', sh⟩, O1, h1, h2⟩ := Run.of_bind h
  cases h2
  exact ⟨sh, h1⟩

/-! ## Histories -/

/-- One user operation, or something others do with the sanitizer outside of the
memory this pool holds. -/
inductive StepS (cfg : Cfg) : Sys → Shadow → Sys → Shadow → Prop where
  | allocOk {S : Sys} {sh sh' : Shadow} {n p s' O'} : ReqOk cfg n →
      Run (allocateS cfg S.pool sh n) S.held ((some p, s'), sh') O' → StepS cfg S sh ⟨s', O', (p, n) :: S.live⟩ sh'
  | allocErr {S : Sys} {sh sh' : Shadow} {n s' O'} : ReqOk cfg n →
      Run (allocateS cfg S.pool sh n) S.held ((none, s'), sh') O' → StepS cfg S sh ⟨s', O', S.live⟩ sh'
  | dealloc {S : Sys} {sh sh' : Shadow} {p n fuel s' O'} : (p, n) ∈ S.live →
      Run (deallocateS cfg fuel S.pool sh p) S.held (s', sh') O' → StepS cfg S sh ⟨s', O', drop p S.live⟩ sh'
  | release {S : Sys} {sh : Shadow} {s' O'} : Run (QuickPool.release S.pool) S.held s' O' →
      StepS cfg S sh ⟨s', O', S.live⟩ sh
  | coalesce {S : Sys} {sh sh' : Shadow} {fuel s' O'} :
      Run (coalesceS cfg fuel S.pool sh) S.held (s', sh') O' → StepS cfg S sh ⟨s', O', S.live⟩ sh'
  | others {S : Sys} {sh sh' : Shadow} : (∀ o ∈ S.held, ∀ b, Covers o b → poisoned sh' b = poisoned sh b) →
      StepS cfg S sh S sh'

/-- Everything that can happen to a pool, from its construction on, whatever was
marked before. -/
inductive ReachS (cfg : Cfg) : Sys → Shadow → Prop where
  | init {sh : Shadow} : ReachS cfg ⟨init, [], []⟩ sh
  | step {S T : Sys} {sh sh' : Shadow} : ReachS cfg S sh → StepS cfg S sh T sh' → ReachS cfg T sh'

theorem reachS_reach {cfg : Cfg} {S : Sys} {sh : Shadow} (h : ReachS cfg S sh) : Reach cfg S := by
  induction h with
  | init => exact .init
  | step _ hs ih =>
    cases hs with
    | allocOk hn hr => exact .step ih (.allocOk hn (run_erase (allocateS_erase ..) hr))
    | allocErr hn hr => exact .step ih (.allocErr hn (run_erase (allocateS_erase ..) hr))
    | dealloc hL hr => exact .step ih (.dealloc hL (run_erase (deallocateS_erase ..) hr))
    | release hr => exact .step ih (.release hr)
    | coalesce hr => exact .step ih (.coalesce (run_erase (coalesceS_erase ..) hr))
    | others => exact ih

/-- Nothing is lost: every history has its marked version. -/
theorem reach_reachS {cfg : Cfg} {S : Sys} (h : Reach cfg S) : ∃ sh, ReachS cfg S sh := by
  induction h with
  | init => exact ⟨[], .init⟩
  | step _ hs ih =>
    obtain ⟨sh, ih⟩ := ih
    cases hs with
    | allocOk hn hr =>
      obtain ⟨sh', h'⟩ := run_lift (allocateS_erase cfg _ sh _) hr
      exact ⟨sh', .step ih (.allocOk hn h')⟩
    | allocErr hn hr =>
      obtain ⟨sh', h'⟩ := run_lift (allocateS_erase cfg _ sh _) hr
      exact ⟨sh', .step ih (.allocErr hn h')⟩
    | dealloc hL hr =>
      obtain ⟨sh', h'⟩ := run_lift (deallocateS_erase cfg _ _ sh _) hr
      exact ⟨sh', .step ih (.dealloc hL h')⟩
    | release hr => exact ⟨sh, .step ih (.release hr)⟩
    | coalesce hr =>
      obtain ⟨sh', h'⟩ := run_lift (coalesceS_erase cfg _ _ sh) hr
      exact ⟨sh', .step ih (.coalesce h')⟩

/-! ## The marking is kept -/

theorem Inv.held_of_live {a : Nat} (ha : 0 < a) {s : State} {O L : Held} (h : Inv a s O L) {l : Nat × Nat} (hl : l ∈ L) :
    ∃ o ∈ O, Within l.1 l.2 o.1 o.2 := by
  obtain ⟨_, o, ho, hw1, hw2⟩ := Inv.live_held h ha hl
  have := (ceil_spec (a := a) (n := l.2) ha).2.1
  unfold Within at *
  exact ⟨o, ho, by omega⟩

theorem allocateS_marked {cfg : Cfg} (hc : CfgOk cfg) {s : State} {O O' L : Held} (h : Inv cfg.align s O L) {sh sh' : Shadow}
    (hm : Marked O L sh) {n : Nat} {r : Option Nat} {s' : State}
    (hr : Run (allocateS cfg s sh n) O ((r, s'), sh') O') :
    Marked O' (match r with | some p => (p, n) :: L | none => L) sh' := by
  unfold allocateS at hr
  simp only at hr
  split at hr
  · cases hr with
    | allocOk hp hr =>
      cases hr
      exact Marked.alloc (hm.grow hp.2.2 fun l hl => Inv.held_of_live hc.al h hl)
    | allocFail hr =>
      obtain ⟨s1, O1, h1, h2⟩ := Run.of_bind hr
      obtain ⟨hO1, hi1, -⟩ := release_used hc.al h h1
      have hm1 : Marked O1 L sh := hm.sublist (by rw [hO1]; exact List.filter_sublist)
      cases h2 with
      | allocOk hp h2 =>
        cases h2
        exact Marked.alloc (hm1.grow hp.2.2 fun l hl => Inv.held_of_live hc.al hi1 hl)
      | allocFail h2 => cases h2; exact hm1
  · split at hr
    · cases hr
    · cases hr
      exact hm.alloc

theorem Inv.sizeAt_eq {a : Nat} (ha : 0 < a) {s : State} {O L : Held} (h : Inv a s O L) {p n : Nat} (hL : (p, n) ∈ L) :
    sizeAt s p = ceil a n := by
  obtain ⟨c, hc, hu, hd, hsz⟩ := h.live_chunk hL
  simp only at hd hsz
  subst hd
  unfold sizeAt
  rw [h.ptr_find hc hu]
  simp only [Option.bind_some, findChunk_decomp hc rfl h.ids, Option.map_some, Option.getD_some]
  have hce := Inv.live_ceil h ha hL
  simp only at hce
  rw [hsz, hce]

theorem Inv.live_inj {a : Nat} {s : State} {O L : Held} (h : Inv a s O L) {x y : Nat × Nat} (hx : x ∈ L) (hy : y ∈ L)
    (he : x.1 = y.1) : x = y :=
  nodup_map_inj (f := (·.1)) h.live_fst_nodup hx hy he

theorem deallocCore_marked {a : Nat} (ha : 0 < a) {s : State} {O L : Held} (h : Inv a s O L) {sh : Shadow} (hm : Marked O L sh)
    {p n : Nat} (hL : (p, n) ∈ L) : Marked O (drop p L) (.poison p (sizeAt s p) :: sh) := by
  rw [Inv.sizeAt_eq ha h hL]
  refine hm.free ?_ ?_
  · intro l hl
    obtain ⟨hl, hne⟩ := mem_drop.1 hl
    have := pairwise_mem (Inv.live_disj h ha) (fun _ _ => Disj.symm) hl hL (fun he => hne (by rw [he]))
    have hc := (ceil_spec (a := a) (n := l.2) ha).2.1
    unfold Disj at *
    simp only at this
    omega
  · intro l hl he
    rw [Inv.live_inj h hl hL he]
    exact (ceil_spec (a := a) (n := n) ha).2.1

theorem deallocWithS_marked {cfg : Cfg} (hc : CfgOk cfg) {co : State → Shadow → Nat → Prog (State × Shadow)} {s s' : State}
    {O O' L : Held} {sh sh' : Shadow} {p n : Nat} (h : Inv cfg.align s O L) (hm : Marked O L sh) (hL : (p, n) ∈ L)
    (hco : ∀ s O L sh s' O' sh', Inv cfg.align s O L → Marked O L sh → Run (co s sh (cfg.heur s)) O (s', sh') O' → Marked O' L sh')
    (hr : Run (deallocWithS cfg co s sh p) O (s', sh') O') : Marked O' (drop p L) sh' := by
  obtain ⟨s1, hs1, hi1⟩ := deallocCore_inv h hL
  have hm1 := deallocCore_marked hc.al h hm hL
  simp only [deallocWithS, hs1] at hr
  split at hr
  · exact hco _ _ _ _ _ _ _ hi1 hm1 hr
  · cases hr; exact hm1

theorem doCoalesceS_marked {cfg : Cfg} (hc : CfgOk cfg) (hh : HeurOk cfg) {fuel : Nat} {s s' : State} {O O' L : Held}
    {sh sh' : Shadow} {g : Nat} (h : Inv cfg.align s O L) (hg : g + 2 * cfg.align ≤ W) (hm : Marked O L sh)
    (hr : Run (doCoalesceS cfg fuel s sh g) O (s', sh') O') : Marked O' L sh' := by
  induction fuel generalizing s O L sh g s' O' sh' with
  | zero => unfold doCoalesceS at hr; cases hr
  | succ fuel ih =>
    unfold doCoalesceS at hr
    split at hr
    · obtain ⟨s1, O1, hr1, hr⟩ := Run.of_bind hr
      obtain ⟨hO1, hi1, -⟩ := release_used hc.al h hr1
      have hm1 : Marked O1 L sh := hm.sublist (by rw [hO1]; exact List.filter_sublist)
      split at hr
      · have hreq : ReqOk cfg (g - s1.actualBytes) := ⟨by omega, by omega⟩
        obtain ⟨⟨⟨r, s2⟩, sh2⟩, O2, hr2, hr⟩ := Run.of_bind hr
        have hm2 := allocateS_marked hc hi1 hm1 hr2
        have hpost := wp_run (allocate_wp hi1 hc hreq) (run_erase (allocateS_erase ..) hr2)
        cases r with
        | none => cases hr
        | some p =>
          simp only [AllocPost] at hpost
          replace hpost := hpost.1
          have hnd := hpost.live_fst_nodup
          simp only [List.map_cons, List.nodup_cons, List.mem_map, not_exists, not_and] at hnd
          have hdr := drop_cons_fresh (L := L) (p := p) (n := g - s1.actualBytes) (fun r hr => fun he => hnd.1 r hr he)
          have := deallocWithS_marked hc hpost hm2 List.mem_cons_self
            (fun s O L sh s' O' sh' hi hm hr => ih hi (hh s O L hi) hm hr) hr
          rwa [hdr] at this
      · cases hr; exact hm1
    · cases hr; exact hm

theorem reachS_marked {cfg : Cfg} (hc : CfgOk cfg) (hh : HeurOk cfg) {S : Sys} {sh : Shadow} (h : ReachS cfg S sh) :
    Marked S.held S.live sh := by
  induction h with
  | init => intro o ho; cases ho
  | step hS hs ih =>
    have hi := reach_inv hc hh (reachS_reach hS)
    cases hs with
    | allocOk hn hr => exact allocateS_marked hc hi ih hr
    | allocErr hn hr => exact allocateS_marked hc hi ih hr
    | dealloc hL hr =>
      exact deallocWithS_marked hc hi ih hL (fun s O L sh s' O' sh' hi hm hr => doCoalesceS_marked hc hh hi (hh s O L hi) hm hr) hr
    | release hr =>
      obtain ⟨hO1, -, -⟩ := release_used hc.al hi hr
      exact ih.sublist (by rw [hO1]; exact List.filter_sublist)
    | coalesce hr =>
      unfold coalesceS at hr
      split at hr
      · exact doCoalesceS_marked hc hh hi (hh _ _ _ hi) ih hr
      · cases hr; exact ih
    | others ho => intro o hO b hb; rw [ho o hO b hb]; exact ih o hO b hb

/-! ## C62 -/

/-- The sanitizer never reports an access to a live allocation, and reports every other
access to the memory the pool holds: to freed allocations, to the rounding behind an
allocation, to memory never handed out. -/
theorem quickpool_poison_exact {cfg : Cfg} (hc : CfgOk cfg) (hh : HeurOk cfg) {S : Sys} {sh : Shadow} (h : ReachS cfg S sh) :
    (∀ l ∈ S.live, ∀ b, Covers l b → poisoned sh b = false) ∧
    (∀ o ∈ S.held, ∀ b, Covers o b → (∀ l ∈ S.live, ¬ Covers l b) → poisoned sh b = true) := by
  have hm := reachS_marked hc hh h
  have hi := reach_inv hc hh (reachS_reach h)
  constructor
  · intro l hl b hb
    obtain ⟨o, ho, hw⟩ := Inv.held_of_live hc.al hi hl
    have hbo : Covers o b := by unfold Covers Within at *; omega
    cases hp : poisoned sh b with
    | false => rfl
    | true => exact absurd ⟨l, hl, hb⟩ ((hm o ho b hbo).1 hp)
  · intro o ho b hb hn
    exact (hm o ho b hb).2 fun ⟨l, hl, hlb⟩ => hn l hl hlb

/-- Negation of the rest of C62, for every pool: `release` hands memory back to the
parent with every byte marked as inaccessible. -/
theorem quickpool_returns_poisoned {cfg : Cfg} (hc : CfgOk cfg) (hh : HeurOk cfg) {S : Sys} {sh : Shadow} (h : ReachS cfg S sh)
    {s' : State} {O' : Held} (hr : Run (release S.pool) S.held s' O') :
    ∀ o ∈ S.held, o ∉ O' → ∀ b, Covers o b → poisoned sh b = true := by
  intro o ho hno b hb
  have hi := reach_inv hc hh (reachS_reach h)
  obtain ⟨hO, -, -⟩ := release_used hc.al hi hr
  refine (quickpool_poison_exact hc hh h).2 o ho b hb fun l hl hlb => ?_
  refine hno (hO ▸ mem_usedBlocks.2 ⟨ho, l, hl, fun hd => ?_⟩)
  exact covers_disj hd hlb hb

/-- What the parent is to do with such memory: a FixedPool, which does not call the
sanitizer (FixedPool.cpp), gives one of its objects to a QuickPool, gets it back and
gives it to somebody else, who cannot access it. -/
theorem quickpool_poison_counterexample :
    ∃ (f : FixedPool.Cfg) (cfg : Cfg) (f0 f1 f2 f3 : FixedPool.State) (s1 s2 s3 : State) (sh1 sh2 : Shadow)
      (O : Held) (p q n : Nat), CfgOk cfg ∧ BuiltIn cfg.heur ∧
      Run (FixedPool.create f) [] f0 O ∧
      Run (FixedPool.allocate f 2 f0) O (some p, f1) O ∧
      Run (allocateS cfg init [] n) [] ((some q, s1), sh1) [(p, f.obj)] ∧
      Run (deallocateS cfg 5 s1 sh1 q) [(p, f.obj)] (s2, sh2) [(p, f.obj)] ∧
      Run (release s2) [(p, f.obj)] s3 [] ∧
      Run (FixedPool.deallocate f f1 p) O (true, f2) O ∧
      Run (FixedPool.allocate f 2 f2) O (some p, f3) O ∧
      ∀ b, Covers (p, f.obj) b → poisoned sh2 b = true := by
  refine ⟨⟨80, 4⟩, cfgX, { pools := [⟨1600, [2 ^ 32 - 1], 4⟩], current := 0, actual := 321, hwm := 0 }, ?f1, ?f2, ?f3, ?s1, ?s2, ?s3,
    [.unpoison 1600 40, .poison 1600 80], [.poison 1600 48, .unpoison 1600 40, .poison 1600 80],
    [(1600, 320)], 1600, 1600, 40, cfgX_ok, cfgX_builtIn, ?_⟩
  case f1 => exact { pools := [⟨1600, [2 ^ 32 - 2], 3⟩], current := 80, actual := 321, hwm := 80 }
  case f2 => exact { pools := [⟨1600, [2 ^ 32 - 1], 4⟩], current := 0, actual := 321, hwm := 80 }
  case f3 => exact { pools := [⟨1600, [2 ^ 32 - 2], 3⟩], current := 80, actual := 321, hwm := 80 }
  case s1 => exact
      { blocks := [[⟨0, 1600, 48, 64, false⟩, ⟨1, 1648, 16, 64, true⟩]], sizeMap := [(16, 1)], ptrMap := [(1600, 0)],
        baseMap := [(1600, 1600, 80)], nextId := 2, totalBlocks := 1, releasableBlocks := 0, alignedBytes := 48,
        alignedHwm := 48, actualBytes := 64, releasableBytes := 0, actualHwm := 64 }
  case s2 => exact
      { blocks := [[⟨0, 1600, 64, 64, true⟩]], sizeMap := [(64, 0)], ptrMap := [],
        baseMap := [(1600, 1600, 80)], nextId := 2, totalBlocks := 1, releasableBlocks := 1, alignedBytes := 0,
        alignedHwm := 48, actualBytes := 64, releasableBytes := 64, actualHwm := 64 }
  case s3 => exact
      { blocks := [], sizeMap := [], ptrMap := [],
        baseMap := [], nextId := 2, totalBlocks := 0, releasableBlocks := 0, alignedBytes := 0,
        alignedHwm := 48, actualBytes := 0, releasableBytes := 0, actualHwm := 64 }
  refine ⟨execOk_run [some 1600] (by decide +kernel), execOk_run [] (by decide +kernel),
    execOk_run [some 1600] (by decide +kernel), execOk_run [] (by decide +kernel), execOk_run [] (by decide +kernel),
    execOk_run [] (by decide +kernel), execOk_run [] (by decide +kernel), ?_⟩
  intro b hb
  unfold poisoned
  by_cases h48 : Covers (1600, 48) b
  · rw [if_pos h48]
  · have h40 : ¬ Covers (1600, 40) b := by unfold Covers at *; simp only at *; omega
    rw [if_neg h48]
    unfold poisoned
    rw [if_neg h40]
    unfold poisoned
    rw [if_pos hb]

/-- `quickpool_poison_exact` there: the last byte of the second allocation, the
rounding behind it, and the freed allocation. -/
example : ∃ sh, ReachS cfgX sysX sh ∧ poisoned sh 1655 = false ∧ poisoned sh 1656 = true ∧ poisoned sh 3200 = true := by
  obtain ⟨sh, h⟩ := reach_reachS sysX_reach
  have := quickpool_poison_exact cfgX_ok cfgX_heur h
  exact ⟨sh, h, this.1 (1616, 40) (by decide) _ (by decide), this.2 (1600, 80) (by decide) _ (by decide) (by decide),
    this.2 (3190, 80) (by decide) _ (by decide) (by decide)⟩

/-- `sysX` after `release`. -/
def poolR : State :=
  { blocks := [[⟨0, 1600, 16, 64, false⟩, ⟨1, 1616, 48, 64, false⟩]],
    sizeMap := [], ptrMap := [(1616, 1), (1600, 0)], baseMap := [(1600, 1600, 80)],
    nextId := 5, totalBlocks := 1, releasableBlocks := 0, alignedBytes := 64, alignedHwm := 128,
    actualBytes := 64, releasableBytes := 0, actualHwm := 128 }

/-- `quickpool_returns_poisoned` there. -/
example : ∃ sh, ReachS cfgX sysX sh ∧ Run (release sysX.pool) sysX.held poolR [(1600, 80)] ∧ poisoned sh 3190 = true := by
  obtain ⟨sh, h⟩ := reach_reachS sysX_reach
  have hr : Run (release sysX.pool) sysX.held poolR [(1600, 80)] := execOk_run [] (by decide +kernel)
  exact ⟨sh, h, hr, quickpool_returns_poisoned cfgX_ok cfgX_heur h hr (3190, 80) (by decide) (by decide) _ (by decide)⟩

end Umpire.QuickPool
