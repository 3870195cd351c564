import Verif.Deny.Alloc
/-!
# Memory that the parent refuses to take back (C83)

A `QuickPool` over a parent whose `deallocate` may throw at any time.  `Reach2` ranges over all histories, including those that go on
after exceptions.  `mem.refused` are the blocks that were handed back and refused, `mem.held` everything the parent counts as allocated.
-/
set_option autoImplicit false
set_option linter.unusedSimpArgs false
namespace Umpire.Deny
open Umpire QuickPool Prog2

/-! ## Histories -/

/-- A pool, the memory of its parent and the allocations of its user. -/
structure Sys2 where
  pool : State
  mem : Mem
  live : Held

/-- One operation of the user that completes, normally or with an exception. -/
inductive Step2 (cfg : Cfg) : Sys2 → Sys2 → Prop where
  | allocOk {S : Sys2} {n p : Nat} {s' : State} {M' : Mem} : ReqOk cfg n →
      Run2 (allocate2 cfg S.pool n) S.mem (some p, s') M' → Step2 cfg S ⟨s', M', (p, n) :: S.live⟩
  | allocErr {S : Sys2} {n : Nat} {s' : State} {M' : Mem} : ReqOk cfg n →
      Run2 (allocate2 cfg S.pool n) S.mem (none, s') M' → Step2 cfg S ⟨s', M', S.live⟩
  | dealloc {S : Sys2} {p n fuel : Nat} {s' : State} {M' : Mem} : (p, n) ∈ S.live →
      Run2 (deallocate2 cfg fuel S.pool p) S.mem s' M' → Step2 cfg S ⟨s', M', drop p S.live⟩
  | release {S : Sys2} {ok : Bool} {s' : State} {M' : Mem} : Run2 (release2 S.pool) S.mem (ok, s') M' → Step2 cfg S ⟨s', M', S.live⟩
  | coalesce {S : Sys2} {fuel : Nat} {s' : State} {M' : Mem} : Run2 (coalesce2 cfg fuel S.pool) S.mem s' M' → Step2 cfg S ⟨s', M', S.live⟩

/-- Everything from `S` on. -/
inductive Later (cfg : Cfg) (S : Sys2) : Sys2 → Prop where
  | refl : Later cfg S S
  | step {T U : Sys2} : Later cfg S T → Step2 cfg T U → Later cfg S U

/-- Everything from a new pool on. -/
def Reach2 (cfg : Cfg) (S : Sys2) : Prop := Later cfg ⟨init, ⟨[], [], false⟩, []⟩ S

theorem Later.trans {cfg : Cfg} {S T U : Sys2} (h1 : Later cfg S T) (h2 : Later cfg T U) : Later cfg S U := by
  induction h2 with
  | refl => exact h1
  | step _ hs ih => exact .step ih hs

/-- Which arguments a pool is used with: no overflow in `size + alignment` (as `CfgOk`), and a heuristic as in `HeurOk2`, such as all
that the library provides. -/
structure Fine (cfg : Cfg) : Prop where
  ok : CfgOk cfg
  al : 2 * cfg.align ≤ AMax
  heur : HeurOk2 cfg

theorem builtIn_fine {cfg : Cfg} (hc : CfgOk cfg) (ha : 2 * cfg.align ≤ AMax) (hf : BuiltIn cfg.heur) : Fine cfg :=
  ⟨hc, ha, builtIn_ok2 hf ha⟩

theorem step_inv {cfg : Cfg} (hf : Fine cfg) {S T : Sys2} (h : InvF cfg.align S.pool S.mem S.live) (hs : Step2 cfg S T) :
    InvF cfg.align T.pool T.mem T.live := by
  cases hs with
  | allocOk hn hr => exact wp_run (allocate2_wp h hf.ok hn) hr
  | allocErr hn hr => exact wp_run (allocate2_wp h hf.ok hn) hr
  | dealloc hl hr => exact wp_run (deallocate2_wp hf.ok hf.al hf.heur h hl) hr
  | release hr => exact (wp_run (release2_wp h) hr).1
  | coalesce hr => exact wp_run (coalesce2_wp hf.ok hf.al hf.heur h) hr

theorem reach2_inv {cfg : Cfg} (hf : Fine cfg) {S : Sys2} (h : Reach2 cfg S) : InvF cfg.align S.pool S.mem S.live := by
  unfold Reach2 at h
  induction h with
  | refl => exact init_invF _
  | step _ hs ih => exact step_inv hf ih hs

/-! ## Scripts, for examples -/

/-- Run against a parent with scripted answers. -/
def exec2 {α : Type} : Prog2 α → List (Option Nat) → List Bool → Mem → Except Bad (α × Mem)
  | ret a, _, _, M => .ok (a, M)
  | fail b, _, _, _ => .error b
  | alloc n k, as, bs, M =>
    match as with
    | some p :: as => if Fresh p n M.held then exec2 (k (some p)) as bs ⟨(p, n) :: M.held, M.refused, M.nulls⟩ else exec2 (k none) as bs M
    | _ :: as => exec2 (k none) as bs M
    | [] => exec2 (k none) [] bs M
  | dealloc p n k, as, bs, M =>
    match bs with
    | b :: bs => exec2 (k b) as bs (M.back p n b)
    | [] => exec2 (k true) as [] (M.back p n true)

theorem exec2_run {α : Type} {p : Prog2 α} {as : List (Option Nat)} {bs : List Bool} {M M' : Mem} {a : α} (h : exec2 p as bs M = .ok (a, M')) :
    Run2 p M a M' := by
  induction p generalizing as bs M with
  | ret a => simp only [exec2, Except.ok.injEq, Prod.mk.injEq] at h; obtain ⟨rfl, rfl⟩ := h; exact .ret
  | fail b => exact nomatch h
  | alloc n k ih =>
    match as with
    | [] => exact .allocFail (ih _ h)
    | none :: as => exact .allocFail (ih _ h)
    | some p :: as =>
      simp only [exec2] at h
      split at h
      · rename_i hp; exact .allocOk hp (ih _ h)
      · exact .allocFail (ih _ h)
  | dealloc p n k ih =>
    match bs with
    | [] => exact .dealloc true (ih _ h)
    | b :: bs => exact .dealloc b (ih _ h)

theorem exec2_goes {α : Type} {p : Prog2 α} {as : List (Option Nat)} {bs : List Bool} {M : Mem} {b : Bad} (h : exec2 p as bs M = .error b) :
    Goes2 p M b := by
  induction p generalizing as bs M with
  | ret a => exact nomatch h
  | fail b => simp only [exec2, Except.error.injEq] at h; subst h; exact .fail
  | alloc n k ih =>
    match as with
    | [] => exact .allocFail (ih _ h)
    | none :: as => exact .allocFail (ih _ h)
    | some p :: as =>
      simp only [exec2] at h
      split at h
      · rename_i hp; exact .allocOk hp (ih _ h)
      · exact .allocFail (ih _ h)
  | dealloc p n k ih =>
    match bs with
    | [] => exact .dealloc true (ih _ h)
    | b :: bs => exact .dealloc b (ih _ h)

deriving instance DecidableEq for Mem

/-- The result of a script that ends well. -/
def exec2Ok {α : Type} (p : Prog2 α) (as : List (Option Nat)) (bs : List Bool) (M : Mem) : Option (α × Mem) :=
  match exec2 p as bs M with
  | .ok r => some r
  | .error _ => none

theorem exec2Ok_run {α : Type} {p : Prog2 α} (as : List (Option Nat)) (bs : List Bool) {M M' : Mem} {a : α} (h : exec2Ok p as bs M = some (a, M')) :
    Run2 p M a M' := by
  unfold exec2Ok at h
  split at h
  · rename_i r hr; injection h with h; subst h; exact exec2_run hr
  · exact nomatch h

/-- How a script that ends badly ends. -/
def exec2Bad {α : Type} (p : Prog2 α) (as : List (Option Nat)) (bs : List Bool) (M : Mem) : Option Bad :=
  match exec2 p as bs M with
  | .ok _ => none
  | .error b => some b

theorem exec2Bad_goes {α : Type} {p : Prog2 α} (as : List (Option Nat)) (bs : List Bool) {M : Mem} {b : Bad} (h : exec2Bad p as bs M = some b) :
    Goes2 p M b := by
  unfold exec2Bad at h
  split at h
  · exact nomatch h
  · rename_i c hr; injection h with h; subst h; exact exec2_goes hr

/-! ### A pool with two blocks of which one is refused -/

/-- 16-byte alignment, blocks of 64 bytes, coalescing when two blocks are free. -/
def cfgD : Cfg := { align := 16, first := 64, next := 64, heur := blocksReleasable 2 }

theorem cfgD_fine : Fine cfgD := builtIn_fine ⟨by decide, by decide, by decide⟩ (by decide) (.blocks 2)

/-- After `allocate(64)`. -/
def sysA : Sys2 :=
  ⟨{ blocks := [[⟨0, 1600, 64, 64, false⟩]], sizeMap := [], ptrMap := [(1600, 0)], baseMap := [(1600, 1600, 80)], nextId := 2,
     totalBlocks := 1, releasableBlocks := 0, alignedBytes := 64, alignedHwm := 64, actualBytes := 64, releasableBytes := 0,
     actualHwm := 64 }, ⟨[(1600, 80)], [], false⟩, [(1600, 64)]⟩

theorem sysA_alloc : Run2 (allocate2 cfgD init 64) ⟨[], [], false⟩ (some 1600, sysA.pool) sysA.mem :=
  exec2Ok_run [some 1600] [] (by decide +kernel)

theorem sysA_reach : Reach2 cfgD sysA :=
  .step .refl (.allocOk (S := ⟨init, ⟨[], [], false⟩, []⟩) ⟨by decide, by decide⟩ sysA_alloc)

/-- After `allocate(64)` twice. -/
def sysB : Sys2 :=
  ⟨{ blocks := [[⟨0, 1600, 64, 64, false⟩], [⟨2, 3200, 64, 64, false⟩]], sizeMap := [], ptrMap := [(3200, 2), (1600, 0)],
     baseMap := [(3200, 3190, 80), (1600, 1600, 80)], nextId := 4, totalBlocks := 2, releasableBlocks := 0, alignedBytes := 128,
     alignedHwm := 128, actualBytes := 128, releasableBytes := 0, actualHwm := 128 },
   ⟨[(3190, 80), (1600, 80)], [], false⟩, [(3200, 64), (1600, 64)]⟩

theorem sysB_alloc : Run2 (allocate2 cfgD sysA.pool 64) sysA.mem (some 3200, sysB.pool) sysB.mem :=
  exec2Ok_run [some 3190] [] (by decide +kernel)

theorem sysB_reach : Reach2 cfgD sysB := .step sysA_reach (.allocOk (S := sysA) ⟨by decide, by decide⟩ sysB_alloc)

/-- One of them deallocated. -/
def sysC : Sys2 :=
  ⟨{ blocks := [[⟨0, 1600, 64, 64, false⟩], [⟨2, 3200, 64, 64, true⟩]], sizeMap := [(64, 2)], ptrMap := [(1600, 0)],
     baseMap := [(3200, 3190, 80), (1600, 1600, 80)], nextId := 4, totalBlocks := 2, releasableBlocks := 1, alignedBytes := 64,
     alignedHwm := 128, actualBytes := 128, releasableBytes := 64, actualHwm := 128 },
   ⟨[(3190, 80), (1600, 80)], [], false⟩, [(1600, 64)]⟩

theorem sysC_dealloc : Run2 (deallocate2 cfgD 3 sysB.pool 3200) sysB.mem sysC.pool sysC.mem :=
  exec2Ok_run [] [] (by decide +kernel)

theorem sysC_reach : Reach2 cfgD sysC := .step sysB_reach (.dealloc (S := sysB) (n := 64) (by decide) sysC_dealloc)

/-- `release()` threw: the block is still in the pool, its base pointer is gone. -/
def sysD : Sys2 :=
  ⟨{ blocks := [[⟨0, 1600, 64, 64, false⟩], [⟨2, 3200, 64, 64, true⟩]], sizeMap := [(64, 2)], ptrMap := [(1600, 0)],
     baseMap := [(1600, 1600, 80)], nextId := 4, totalBlocks := 1, releasableBlocks := 0, alignedBytes := 64,
     alignedHwm := 128, actualBytes := 64, releasableBytes := 0, actualHwm := 128 },
   ⟨[(3190, 80), (1600, 80)], [(3190, 80)], false⟩, [(1600, 64)]⟩

theorem sysD_release : Run2 (release2 sysC.pool) sysC.mem (false, sysD.pool) sysD.mem :=
  exec2Ok_run [] [false] (by decide +kernel)

theorem sysD_reach : Reach2 cfgD sysD := .step sysC_reach (.release (S := sysC) sysD_release)

/-! ## Safety -/

section
attribute [local irreducible] sub64 add64


/-- Whatever the parent refuses, no operation has undefined behaviour; `allocate`, `release` and the destructor do not end the program
either.  Partial: see `coalesce_terminates`. -/
theorem deny_safe_partial {cfg : Cfg} (hf : Fine cfg) {S : Sys2} (h : Reach2 cfg S) :
    (∀ n, ReqOk cfg n → ∀ b, ¬ Goes2 (allocate2 cfg S.pool n) S.mem b) ∧
    (∀ b, ¬ Goes2 (release2 S.pool) S.mem b) ∧ (∀ b, ¬ Goes2 (destroy2 S.pool) S.mem b) ∧
    (∀ p n fuel, (p, n) ∈ S.live → ¬ Goes2 (deallocate2 cfg fuel S.pool p) S.mem .ub) ∧
    (∀ fuel, ¬ Goes2 (coalesce2 cfg fuel S.pool) S.mem .ub) := by
  have hi := reach2_inv hf h
  exact ⟨fun n hn b hg => wp_safe (allocate2_wp hi hf.ok hn) hg, fun b hg => wp_safe (release2_wp hi) hg,
    fun b hg => wp_safe (destroy2_wp hi) hg, fun p n fuel hl hg => wp_safe (deallocate2_wp hf.ok hf.al hf.heur hi hl) hg rfl,
    fun fuel hg => wp_safe (coalesce2_wp hf.ok hf.al hf.heur hi) hg rfl⟩

example : ∀ b, ¬ Goes2 (release2 sysD.pool) sysD.mem b := (deny_safe_partial cfgD_fine sysD_reach).2.1

/-- Live allocations stay disjoint and inside memory the parent counts as allocated to the pool; what the parent refused is part of it. -/
theorem deny_live {cfg : Cfg} (hf : Fine cfg) {S : Sys2} (h : Reach2 cfg S) :
    (S.live.Pairwise fun x y => Disj x.1 x.2 y.1 y.2) ∧
    (∀ l ∈ S.live, cfg.align ∣ l.1 ∧ ∃ o ∈ S.mem.held, Within l.1 l.2 o.1 o.2) ∧
    S.mem.held.Disjoint ∧ ∀ r ∈ S.mem.refused, r ∈ S.mem.held := by
  obtain ⟨⟨lost, leaked, hi⟩, _⟩ := reach2_inv hf h
  have hal := hf.ok.al
  refine ⟨?_, ?_, hi.disj, fun r hr => hi.ref_held hr⟩
  · refine List.Pairwise.imp ?_ (Inv.live_disj (s := fix S.pool lost) hi.core hal)
    intro x y hd
    have hx := (ceil_spec (a := cfg.align) (n := x.2) hal).2.1
    have hy := (ceil_spec (a := cfg.align) (n := y.2) hal).2.1
    unfold Disj at *; omega
  · intro l hl
    obtain ⟨hd, o, ho, h1, h2⟩ := Inv.live_held (s := fix S.pool lost) hi.core hal hl
    have hx := (ceil_spec (a := cfg.align) (n := l.2) hal).2.1
    exact ⟨hd, o, hi.held.mem_iff.2 (List.mem_append_left _ ho), by unfold Within at *; omega⟩

example : ∀ r ∈ sysD.mem.refused, r ∈ sysD.mem.held := (deny_live cfgD_fine sysD_reach).2.2.2

/-! ## What was refused is lost -/

/-- A pool hands back `nullptr` or memory that it holds, that was never refused before and in which no live allocation has a byte. -/
theorem deny_offers {cfg : Cfg} (hf : Fine cfg) {S : Sys2} (h : Reach2 cfg S) {p m : Nat} {M' : Mem} (hp : p ≠ 0) :
    (∀ n, ReqOk cfg n → Offers (allocate2 cfg S.pool n) S.mem p m M' → (p, m) ∈ M'.held ∧ (p, m) ∉ M'.refused ∧ ∀ l ∈ S.live, Disj l.1 l.2 p m) ∧
    (Offers (release2 S.pool) S.mem p m M' → (p, m) ∈ M'.held ∧ (p, m) ∉ M'.refused ∧ ∀ l ∈ S.live, Disj l.1 l.2 p m) ∧
    (Offers (destroy2 S.pool) S.mem p m M' → (p, m) ∈ M'.held ∧ (p, m) ∉ M'.refused ∧ ∀ l ∈ S.live, Disj l.1 l.2 p m) ∧
    (∀ q n fuel, (q, n) ∈ S.live → Offers (deallocate2 cfg fuel S.pool q) S.mem p m M' →
      (p, m) ∈ M'.held ∧ (p, m) ∉ M'.refused ∧ ∀ l ∈ drop q S.live, Disj l.1 l.2 p m) ∧
    (∀ fuel, Offers (coalesce2 cfg fuel S.pool) S.mem p m M' → (p, m) ∈ M'.held ∧ (p, m) ∉ M'.refused ∧ ∀ l ∈ S.live, Disj l.1 l.2 p m) := by
  have hi := reach2_inv hf h
  have key : ∀ {L : Held} {M' : Mem}, (p = 0 ∨ ((p, m) ∈ M'.held ∧ (p, m) ∉ M'.refused ∧ 0 < m ∧ ∀ l ∈ L, Disj l.1 l.2 p m)) →
      (p, m) ∈ M'.held ∧ (p, m) ∉ M'.refused ∧ ∀ l ∈ L, Disj l.1 l.2 p m := by
    rintro L M' (h0 | ⟨h1, h2, _, h3⟩)
    · exact absurd h0 hp
    · exact ⟨h1, h2, h3⟩
  exact ⟨fun n hn ho => key (wp_offers (allocate2_wp hi hf.ok hn) ho), fun ho => key (wp_offers (release2_wp hi) ho),
    fun ho => key (wp_offers (destroy2_wp hi) ho), fun q n fuel hl ho => key (wp_offers (deallocate2_wp hf.ok hf.al hf.heur hi hl) ho),
    fun fuel ho => key (wp_offers (coalesce2_wp hf.ok hf.al hf.heur hi) ho)⟩

/-- The pool of `sysC` does offer its free block. -/
example : Offers (release2 sysC.pool) sysC.mem 3190 80 sysC.mem := .here

/-- One refusal and the block is allocated for good: it is among the memory held ever after, and (`deny_offers`) never handed back again. -/
theorem deny_leak {cfg : Cfg} (hf : Fine cfg) {S T : Sys2} (h : Reach2 cfg S) (hl : Later cfg S T) {r : Nat × Nat} (hr : r ∈ S.mem.refused) :
    r ∈ T.mem.held ∧ r ∈ T.mem.refused := by
  have hT : r ∈ T.mem.refused := by
    induction hl with
    | refl => exact hr
    | step _ hs ih =>
      cases hs with
      | allocOk _ hr => exact hr.refused r ih
      | allocErr _ hr => exact hr.refused r ih
      | dealloc _ hr => exact hr.refused r ih
      | release hr => exact hr.refused r ih
      | coalesce hr => exact hr.refused r ih
  exact ⟨(deny_live hf (Later.trans h hl)).2.2.2 r hT, hT⟩

/-- The second `release` gives `nullptr` back instead, and forgets the block. -/
def sysE : Sys2 :=
  ⟨{ blocks := [[⟨0, 1600, 64, 64, false⟩]], sizeMap := [], ptrMap := [(1600, 0)],
     baseMap := [(1600, 1600, 80)], nextId := 4, totalBlocks := 0, releasableBlocks := 2 ^ 64 - 1, alignedBytes := 64,
     alignedHwm := 128, actualBytes := 0, releasableBytes := 2 ^ 64 - 64, actualHwm := 128 },
   ⟨[(3190, 80), (1600, 80)], [(3190, 80)], false⟩, [(1600, 64)]⟩

theorem sysE_release : Run2 (release2 sysD.pool) sysD.mem (true, sysE.pool) sysE.mem :=
  exec2Ok_run [] [true] (by decide +kernel)

theorem sysE_later : Later cfgD sysD sysE := .step .refl (.release (S := sysD) sysE_release)

example : Offers (release2 sysD.pool) sysD.mem 0 0 sysD.mem := .here
example : (3190, 80) ∈ sysE.mem.held ∧ (3190, 80) ∈ sysE.mem.refused :=
  deny_leak cfgD_fine sysD_reach sysE_later (by simp [sysD])

/-! ## What `release` tells -/

theorem mem_free {L : Held} {O : Held} {r : Nat × Nat} : r ∈ freeBlocks O L ↔ r ∈ O ∧ ∀ l ∈ L, Disj l.1 l.2 r.1 r.2 := by
  simp [freeBlocks]

theorem relAll_free {a : Nat} (ha : 0 < a) {s s' : State} {M' : Mem} {L : Held} {lost : List (Nat × Nat × Nat)} {leaked : Held}
    (h : InvM a s' M' L lost leaked s'.sizeMap) (hr : RelAll s s') {r : Nat × Nat} (hm : r ∈ M'.held) (hd : ∀ l ∈ L, Disj l.1 l.2 r.1 r.2) :
    r ∈ M'.refused := by
  rcases List.mem_append.1 (h.held.mem_iff.1 hm) with hO | hO
  · exfalso
    have h1 := Inv.relBlocks_eq (s := fix s' lost) h.core ha
    have h2 : (fix s' lost).releasableBlocks = 0 := by
      show (s'.blocks.flatten.filter whole).length = 0
      rw [List.length_eq_zero_iff, List.filter_eq_nil_iff]
      intro c hc
      simp [hr.all c hc]
    rw [h2] at h1
    have h3 := List.length_eq_zero_iff.1 h1.symm
    have h4 : r ∈ freeBlocks ((s'.baseMap ++ lost).map (·.2)) L := mem_free.2 ⟨hO, hd⟩
    rw [h3] at h4
    exact nomatch h4
  · exact h.ref.mem_iff.2 (List.mem_append_right _ hO)

/-- `release` throws if and only if something was refused just now.  If it returns, everything without a live allocation has been given
back, except what was refused before. -/
theorem deny_release {cfg : Cfg} (hf : Fine cfg) {S : Sys2} (h : Reach2 cfg S) {ok : Bool} {s' : State} {M' : Mem}
    (hr : Run2 (release2 S.pool) S.mem (ok, s') M') :
    (ok = true → M'.refused = S.mem.refused ∧ M'.nulls = S.mem.nulls ∧
      ∀ r ∈ M'.held, (∀ l ∈ S.live, Disj l.1 l.2 r.1 r.2) → r ∈ S.mem.refused) ∧
    (ok = false → M'.nulls = true ∨ ∃ x, M'.refused = x :: S.mem.refused) := by
  have hi := reach2_inv hf h
  obtain ⟨_, ⟨lost, leaked, hm, _⟩, h2, h3⟩ := wp_run (release2_wp hi) hr
  refine ⟨fun ht => ?_, h3⟩
  obtain ⟨k1, k2, k3⟩ := h2 ht
  refine ⟨k2, k3, fun r hr hd => ?_⟩
  have := relAll_free hf.ok.al hm k1 hr hd
  rwa [k2] at this

example : ∀ r ∈ sysE.mem.held, (∀ l ∈ sysD.live, Disj l.1 l.2 r.1 r.2) → r ∈ sysD.mem.refused :=
  ((deny_release cfgD_fine sysD_reach sysE_release).1 rfl).2.2

/-- The destructor throws nothing, and afterwards the pool holds only what is in use and what was refused. -/
theorem deny_destroy {cfg : Cfg} (hf : Fine cfg) {S : Sys2} (h : Reach2 cfg S) {ok : Bool} {s' : State} {M' : Mem}
    (hr : Run2 (destroy2 S.pool) S.mem (ok, s') M') :
    ok = true ∧ ∀ r ∈ M'.held, (∀ l ∈ S.live, Disj l.1 l.2 r.1 r.2) → r ∈ M'.refused := by
  have hi := reach2_inv hf h
  obtain ⟨⟨lost, leaked, hm⟩, h2, h3⟩ := wp_run (destroy2_wp hi) hr
  exact ⟨h2, fun r hr hd => relAll_free hf.ok.al hm h3 hr hd⟩

/-- Two free blocks, the first refused: the destructor goes on and gives the other one back. -/
example : ∃ s', Run2 (destroy2 { sysC.pool with blocks := [[⟨0, 1600, 64, 64, true⟩], [⟨2, 3200, 64, 64, true⟩]], sizeMap := [(64, 2), (64, 0)] }) sysC.mem
    (true, s') ⟨[(3190, 80)], [(3190, 80)], false⟩ := by
  refine ⟨⟨[], [], [(1600, 0)], [], 4, 0, 2 ^ 64 - 1, 64, 128, 0, 2 ^ 64 - 64, 128⟩, exec2Ok_run [] [false, true] ?_⟩
  decide +kernel

/-! ## Sizes -/

theorem heldBytes_append (a : Nat) (x y : Held) : heldBytes a (x ++ y) = heldBytes a x + heldBytes a y := by simp [heldBytes]

theorem heldBytes_perm {a : Nat} {x y : Held} (h : x.Perm y) : heldBytes a x = heldBytes a y := (h.map _).sum_nat

/-- As long as the parent takes `nullptr`, the sizes the pool reports are too small by what was refused, once for every refusal and once
more when the block is forgotten by a later `release`; modulo 2^64. -/
theorem deny_sizes {cfg : Cfg} (hf : Fine cfg) {S : Sys2} (h : Reach2 cfg S) (hn : S.mem.nulls = false) :
    ∃ kept forgotten : Held, S.mem.refused.Perm (kept ++ forgotten) ∧
      w64 (getActualSize S.pool + heldBytes cfg.align S.mem.refused + heldBytes cfg.align forgotten) = w64 (heldBytes cfg.align S.mem.held) ∧
      w64 (getTotalBlocks S.pool + S.mem.refused.length + forgotten.length) = w64 S.mem.held.length := by
  obtain ⟨⟨lost, leaked, hi⟩, db, dn, ho, hd⟩ := reach2_inv hf h
  obtain ⟨d1, d2⟩ := hd hn
  refine ⟨_, _, hi.ref, ?_, ?_⟩
  · have h1 : (S.pool.blocks.map bsize).sum = heldBytes cfg.align ((S.pool.baseMap ++ lost).map (·.2)) :=
      Inv.actual_eq (s := fix S.pool lost) hi.core hf.ok.al
    have h2 := ho.act
    rw [heldBytes_perm hi.held, heldBytes_append, ← h1]
    have d1 : db = heldBytes cfg.align S.mem.refused := d1
    unfold getActualSize
    rw [← d1]
    generalize (S.pool.blocks.map bsize).sum = x at *
    generalize heldBytes cfg.align leaked = y at *
    unfold w64 W at *
    omega
  · have h1 : S.pool.blocks.length = ((S.pool.baseMap ++ lost).map (·.2)).length :=
      Inv.total_eq (s := fix S.pool lost) hi.core hf.ok.al
    have h2 := ho.tot
    have h3 := hi.held.length_eq
    rw [List.length_append] at h3
    rw [h3, ← h1]
    unfold getTotalBlocks
    rw [← d2]
    generalize S.pool.blocks.length = x at *
    generalize leaked.length = y at *
    unfold w64 W at *
    omega

theorem heldBytes_le {a : Nat} {O : Held} (hd : O.Disjoint) (hr : ∀ r ∈ O, r.1 ≠ 0 ∧ 0 < r.2 ∧ r.1 + r.2 ≤ AMax) : heldBytes a O ≤ AMax := by
  have h1 := Held.sum_le hd fun r h => (hr r h).2
  have h2 : ∀ l : Held, heldBytes a l ≤ (l.map (·.2)).sum := by
    intro l
    induction l with
    | nil => simp [heldBytes]
    | cons x xs ih => simp only [heldBytes, List.map_cons, List.sum_cons] at *; omega
  have := h2 O
  omega

/-- Nothing refused so far: the size reported is what is held. -/
theorem deny_sizes_clean {cfg : Cfg} (hf : Fine cfg) {S : Sys2} (h : Reach2 cfg S) (hn : S.mem.nulls = false) (h0 : S.mem.refused = []) :
    getActualSize S.pool = heldBytes cfg.align S.mem.held := by
  obtain ⟨k, f, hp, h1, _⟩ := deny_sizes hf h hn
  obtain ⟨⟨lost, leaked, hi⟩, db, dn, ho, _⟩ := reach2_inv hf h
  rw [h0] at hp h1
  have hkf : k ++ f = [] := List.perm_nil.1 hp.symm
  have hf0 : f = [] := (List.append_eq_nil_iff.1 hkf).2
  subst hf0
  have h2 := heldBytes_le (a := cfg.align) hi.disj hi.range
  have h3 := ho.lt
  have hAM := AMax_add_AMax
  have h4 : 0 < AMax := by decide
  simp only [heldBytes, List.map_nil, List.sum_nil, Nat.add_zero] at h1
  change w64 (getActualSize S.pool) = w64 (heldBytes cfg.align S.mem.held) at h1
  unfold getActualSize at *
  unfold w64 at h1
  rwa [Nat.mod_eq_of_lt h3, Nat.mod_eq_of_lt (by omega)] at h1

/-- The first refusal makes the size reported too small by the size of that block, although the pool still uses it. -/
theorem deny_first_refusal {cfg : Cfg} (hf : Fine cfg) {S : Sys2} (h : Reach2 cfg S) (h0 : S.mem.refused = []) {s' : State} {M' : Mem}
    (hr : Run2 (release2 S.pool) S.mem (false, s') M') (hn : M'.nulls = false) :
    ∃ p n, M'.refused = [(p, n)] ∧ (p, n) ∈ M'.held ∧ getActualSize s' + (n - cfg.align) = heldBytes cfg.align M'.held := by
  have hi := reach2_inv hf h
  obtain ⟨⟨_, db, dn, ho, hd⟩, ⟨lost, leaked, hm, hl⟩, _, h3⟩ := wp_run (release2_wp hi) hr
  have hl0 : leaked = [] := by
    cases leaked with
    | nil => rfl
    | cons x xs => have := hl x (by simp); rw [h0] at this; exact nomatch this
  subst hl0
  rcases h3 rfl with h3 | ⟨⟨p, n⟩, hx⟩
  · rw [hn] at h3; exact nomatch h3
  rw [h0] at hx
  obtain ⟨d1, _⟩ := hd hn
  rw [hx] at d1
  simp only [List.map_cons, List.map_nil, List.sum_cons, List.sum_nil, Nat.add_zero] at d1
  have hin : (p, n) ∈ M'.held := hm.ref_held (by rw [hx]; simp)
  refine ⟨p, n, hx, hin, ?_⟩
  have h1 : (s'.blocks.map bsize).sum = heldBytes cfg.align ((s'.baseMap ++ lost).map (·.2)) :=
    Inv.actual_eq (s := fix s' lost) hm.core hf.ok.al
  have h2 := ho.act
  have h5 := heldBytes_le (a := cfg.align) hm.disj hm.range
  have h6 := ho.lt
  have hAM := AMax_add_AMax
  rw [heldBytes_perm hm.held, List.append_nil] at h5 ⊢
  rw [← h1] at h5 ⊢
  have h7 : n ≤ AMax := by have := hm.range _ hin; simp only at this; omega
  have h8 : n - cfg.align ≤ (s'.blocks.map bsize).sum := by
    rw [h1, ← heldBytes_perm (a := cfg.align) (hm.held.trans (.of_eq (List.append_nil _)))]
    exact le_sum_of_mem (List.mem_map.2 ⟨(p, n), hin, rfl⟩)
  unfold getActualSize
  have d1 : db = n - cfg.align := d1
  rw [d1] at h2
  have h10 : s'.actualBytes < W := h6
  generalize (s'.blocks.map bsize).sum = x at *
  generalize s'.actualBytes = y at *
  generalize n - cfg.align = z at *
  clear h1 h3 hi hm hin hd hx hr ho d1
  unfold w64 at h2
  rw [Nat.mod_eq_of_lt (show x < W by have : 0 < AMax := by decide
                                      omega)] at h2
  unfold AMax W at *
  omega

example : ∃ p n, sysD.mem.refused = [(p, n)] ∧ (p, n) ∈ sysD.mem.held ∧ getActualSize sysD.pool + (n - 16) = heldBytes 16 sysD.mem.held :=
  deny_first_refusal cfgD_fine sysC_reach rfl sysD_release rfl

/-- A pool from which nothing is in use, released without an exception after something was refused, reports a size of at least
2^63 bytes. -/
theorem deny_absurd_size {cfg : Cfg} (hf : Fine cfg) {S : Sys2} (h : Reach2 cfg S) (hlive : S.live = []) (h0 : S.mem.refused ≠ []) {s' : State}
    {M' : Mem} (hr : Run2 (release2 S.pool) S.mem (true, s') M') (hn : M'.nulls = false) :
    2 ^ 63 ≤ getActualSize s' := by
  have hi := reach2_inv hf h
  obtain ⟨⟨_, db, dn, ho, hd⟩, ⟨lost, leaked, hm, hl⟩, h2, _⟩ := wp_run (release2_wp hi) hr
  obtain ⟨k1, k2, k3⟩ := h2 rfl
  obtain ⟨d1, _⟩ := hd hn
  -- no block is left
  have hO : (s'.baseMap ++ lost).map (·.2) = [] := by
    cases hc : (s'.baseMap ++ lost).map (·.2) with
    | nil => rfl
    | cons o os =>
      exfalso
      have h1 := Inv.relBlocks_eq (s := fix s' lost) hm.core hf.ok.al
      have h2 : (fix s' lost).releasableBlocks = 0 := by
        show (s'.blocks.flatten.filter whole).length = 0
        rw [List.length_eq_zero_iff, List.filter_eq_nil_iff]
        intro c hc
        simp [k1.all c hc]
      rw [h2] at h1
      have h3 := List.length_eq_zero_iff.1 h1.symm
      have h4 : o ∈ freeBlocks ((s'.baseMap ++ lost).map (·.2)) S.live := by
        rw [mem_free, hc, hlive]; simp
      rw [h3] at h4
      exact nomatch h4
  have hlost : lost = [] := by
    cases lost with
    | nil => rfl
    | cons x xs => simp at hO
  have h1 : (s'.blocks.map bsize).sum = heldBytes cfg.align ((s'.baseMap ++ lost).map (·.2)) :=
    Inv.actual_eq (s := fix s' lost) hm.core hf.ok.al
  rw [hO] at h1
  have hact := ho.act
  rw [h1] at hact
  have href : M'.refused.Perm leaked := by have := hm.ref; rw [hlost] at this; simpa using this
  have hheld : M'.held.Perm leaked := by have := hm.held; rw [hO] at this; simpa using this
  have hle := heldBytes_le (a := cfg.align) hm.disj hm.range
  rw [heldBytes_perm hheld] at hle
  have hdb : db = heldBytes cfg.align leaked := by rw [← heldBytes_perm href]; exact d1
  have hpos : 0 < heldBytes cfg.align leaked := by
    cases leaked with
    | nil => rw [← k2] at h0; exact absurd (List.perm_nil.1 href) h0
    | cons x xs =>
      have := hm.big x (by simp)
      simp only [heldBytes, List.map_cons, List.sum_cons]
      omega
  have hlt := ho.lt
  rw [hdb] at hact
  have hlt : s'.actualBytes < W := hlt
  have hact : w64 (s'.actualBytes + heldBytes cfg.align leaked) = 0 := hact
  unfold getActualSize
  generalize heldBytes cfg.align leaked = x at *
  generalize s'.actualBytes = y at *
  clear h1 hm hi hd hr ho hl
  unfold w64 W AMax at *
  omega

/-- One block, deallocated. -/
def sysQ : Sys2 :=
  ⟨{ blocks := [[⟨0, 1600, 64, 64, true⟩]], sizeMap := [(64, 0)], ptrMap := [], baseMap := [(1600, 1600, 80)], nextId := 2,
     totalBlocks := 1, releasableBlocks := 1, alignedBytes := 0, alignedHwm := 64, actualBytes := 64, releasableBytes := 64,
     actualHwm := 64 }, ⟨[(1600, 80)], [], false⟩, []⟩

theorem sysQ_dealloc : Run2 (deallocate2 cfgD 3 sysA.pool 1600) sysA.mem sysQ.pool sysQ.mem :=
  exec2Ok_run [] [] (by decide +kernel)

theorem sysQ_reach : Reach2 cfgD sysQ := .step sysA_reach (.dealloc (S := sysA) (n := 64) (by decide) sysQ_dealloc)

/-- Refused. -/
def sysR : Sys2 :=
  ⟨{ sysQ.pool with baseMap := [], totalBlocks := 0, releasableBlocks := 0, actualBytes := 0, releasableBytes := 0 },
   ⟨[(1600, 80)], [(1600, 80)], false⟩, []⟩

theorem sysR_release : Run2 (release2 sysQ.pool) sysQ.mem (false, sysR.pool) sysR.mem := exec2Ok_run [] [false] (by decide +kernel)

theorem sysR_reach : Reach2 cfgD sysR := .step sysQ_reach (.release (S := sysQ) sysR_release)

/-- Released again: the pool reports 2^64 - 64 bytes. -/
example : ∃ s', Run2 (release2 sysR.pool) sysR.mem (true, s') sysR.mem ∧ getActualSize s' = 2 ^ 64 - 64 ∧ 2 ^ 63 ≤ getActualSize s' := by
  have h : Run2 (release2 sysR.pool) sysR.mem
      (true, ⟨[], [], [], [], 2, 2 ^ 64 - 1, 2 ^ 64 - 1, 0, 64, 2 ^ 64 - 64, 2 ^ 64 - 64, 64⟩) sysR.mem :=
    exec2Ok_run [] [true] (by decide +kernel)
  exact ⟨_, h, rfl, deny_absurd_size cfgD_fine sysR_reach rfl (by simp [sysR]) h rfl⟩

/-! ## The program ends -/

theorem known_refusal {a : Nat} {es : List (Nat × Nat)} {s : State} {M : Mem} {L : Held} {lost : List (Nat × Nat × Nat)} {leaked : Held}
    (h : InvM a s M L lost leaked s.sizeMap) (hes : ∀ e ∈ es, e ∈ s.sizeMap) (hnd : (es.map (·.2)).Nodup)
    {c : Chunk} (hc : c ∈ s.blocks.flatten) (hw : c.size = c.chunkSize) (hce : (c.size, c.id) ∈ es)
    {e : Nat × Nat × Nat} (he : e ∈ s.baseMap) (hk : e.1 = c.data) :
    ∃ s' M', Run2 (releaseLoop2 false es s) M (false, s') M' := by
  induction es generalizing s M lost leaked with
  | nil => exact nomatch hce
  | cons x es ih =>
    obtain ⟨d, hd, hdf, rfl, hfind⟩ := h.core.sm_chunk (hes x (by simp))
    have hd : d ∈ s.blocks.flatten := hd
    have hfind : findChunk d.id s.blocks = some d := hfind
    simp only [List.map_cons, List.nodup_cons] at hnd
    unfold releaseLoop2
    simp only [hfind]
    by_cases hdw : d.size = d.chunkSize
    · rw [if_pos ⟨hdw, hdf⟩]
      unfold alignedDealloc2
      simp only
      cases hb : s.baseMap.find? (fun e => decide (e.1 = d.data)) with
      | some e' => exact ⟨_, _, .dealloc false .ret⟩
      | none =>
        have hcd : c ≠ d := by
          rintro rfl
          exact absurd hk (by simpa using List.find?_eq_none.1 hb e he)
        have hid : c.id ≠ d.id := fun hid => hcd (nodup_map_inj h.core.ids hc hd hid)
        obtain ⟨B1, B2, hbs⟩ := whole_decomp h.core hd hdw
        have hbm : [d] ∈ (fix s lost).blocks := by rw [hbs]; simp
        obtain ⟨e', he', hk', hO, hbf⟩ := h.core.base_find hbm
        have hk' : e'.1 = d.data := hk'
        have hel : e' ∈ lost := by
          rcases List.mem_append.1 he' with he' | he'
          · exact absurd hk' (by simpa using List.find?_eq_none.1 hb e' he')
          · exact he'
        have h1 := step_lost (h.less d) hd hdw hdf hel hk' true
        have hne : c.data ≠ d.data := fun hh => hcd (h.core.data_inj hc hd hh)
        have hc' : c ∈ (gone (less s d) d).blocks.flatten := by
          obtain ⟨b, hb', hcb⟩ := List.mem_flatten.1 hc
          refine List.mem_flatten.2 ⟨b.filter fun x => decide (x.id ≠ d.id), List.mem_filter.2 ⟨List.mem_map_of_mem hb', ?_⟩, ?_⟩
          · have : c ∈ b.filter fun x => decide (x.id ≠ d.id) := List.mem_filter.2 ⟨hcb, by simpa using hid⟩
            cases hq : b.filter fun x => decide (x.id ≠ d.id) with
            | nil => rw [hq] at this; exact nomatch this
            | cons y ys => rfl
          · exact List.mem_filter.2 ⟨hcb, by simpa using hid⟩
        have hce' : (c.size, c.id) ∈ es := by
          rcases List.mem_cons.1 hce with hh | hh
          · exact absurd (congrArg Prod.snd hh) hid
          · exact hh
        obtain ⟨s', M', hrun⟩ := ih h1 (fun y hy => by
            refine List.mem_filter.2 ⟨hes y (by simp [hy]), ?_⟩
            simp only [ne_eq, decide_not, Bool.not_eq_eq_eq_not, Bool.not_true, decide_eq_false_iff_not]
            intro hyc
            exact hnd.1 (List.mem_map.2 ⟨y, hy, hyc⟩)) hnd.2 hc' hce'
          (List.mem_filter.2 ⟨he, by simpa [hk] using hne⟩)
        exact ⟨s', M', .dealloc true hrun⟩
    · rw [if_neg (fun hh => hdw hh.1)]
      have hce' : (c.size, c.id) ∈ es := by
        rcases List.mem_cons.1 hce with hh | hh
        · exfalso
          have : c = d := nodup_map_inj h.core.ids hc hd (congrArg Prod.snd hh)
          subst this
          exact hdw hw
        · exact hh
      exact ih h (fun y hy => hes y (by simp [hy])) hnd.2 hc hce' he

/-- A block that is entirely free and was not refused before can be refused. -/
theorem release_can_throw {cfg : Cfg} (hf : Fine cfg) {S : Sys2} (h : Reach2 cfg S) {r : Nat × Nat} (hr : r ∈ S.mem.held)
    (hn : r ∉ S.mem.refused) (hd : ∀ l ∈ S.live, Disj l.1 l.2 r.1 r.2) :
    ∃ s' M', Run2 (release2 S.pool) S.mem (false, s') M' := by
  obtain ⟨⟨lost, leaked, hi⟩, _⟩ := reach2_inv hf h
  have hO : r ∈ (S.pool.baseMap ++ lost).map (·.2) := by
    rcases List.mem_append.1 (hi.held.mem_iff.1 hr) with hO | hO
    · exact hO
    · exact absurd (hi.ref.mem_iff.2 (List.mem_append_right _ hO)) hn
  obtain ⟨b, hb, hu, hwi⟩ := Inv.block_of_held (s := fix S.pool lost) hi.core hf.ok.al hO
  obtain ⟨c, rfl, hcf⟩ := (Inv.block_free (s := fix S.pool lost) hi.core hf.ok.al hb hO hu).1 hd
  have hcm : c ∈ S.pool.blocks.flatten := List.mem_flatten.2 ⟨[c], hb, by simp⟩
  have hw : c.size = c.chunkSize := by
    have := (hi.core.blk [c] hb).csize c (by simp)
    simp only [bsize_cons, bsize_nil] at this
    omega
  obtain ⟨e, he, heq⟩ := List.mem_map.1 hO
  have hem : e ∈ S.pool.baseMap := by
    rcases List.mem_append.1 he with he | he
    · exact he
    · refine absurd (hi.ref.mem_iff.2 (List.mem_append_left _ (List.mem_map.2 ⟨e, he, heq⟩))) hn
  have hk : e.1 = c.data := by
    rw [Inv.key_ceil (s := fix S.pool lost) hi.core hf.ok.al he]
    have : ceil cfg.align r.1 = c.data := congrArg Prod.fst hu
    have h2 : e.2 = r := heq
    rw [h2]; exact this
  have hce : (c.size, c.id) ∈ S.pool.sizeMap :=
    hi.core.sm.mem_iff.2 (List.mem_map.2 ⟨c, List.mem_filter.2 ⟨hcm, hcf⟩, rfl⟩)
  exact known_refusal hi (fun _ h => h) (Inv.sm_nodup hi.core) hcm hw hce hem hk

/-- A refusal while a pool coalesces ends the program (`do_coalesce` is `noexcept`): whenever the heuristic asks for it, there is more than
one free chunk, and some block without live allocations was not refused before. -/
theorem coalesce_terminates {cfg : Cfg} (hf : Fine cfg) {S : Sys2} (h : Reach2 cfg S) (fuel : Nat) (hheur : cfg.heur S.pool ≠ 0)
    (h2 : S.live.length + 2 ≤ getBlocksInPool S.pool) {r : Nat × Nat} (hr : r ∈ S.mem.held)
    (hn : r ∉ S.mem.refused) (hd : ∀ l ∈ S.live, Disj l.1 l.2 r.1 r.2) :
    Goes2 (coalesce2 cfg (fuel + 1) S.pool) S.mem .abort := by
  obtain ⟨s', M', hrun⟩ := release_can_throw hf h hr hn hd
  obtain ⟨⟨lost, leaked, hi⟩, _⟩ := reach2_inv hf h
  have hlen : S.pool.ptrMap.length = S.live.length := by
    have l1 : S.pool.ptrMap.length = _ := hi.core.pm.length_eq
    have l2 := hi.core.live.length_eq
    simp only [List.length_map] at l1 l2
    omega
  have h3 : 1 < S.pool.sizeMap.length := by unfold getBlocksInPool at h2; omega
  unfold coalesce2
  rw [if_pos hheur]
  unfold doCoalesce2
  rw [if_pos h3]
  refine Goes2.bind hrun ?_
  simp only [Bool.false_eq_true, if_false]
  exact .fail

end

/-- So does a refusal in the user's `deallocate`: two blocks, the heuristic of the library, the second block given back by its user. -/
theorem deallocate_terminates_counterexample : Goes2 (deallocate2 cfgD 3 sysC.pool 1600) sysC.mem .abort :=
  exec2Bad_goes [] [false] (by decide +kernel)

/-- A pool with blocks of 64 and 256 bytes that coalesces when one block is free. -/
def cfgG : Cfg := { align := 16, first := 64, next := 256, heur := blocksReleasable 1 }

theorem cfgG_fine : Fine cfgG := builtIn_fine ⟨by decide, by decide, by decide⟩ (by decide) (.blocks 1)

theorem sysA_alloc' : Run2 (allocate2 cfgG init 64) ⟨[], [], false⟩ (some 1600, sysA.pool) sysA.mem :=
  exec2Ok_run [some 1600] [] (by decide +kernel)

theorem sysQ_dealloc' : Run2 (deallocate2 cfgG 3 sysA.pool 1600) sysA.mem sysQ.pool sysQ.mem :=
  exec2Ok_run [] [] (by decide +kernel)

/-- One free block, and half of another in use. -/
def sysG : Sys2 :=
  ⟨{ blocks := [[⟨0, 1600, 64, 64, true⟩], [⟨2, 3200, 128, 256, false⟩, ⟨3, 3328, 128, 256, true⟩]], sizeMap := [(64, 0), (128, 3)],
     ptrMap := [(3200, 2)], baseMap := [(3200, 3200, 272), (1600, 1600, 80)], nextId := 4, totalBlocks := 2, releasableBlocks := 1,
     alignedBytes := 128, alignedHwm := 128, actualBytes := 320, releasableBytes := 64, actualHwm := 320 },
   ⟨[(3200, 272), (1600, 80)], [], false⟩, [(3200, 128)]⟩

theorem sysG_alloc : Run2 (allocate2 cfgG sysQ.pool 128) sysQ.mem (some 3200, sysG.pool) sysG.mem :=
  exec2Ok_run [some 3200] [] (by decide +kernel)

theorem sysG_reach : Reach2 cfgG sysG :=
  .step (.step (.step .refl (.allocOk (S := ⟨init, ⟨[], [], false⟩, []⟩) ⟨by decide, by decide⟩ sysA_alloc'))
    (.dealloc (S := sysA) (n := 64) (by decide) sysQ_dealloc')) (.allocOk (S := sysQ) ⟨by decide, by decide⟩ sysG_alloc)

example : Goes2 (coalesce2 cfgG 1 sysG.pool) sysG.mem .abort :=
  coalesce_terminates cfgG_fine sysG_reach 0 (by decide +kernel) (by decide) (r := (1600, 80)) (by decide) (by decide) (by decide)

end Umpire.Deny
