import Verif.BlockPool.Inv
import Verif.QuickPool.Fit
/-!
# Properties of `FixedSizePool` (C60)

`Reach` ranges over every history in which `malloc` grants every request; what
happens otherwise is stated separately at the end.
-/
set_option autoImplicit false
set_option linter.unusedSimpArgs false
namespace Umpire.BlockPool
open Umpire.Prog
open Umpire.QuickPool (drop_perm)

/-- As `Run`, with every request granted. -/
inductive RunN {α : Type} : Prog α → Held → α → Held → Prop where
  | ret {a O} : RunN (.ret a) O a O
  | alloc {n k O p a O'} : Fresh p n O → RunN (k (some p)) ((p, n) :: O) a O' → RunN (.alloc n k) O a O'
  | dealloc {p n k O a O'} : RunN k (drop p O) a O' → RunN (.dealloc p n k) O a O'

/-- As `Goes`, with every request granted. -/
inductive GoesN {α : Type} : Prog α → Held → Bad → Prop where
  | fail {b O} : GoesN (.fail b) O b
  | alloc {n k O p b} : Fresh p n O → GoesN (k (some p)) ((p, n) :: O) b → GoesN (.alloc n k) O b
  | badFree {p n k O} : (p, n) ∉ O → GoesN (.dealloc p n k) O .ub
  | dealloc {p n k O b} : GoesN k (drop p O) b → GoesN (.dealloc p n k) O b

/-- A pool, the memory it holds from `malloc`, and the objects in use. -/
structure Sys where
  st : State
  held : Held
  live : Held
deriving DecidableEq

/-- One operation that completes.  Only objects in use are deallocated. -/
inductive Step (c : Cfg) : Sys → Sys → Prop where
  | alloc {S : Sys} {fuel p s' O'} : RunN (allocate c (fuel + 2) S.st) S.held (p, s') O' →
      Step c S ⟨s', O', (p, c.sz) :: S.live⟩
  | dealloc {S : Sys} {p n} : (p, n) ∈ S.live → Step c S ⟨(deallocate c S.st p).2, S.held, drop p S.live⟩

/-- All histories. -/
inductive Reach (c : Cfg) : Sys → Prop where
  | init {s O} : RunN (create c) [] s O → Reach c ⟨s, O, []⟩
  | step {S T : Sys} : Reach c S → Step c S T → Reach c T

/-- What `allocate` does when every request is granted. -/
theorem allocate_runN {c : Cfg} (hc : CfgOk c) {s : State} {O L : Held} (h : Inv c s O L) {fuel p : Nat} {s' : State}
    {O' : Held} (hr : RunN (allocate c (fuel + 2) s) O (p, s') O') :
    Inv c s' O' ((p, c.sz) :: L) ∧
    (L.length < c.per * s.pools.length → O' = O ∧ s'.pools.length = s.pools.length) ∧
    (c.per * s.pools.length ≤ L.length → ∃ x, O' = (p, c.data) :: (x, c.hdr) :: O ∧ s'.pools.length = s.pools.length + 1) := by
  rcases Nat.lt_or_ge L.length (c.per * s.pools.length) with hlt | hge
  · obtain ⟨a, q, b, i, q', s1, h1, h2, h3, h4, h5, h6⟩ := allocate_some h hlt (fuel + 1)
    rw [h5] at hr
    cases hr
    refine ⟨h6, fun _ => ⟨rfl, by rw [h1, h2]; simp⟩, fun _ => by omega⟩
  · rw [allocate_full h hge] at hr
    unfold newPool at hr
    cases hr with
    | @alloc _ _ _ x _ _ hx hr =>
      cases hr with
      | @alloc _ _ _ d _ _ hd hr =>
        obtain ⟨s1, h1, h2, h3⟩ := allocate_grown hc h hge hx hd fuel
        simp only [Option.getD_some] at hr
        rw [h1] at hr
        cases hr
        exact ⟨h2, fun _ => by omega, fun _ => ⟨x, rfl, h3⟩⟩

theorem reach_inv {c : Cfg} (hc : CfgOk c) {S : Sys} (h : Reach c S) :
    Inv c S.st S.held S.live ∧ 0 < S.st.pools.length := by
  induction h with
  | init hr =>
    unfold create newPool at hr
    cases hr with
    | @alloc _ _ _ x _ _ hx hr =>
      cases hr with
      | @alloc _ _ _ d _ _ hd hr =>
        cases hr
        have h0 : Inv c ⟨[], 0⟩ [] [] := ⟨by simp, by simp, List.Pairwise.nil, by simp, by simp, rfl⟩
        exact ⟨h0.add hx hd, by simp⟩
  | step _ hs ih =>
    cases hs with
    | alloc hr =>
      obtain ⟨h1, h2, h3⟩ := allocate_runN hc ih.1 hr
      refine ⟨h1, ?_⟩
      rcases Nat.lt_or_ge _ _ with hlt | hge
      · have := (h2 hlt).2; have := ih.2; simp only at *; omega
      · obtain ⟨x, _, h4⟩ := h3 hge; simp only at *; omega
    | dealloc hl =>
      obtain ⟨s', h1, h2, h3⟩ := deallocate_live ih.1 hc hl
      simp only at h1 h2
      rw [h1]
      exact ⟨h2, by have := ih.2; simp only at *; omega⟩

theorem held_length {c : Cfg} {s : State} {O L : Held} (h : Inv c s O L) : O.length = 2 * s.pools.length := by
  rw [h.held.length_eq]
  generalize s.pools = ps
  induction ps with
  | nil => rfl
  | cons p ps ih => simp only [List.flatMap_cons, List.length_append, ih, blocks, List.length_cons, List.length_nil]; omega

theorem held_sum {c : Cfg} {s : State} {O L : Held} (h : Inv c s O L) : (O.map (·.2)).sum = s.pools.length * c.total := by
  rw [(h.held.map (·.2)).sum_nat]
  generalize s.pools = ps
  induction ps with
  | nil => simp
  | cons p ps ih =>
    simp only [List.flatMap_cons, List.map_append, List.sum_append, ih, blocks, List.length_cons, List.map_cons, List.map_nil,
      List.sum_cons, List.sum_nil, Nat.succ_mul, Cfg.data, Cfg.hdr, Cfg.total]
    omega

/-! ## Scripted histories, for examples -/

/-- Execute with the given answers, all of which must be acceptable. -/
def execN {α : Type} : Prog α → List Nat → Held → Option (α × Held)
  | .ret a, _, O => some (a, O)
  | .fail _, _, _ => none
  | .alloc n k, sc, O =>
    match sc with
    | p :: sc => if Fresh p n O then execN (k (some p)) sc ((p, n) :: O) else none
    | [] => none
  | .dealloc p n k, sc, O => if (p, n) ∈ O then execN k sc (drop p O) else none

theorem execN_run {α : Type} {p : Prog α} {sc : List Nat} {O O' : Held} {a : α} (h : execN p sc O = some (a, O')) :
    RunN p O a O' := by
  induction p generalizing sc O with
  | ret a => simp only [execN, Option.some.injEq, Prod.mk.injEq] at h; obtain ⟨rfl, rfl⟩ := h; exact .ret
  | fail b => cases h
  | alloc n k ih =>
    unfold execN at h
    split at h
    · split at h
      · exact .alloc ‹_› (ih _ h)
      · cases h
    · cases h
  | dealloc p n k ih =>
    unfold execN at h
    split at h
    · exact .dealloc (ih h)
    · cases h

/-- Allocate with the given answers, or deallocate. -/
def Sys.apply (c : Cfg) (S : Sys) : List Nat ⊕ (Nat × Nat) → Option Sys
  | .inl sc => (execN (allocate c 2 S.st) sc S.held).map fun r => ⟨r.1.2, r.2, (r.1.1, c.sz) :: S.live⟩
  | .inr l => if l ∈ S.live then some ⟨(deallocate c S.st l.1).2, S.held, drop l.1 S.live⟩ else none

def play (c : Cfg) : List (List Nat ⊕ (Nat × Nat)) → Sys → Option Sys
  | [], S => some S
  | op :: ops, S => (S.apply c op).bind (play c ops)

theorem play_reach {c : Cfg} {ops : List (List Nat ⊕ (Nat × Nat))} {S T : Sys} (hS : Reach c S)
    (h : play c ops S = some T) : Reach c T := by
  induction ops generalizing S with
  | nil => cases h; exact hS
  | cons op ops ih =>
    unfold play at h
    obtain ⟨U, hU, h⟩ := Option.bind_eq_some_iff.1 h
    refine ih (.step hS ?_) h
    cases op with
    | inl sc =>
      simp only [Sys.apply] at hU
      obtain ⟨⟨⟨p, s'⟩, O'⟩, h1, h2⟩ := Option.map_eq_some_iff.1 hU
      subst h2
      exact .alloc (fuel := 0) (execN_run h1)
    | inr l =>
      simp only [Sys.apply] at hU
      split at hU
      · rename_i hl
        injection hU with hU
        subst hU
        exact .dealloc (n := l.2) hl
      · cases hU

def cfgX : Cfg := { sz := 24, np := 1 }
theorem cfgX_ok : CfgOk cfgX := ⟨by decide, by decide⟩

/-- A new pool whose header is at 1000 and whose objects begin at 2000. -/
def sys0 : Sys := ⟨⟨[mkPool cfgX 1000 2000], 0⟩, [(2000, 768), (1000, 36)], []⟩

theorem sys0_reach : Reach cfgX sys0 := .init (execN_run (sc := [1000, 2000]) (by decide))

/-- All 32 slots of the first pool are used, then one more object is taken and the
second object is given back. -/
def opsX : List (List Nat ⊕ (Nat × Nat)) := List.replicate 32 (.inl []) ++ [.inl [4000, 5000], .inr (2024, 24)]

/-- The state reached. -/
def sysX : Sys :=
  ⟨⟨[⟨1000, 2000, [2], 1⟩, ⟨4000, 5000, [2 ^ 32 - 2], 31⟩], 32⟩, [(5000, 768), (4000, 36), (2000, 768), (1000, 36)],
    (5000, 24) :: ((List.range 32).reverse.filter (· ≠ 1)).map fun i => (2000 + 24 * i, 24)⟩

theorem sysX_reach : Reach cfgX sysX := play_reach sys0_reach (ops := opsX) (by decide +kernel)

/-! ## C60 -/

/-- Objects in use are pairwise disjoint; each lies, at a multiple of the object
size, in a data block obtained from `malloc`, is not null, and does not touch the
headers of the pool. -/
theorem blockpool_live_disjoint_partial {c : Cfg} (hc : CfgOk c) {S : Sys} (h : Reach c S) :
    (S.live.Pairwise fun x y => Disj x.1 x.2 y.1 y.2) ∧
    ∀ l ∈ S.live, l.2 = c.sz ∧ l.1 ≠ 0 ∧ ∃ d, (d, c.per * c.sz) ∈ S.held ∧ Within l.1 l.2 d (c.per * c.sz) ∧ c.sz ∣ l.1 - d ∧
      ∀ x ∈ S.st.pools, Disj l.1 l.2 x.hdr (32 + 4 * c.np) := by
  have hi := (reach_inv hc h).1
  refine ⟨hi.live_disj, fun l hl => ?_⟩
  obtain ⟨a, p, b, i, hs, h1, h2, rfl⟩ := hi.slot hl
  have hpm : p ∈ S.st.pools := by rw [hs]; simp
  have hmem : (p.data, c.data) ∈ S.held := hi.held.mem_iff.2 (List.mem_flatMap.2 ⟨p, hpm, by simp [blocks]⟩)
  have hne := hi.data_ne p hpm
  refine ⟨rfl, by simp only; omega, p.data, hmem, slot_in h1, ⟨i, by simp only; omega⟩, fun x hx => ?_⟩
  have hxm : (x.hdr, c.hdr) ∈ S.held := hi.held.mem_iff.2 (List.mem_flatMap.2 ⟨x, hx, by simp [blocks]⟩)
  have hd : Disj p.data c.data x.hdr c.hdr := by
    have h3 := hi.pairs
    rw [List.flatMap, List.pairwise_flatten, List.pairwise_map] at h3
    by_cases hxp : x = p
    · subst hxp
      have := h3.1 (blocks c x) (List.mem_map.2 ⟨x, hx, rfl⟩)
      simp only [blocks, List.pairwise_cons] at this
      exact this.1 (x.hdr, c.hdr) (by simp)
    · exact pairwise_mem (R := fun p q => ∀ u ∈ blocks c p, ∀ v ∈ blocks c q, Disj u.1 u.2 v.1 v.2) h3.2
        (fun p q h u hu v hv => (h v hv u hu).symm) hpm hx (Ne.symm hxp) (p.data, c.data) (by simp [blocks])
        (x.hdr, c.hdr) (by simp [blocks])
  have := Disj.of_within hd (slot_in h1) ⟨Nat.le_refl _, Nat.le_refl _⟩
  unfold Cfg.hdr at this
  rw [Nat.mul_comm 4]
  exact this

example : (sysX.live.Pairwise fun x y => Disj x.1 x.2 y.1 y.2) ∧ sysX.live.length = 32 :=
  ⟨(blockpool_live_disjoint_partial cfgX_ok sysX_reach).1, by decide +kernel⟩

/-- As long as `malloc` grants what is asked, `allocate` finishes.  It asks for
memory only when every slot is in use, and then for exactly one header and one data
block, whose first slot it hands out. -/
theorem blockpool_allocate_partial {c : Cfg} (hc : CfgOk c) {S : Sys} (h : Reach c S) (fuel : Nat) :
    (∀ b, ¬ GoesN (allocate c (fuel + 2) S.st) S.held b) ∧
    ∀ p s' O', RunN (allocate c (fuel + 2) S.st) S.held (p, s') O' →
      (S.live.length < c.per * numPools S.st → O' = S.held ∧ numPools s' = numPools S.st) ∧
      (c.per * numPools S.st ≤ S.live.length →
        ∃ x, O' = (p, c.per * c.sz) :: (x, 32 + c.np * 4) :: S.held ∧ numPools s' = numPools S.st + 1) := by
  have hi := (reach_inv hc h).1
  refine ⟨fun b hg => ?_, fun p s' O' hr => (allocate_runN hc hi hr).2⟩
  rcases Nat.lt_or_ge S.live.length (c.per * S.st.pools.length) with hlt | hge
  · obtain ⟨a, q, b', i, q', s1, h1, h2, h3, h4, h5, h6⟩ := allocate_some hi hlt (fuel + 1)
    rw [h5] at hg
    cases hg
  · rw [allocate_full hi hge] at hg
    unfold newPool at hg
    cases hg with
    | @alloc _ _ _ x _ hx hg =>
      cases hg with
      | @alloc _ _ _ d _ hd hg =>
        obtain ⟨s1, h1, h2, h3⟩ := allocate_grown hc hi hge hx hd fuel
        simp only [Option.getD_some] at hg
        rw [h1] at hg
        cases hg

example : ∃ s', RunN (allocate cfgX 2 sysX.st) sysX.held (2024, s') sysX.held ∧ numPools s' = 2 :=
  ⟨⟨[⟨1000, 2000, [0], 0⟩, ⟨4000, 5000, [2 ^ 32 - 2], 31⟩], 33⟩, execN_run (sc := []) (by decide +kernel), rfl⟩

/-- The observers are exact: `getCurrentSize` is the number of bytes in use,
`getActualSize` the number of bytes held from `malloc`. -/
theorem blockpool_sizes_partial {c : Cfg} (hc : CfgOk c) {S : Sys} (h : Reach c S) :
    getCurrentSize c S.st = (S.live.map (·.2)).sum ∧ getActualSize c S.st = (S.held.map (·.2)).sum ∧
    2 * numPools S.st = S.held.length := by
  have hi := (reach_inv hc h).1
  refine ⟨?_, (held_sum hi).symm, (held_length hi).symm⟩
  unfold getCurrentSize
  rw [hi.cnt]
  have hsz : ∀ l ∈ S.live, l.2 = c.sz := by
    intro l hl
    obtain ⟨_, _, _, _, _, _, _, rfl⟩ := hi.slot hl
    rfl
  revert hsz
  generalize S.live = L
  intro hsz
  induction L with
  | nil => simp
  | cons l L ih =>
    simp only [List.length_cons, Nat.succ_mul, List.map_cons, List.sum_cons, hsz l (by simp),
      ih fun q hq => hsz q (by simp [hq])]
    omega

example : getCurrentSize cfgX sysX.st = 768 ∧ getActualSize cfgX sysX.st = 1608 := by decide

/-- Deallocating an object in use succeeds and leaves every other object in use and
all memory as it was.  A pointer outside the data blocks is refused without
effect. -/
theorem blockpool_deallocate_partial {c : Cfg} (hc : CfgOk c) {S : Sys} (h : Reach c S) :
    (∀ p n, (p, n) ∈ S.live → (deallocate c S.st p).1 = true ∧
      Reach c ⟨(deallocate c S.st p).2, S.held, drop p S.live⟩ ∧ (drop p S.live).length + 1 = S.live.length) ∧
    ∀ p, (∀ d, (d, c.per * c.sz) ∈ S.held → ¬ (d ≤ p ∧ p < d + c.per * c.sz)) → deallocate c S.st p = (false, S.st) := by
  have hi := (reach_inv hc h).1
  refine ⟨fun p n hl => ?_, fun p hp => ?_⟩
  · obtain ⟨s', h1, h2, -⟩ := deallocate_live hi hc hl
    refine ⟨by simp only at h1; rw [h1], .step h (.dealloc hl), ?_⟩
    have h3 := h2.cnt
    simp only at h1
    have h4 := hi.cnt
    have hpos : 0 < S.live.length := List.length_pos_of_mem hl
    have h5 : s'.numBlocks = S.st.numBlocks - 1 := by
      unfold deallocate at h1
      split at h1
      · cases h1
      · injection h1 with _ h1; rw [← h1]
    simp only at h3
    omega
  · unfold deallocate
    rw [deallocLoop_none]
    intro q hq
    unfold inPool
    rw [decide_eq_false_iff_not]
    exact hp q.data (hi.held.mem_iff.2 (List.mem_flatMap.2 ⟨q, hq, by simp [blocks, Cfg.data]⟩))

example : (deallocate cfgX sysX.st 2048).1 = true ∧ deallocate cfgX sysX.st 3000 = (false, sysX.st) := by decide +kernel

/-- The destructor frees every block exactly once, whether or not objects are in
use. -/
theorem blockpool_destroy_partial {c : Cfg} (hc : CfgOk c) {S : Sys} (h : Reach c S) :
    (∀ b, ¬ Goes (destroy c S.st.pools) S.held b) ∧ ∀ u O', Run (destroy c S.st.pools) S.held u O' → O' = [] := by
  have hi := (reach_inv hc h).1
  have := destroy_wp hi.data_ne hi.held (hi.keys hc)
  exact ⟨fun b hg => wp_safe this hg, fun u O' hr => by have := wp_run this hr; exact this⟩

example : (destroy cfgX sysX.st.pools).execOk [] sysX.held = some ((), []) := by decide +kernel

/-! ## When `malloc` refuses -/

/-- Without memory for the header, `newPool` writes through a null pointer: in
every state in which all slots are in use. -/
theorem blockpool_null_header_counterexample {c : Cfg} (hc : CfgOk c) {S : Sys} (h : Reach c S)
    (hfull : c.per * numPools S.st ≤ S.live.length) (fuel : Nat) : Goes (allocate c (fuel + 1) S.st) S.held .ub := by
  rw [allocate_full (reach_inv hc h).1 hfull]
  exact .allocFail .fail

/-- Without memory for the data, in every state in which all slots are in use, the
call takes memory for yet another pool and then returns the address `sizeof(T)`,
which lies in no block at all. -/
theorem blockpool_null_data_counterexample {c : Cfg} (hc : CfgOk c) {S : Sys} (h : Reach c S)
    (hfull : c.per * numPools S.st ≤ S.live.length) {x y d : Nat} (hx : Fresh x c.hdr S.held)
    (hy : Fresh y c.hdr ((x, c.hdr) :: S.held)) (hd : Fresh d c.data ((y, c.hdr) :: (x, c.hdr) :: S.held)) (fuel : Nat) :
    ∃ s', Run (allocate c (fuel + 3) S.st) S.held (c.sz, s') ((d, c.data) :: (y, c.hdr) :: (x, c.hdr) :: S.held) := by
  have hi := (reach_inv hc h).1
  have hf := hi.full hfull
  have hsz := hc.sz
  have hper : 32 ≤ c.per := by have := hc.np; unfold Cfg.per; omega
  rw [allocate_full hi hfull]
  have hl : allocLoop c [mkPool c x 0] = (0, [(allocInPool c (mkPool c x 0)).2]) := by
    simp only [allocLoop]
    rw [allocInPool_new hc]
    simp
  have h1 : allocate c (fuel + 2) { S.st with pools := S.st.pools ++ [mkPool c x 0] } =
      newPool c fun p => allocate c (fuel + 1)
        { S.st with pools := S.st.pools ++ [(allocInPool c (mkPool c x 0)).2] ++ [p] } := by
    rw [allocate]
    simp only [allocLoop_append hf, hl, List.append_assoc]
    rfl
  have h2 : (allocInPool c (allocInPool c (mkPool c x 0)).2).1 = c.sz := by
    rw [allocInPool_new hc]
    unfold allocInPool
    rw [if_neg (by simp only; omega)]
    unfold scan
    simp only [show ffs (2 ^ 32 - 2) = 1 + 1 from by decide, mkPool]
    omega
  have h3 : ∃ s', allocate c (fuel + 1)
        { S.st with pools := S.st.pools ++ [(allocInPool c (mkPool c x 0)).2] ++ [mkPool c y d] } = .ret (c.sz, s') := by
    rw [allocate]
    simp only [List.append_assoc, allocLoop_append hf]
    rw [show ([(allocInPool c (mkPool c x 0)).2] ++ [mkPool c y d]) = (allocInPool c (mkPool c x 0)).2 :: [mkPool c y d] from rfl]
    have h4 : (allocLoop c ((allocInPool c (mkPool c x 0)).2 :: [mkPool c y d])).1 = c.sz := by
      unfold allocLoop
      rw [h2, if_pos (by omega)]
    rw [h4, if_pos (by omega)]
    exact ⟨_, rfl⟩
  obtain ⟨s', h3⟩ := h3
  refine ⟨s', .allocOk hx (.allocFail ?_)⟩
  simp only [Option.getD_none]
  rw [h1]
  refine .allocOk hy (.allocOk hd ?_)
  simp only [Option.getD_some]
  rw [h3]
  exact .ret

/-- A state in which all slots are in use. -/
theorem full_reach : Reach cfgX ⟨⟨[⟨1000, 2000, [0], 0⟩], 32⟩, [(2000, 768), (1000, 36)],
    ((List.range 32).reverse).map fun i => (2000 + 24 * i, 24)⟩ :=
  play_reach sys0_reach (ops := List.replicate 32 (.inl [])) (by decide +kernel)

example : ∃ s', Run (allocate cfgX 3 ⟨[⟨1000, 2000, [0], 0⟩], 32⟩) [(2000, 768), (1000, 36)] (24, s')
    [(6000, 768), (5000, 36), (4000, 36), (2000, 768), (1000, 36)] :=
  blockpool_null_data_counterexample cfgX_ok full_reach (by decide +kernel) (x := 4000) (y := 5000) (d := 6000)
    (by decide) (by decide) (by decide) 0

/-- Deallocating an object twice is not noticed, and the second time marks the slot
as used again and counts one object too few. -/
theorem blockpool_double_free_counterexample : ∃ S : Sys, Reach cfgX S ∧ (2024, 24) ∉ S.live ∧
    (deallocate cfgX S.st 2024).1 = true ∧
    getCurrentSize cfgX (deallocate cfgX S.st 2024).2 + 24 = (S.live.map (·.2)).sum :=
  ⟨sysX, sysX_reach, by decide +kernel⟩

end Umpire.BlockPool
