import Verif.MixedPool.Inv
/-!
# Properties of `MixedPool` (C15)

`Reach cfg S` ranges over every history, every behaviour of the parent (also
when addresses move from one sub-pool to another through the parent), and every
heuristic of the `QuickPool` (`QuickPool.HeurOk`).
-/
set_option autoImplicit false
set_option linter.unusedSimpArgs false
namespace Umpire.MixedPool
open Umpire.Prog

/-- A pool together with the ghost view of its two neighbours. -/
structure Sys where
  pool : State
  held : Held
  live : Held
deriving DecidableEq, Repr

/-- One user operation that completes.  The user deallocates only live pointers. -/
inductive Step (cfg : Cfg) : Sys → Sys → Prop where
  | allocOk {S : Sys} {n fuel p s' O'} : QuickPool.ReqOk cfg.quick n →
      Run (allocate cfg (fuel + 2) S.pool n) S.held (some p, s') O' → Step cfg S ⟨s', O', (p, n) :: S.live⟩
  | allocErr {S : Sys} {n fuel s' O'} : QuickPool.ReqOk cfg.quick n →
      Run (allocate cfg (fuel + 2) S.pool n) S.held (none, s') O' → Step cfg S ⟨s', O', S.live⟩
  | dealloc {S : Sys} {p n fuel b s' O'} : (p, n) ∈ S.live →
      Run (deallocate cfg fuel S.pool p) S.held (b, s') O' → Step cfg S ⟨s', O', drop p S.live⟩
  | release {S : Sys} : Step cfg S ⟨MixedPool.release S.pool, S.held, S.live⟩

/-- Everything a user can bring about, from a freshly constructed pool. -/
inductive Reach (cfg : Cfg) : Sys → Prop where
  | init {fuel s O} : Run (create cfg fuel) [] s O → Reach cfg ⟨s, O, []⟩
  | step {S T : Sys} : Reach cfg S → Step cfg S T → Reach cfg T

/-! ## Scripted histories, for examples -/

/-- A user operation with the answers its parent gives. -/
inductive Op where
  | alloc (n : Nat) (script : List (Option Nat))
  | dealloc (p n fuel : Nat) (script : List (Option Nat))

/-- Perform one scripted operation. -/
def Sys.apply (cfg : Cfg) (S : Sys) : Op → Option Sys
  | .alloc n sc =>
    if 0 < n ∧ n + 2 * cfg.quick.align ≤ W then
      match (allocate cfg 2 S.pool n).exec sc S.held with
      | .ok ((some p, s'), _, O') => some ⟨s', O', (p, n) :: S.live⟩
      | .ok ((none, s'), _, O') => some ⟨s', O', S.live⟩
      | .error _ => none
    else none
  | .dealloc p n fuel sc =>
    if (p, n) ∈ S.live then
      match (deallocate cfg fuel S.pool p).exec sc S.held with
      | .ok ((_, s'), _, O') => some ⟨s', O', drop p S.live⟩
      | .error _ => none
    else none

/-- Perform a scripted history on a new pool. -/
def play (cfg : Cfg) (fuel : Nat) (sc : List (Option Nat)) (ops : List Op) : Option Sys :=
  match (create cfg fuel).exec sc [] with
  | .ok (s, _, O) => ops.foldlM (Sys.apply cfg) ⟨s, O, []⟩
  | .error _ => none

theorem Sys.apply_step {cfg : Cfg} {S T : Sys} {op : Op} (h : S.apply cfg op = some T) : Step cfg S T := by
  cases op with
  | alloc n sc =>
    simp only [Sys.apply] at h
    split at h
    · rename_i hn
      split at h
      · injection h with h; subst h; exact .allocOk (fuel := 0) hn (exec_run ‹_›)
      · injection h with h; subst h; exact .allocErr (fuel := 0) hn (exec_run ‹_›)
      · simp at h
    · simp at h
  | dealloc p n fuel sc =>
    simp only [Sys.apply] at h
    split at h
    · split at h
      · injection h with h; subst h; exact .dealloc ‹_› (exec_run ‹_›)
      · simp at h
    · simp at h

theorem play_reach {cfg : Cfg} {fuel : Nat} {sc : List (Option Nat)} {ops : List Op} {S : Sys}
    (h : play cfg fuel sc ops = some S) : Reach cfg S := by
  unfold play at h
  split at h
  · rename_i s _ O he
    have h0 : Reach cfg ⟨s, O, []⟩ := .init (exec_run he)
    generalize (⟨s, O, []⟩ : Sys) = S0 at h0 h
    clear he
    induction ops generalizing S0 with
    | nil => simp only [List.foldlM_nil] at h; injection h with h; subst h; exact h0
    | cons op ops ih =>
      simp only [List.foldlM_cons] at h
      cases ha : S0.apply cfg op with
      | none => rw [ha] at h; simp at h
      | some U => rw [ha] at h; exact ih U (.step h0 (Sys.apply_step ha)) h
  · cases h

theorem step_inv {cfg : Cfg} (hc : CfgOk cfg) {S T : Sys} (h : Inv cfg S.pool S.held S.live) (hs : Step cfg S T) :
    Inv cfg T.pool T.held T.live := by
  cases hs with
  | allocOk hn hr => have := wp_run (allocate_wp h hc hn _) hr; exact this
  | allocErr hn hr => have := wp_run (allocate_wp h hc hn _) hr; exact this
  | dealloc hl hr => exact (wp_run (deallocate_wp h hc hl) hr).2
  | release => exact h

theorem reach_inv {cfg : Cfg} (hc : CfgOk cfg) {S : Sys} (h : Reach cfg S) : Inv cfg S.pool S.held S.live := by
  induction h with
  | init hr => have := wp_run (create_wp hc) hr; exact this
  | step _ hs ih => exact step_inv hc ih hs

/-! ## Non-vacuity: two fixed pools of sizes 16 and 64, and the quick pool -/

def cfgX : Cfg := { smallest := 16, largest := 64, maxInit := 128, mult := 4, quick := QuickPool.cfgX }

theorem cfgX_ok : CfgOk cfgX := ⟨QuickPool.cfgX_ok, QuickPool.cfgX_heur, by decide⟩

/-- The block at 1600 goes from the quick pool to the parent and then to the second
fixed pool. -/
def opsX : List Op :=
  [.alloc 10 [], .alloc 100 [some 1600], .dealloc 1600 100 3 [], .alloc 40 [], .alloc 64 [],
   .alloc 200 [none, some 9600], .alloc 33 [some 1600]]

def sysX : Sys := (play cfgX 9 [some 160, some 320] opsX).getD ⟨⟨[], QuickPool.init, []⟩, [], []⟩

theorem sysX_reach : Reach cfgX sysX := by
  have h : (play cfgX 9 [some 160, some 320] opsX).isSome = true := by decide +kernel
  obtain ⟨S, hS⟩ := Option.isSome_iff_exists.1 h
  have : sysX = S := by unfold sysX; rw [hS]; rfl
  rw [this]
  exact play_reach hS

theorem sysX_live : sysX.live = [(1600, 33), (9600, 200), (384, 64), (320, 40), (160, 10)] := by decide +kernel

/-! ## C15 -/

/-- The sub-pool that a request of `n` bytes is served from: the first fixed pool
whose objects are at least that large. -/
def Serves (S : Sys) (n i : Nat) (f : Fixed) : Prop :=
  S.pool.fixed[i]? = some f ∧ n ≤ f.1.obj ∧ ∀ j, j < i → ∃ g, S.pool.fixed[j]? = some g ∧ g.1.obj < n

/-- `deallocate` hands each live pointer to the sub-pool that its allocation came
from, and to no other. -/
theorem mixedpool_routing {cfg : Cfg} (hc : CfgOk cfg) {S : Sys} (h : Reach cfg S) {p n : Nat} (hl : (p, n) ∈ S.live)
    (fuel : Nat) :
    (∀ i f, Serves S n i f → ∃ fs', FixedPool.deallocate f.1 f.2 p = .ret (true, fs') ∧
      deallocate cfg fuel S.pool p = .ret (true, { S.pool with fixed := S.pool.fixed.set i (f.1, fs') })) ∧
    ((∀ f ∈ S.pool.fixed, f.1.obj < n) →
      deallocate cfg fuel S.pool p =
        (QuickPool.deallocate cfg.quick fuel S.pool.quick p).bind fun q => .ret (true, { S.pool with quick := q })) := by
  obtain ⟨OQ, LQ, P, hp, hm⟩ := reach_inv hc h
  have hfix := hp.fixed
  have hl' := hp.live.mem_iff.1 hl
  rw [List.flatMap_cons] at hl'
  have hidx : ∀ i f, Serves S n i f → findIndex n (P.map (·.1.1.obj)) = i ∧ i < P.length := by
    rintro i f ⟨h1, h2, h3⟩
    rw [hfix, List.getElem?_map, Option.map_eq_some_iff] at h1
    obtain ⟨x, hx, rfl⟩ := h1
    refine ⟨findIndex_eq (x := x.1.1.obj) (by rw [List.getElem?_map, hx]; rfl) h2 fun j hj => ?_,
      (List.getElem?_eq_some_iff.1 hx).1⟩
    obtain ⟨g, hg, hgn⟩ := h3 j hj
    rw [hfix, List.getElem?_map, Option.map_eq_some_iff] at hg
    obtain ⟨y, hy, rfl⟩ := hg
    exact ⟨_, by rw [List.getElem?_map, hy]; rfl, hgn⟩
  rcases List.mem_append.1 hl' with hl1 | hl1
  · simp only at hl1
    constructor
    · intro i f hs
      obtain ⟨h1, h2⟩ := hidx i f hs
      have := hp.routeQ _ hl1
      simp only at this
      omega
    · intro _
      unfold deallocate
      rw [hm.quick _ hl1]
      simp only [show (-1 : Int) < 0 by decide, if_true]
  · obtain ⟨c', hc', hu⟩ := List.mem_flatMap.1 hl1
    obtain ⟨x, hx, rfl⟩ := List.mem_map.1 hc'
    obtain ⟨i, hi⟩ := List.getElem?_of_mem hx
    have hroute := hp.route i x hi _ hu
    simp only at hroute
    constructor
    · intro j f hs
      obtain ⟨h1, h2⟩ := hidx j f hs
      have hij : i = j := by omega
      subst hij
      have hf : f = x.1 := by
        have := hs.1
        rw [hfix, List.getElem?_map, hi] at this
        simpa using this.symm
      subst hf
      have hok := hp.ok _ hx
      obtain ⟨fs', e1, -, -⟩ := FixedPool.deallocate_wp hok.inv hok.cfg (List.mem_map.2 ⟨(p, n), hu, rfl⟩)
      simp only at e1
      refine ⟨fs', e1, ?_⟩
      unfold deallocate
      rw [hm.fixed i x hi _ hu]
      simp only [show ¬ ((i : Int) < 0) by omega, if_false, Int.toNat_natCast]
      rw [hs.1]
      simp only
      rw [e1]
      rfl
    · intro hall
      have h1 : findIndex n (P.map (·.1.1.obj)) = (P.map (·.1.1.obj)).length := by
        apply findIndex_none
        intro y hy
        obtain ⟨z, hz, rfl⟩ := List.mem_map.1 hy
        exact hall z.1 (by rw [hfix]; exact List.mem_map.2 ⟨z, hz, rfl⟩)
      have h2 := (List.getElem?_eq_some_iff.1 hi).1
      rw [List.length_map] at h1
      omega

example : Serves sysX 33 1 (sysX.pool.fixed.getD 1 (⟨0, 0⟩, ⟨[], 0, 0, 0⟩)) ∧ (1600, 33) ∈ sysX.live := by
  refine ⟨⟨by decide +kernel, by decide +kernel, fun j hj => ⟨sysX.pool.fixed.getD 0 (⟨0, 0⟩, ⟨[], 0, 0, 0⟩), ?_⟩⟩, by rw [sysX_live]; decide⟩
  obtain rfl : j = 0 := by omega
  decide +kernel

/-- Live allocations of all sub-pools are pairwise disjoint, and each lies, with
the full size requested, in a block held from the parent. -/
theorem mixedpool_live_disjoint {cfg : Cfg} (hc : CfgOk cfg) {S : Sys} (h : Reach cfg S) :
    (S.live.Pairwise fun x y => Disj x.1 x.2 y.1 y.2) ∧
    ∀ l ∈ S.live, ∃ o ∈ S.held, Within l.1 l.2 o.1 o.2 := by
  obtain ⟨OQ, LQ, P, hp, -⟩ := reach_inv hc h
  exact ⟨(hp.live_ok hc).1, fun l hl => ((hp.live_ok hc).2 l hl).2⟩

/-- The pointer returned for a request is disjoint from everything live. -/
theorem mixedpool_fresh {cfg : Cfg} (hc : CfgOk cfg) {S : Sys} (h : Reach cfg S) {n fuel p : Nat} {s' : State} {O' : Held}
    (hn : QuickPool.ReqOk cfg.quick n) (hr : Run (allocate cfg (fuel + 2) S.pool n) S.held (some p, s') O') :
    (∀ l ∈ S.live, Disj p n l.1 l.2) ∧ ∃ o ∈ O', Within p n o.1 o.2 := by
  have := mixedpool_live_disjoint hc (.step h (.allocOk hn hr))
  simp only [List.pairwise_cons] at this
  exact ⟨this.1.1, this.2 (p, n) (by simp)⟩

example : (sysX.live.Pairwise fun x y => Disj x.1 x.2 y.1 y.2) ∧
    ∀ l ∈ sysX.live, ∃ o ∈ sysX.held, Within l.1 l.2 o.1 o.2 := mixedpool_live_disjoint cfgX_ok sysX_reach

/-- No operation has undefined behaviour or hands back memory under a live
allocation.  `deallocate` of a live pointer does not throw. -/
theorem mixedpool_safe {cfg : Cfg} (hc : CfgOk cfg) {S : Sys} (h : Reach cfg S) :
    (∀ n fuel, QuickPool.ReqOk cfg.quick n → (∀ b, ¬ Goes (allocate cfg (fuel + 2) S.pool n) S.held b) ∧
      ∀ q m, Frees (allocate cfg (fuel + 2) S.pool n) S.held q m → ∀ l ∈ S.live, Disj l.1 l.2 q m) ∧
    (∀ p n fuel, (p, n) ∈ S.live → ¬ Goes (deallocate cfg fuel S.pool p) S.held .ub ∧
      (∀ b s' O', Run (deallocate cfg fuel S.pool p) S.held (b, s') O' → b = true) ∧
      ∀ q m, Frees (deallocate cfg fuel S.pool p) S.held q m → ∀ l ∈ S.live, l.1 ≠ p → Disj l.1 l.2 q m) ∧
    (∀ b, ¬ Goes (destroy S.pool) S.held b) ∧
    ∀ q m, Frees (destroy S.pool) S.held q m → ∀ l ∈ S.live, Disj l.1 l.2 q m := by
  have hi := reach_inv hc h
  refine ⟨fun n fuel hn => ⟨fun b hg => wp_safe (allocate_wp hi hc hn fuel) hg,
      fun q m hf => (wp_frees (allocate_wp hi hc hn fuel) hf).2⟩,
    fun p n fuel hl => ⟨fun hg => wp_safe (deallocate_wp hi hc hl) hg rfl,
      fun b s' O' hr => (wp_run (deallocate_wp hi hc hl) hr).1, fun q m hf l hlm hne => ?_⟩,
    fun b hg => wp_safe (destroy_wp hi hc) hg, fun q m hf => (wp_frees (destroy_wp hi hc) hf).2⟩
  exact (wp_frees (deallocate_wp hi hc hl) hf).2 l (mem_drop.2 ⟨hlm, hne⟩)

example : ∃ b s' O', Run (deallocate cfgX 3 sysX.pool 1600) sysX.held (b, s') O' := by
  have h : ((deallocate cfgX 3 sysX.pool 1600).execOk [] sysX.held).isSome = true := by decide +kernel
  obtain ⟨⟨⟨b, s'⟩, O'⟩, h1⟩ := Option.isSome_iff_exists.1 h
  exact ⟨b, s', O', execOk_run [] h1⟩

theorem fixed_refused {fc : FixedPool.Cfg} {fuel : Nat} {fs fs' : FixedPool.State} {O O' : Held} {t : List Ev}
    (hr : RunT (FixedPool.allocate fc fuel fs) O t (none, fs') O') : ∃ t', t = t' ++ [.refused fc.data] := by
  induction fuel generalizing fs O t with
  | zero => cases hr
  | succ fuel ih =>
    unfold FixedPool.allocate at hr
    split at hr
    · cases hr
    · cases hr with
      | allocOk _ hr =>
        obtain ⟨t', rfl⟩ := ih hr
        exact ⟨_ :: t', rfl⟩
      | allocFail hr => cases hr; exact ⟨[], rfl⟩

/-- When `allocate` reports failure, the last thing that happened is that the parent
refused memory: a block for the fixed pool that serves the request or, when none does, the
request of the quick pool for the second time, after handing its free blocks back.  All
theorems about reachable states apply to the state afterwards. -/
theorem mixedpool_failed_allocate {cfg : Cfg} {S : Sys} (h : Reach cfg S) {n fuel : Nat} (hn : QuickPool.ReqOk cfg.quick n)
    {s' : State} {O' : Held} {t : List Ev} (hr : RunT (allocate cfg (fuel + 2) S.pool n) S.held t (none, s') O') :
    Reach cfg ⟨s', O', S.live⟩ ∧
    ((∃ i f t', Serves S n i f ∧ t = t' ++ [.refused f.1.data]) ∨
      (∀ f ∈ S.pool.fixed, f.1.obj < n) ∧ ∃ m t', t = .refused m :: (t' ++ [.refused m])) := by
  refine ⟨.step h (.allocErr hn hr.run), ?_⟩
  unfold allocate at hr
  dsimp only at hr
  have hbelow : ∀ (l : List Nat) (j : Nat), j < findIndex n l → ∃ y, l[j]? = some y ∧ y < n := by
    intro l
    induction l with
    | nil => intro j hj; exact absurd hj (Nat.not_lt_zero _)
    | cons y l ih =>
      intro j hj
      unfold findIndex at hj
      split at hj
      · cases j with
        | zero => exact ⟨y, rfl, by omega⟩
        | succ j => exact ih j (by omega)
      · exact absurd hj (Nat.not_lt_zero _)
  cases hf : S.pool.fixed[findIndex n (S.pool.fixed.map (·.1.obj))]? with
  | some f =>
    obtain ⟨fc, fs⟩ := f
    rw [hf] at hr
    left
    obtain ⟨t1, t2, ⟨r, fs1⟩, O1, rfl, h1, h2⟩ := RunT.of_bind hr
    cases r with
    | some p => cases h2
    | none =>
      cases h2
      obtain ⟨t', rfl⟩ := fixed_refused h1
      refine ⟨_, _, t', ⟨hf, findIndex_le rfl (by rw [List.getElem?_map, hf]; rfl), fun j hj => ?_⟩, by rw [List.append_nil]⟩
      obtain ⟨y, hy, hyn⟩ := hbelow _ j hj
      rw [List.getElem?_map, Option.map_eq_some_iff] at hy
      obtain ⟨g, hg, rfl⟩ := hy
      exact ⟨g, hg, hyn⟩
  | none =>
    rw [hf] at hr
    right
    refine ⟨fun f hfm => ?_, ?_⟩
    · obtain ⟨j, hj⟩ := List.getElem?_of_mem hfm
      have hlen := List.getElem?_eq_none_iff.1 hf
      have hjl := (List.getElem?_eq_some_iff.1 hj).1
      obtain ⟨y, hy, hyn⟩ := hbelow (S.pool.fixed.map (·.1.obj)) j (by omega)
      rw [List.getElem?_map, hj] at hy
      injection hy with hy
      rw [← hy] at hyn
      exact hyn
    · obtain ⟨t1, t2, ⟨r, q⟩, O1, rfl, h1, h2⟩ := RunT.of_bind hr
      cases r with
      | some p => cases h2
      | none =>
        cases h2
        rw [List.append_nil]
        unfold QuickPool.allocate at h1
        dsimp only at h1
        split at h1
        · cases h1 with
          | allocOk _ h1 => cases h1
          | allocFail h1 =>
            obtain ⟨t1, t2, s1, O1, rfl, h3, h4⟩ := RunT.of_bind h1
            cases h4 with
            | allocOk _ h4 => cases h4
            | allocFail h4 => cases h4; exact ⟨_, t1, rfl⟩
        · split at h1
          · cases h1
          · cases h1

/-- Some allocation does fail from a reachable state. -/
example : ∃ s' O' t, RunT (allocate cfgX 2 sysX.pool 500) sysX.held t (none, s') O' := by
  have h0 : ((allocate cfgX 2 sysX.pool 500).execOk [] sysX.held).map (fun r => r.1.1) = some none := by decide +kernel
  rw [Option.map_eq_some_iff] at h0
  obtain ⟨⟨⟨r, s'⟩, O'⟩, hr, h0⟩ := h0
  dsimp only at h0
  subst h0
  obtain ⟨t, ht⟩ := (execOk_run [] hr).trace
  exact ⟨s', O', t, ht⟩

/-- Destroying a pool without live allocations leaves nothing held. -/
theorem mixedpool_no_leak {cfg : Cfg} (hc : CfgOk cfg) {S : Sys} (h : Reach cfg S) (hl : S.live = []) {O' : Held}
    (hr : Run (destroy S.pool) S.held () O') : O' = [] :=
  wp_run (destroy_wp (reach_inv hc h) hc) hr hl

example : ∃ S : Sys, Reach cfgX S ∧ S.live = [] ∧ S.held ≠ [] ∧ Run (destroy S.pool) S.held () [] := by
  have h : ((play cfgX 9 [some 160, some 320] (opsX.take 3 ++ [.dealloc 160 10 3 []])).map fun S =>
    decide (S.live = [] ∧ S.held ≠ [] ∧ (destroy S.pool).execOk [] S.held = some ((), []))) = some true := by decide +kernel
  rw [Option.map_eq_some_iff] at h
  obtain ⟨S, hS, h⟩ := h
  rw [decide_eq_true_eq] at h
  exact ⟨S, play_reach hS, h.1, h.2.1, execOk_run [] h.2.2⟩

/-! ## The constructor -/

/-- The constructor ends, unless the parent refuses memory, when the smallest
size is positive, the multiplier is at least two, and the sizes do not overflow. -/
theorem mixedpool_create_partial {cfg : Cfg} (h0 : 0 < cfg.smallest) (hm : 2 ≤ cfg.mult) (hw : cfg.largest * cfg.mult < W)
    {fuel : Nat} (hf : cfg.largest < 2 ^ fuel) : ∀ b, Goes (create cfg (fuel + 1)) [] b → b = .abort := by
  intro b hg
  have h1 : cfg.largest < cfg.smallest * 2 ^ fuel := Nat.lt_of_lt_of_le hf (Nat.le_mul_of_pos_left _ h0)
  have h2 : (create cfg (fuel + 1)).wp ⟨fun b => b = .abort, fun _ _ => False⟩ [] fun _ _ => True := by
    unfold create
    refine wp_bind (wp_mono (mkFixed_safe hm hw h0 h1) ?_)
    intro _ _ _
    trivial
  exact wp_safe h2 hg

example : 0 < cfgX.smallest ∧ 2 ≤ cfgX.mult ∧ cfgX.largest * cfgX.mult < W ∧ cfgX.largest < 2 ^ 7 := by decide

/-- With a multiplier of one the constructor never returns. -/
theorem mixedpool_create_diverges_counterexample {cfg : Cfg} (hm : cfg.mult = 1) (hs : cfg.smallest ≤ cfg.largest)
    (hw : cfg.smallest < W) (hp : 1 < perPool cfg cfg.smallest) (fuel : Nat) (s : State) (O : Held) :
    ¬ Run (create cfg fuel) [] s O := by
  have key : ∀ (fuel : Nat) (T : Held) (fs : List Fixed) (T' : Held), ¬ Run (mkFixed cfg fuel cfg.smallest) T fs T' := by
    intro fuel
    induction fuel with
    | zero => intro T fs T' h; cases h
    | succ fuel ih =>
      intro T fs T' h
      unfold mkFixed at h
      rw [if_pos hs] at h
      split at h
      · cases h
      · rw [hm, Nat.mul_one, show w64 cfg.smallest = cfg.smallest from Nat.mod_eq_of_lt hw] at h
        obtain ⟨_, _, _, h⟩ := h.of_bind
        obtain ⟨_, _, h, _⟩ := h.of_bind
        exact ih _ _ _ h
  intro h
  obtain ⟨_, _, h, _⟩ := h.of_bind
  exact key _ _ _ _ h

example : ∃ cfg : Cfg, CfgOk cfg ∧ cfg.mult = 1 ∧ cfg.smallest ≤ cfg.largest ∧ cfg.smallest < W ∧ 1 < perPool cfg cfg.smallest :=
  ⟨{ cfgX with mult := 1 }, ⟨QuickPool.cfgX_ok, QuickPool.cfgX_heur, by decide⟩, rfl, by decide, by decide, by decide⟩

/-- The constructor divides by zero when the smallest size is zero, and also when a
size wraps around to zero. -/
theorem mixedpool_create_ub_counterexample :
    (∃ cfg : Cfg, CfgOk cfg ∧ cfg.smallest = 0 ∧ Goes (create cfg 1) [] .ub) ∧
    ∃ cfg : Cfg, CfgOk cfg ∧ 0 < cfg.smallest ∧ 2 ≤ cfg.mult ∧ cfg.largest < W ∧ cfg.mult < W ∧ Goes (create cfg 2) [] .ub := by
  refine ⟨⟨{ cfgX with smallest := 0 }, ⟨QuickPool.cfgX_ok, QuickPool.cfgX_heur, by decide⟩, rfl, execBad_goes [] (by decide +kernel)⟩,
    ⟨{ cfgX with smallest := 2 ^ 32, largest := 2 ^ 32, maxInit := 2 ^ 34, mult := 2 ^ 32 },
      ⟨QuickPool.cfgX_ok, QuickPool.cfgX_heur, by decide⟩, by decide, by decide, by decide, by decide,
      execBad_goes [some 4096] (by decide +kernel)⟩⟩

end Umpire.MixedPool
