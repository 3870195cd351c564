import Verif.DynPool.Merge
/-!
# High watermarks of a `DynamicPoolList`, and what its heuristics do with them (C09, C61)
-/
set_option autoImplicit false
set_option linter.unusedSimpArgs false
namespace Umpire.DynPool
open Umpire Umpire.Prog
open Umpire.QuickPool (peak_append le_peak heldBytes_drop dvd_liveBytes consolidated_free usedBlocks_idem)

/-! ## Histories with the peaks of the memory held and in use -/

/-- Histories as in `Reach`, in which only the heuristics `P` are used (`P` may look at the
allocations that are live when the heuristic is consulted), with the largest amount of
memory held at any moment, and the largest amount in use between operations. -/
inductive Hist (cfg : Cfg) (P : Held → (State → Nat) → Prop) : Sys → Nat → Nat → Prop where
  | init : Hist cfg P ⟨init, [], []⟩ 0 0
  | allocOk {S : Sys} {h m n p s' t O'} : Hist cfg P S h m → ReqOk cfg n →
      RunT (allocate cfg S.pool n) S.held t (some p, s') O' →
      Hist cfg P ⟨s', O', (p, n) :: S.live⟩ (max h (peak cfg.align S.held t)) (max m (liveBytes cfg.align ((p, n) :: S.live)))
  | allocErr {S : Sys} {h m n s' t O'} : Hist cfg P S h m → ReqOk cfg n →
      RunT (allocate cfg S.pool n) S.held t (none, s') O' →
      Hist cfg P ⟨s', O', S.live⟩ (max h (peak cfg.align S.held t)) (max m (liveBytes cfg.align S.live))
  | dealloc {S : Sys} {h m p n heur b s' t O'} : Hist cfg P S h m → (p, n) ∈ S.live → HeurOk cfg heur →
      P (drop p S.live) heur → RunT (deallocate cfg heur S.pool p) S.held t (b, s') O' →
      Hist cfg P ⟨s', O', drop p S.live⟩ (max h (peak cfg.align S.held t)) (max m (liveBytes cfg.align (drop p S.live)))
  | release {S : Sys} {h m s' t O'} : Hist cfg P S h m → RunT (DynPool.release S.pool) S.held t s' O' →
      Hist cfg P ⟨s', O', S.live⟩ (max h (peak cfg.align S.held t)) (max m (liveBytes cfg.align S.live))
  | coalesce {S : Sys} {h m heur s' t O'} : Hist cfg P S h m → HeurOk cfg heur → P S.live heur →
      RunT (DynPool.coalesce cfg heur S.pool) S.held t s' O' →
      Hist cfg P ⟨s', O', S.live⟩ (max h (peak cfg.align S.held t)) (max m (liveBytes cfg.align S.live))

theorem Hist.reach {cfg : Cfg} {P : Held → (State → Nat) → Prop} {S : Sys} {h m : Nat} (hi : Hist cfg P S h m) : Reach cfg S := by
  induction hi with
  | init => exact .init
  | allocOk _ hn hr ih => exact .step ih (.allocOk hn hr.run)
  | allocErr _ hn hr ih => exact .step ih (.allocErr hn hr.run)
  | dealloc _ hL hh _ hr ih => exact .step ih (.dealloc hL hh hr.run)
  | release _ hr ih => exact .step ih (.release hr.run)
  | coalesce _ hh _ hr ih => exact .step ih (.coalesce hh hr.run)

theorem Hist.mono {cfg : Cfg} {P Q : Held → (State → Nat) → Prop} (hPQ : ∀ L f, P L f → Q L f) {S : Sys} {h m : Nat}
    (hi : Hist cfg P S h m) : Hist cfg Q S h m := by
  induction hi with
  | init => exact .init
  | allocOk _ hn hr ih => exact .allocOk ih hn hr
  | allocErr _ hn hr ih => exact .allocErr ih hn hr
  | dealloc _ hL hh hP hr ih => exact .dealloc ih hL hh (hPQ _ _ hP) hr
  | release _ hr ih => exact .release ih hr
  | coalesce _ hh hP hr ih => exact .coalesce ih hh (hPQ _ _ hP) hr

/-- Every history of `Reach` is one of these. -/
theorem Reach.hist {cfg : Cfg} {S : Sys} (h : Reach cfg S) : ∃ k m, Hist cfg (fun _ _ => True) S k m := by
  induction h with
  | init => exact ⟨_, _, .init⟩
  | step _ hs ih =>
    obtain ⟨k, m, ih⟩ := ih
    cases hs with
    | allocOk hn hr => obtain ⟨t, ht⟩ := hr.trace; exact ⟨_, _, .allocOk ih hn ht⟩
    | allocErr hn hr => obtain ⟨t, ht⟩ := hr.trace; exact ⟨_, _, .allocErr ih hn ht⟩
    | dealloc hL hh hr => obtain ⟨t, ht⟩ := hr.trace; exact ⟨_, _, .dealloc ih hL hh trivial ht⟩
    | release hr => obtain ⟨t, ht⟩ := hr.trace; exact ⟨_, _, .release ih ht⟩
    | coalesce hh hr => obtain ⟨t, ht⟩ := hr.trace; exact ⟨_, _, .coalesce ih hh trivial ht⟩

/-! ## The steps -/

theorem DInv.marks {a : Nat} (ha : 0 < a) {d : State} {O L : Held} (h : DInv a d O L) :
    d.actualBytes = heldBytes a O ∧ d.alignedBytes = liveBytes a L ∧ heldBytes a O ≤ d.actualHwm ∧ liveBytes a L ≤ d.alignedHwm := by
  obtain ⟨q, hq, hr⟩ := h
  have h1 := QuickPool.Inv.actual_eq hq ha
  have h2 := QuickPool.Inv.aligned_eq hq ha
  have h3 := hq.thwm
  have h4 := hq.ahwm
  have h5 := hr.actual
  have h6 := hr.aligned
  have h7 := hr.thwm
  have h8 := hr.ahwm
  unfold heldBytes liveBytes
  omega

theorem DInv.aligned_le_actual {a : Nat} {d : State} {O L : Held} (h : DInv a d O L) : d.alignedBytes ≤ d.actualBytes := by
  obtain ⟨q, hq, hr⟩ := h
  rw [hr.actual, hr.aligned]
  exact QuickPool.Inv.aligned_le_actual hq

theorem freeLoop_peak {a : Nat} {kept rest : List Blk} {s s' : State} {O O' : Held} {t : List Ev}
    (h : RunT (freeLoop kept rest s) O t s' O') : peak a O t = heldBytes a O ∧ heldBytes a O' ≤ heldBytes a O := by
  induction rest generalizing kept s O t with
  | nil => cases h; exact ⟨rfl, Nat.le_refl _⟩
  | cons b bs ih =>
    unfold freeLoop at h
    split at h
    · simp only [alignedDealloc] at h
      split at h
      · cases h
      · cases h with
        | dealloc h =>
          have := ih h
          have hd := heldBytes_drop (a := a) (p := ‹Nat × Nat × Nat›.2.1) (O := O)
          simp only [peak]
          omega
    · exact ih h

theorem freeReleased_marks {a : Nat} {s s' : State} {O O' L : Held} {t : List Ev} (h : DInv a s O L)
    (hr : RunT (freeReleased s) O t s' O') :
    DInv a s' O' L ∧ peak a O t = heldBytes a O ∧ heldBytes a O' ≤ heldBytes a O ∧
    s'.actualHwm = s.actualHwm ∧ s'.alignedHwm = s.alignedHwm := by
  obtain ⟨h1, h2, _⟩ := wp_run (freeReleased_wp h) hr.run
  have h3 := freeLoop_peak (a := a) hr
  exact ⟨h1, h3.1, h3.2, h2.thwm, h2.ahwm⟩

theorem addBlock_take (cfg : Cfg) (s : State) (size p k : Nat) :
    (takeBlock (addBlock cfg s size p).2 (addBlock cfg s size p).1 k).2.alignedHwm =
      max (takeBlock (addBlock cfg s size p).2 (addBlock cfg s size p).1 k).2.alignedBytes s.alignedHwm ∧
    (takeBlock (addBlock cfg s size p).2 (addBlock cfg s size p).1 k).2.actualHwm =
      max (takeBlock (addBlock cfg s size p).2 (addBlock cfg s size p).1 k).2.actualBytes s.actualHwm := ⟨rfl, rfl⟩

theorem allocate_marks {cfg : Cfg} (hc : CfgOk cfg) {s s' : State} {O O' L : Held} {n : Nat} {r : Option Nat} {t : List Ev}
    (h : DInv cfg.align s O L) (hn : ReqOk cfg n) (hr : RunT (allocate cfg s n) O t (r, s') O') :
    s'.actualHwm = max s.actualHwm (peak cfg.align O t) ∧ (∀ p, r = some p → DInv cfg.align s' O' ((p, n) :: L) ∧
      s'.alignedHwm = max s.alignedHwm (ceil cfg.align n + liveBytes cfg.align L)) ∧
    (r = none → DInv cfg.align s' O' L ∧ s'.alignedHwm = s.alignedHwm) := by
  have hp := wp_run (allocate_wp h hc hn) hr.run
  have hm := h.marks hc.al
  have key : s'.actualHwm = max s.actualHwm (peak cfg.align O t) ∧
      (∀ p, r = some p → s'.alignedHwm = max s'.alignedBytes s.alignedHwm) := by
    unfold allocate at hr
    simp only at hr
    split at hr
    · cases hr
      refine ⟨?_, fun _ _ => rfl⟩
      show s.actualHwm = max s.actualHwm (heldBytes _ _)
      omega
    · cases hr with
      | allocOk hf hr =>
        rename_i q _
        cases hr
        refine ⟨?_, fun _ _ => rfl⟩
        have := (DInv.marks hc.al hp).1
        simp only [peak]
        rw [← this]
        have e := (addBlock_take cfg s (growSize cfg s (roundUp64 cfg.align n)) q (roundUp64 cfg.align n)).2
        simp only at e ⊢
        omega
      | allocFail hr =>
        obtain ⟨t1, t2, s1, O1, rfl, h1, h2⟩ := RunT.of_bind hr
        obtain ⟨hi1, hk1, hk2, hk3, hk4⟩ := freeReleased_marks h h1
        simp only [peak]
        rw [peak_append h1 (le_peak _ _)]
        cases h2 with
        | allocOk hf hr =>
          rename_i q _ _
          cases hr
          have hmm := (DInv.marks hc.al hp).1
          simp only [peak]
          rw [← hmm]
          have e := addBlock_take cfg s1 (growSize cfg s (roundUp64 cfg.align n)) q (roundUp64 cfg.align n)
          simp only at e ⊢
          refine ⟨by omega, fun _ _ => ?_⟩
          have e1 := e.1
          rw [hk4] at e1
          exact e1
        | allocFail hr =>
          cases hr
          simp only [peak]
          exact ⟨by omega, fun _ h => nomatch h⟩
  refine ⟨key.1, ?_, ?_⟩
  · rintro p rfl
    have hd : DInv cfg.align s' O' ((p, n) :: L) := hp
    refine ⟨hd, ?_⟩
    rw [key.2 p rfl, (hd.marks hc.al).2.1]
    unfold liveBytes
    simp only [List.map_cons, List.sum_cons]
    omega
  · rintro rfl
    exact ⟨hp.1, hp.2.1.ahwm⟩

theorem deallocCore_marks (s : State) (p : Nat) :
    (deallocCore s p).actualHwm = s.actualHwm ∧ (deallocCore s p).alignedHwm = s.alignedHwm := by
  unfold deallocCore
  split <;> exact ⟨rfl, rfl⟩

/-- `coalesceTo`, with or without an exception. -/
theorem coalesceTo_marks {cfg : Cfg} (hc : CfgOk cfg) {s s' : State} {O O' L : Held} {g : Nat} {b : Bool} {t : List Ev}
    (h : DInv cfg.align s O L) (hs : g + 2 * cfg.align ≤ W) (hr : RunT (coalesceTo cfg s g) O t (b, s') O') :
    s'.actualHwm = max s.actualHwm (peak cfg.align O t) ∧ s.alignedHwm ≤ s'.alignedHwm ∧
    (cfg.align ∣ s.alignedHwm → g ≤ s.alignedHwm → s'.alignedHwm = s.alignedHwm) := by
  have hm := h.marks hc.al
  unfold coalesceTo at hr
  split at hr
  · obtain ⟨t1, t2, s1, O1, rfl, h1, hr⟩ := RunT.of_bind hr
    obtain ⟨hi1, hk1, hk2, hk3, hk4⟩ := freeReleased_marks h h1
    rw [peak_append h1 (le_peak _ _)]
    split at hr
    · obtain ⟨t3, t4, s2, O2, rfl, h2, hr⟩ := RunT.of_bind hr
      obtain ⟨hi2, hj1, hj2, hj3, hj4⟩ := freeReleased_marks hi1 h2
      rw [peak_append h2 (le_peak _ _)]
      obtain ⟨t5, t6, ⟨r, s3⟩, O3, rfl, h3, hr⟩ := RunT.of_bind hr
      obtain ⟨ha1, ha2, ha3⟩ := allocate_marks hc hi2 ⟨by omega, by omega⟩ h3
      rw [peak_append h3 (le_peak _ _)]
      cases r with
      | none =>
        cases hr
        obtain ⟨hb1, hb2⟩ := ha3 rfl
        have := (hb1.marks hc.al).2.2.1
        refine ⟨by simp only [peak]; omega, by omega, fun _ _ => by omega⟩
      | some p =>
        cases hr
        obtain ⟨hb1, hb2⟩ := ha2 p rfl
        have hd := deallocCore_marks s3 p
        have := (hb1.marks hc.al).2.2.1
        refine ⟨by rw [hd.1]; simp only [peak]; omega, by rw [hd.2]; omega, ?_⟩
        intro hdv hle
        rw [hd.2, hb2, hj4, hk4]
        have hl := hi1.aligned_le_actual
        rw [(hi1.marks hc.al).2.1] at hl
        have hce : ceil cfg.align (g - s1.actualBytes) ≤ s.alignedHwm - liveBytes cfg.align L := by
          obtain ⟨k, hk⟩ := Nat.dvd_sub hdv (dvd_liveBytes cfg.align L)
          rw [hk]
          unfold ceil
          rw [Nat.mul_comm cfg.align k]
          refine Nat.mul_le_mul_right _ ?_
          have : g - s1.actualBytes ≤ cfg.align * k := by omega
          have hal := hc.al
          refine Nat.le_of_lt_succ (Nat.div_lt_of_lt_mul ?_)
          rw [Nat.mul_succ]
          omega
        omega
    · cases hr
      simp only [peak]
      exact ⟨by omega, by omega, fun _ _ => by omega⟩
  · cases hr
    simp only [peak]
    exact ⟨by omega, by omega, fun _ _ => by trivial⟩

theorem deallocate_marks {cfg : Cfg} (hc : CfgOk cfg) {heur : State → Nat} (hh : HeurOk cfg heur) {s s' : State} {O O' L : Held}
    {p n : Nat} {b : Bool} {t : List Ev} (h : DInv cfg.align s O L) (hL : (p, n) ∈ L)
    (hr : RunT (deallocate cfg heur s p) O t (b, s') O') :
    s'.actualHwm = max s.actualHwm (peak cfg.align O t) ∧ s.alignedHwm ≤ s'.alignedHwm ∧
    (cfg.align ∣ s.alignedHwm → (∀ s, heur s ≤ s.alignedHwm) → s'.alignedHwm = s.alignedHwm) := by
  have hi := deallocCore_inv h hL
  have hd := deallocCore_marks s p
  have hm := hi.marks hc.al
  unfold deallocate at hr
  simp only at hr
  split at hr
  · obtain ⟨h1, h2, h3⟩ := coalesceTo_marks hc hi (hh.bound hi) hr
    rw [hd.1] at h1
    rw [hd.2] at h2 h3
    exact ⟨h1, h2, fun hv hz => h3 hv (by rw [← hd.2]; exact hz _)⟩
  · cases hr
    simp only [peak]
    exact ⟨by omega, by omega, fun _ _ => hd.2⟩

theorem coalesce_marks {cfg : Cfg} (hc : CfgOk cfg) {heur : State → Nat} (hh : HeurOk cfg heur) {s s' : State} {O O' L : Held}
    {t : List Ev} (h : DInv cfg.align s O L) (hr : RunT (coalesce cfg heur s) O t s' O') :
    s'.actualHwm = max s.actualHwm (peak cfg.align O t) ∧ s.alignedHwm ≤ s'.alignedHwm ∧
    (cfg.align ∣ s.alignedHwm → (∀ s, heur s ≤ s.alignedHwm) → s'.alignedHwm = s.alignedHwm) := by
  have hm := h.marks hc.al
  unfold coalesce at hr
  split at hr
  · obtain ⟨t1, t2, ⟨b, s1⟩, O1, rfl, h1, h2⟩ := RunT.of_bind hr
    cases b with
    | false => cases h2
    | true =>
      cases h2
      rw [List.append_nil]
      obtain ⟨h1, h2, h3⟩ := coalesceTo_marks hc h (hh.bound h) h1
      exact ⟨h1, h2, fun hv hz => h3 hv (hz _)⟩
  · cases hr
    simp only [peak]
    exact ⟨by omega, by omega, fun _ _ => by trivial⟩

/-! ## C09: the high watermarks -/

/-- `getActualHighwaterMark` is the largest amount of memory ever held. -/
theorem dynpool_actual_hwm_exact {cfg : Cfg} (hc : CfgOk cfg) {P : Held → (State → Nat) → Prop} {S : Sys} {h m : Nat}
    (hi : Hist cfg P S h m) : getActualHighwaterMark S.pool = h := by
  unfold getActualHighwaterMark
  induction hi with
  | init => rfl
  | allocOk hS hn hr ih =>
    rw [← ih]; exact (allocate_marks hc (reach_inv hc hS.reach) hn hr).1
  | allocErr hS hn hr ih =>
    rw [← ih]; exact (allocate_marks hc (reach_inv hc hS.reach) hn hr).1
  | dealloc hS hL hh _ hr ih =>
    rw [← ih]; exact (deallocate_marks hc hh (reach_inv hc hS.reach) hL hr).1
  | release hS hr ih =>
    have hI := reach_inv hc hS.reach
    have h1 := freeReleased_marks hI hr
    have h2 := (hI.marks hc.al).2.2.1
    simp only
    omega
  | coalesce hS hh _ hr ih =>
    rw [← ih]; exact (coalesce_marks hc hh (reach_inv hc hS.reach) hr).1

/-- `getAlignedHighwaterMark` is the largest amount of memory ever in use when coalescing
never aims at more than the mark itself (so for the heuristics `blocks_releasable_hwm` and
`percent_releasable_hwm`, among them the default), and never smaller.  Partial: with the
other heuristics it can be larger, see `dynpool_aligned_hwm_counterexample`. -/
theorem dynpool_aligned_hwm_partial {cfg : Cfg} (hc : CfgOk cfg) {P : Held → (State → Nat) → Prop} {S : Sys} {h m : Nat}
    (hi : Hist cfg P S h m) : m ≤ getAlignedHighwaterMark S.pool ∧
      ((∀ L f, P L f → ∀ s, f s ≤ getAlignedHighwaterMark s) → getAlignedHighwaterMark S.pool = m ∧ cfg.align ∣ m) := by
  unfold getAlignedHighwaterMark
  induction hi with
  | init => exact ⟨Nat.le_refl _, fun _ => ⟨rfl, Nat.dvd_zero _⟩⟩
  | @allocOk S h m n p s' t O' hS hn hr ih =>
    obtain ⟨hd, he⟩ := (allocate_marks hc (reach_inv hc hS.reach) hn hr).2.1 p rfl
    have hl : liveBytes cfg.align ((p, n) :: S.live) = ceil cfg.align n + liveBytes cfg.align S.live := by
      unfold liveBytes; simp
    simp only
    rw [he, hl]
    refine ⟨by omega, fun hz => ?_⟩
    obtain ⟨h1, h2⟩ := ih.2 hz
    refine ⟨by omega, ?_⟩
    rw [← hl]
    rcases Nat.le_total m (liveBytes cfg.align ((p, n) :: S.live)) with hm | hm
    · rw [Nat.max_eq_right hm]; exact dvd_liveBytes _ _
    · rw [Nat.max_eq_left hm]; exact h2
  | @allocErr S h m n s' t O' hS hn hr ih =>
    obtain ⟨hd, he⟩ := (allocate_marks hc (reach_inv hc hS.reach) hn hr).2.2 rfl
    have hm := (hd.marks hc.al).2.2.2
    simp only
    refine ⟨by omega, fun hz => ?_⟩
    obtain ⟨h1, h2⟩ := ih.2 hz
    rw [Nat.max_eq_left (by omega)]
    exact ⟨by omega, h2⟩
  | @dealloc S h m p n heur b s' t O' hS hL hh hP hr ih =>
    have hI := reach_inv hc hS.reach
    obtain ⟨_, h2, h3⟩ := deallocate_marks hc hh hI hL hr
    have hm := ((deallocCore_inv hI hL).marks hc.al).2.2.2
    rw [(deallocCore_marks _ _).2] at hm
    simp only
    refine ⟨by omega, fun hz => ?_⟩
    obtain ⟨h4, h5⟩ := ih.2 hz
    rw [Nat.max_eq_left (by omega)]
    exact ⟨by rw [h3 (by rw [h4]; exact h5) (hz _ _ hP)]; exact h4, h5⟩
  | @release S h m s' t O' hS hr ih =>
    have hI := reach_inv hc hS.reach
    have h1 := freeReleased_marks hI hr
    have hm := (hI.marks hc.al).2.2.2
    simp only
    refine ⟨by omega, fun hz => ?_⟩
    obtain ⟨h4, h5⟩ := ih.2 hz
    rw [Nat.max_eq_left (by omega)]
    exact ⟨by omega, h5⟩
  | @coalesce S h m heur s' t O' hS hh hP hr ih =>
    have hI := reach_inv hc hS.reach
    obtain ⟨_, h2, h3⟩ := coalesce_marks hc hh hI hr
    have hm := (hI.marks hc.al).2.2.2
    simp only
    refine ⟨by omega, fun hz => ?_⟩
    obtain ⟨h4, h5⟩ := ih.2 hz
    rw [Nat.max_eq_left (by omega)]
    exact ⟨by rw [h3 (by rw [h4]; exact h5) (hz _ _ hP)]; exact h4, h5⟩

/-- The condition holds for the `_hwm` heuristics. -/
theorem hwm_builtIn (thr : Nat → Nat) :
    (∀ n s, blocksReleasableHwm n s ≤ getAlignedHighwaterMark s) ∧
    (∀ cur p f, percentReleasableHwm thr cur p = some f → ∀ s, f s ≤ getAlignedHighwaterMark s) := by
  constructor
  · intro n s; unfold blocksReleasableHwm; split <;> omega
  · intro cur p f hp s
    unfold percentReleasableHwm at hp
    split at hp
    · cases hp
    split at hp
    · injection hp with hp; subst hp; simp
    split at hp
    · injection hp with hp; subst hp; simp only; split <;> omega
    · injection hp with hp; subst hp; simp only; split <;> omega

/-! ## Scripted histories -/

/-- The live allocations when the heuristic is consulted. -/
def Sys.seen (S : Sys) : Op → Held
  | .dealloc p _ _ => drop p S.live
  | _ => S.live

/-- As `play`, also computing the largest amount in use between operations; the heuristic
may depend on the live allocations. -/
def playLive (cfg : Cfg) (g : Held → State → Nat) (ops : List Op) : Option (Sys × Nat) :=
  ops.foldlM (fun S op => (Sys.apply cfg (g (S.1.seen op)) S.1 op).map fun T => (T, max S.2 (liveBytes cfg.align T.live)))
    (⟨init, [], []⟩, 0)

theorem apply_hist {cfg : Cfg} {P : Held → (State → Nat) → Prop} {heur : State → Nat} (hh : HeurOk cfg heur) {S T : Sys} {op : Op}
    {h m : Nat} (hi : Hist cfg P S h m) (hP : P (S.seen op) heur) (ha : S.apply cfg heur op = some T) :
    ∃ h', Hist cfg P T h' (max m (liveBytes cfg.align T.live)) := by
  cases op with
  | alloc n sc =>
    simp only [Sys.apply] at ha
    split at ha
    · rename_i hn
      split at ha
      · injection ha with ha; subst ha; obtain ⟨t, ht⟩ := (exec_run ‹_›).trace; exact ⟨_, .allocOk hi hn ht⟩
      · injection ha with ha; subst ha; obtain ⟨t, ht⟩ := (exec_run ‹_›).trace; exact ⟨_, .allocErr hi hn ht⟩
      · simp at ha
    · simp at ha
  | dealloc p n sc =>
    simp only [Sys.apply] at ha
    split at ha
    · split at ha
      · injection ha with ha; subst ha; obtain ⟨t, ht⟩ := (exec_run ‹_›).trace; exact ⟨_, .dealloc hi ‹_› hh hP ht⟩
      · simp at ha
    · simp at ha
  | release =>
    simp only [Sys.apply] at ha
    split at ha
    · injection ha with ha; subst ha; obtain ⟨t, ht⟩ := (exec_run ‹_›).trace; exact ⟨_, .release hi ht⟩
    · simp at ha
  | coalesce sc =>
    simp only [Sys.apply] at ha
    split at ha
    · injection ha with ha; subst ha; obtain ⟨t, ht⟩ := (exec_run ‹_›).trace; exact ⟨_, .coalesce hi hh hP ht⟩
    · simp at ha

theorem foldlM_hist {cfg : Cfg} {P : Held → (State → Nat) → Prop} {g : Held → State → Nat} (hh : ∀ L, HeurOk cfg (g L))
    (hP : ∀ L, P L (g L)) {ops : List Op} {S T : Sys × Nat} {h : Nat} (hS : Hist cfg P S.1 h S.2)
    (hf : ops.foldlM (fun S op => (Sys.apply cfg (g (S.1.seen op)) S.1 op).map fun T => (T, max S.2 (liveBytes cfg.align T.live))) S
      = some T) : ∃ h', Hist cfg P T.1 h' T.2 := by
  induction ops generalizing S h with
  | nil => simp only [List.foldlM_nil] at hf; injection hf with hf; subst hf; exact ⟨_, hS⟩
  | cons op ops ih =>
    simp only [List.foldlM_cons] at hf
    cases ha : S.1.apply cfg (g (S.1.seen op)) op with
    | none => rw [ha] at hf; simp at hf
    | some U =>
      rw [ha] at hf
      obtain ⟨h', hU⟩ := apply_hist (hh _) hS (hP _) ha
      exact ih (S := (U, _)) hU hf

theorem playLive_hist {cfg : Cfg} {P : Held → (State → Nat) → Prop} {g : Held → State → Nat} (hh : ∀ L, HeurOk cfg (g L))
    (hP : ∀ L, P L (g L)) (ops : List Op) {S : Sys} {m : Nat} (h : playLive cfg g ops = some (S, m)) :
    ∃ k, Hist cfg P S k m :=
  foldlM_hist hh hP (S := (⟨init, [], []⟩, 0)) .init h

/-- `percent_releasable_hwm(100)`. -/
def defaultX (L : Held) : State → Nat := fun s => if (L.map (·.2)).sum = 0 then getAlignedHighwaterMark s else 0

theorem defaultX_ok (L : Held) : HeurOk cfgX (defaultX L) :=
  builtIn_heurOk (by decide) (.percentHwm (fun n => n) (L.map (·.2)).sum 100 _ rfl)

/-- Both marks of a pool with the default heuristic are 128 after three allocations and a `deallocate`. -/
example : ∃ P h m, Hist cfgX P sysX h m ∧ (∀ L f, P L f → ∀ s, f s ≤ getAlignedHighwaterMark s) ∧ h = 128 ∧ m = 128 := by
  obtain ⟨k, hk⟩ := playLive_hist (P := fun L f => f = defaultX L) defaultX_ok (fun _ => rfl)
    [.alloc 16 [some 1600], .alloc 64 [some 3190], .alloc 40 [], .dealloc 3200 64 []] (S := sysX) (m := 128) (by decide +kernel)
  have hle : ∀ L f, f = defaultX L → ∀ s, f s ≤ getAlignedHighwaterMark s := by
    rintro L _ rfl s
    unfold defaultX
    split <;> omega
  exact ⟨_, _, _, hk, hle, (dynpool_actual_hwm_exact cfgX_ok hk).symm, ((dynpool_aligned_hwm_partial cfgX_ok hk).2 hle).1.symm⟩

/-- With `blocks_releasable(2)` the mark can exceed the largest amount ever in use:
coalescing allocates and deallocates a block internally. -/
theorem dynpool_aligned_hwm_counterexample :
    ∃ (cfg : Cfg) (f : State → Nat) (S : Sys) (h m : Nat), CfgOk cfg ∧ BuiltIn f ∧ HeurOk cfg f ∧
      Hist cfg (fun _ g => g = f) S h m ∧ m < getAlignedHighwaterMark S.pool := by
  have hf : HeurOk cfgX (blocksReleasable 2) := builtIn_heurOk (by decide) (.blocks 2)
  obtain ⟨k, hk⟩ := playLive_hist (cfg := cfgX) (P := fun _ f => f = blocksReleasable 2) (g := fun _ => blocksReleasable 2)
    (fun _ => hf) (fun _ => rfl)
    [.alloc 16 [some 1600], .alloc 64 [some 3200], .dealloc 3200 64 [], .dealloc 1600 16 [some 4800]]
    (S := ⟨poolY, [(4800, 144)], []⟩) (m := 80) (by decide +kernel)
  exact ⟨cfgX, _, _, _, _, cfgX_ok, .blocks 2, hf, hk, by decide⟩

/-! ## C61: the heuristics that use the mark -/

/-- An `allocate` that fails leaves the blocks with live allocations. -/
theorem allocate_failed {cfg : Cfg} (hc : CfgOk cfg) {s s' : State} {O O' L : Held} {n : Nat} (h : DInv cfg.align s O L)
    (hn : ReqOk cfg n) (hr : Run (allocate cfg s n) O (none, s') O') : O' = usedBlocks O L ∧ DInv cfg.align s' O' L := by
  have hp := wp_run (allocate_wp h hc hn) hr
  simp only at hp
  refine ⟨eq_filter_of_sublist h.held_nodup hp.2.2.1 fun o => ?_, hp.1⟩
  rw [freed_held hc.al hp o]
  simp [List.any_eq_true]

/-- Coalescing throws only after everything without live allocations has gone back. -/
theorem coalesceTo_failed {cfg : Cfg} (hc : CfgOk cfg) {s s' : State} {O O' L : Held} {g : Nat} (h : DInv cfg.align s O L)
    (hs : g + 2 * cfg.align ≤ W) (hr : Run (coalesceTo cfg s g) O (false, s') O') :
    2 ≤ (freeBlocks O L).length ∧ O' = usedBlocks O L := by
  have hv := (h.view hc.al).2.1
  unfold coalesceTo at hr
  split at hr
  · refine ⟨by omega, ?_⟩
    obtain ⟨s1, O1, hr1, hr⟩ := Run.of_bind hr
    obtain ⟨hO1, hi1⟩ := freeReleased_used hc.al h hr1
    split at hr
    · obtain ⟨s2, O2, hr2, hr⟩ := Run.of_bind hr
      obtain ⟨hO2, hi2⟩ := freeReleased_used hc.al hi1 hr2
      obtain ⟨⟨r, s3⟩, O3, hr3, hr⟩ := Run.of_bind hr
      cases r with
      | some p => cases hr
      | none =>
        cases hr
        rw [(allocate_failed hc hi2 ⟨by omega, by omega⟩ hr3).1, hO2, hO1, usedBlocks_idem, usedBlocks_idem]
    · cases hr
  · cases hr

theorem free_used (O L : Held) : freeBlocks (usedBlocks O L) L = [] := by
  apply List.eq_nil_iff_forall_not_mem.2
  intro o ho
  obtain ⟨h1, h2⟩ := QuickPool.mem_freeBlocks.1 ho
  obtain ⟨_, l, hl, hd⟩ := mem_usedBlocks.1 h1
  exact hd (h2 l hl)

/-- Everything about `deallocate` followed by a heuristic. -/
theorem deallocate_all {cfg : Cfg} (hc : CfgOk cfg) {heur : State → Nat} (hh : HeurOk cfg heur) {S : Sys}
    (h : Reach cfg S) {p n : Nat} (hL : (p, n) ∈ S.live) {b : Bool}
    {s' : State} {O' : Held} {t : List Ev} (hr : RunT (deallocate cfg heur S.pool p) S.held t (b, s') O') :
    ∃ s1, getActualSize s1 = heldBytes cfg.align S.held ∧ getAlignedHighwaterMark s1 = getAlignedHighwaterMark S.pool ∧
      getReleasableBlocks s1 = (freeBlocks S.held (drop p S.live)).length ∧
      (heur s1 = 0 ∨ (freeBlocks S.held (drop p S.live)).length ≤ 1 → b = true ∧ s' = s1 ∧ O' = S.held ∧ t = []) ∧
      (heur s1 ≠ 0 → 2 ≤ (freeBlocks S.held (drop p S.live)).length →
        (b = true ∧ Consolidated cfg.align cfg.first cfg.next (heur s1) (usedBlocks S.held (drop p S.live)) (drop p S.live) O') ∨
        (b = false ∧ O' = usedBlocks S.held (drop p S.live))) := by
  have hi := deallocCore_inv (reach_inv hc h) hL
  have hv := hi.view hc.al
  refine ⟨deallocCore S.pool p, hv.1, (deallocCore_marks _ _).2, hv.2.2, ?_⟩
  unfold deallocate at hr
  simp only at hr
  by_cases h0 : heur (deallocCore S.pool p) ≠ 0
  · rw [if_pos h0] at hr
    cases b with
    | true =>
      obtain ⟨h1, h2⟩ := coalesceTo_merged hc hi (hh.bound hi) hr
      refine ⟨?_, fun _ h => .inl ⟨rfl, h2 h⟩⟩
      rintro (hx | hx)
      · exact absurd hx h0
      · exact ⟨rfl, h1 hx⟩
    | false =>
      obtain ⟨h1, h2⟩ := coalesceTo_failed hc hi (hh.bound hi) hr.run
      refine ⟨?_, fun _ _ => .inr ⟨rfl, h2⟩⟩
      rintro (hx | hx)
      · exact absurd hx h0
      · omega
  · rw [if_neg h0] at hr
    cases hr
    exact ⟨fun _ => ⟨rfl, rfl, rfl, rfl⟩, fun hx => absurd hx h0⟩

theorem hwm_pos {cfg : Cfg} (hc : CfgOk cfg) {S : Sys} (h : Reach cfg S) {p n : Nat}
    (hL : (p, n) ∈ S.live) : 0 < getAlignedHighwaterMark S.pool := by
  have hi := reach_inv hc h
  have h3 := (hi.marks hc.al).2.2.2
  have h4 : ceil cfg.align n ≤ liveBytes cfg.align S.live := by
    obtain ⟨l1, l2, hl⟩ := List.append_of_mem hL
    unfold liveBytes
    rw [hl]
    simp only [List.map_append, List.map_cons, List.sum_append, List.sum_cons]
    omega
  have h5 := (QuickPool.ceil_spec (a := cfg.align) (n := n) hc.al).2.1
  obtain ⟨q, hq, _⟩ := hi
  have h6 := (hq.req _ hL).1
  simp only at h6
  unfold getAlignedHighwaterMark
  omega

/-- With `blocks_releasable_hwm(k)`, `k ≥ 2`: a `deallocate` after which fewer than `k` blocks
are free leaves the blocks alone; one after which there are `k` consolidates towards the
largest amount ever in use, or throws and leaves the blocks with live allocations. -/
theorem dynpool_blocks_releasable_hwm {cfg : Cfg} (hc : CfgOk cfg) (ha : 2 * cfg.align ≤ AMax) {k : Nat} (hk : 2 ≤ k) {S : Sys}
    {h m : Nat} (hi : Hist cfg (fun _ f => f = blocksReleasableHwm k) S h m) {p n : Nat} (hL : (p, n) ∈ S.live)
    {b : Bool} {s' : State} {O' : Held} {t : List Ev}
    (hr : RunT (deallocate cfg (blocksReleasableHwm k) S.pool p) S.held t (b, s') O') :
    ((freeBlocks S.held (drop p S.live)).length < k → b = true ∧ O' = S.held ∧ t = []) ∧
    (k ≤ (freeBlocks S.held (drop p S.live)).length →
      (b = true ∧ Consolidated cfg.align cfg.first cfg.next m (usedBlocks S.held (drop p S.live)) (drop p S.live) O') ∨
      (b = false ∧ O' = usedBlocks S.held (drop p S.live))) := by
  obtain ⟨s1, hv1, hv2, hv3, h1, h2⟩ := deallocate_all hc (builtIn_heurOk ha (.blocksHwm k)) hi.reach hL hr
  have hm := ((dynpool_aligned_hwm_partial hc hi).2 (by rintro _ _ rfl; exact (hwm_builtIn id).1 k)).1
  have hp := hwm_pos hc hi.reach hL
  constructor
  · intro hlt
    have := h1 (.inl (by unfold blocksReleasableHwm; rw [if_neg (by omega)]))
    exact ⟨this.1, this.2.2⟩
  · intro hle
    have he : blocksReleasableHwm k s1 = m := by
      unfold blocksReleasableHwm
      rw [if_pos (by omega), hv2, hm]
    rw [he] at h2
    exact h2 (by omega) (by omega)

/-- The default heuristic `percent_releasable_hwm(100)` of a pool with introspection, where
`getCurrentSize()` is the sum of the sizes of the live allocations. -/
def Default (L : Held) (f : State → Nat) : Prop := ∃ thr, percentReleasableHwm thr (L.map (·.2)).sum 100 = some f

theorem Default.le {L : Held} {f : State → Nat} (h : Default L f) (s : State) : f s ≤ getAlignedHighwaterMark s := by
  obtain ⟨thr, h⟩ := h
  exact (hwm_builtIn thr).2 _ _ _ h s

theorem sizes_zero {cfg : Cfg} {S : Sys} (hc : CfgOk cfg) (h : Reach cfg S) {L : Held} (hs : ∀ l ∈ L, l ∈ S.live) :
    (L.map (·.2)).sum = 0 ↔ L = [] := by
  obtain ⟨q, hq, _⟩ := reach_inv hc h
  constructor
  · intro h0
    cases L with
    | nil => rfl
    | cons l L =>
      have := (hq.req l (hs l (by simp))).1
      simp only [List.map_cons, List.sum_cons] at h0
      omega
  · rintro rfl; rfl

/-- With the default heuristic: a `deallocate` after which something is live leaves the blocks
alone; one after which nothing is live leaves one block, the old one if there was only one,
and otherwise a new one for the largest amount ever in use; if the parent refuses it, there
is an exception and no block is left. -/
theorem dynpool_default_heuristic {cfg : Cfg} (hc : CfgOk cfg) (ha : 2 * cfg.align ≤ AMax) {S : Sys} {h m : Nat}
    (hi : Hist cfg Default S h m) {p n : Nat} (hL : (p, n) ∈ S.live) {f : State → Nat} (hf : Default (drop p S.live) f)
    {b : Bool} {s' : State} {O' : Held} {t : List Ev} (hr : RunT (deallocate cfg f S.pool p) S.held t (b, s') O') :
    (drop p S.live ≠ [] ∨ S.held.length ≤ 1 → b = true ∧ O' = S.held ∧ t = []) ∧
    (drop p S.live = [] → 2 ≤ S.held.length →
      (b = true ∧ ∃ d, O' = [(d, max m cfg.first + cfg.align)]) ∨ (b = false ∧ O' = [])) := by
  obtain ⟨hm, hdvd⟩ := (dynpool_aligned_hwm_partial hc hi).2 (fun _ _ hf => hf.le)
  have hp := hwm_pos hc hi.reach hL
  obtain ⟨thr, hf⟩ := hf
  obtain ⟨s1, hv1, hv2, hv3, h1, h2⟩ := deallocate_all hc (builtIn_heurOk ha (.percentHwm _ _ _ _ hf)) hi.reach hL hr
  have hz := sizes_zero hc hi.reach (L := drop p S.live) fun l hl => (List.mem_filter.1 hl).1
  have hheur : f = fun s => if ((drop p S.live).map (·.2)).sum = 0 then getAlignedHighwaterMark s else 0 := by
    simp [percentReleasableHwm] at hf
    exact hf.symm
  have hfree : drop p S.live = [] → freeBlocks S.held (drop p S.live) = S.held := by
    intro h0
    rw [h0]
    unfold freeBlocks
    simp
  constructor
  · intro hx
    by_cases hne : drop p S.live = []
    · rcases hx with hx | hx
      · exact absurd hne hx
      · have := h1 (.inr (by rw [hfree hne]; exact hx))
        exact ⟨this.1, this.2.2⟩
    · have := h1 (.inl (by rw [hheur]; simp only; rw [if_neg (fun h0 => hne (hz.1 h0))]))
      exact ⟨this.1, this.2.2⟩
  · intro hne h2l
    have he : f s1 = m := by
      rw [hheur]
      simp only
      rw [if_pos (hz.2 hne), hv2, hm]
    have hu : usedBlocks S.held (drop p S.live) = [] := by rw [hne]; unfold usedBlocks; simp
    rcases h2 (by omega) (by rw [hfree hne]; exact h2l) with ⟨hb, hcon⟩ | ⟨hb, hO⟩
    · refine .inl ⟨hb, ?_⟩
      rw [he, hu, hne] at hcon
      have hceil : ceil cfg.align m = m := by
        obtain ⟨j, rfl⟩ := hdvd
        unfold ceil
        have hal := hc.al
        rw [Nat.mul_comm cfg.align j, Nat.mul_comm j, Nat.mul_add_div hal, Nat.div_eq_of_lt (by omega), Nat.add_zero, Nat.mul_comm]
      rcases hcon with ⟨hx, _⟩ | ⟨_, _, q, j, hg, _⟩ | ⟨_, _, d, hO⟩
      · simp [heldBytes] at hx; omega
      · obtain ⟨_, ⟨o, ho, _⟩, _⟩ := hg
        cases ho
      · refine ⟨d, ?_⟩
        rw [hO]
        simp [heldBytes, hceil]
    · exact .inr ⟨hb, by rw [hO, hu]⟩

/-! ## C61: explicit calls of `coalesce` -/

/-- `allocate` does not increase the number of releasable blocks. -/
theorem allocate_releasable {cfg : Cfg} (hc : CfgOk cfg) {s s' : State} {O O' L : Held} (h : DInv cfg.align s O L)
    {n : Nat} {r : Option Nat} (hr : Run (allocate cfg s n) O (r, s') O') : s'.releasableBlocks ≤ s.releasableBlocks := by
  have hrel : ∀ {s1 : State} {O1 : Held}, Run (freeReleased s) O s1 O1 → s1.releasableBlocks = 0 := by
    intro s1 O1 h1
    obtain ⟨hO, hi1⟩ := freeReleased_used hc.al h h1
    have := (hi1.view hc.al).2.2
    rw [hO, free_used] at this
    exact this
  have hgot : ∀ (s : State) (size p k : Nat),
      (takeBlock (addBlock cfg s size p).2 (addBlock cfg s size p).1 k).2.releasableBlocks = s.releasableBlocks := by
    intro s size p k
    simp [takeBlock, addBlock]
  unfold allocate at hr
  simp only at hr
  split at hr
  · cases hr
    simp only [takeBlock]
    split <;> omega
  · cases hr with
    | allocOk hp hr =>
      cases hr
      exact Nat.le_of_eq (hgot _ _ _ _)
    | allocFail hr =>
      obtain ⟨s1, O1, h1, h2⟩ := Run.of_bind hr
      have h0 := hrel h1
      cases h2 with
      | allocOk hp h2 =>
        cases h2
        have := hgot s1 (growSize cfg s (roundUp64 cfg.align n)) ‹_› (roundUp64 cfg.align n)
        omega
      | allocFail h2 =>
        cases h2
        omega

/-- The heuristics that count releasable blocks. -/
def Counting (k : Nat) (_ : Held) (f : State → Nat) : Prop := f = blocksReleasable k ∨ f = blocksReleasableHwm k

theorem Counting.quiet {k : Nat} {L : Held} {f : State → Nat} (h : Counting k L f) {s : State}
    (hs : getReleasableBlocks s < k) : f s = 0 := by
  rcases h with rfl | rfl
  · unfold blocksReleasable; rw [if_neg (by omega)]
  · unfold blocksReleasableHwm; rw [if_neg (by omega)]

/-- With them, fewer than `k` blocks are free between operations. -/
theorem counting_settled {cfg : Cfg} (hc : CfgOk cfg) {k : Nat} (hk : 2 ≤ k) {S : Sys} {h m : Nat}
    (hi : Hist cfg (Counting k) S h m) : getReleasableBlocks S.pool < k := by
  induction hi with
  | init => show 0 < k; omega
  | allocOk hS hn hr ih =>
    exact Nat.lt_of_le_of_lt (allocate_releasable hc (reach_inv hc hS.reach) hr.run) ih
  | allocErr hS hn hr ih =>
    exact Nat.lt_of_le_of_lt (allocate_releasable hc (reach_inv hc hS.reach) hr.run) ih
  | @dealloc S h m p n heur b s' t O' hS hL hh hP hr ih =>
    obtain ⟨s1, hv1, hv2, hv3, h1, h2⟩ := deallocate_all hc hh hS.reach hL hr
    have hp := hwm_pos hc hS.reach hL
    have hT := ((reach_inv hc (.step hS.reach (.dealloc hL hh hr.run))).view hc.al).2.2
    simp only at hT ⊢
    by_cases hlt : getReleasableBlocks s1 < k
    · rw [(h1 (.inl (hP.quiet hlt))).2.1]; exact hlt
    · have h0 : heur s1 ≠ 0 := by
        rcases hP with rfl | rfl
        · unfold blocksReleasable
          rw [if_pos (by omega), hv1]
          intro h0
          obtain ⟨q, hq, _⟩ := reach_inv hc hS.reach
          have := (QuickPool.Inv.actual_zero hc.al hq).1 (by rw [QuickPool.Inv.actual_eq hq hc.al]; exact h0)
          rw [this] at hv3
          simp [freeBlocks] at hv3
          omega
        · unfold blocksReleasableHwm
          rw [if_pos (by omega), hv2]
          omega
      rcases h2 h0 (by omega) with ⟨_, hcon⟩ | ⟨_, hO⟩
      · have := consolidated_free hcon
        omega
      · rw [hO, free_used] at hT
        simp only [List.length_nil] at hT
        omega
  | release hS hr ih =>
    obtain ⟨hO, hi1⟩ := freeReleased_used hc.al (reach_inv hc hS.reach) hr.run
    have := (hi1.view hc.al).2.2
    rw [hO, free_used] at this
    simp only [List.length_nil] at this ⊢
    omega
  | coalesce hS hh hP hr ih =>
    unfold DynPool.coalesce at hr
    rw [hP.quiet ih, if_neg (by simp)] at hr
    cases hr
    exact ih

/-- `percent_releasable(100)` and `percent_releasable_hwm(100)` with introspection. -/
def Empty (L : Held) (f : State → Nat) : Prop := ∃ thr,
  percentReleasable thr (L.map (·.2)).sum 100 = some f ∨ percentReleasableHwm thr (L.map (·.2)).sum 100 = some f

theorem Empty.eq {L : Held} {f : State → Nat} (h : Empty L f) (s : State) :
    ((L.map (·.2)).sum ≠ 0 → f s = 0) ∧ ((L.map (·.2)).sum = 0 → f s = getActualSize s ∨ f s = getAlignedHighwaterMark s) := by
  obtain ⟨thr, h | h⟩ := h
  · simp [percentReleasable] at h
    rw [← h]
    refine ⟨fun h0 => if_neg h0, fun h0 => .inl (if_pos h0)⟩
  · simp [percentReleasableHwm] at h
    rw [← h]
    refine ⟨fun h0 => if_neg h0, fun h0 => .inr (if_pos h0)⟩

/-- With them, between operations something is live or at most one block is held. -/
theorem empty_settled {cfg : Cfg} (hc : CfgOk cfg) {S : Sys} {h m : Nat} (hi : Hist cfg Empty S h m) :
    S.live ≠ [] ∨ S.held.length ≤ 1 := by
  have hfree : ∀ O : Held, freeBlocks O [] = O := fun O => by unfold freeBlocks; simp
  induction hi with
  | init => right; exact Nat.zero_le 1
  | allocOk hS hn hr ih => left; simp
  | allocErr hS hn hr ih =>
    rw [(allocate_failed hc (reach_inv hc hS.reach) hn hr.run).1]
    rcases ih with ih | ih
    · exact .inl ih
    · right; unfold usedBlocks; exact Nat.le_trans (List.length_filter_le _ _) ih
  | @dealloc S h m p n heur b s' t O' hS hL hh hP hr ih =>
    obtain ⟨s1, hv1, hv2, hv3, h1, h2⟩ := deallocate_all hc hh hS.reach hL hr
    by_cases hne : drop p S.live = []
    · right
      by_cases hx : heur s1 = 0 ∨ (freeBlocks S.held (drop p S.live)).length ≤ 1
      · rw [(h1 hx).2.2.1]
        rcases hx with hx | hx
        · rcases (hP.eq s1).2 (by rw [hne]; rfl) with he | he
          · rw [he, hv1] at hx
            obtain ⟨q, hq, _⟩ := reach_inv hc hS.reach
            have := (QuickPool.Inv.actual_zero hc.al hq).1 (by rw [QuickPool.Inv.actual_eq hq hc.al]; exact hx)
            rw [this]
            exact Nat.zero_le 1
          · have := hwm_pos hc hS.reach hL
            omega
        · rw [hne, hfree] at hx
          exact hx
      · rcases h2 (fun h0 => hx (.inl h0)) (by omega) with ⟨_, hcon⟩ | ⟨_, hO⟩
        · have := consolidated_free hcon
          rw [hne, hfree] at this
          exact this
        · have := free_used S.held (drop p S.live)
          rw [← hO, hne, hfree] at this
          simp only
          rw [this]
          exact Nat.zero_le 1
    · exact .inl hne
  | release hS hr ih =>
    rw [(freeReleased_used hc.al (reach_inv hc hS.reach) hr.run).1]
    rcases ih with ih | ih
    · exact .inl ih
    · right; unfold usedBlocks; exact Nat.le_trans (List.length_filter_le _ _) ih
  | coalesce hS hh hP hr ih =>
    rcases ih with ih | ih
    · exact .inl ih
    · have := (dynpool_coalesce_consolidates hc hh hS.reach hr).1
        (.inr (Nat.le_trans (by unfold freeBlocks; exact List.length_filter_le _ _) ih))
      rw [this.2.1]
      exact .inr ih

/-- With these heuristics an explicit `coalesce` has no effect whatever: `deallocate` has
already done everything the heuristic asks for. -/
theorem dynpool_explicit_coalesce_idle {cfg : Cfg} (hc : CfgOk cfg) {S : Sys} {h m : Nat} {f : State → Nat} (hh : HeurOk cfg f)
    (hi : (∃ k, 2 ≤ k ∧ Hist cfg (Counting k) S h m ∧ Counting k S.live f) ∨ (Hist cfg Empty S h m ∧ Empty S.live f))
    {s' : State} {O' : Held} {t : List Ev} (hr : RunT (coalesce cfg f S.pool) S.held t s' O') :
    s' = S.pool ∧ O' = S.held ∧ t = [] := by
  rcases hi with ⟨k, hk, hi, hf⟩ | ⟨hi, hf⟩
  · exact (dynpool_coalesce_consolidates hc hh hi.reach hr).1 (.inl (hf.quiet (counting_settled hc hk hi)))
  · refine (dynpool_coalesce_consolidates hc hh hi.reach hr).1 ?_
    rcases empty_settled hc hi with he | he
    · exact .inl ((hf.eq _).1 fun h0 => he ((sizes_zero hc hi.reach fun _ h => h).1 h0))
    · exact .inr (Nat.le_trans (by unfold freeBlocks; exact List.length_filter_le _ _) he)

/-- `dynpool_default_heuristic`: the last `deallocate` merges two blocks into one of 80 bytes. -/
example : ∃ b s' O' t, RunT (deallocate cfgX (defaultX (drop 1600 sysY.live)) sysY.pool 1600) sysY.held t (b, s') O' ∧
    b = true ∧ ∃ d, O' = [(d, 96)] := by
  have hr : Run (deallocate cfgX (defaultX (drop 1600 sysY.live)) sysY.pool 1600) sysY.held
      (true, { used := [], free := [⟨4800, 80, 80⟩], baseMap := [(4800, 4800, 96)], alignedBytes := 0, alignedHwm := 80,
               actualBytes := 80, actualHwm := 128, releasableBlocks := 1, totalBlocks := 1 }) [(4800, 96)] :=
    execOk_run [some 4800] (by decide +kernel)
  obtain ⟨t, ht⟩ := hr.trace
  obtain ⟨k, hk⟩ := playLive_hist (P := Default) defaultX_ok (fun _ => ⟨fun n => n, rfl⟩)
    [.alloc 16 [some 1600], .alloc 64 [some 3200], .dealloc 3200 64 []] (S := sysY) (m := 80) (by decide +kernel)
  rcases (dynpool_default_heuristic cfgX_ok (by decide) hk (n := 16) (by decide) ⟨fun n => n, rfl⟩ ht).2 (by decide) (by decide)
    with h | h
  · exact ⟨_, _, _, t, ht, h⟩
  · exact absurd h.1 (by decide)

/-- `dynpool_blocks_releasable_hwm` and `dynpool_explicit_coalesce_idle` on the same history. -/
example : ∃ h, Hist cfgX (fun _ f => f = blocksReleasableHwm 2) sysY h 80 ∧ Hist cfgX (Counting 2) sysY h 80 ∧
    2 ≤ (freeBlocks sysY.held (drop 1600 sysY.live)).length ∧ (freeBlocks sysY.held sysY.live).length = 1 := by
  have hf : HeurOk cfgX (blocksReleasableHwm 2) := builtIn_heurOk (by decide) (.blocksHwm 2)
  obtain ⟨k, hk⟩ := playLive_hist (cfg := cfgX) (P := fun L f => f = blocksReleasableHwm 2 ∧ Counting 2 L f)
    (g := fun _ => blocksReleasableHwm 2) (fun _ => hf) (fun _ => ⟨rfl, .inr rfl⟩)
    [.alloc 16 [some 1600], .alloc 64 [some 3200], .dealloc 3200 64 []] (S := sysY) (m := 80) (by decide +kernel)
  exact ⟨k, hk.mono fun _ _ h => h.1, hk.mono fun _ _ h => h.2, by decide, by decide⟩

end Umpire.DynPool
