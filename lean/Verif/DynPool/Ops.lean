import Verif.DynPool.Free
import Verif.DynPool.Spec
import Verif.QuickPool.Fit
/-! # The operations of `DynamicPoolList` keep the invariant, for every parent (helper lemmas) -/
set_option autoImplicit false
set_option linter.unusedSimpArgs false
namespace Umpire.DynPool
open Umpire.Prog
open Umpire.QuickPool (Chunk Inv Inv0 bsize start freeL usedL whole)

theorem growSize_bounds {cfg : Cfg} {s : State} {n : Nat} (hc : CfgOk cfg) (hn : ReqOk cfg n) :
    roundUp64 cfg.align n ≤ growSize cfg s (roundUp64 cfg.align n) ∧
    0 < growSize cfg s (roundUp64 cfg.align n) ∧
    growSize cfg s (roundUp64 cfg.align n) + cfg.align < W := by
  have hal := hc.al
  have hf := hc.first
  have hx := hc.next
  obtain ⟨h1, h2⟩ := hn
  have := roundUp64_bounds hal h1 (by omega)
  unfold growSize
  split <;> omega

/-- What a failing `allocate` or a `release` leaves. -/
def RelPost (a : Nat) (d : State) (O L : Held) (d' : State) (O' : Held) : Prop :=
  DInv a d' O' L ∧ Freed d d' [] d.free ∧ O'.Sublist O ∧ ∀ r ∈ O, r ∈ O' ∨ ∀ l ∈ L, Disj l.1 l.2 r.1 r.2

theorem allocate_wp {cfg : Cfg} {d : State} {O L : Held} {n : Nat} (h : DInv cfg.align d O L)
    (hc : CfgOk cfg) (hn : ReqOk cfg n) :
    (allocate cfg d n).wp (Keep L) O fun r O' =>
      match r.1 with
      | some p => DInv cfg.align r.2 O' ((p, n) :: L)
      | none => RelPost cfg.align d O L r.2 O' := by
  obtain ⟨g1, g2, g3⟩ := growSize_bounds (s := d) hc hn
  unfold allocate
  simp only
  cases hl : findLoop (roundUp64 cfg.align n) none [] d.free with
  | some pos => exact reuse_sim h hc.al hn.1 (by have := hn.2; omega) hl
  | none =>
    simp only
    generalize hg : growSize cfg d (roundUp64 cfg.align n) = size at *
    have hw : w64 (size + cfg.align) = size + cfg.align := Nat.mod_eq_of_lt g3
    rw [hw]
    refine ⟨fun p hp => ?_, ?_⟩
    · exact grow_sim h hc.al hn.1 hn.2 g1 g2 g3 hp
    · refine Prog.wp_bind (Prog.wp_mono (freeReleased_wp h) ?_)
      rintro s' O' ⟨h1, h2, h3, h4⟩
      refine ⟨fun p hp => ?_, ?_⟩
      · exact grow_sim h1 hc.al hn.1 hn.2 g1 g2 g3 hp
      · exact ⟨h1, h2, h3, h4⟩

theorem Keep.weaken {L L' : Held} (h : ∀ l ∈ L', l ∈ L) {α : Type} {p : Prog α} {O : Held} {Q : α → Held → Prop}
    (hp : p.wp (Keep L) O Q) : p.wp (Keep L') O Q :=
  Prog.wp_weaken hp (fun _ hb => hb) (fun _ _ hf => ⟨hf.1, fun l hl => hf.2 l (h l hl)⟩)

theorem drop_cons_self {p n : Nat} {L : Held} (h : ∀ l ∈ L, l.1 ≠ p) : drop p ((p, n) :: L) = L := by
  unfold drop
  rw [List.filter_cons]
  simp only [ne_eq, not_true_eq_false, decide_false, Bool.false_eq_true, if_false]
  rw [List.filter_eq_self]
  intro l hl
  simpa using h l hl

theorem DInv.live_ne {a : Nat} {d : State} {O L : Held} {p n : Nat} (h : DInv a d O ((p, n) :: L)) :
    ∀ l ∈ L, l.1 ≠ p := by
  obtain ⟨q, hq, _⟩ := h
  have hnd : (((p, n) :: L).map fun r => (r.1, roundUp64 a r.2)).Pairwise fun x y => x.1 ≠ y.1 := by
    have h1 : ((usedL q.blocks.flatten).map fun c => (c.data, c.size)).Pairwise fun x y => x.1 ≠ y.1 := by
      rw [List.pairwise_map]
      refine List.Pairwise.imp_of_mem ?_ (hq.chunks_disj.filter _)
      intro x y hx hy hd
      have := hq.pos_of (List.mem_filter.1 hx).1
      have := hq.pos_of (List.mem_filter.1 hy).1
      unfold Disj at hd
      simp only
      omega
    exact List.Pairwise.perm h1 hq.live.symm (fun hh => hh.symm)
  simp only [List.map_cons, List.pairwise_cons] at hnd
  intro l hl he
  exact hnd.1 (l.1, roundUp64 a l.2) (List.mem_map.2 ⟨l, hl, rfl⟩) he.symm

theorem coalesceTo_wp {cfg : Cfg} {d : State} {O L : Held} {sug : Nat} (h : DInv cfg.align d O L)
    (hc : CfgOk cfg) (hs : sug + 2 * cfg.align ≤ W) :
    (coalesceTo cfg d sug).wp (Keep L) O fun r O' => DInv cfg.align r.2 O' L := by
  unfold coalesceTo
  split
  · refine Prog.wp_bind (Prog.wp_mono (freeReleased_wp h) ?_)
    rintro d1 O1 ⟨h1, _⟩
    split
    · refine Prog.wp_bind (Prog.wp_mono (freeReleased_wp h1) ?_)
      rintro d2 O2 ⟨h2, _⟩
      refine Prog.wp_bind (Prog.wp_mono (allocate_wp h2 hc ⟨by omega, by omega⟩) ?_)
      rintro ⟨r, d3⟩ O3 h3
      cases r with
      | none => exact h3.1
      | some p =>
        have h4 := deallocCore_inv h3 (ptr := p) (n := sug - d1.actualBytes) (by simp)
        rw [drop_cons_self h3.live_ne] at h4
        exact h4
    · exact h1
  · exact h

theorem DInv.actual_le {a : Nat} {d : State} {O L : Held} (h : DInv a d O L) : d.actualBytes ≤ AMax ∧ d.alignedHwm ≤ AMax := by
  obtain ⟨q, hq, hr⟩ := h
  rw [hr.actual, hr.ahwm]
  exact ⟨QuickPool.Inv.actual_le hq, hq.ahwmle⟩

theorem HeurOk.bound {cfg : Cfg} {heur : State → Nat} (hh : HeurOk cfg heur) {d : State} {O L : Held}
    (h : DInv cfg.align d O L) : heur d + 2 * cfg.align ≤ W := by
  have h1 := h.actual_le
  have h2 := AMax_add_AMax
  have h3 := hh d
  unfold getActualSize getAlignedHighwaterMark at h3
  omega

theorem deallocate_wp {cfg : Cfg} {heur : State → Nat} {d : State} {O L : Held} {p n : Nat} (h : DInv cfg.align d O L)
    (hc : CfgOk cfg) (hh : HeurOk cfg heur) (hL : (p, n) ∈ L) :
    (deallocate cfg heur d p).wp (Keep (drop p L)) O fun r O' => DInv cfg.align r.2 O' (drop p L) := by
  have h1 := deallocCore_inv h hL
  simp only [deallocate]
  split
  · exact coalesceTo_wp h1 hc (hh.bound h1)
  · exact h1

/-- As `Keep`, but tolerating `std::terminate`. -/
def KeepAbort (L : Held) : Mode := ⟨fun b => b = .abort, fun q m => 0 < m ∧ ∀ l ∈ L, Disj l.1 l.2 q m⟩

theorem coalesce_wp {cfg : Cfg} {heur : State → Nat} {d : State} {O L : Held} (h : DInv cfg.align d O L)
    (hc : CfgOk cfg) (hh : HeurOk cfg heur) :
    (coalesce cfg heur d).wp (KeepAbort L) O fun d' O' => DInv cfg.align d' O' L := by
  simp only [coalesce]
  split
  · refine Prog.wp_bind (Prog.wp_mono (Prog.wp_weaken (coalesceTo_wp h hc (hh.bound h)) ?_ ?_) ?_)
    · intro b hb; exact hb.elim
    · intro _ _ hf; exact hf
    · rintro ⟨b, d'⟩ O' h'
      cases b with
      | true => exact h'
      | false => exact (rfl : Bad.abort = .abort)
  · exact h

theorem reach_inv {cfg : Cfg} (hc : CfgOk cfg) {S : Sys} (h : Reach cfg S) : DInv cfg.align S.pool S.held S.live := by
  induction h with
  | init => exact init_inv _
  | step _ hs ih =>
    cases hs with
    | allocOk hn hr => have := wp_run (allocate_wp ih hc hn) hr; exact this
    | allocErr hn hr => have := wp_run (allocate_wp ih hc hn) hr; exact this.1
    | dealloc hL hh hr => have := wp_run (deallocate_wp ih hc hh hL) hr; exact this
    | release hr => have := wp_run (freeReleased_wp ih) hr; exact this.1
    | coalesce hh hr => have := wp_run (coalesce_wp ih hc hh) hr; exact this

/-! ## The outside view -/

theorem Rel.whole_perm {a : Nat} {d : State} {q : QuickPool.State} {O L : Held} {sm : List (Nat × Nat)}
    (h : Inv0 a q O L sm) (hrel : Rel d q) :
    ((d.free.filter fun b => decide (b.size = b.blockSize)).map (·.blockSize)).Perm
      ((q.blocks.flatten.filter whole).map (·.chunkSize)) := by
  have h1 := (hrel.free.filter fun b => decide (b.size = b.blockSize)).map (·.blockSize)
  refine h1.trans (List.Perm.of_eq ?_)
  rw [List.filter_map, List.map_map]
  have h2 : (freeL q.blocks.flatten).filter ((fun b : Blk => decide (b.size = b.blockSize)) ∘ toBlk (q.blocks.map start)) =
      q.blocks.flatten.filter whole := by
    unfold freeL
    rw [List.filter_filter]
    apply List.filter_congr
    intro c hc
    have := whole_iff h hc
    simp only [Function.comp, whole, this]
  rw [h2]
  apply List.map_congr_left
  intro c hc
  obtain ⟨hcm, hw⟩ := List.mem_filter.1 hc
  simp only [whole, Bool.and_eq_true, decide_eq_true_eq] at hw
  have := (whole_iff h hcm).2 hw.1
  simp only [Function.comp]
  rw [← this]
  exact hw.1

theorem foldl_rel (l : List Blk) (m : Nat) :
    l.foldl (fun m b => if b.size = b.blockSize then m + b.blockSize else m) m =
      m + ((l.filter fun b => decide (b.size = b.blockSize)).map (·.blockSize)).sum := by
  induction l generalizing m with
  | nil => rfl
  | cons b bs ih =>
    rw [List.foldl_cons, ih, List.filter_cons]
    by_cases hb : b.size = b.blockSize
    · simp [hb]; omega
    · simp [hb]

theorem foldl_max (l : List Blk) (m : Nat) :
    let r := l.foldl (fun m b => if b.size > m then b.size else m) m
    m ≤ r ∧ (∀ b ∈ l, b.size ≤ r) ∧ (r = m ∨ ∃ b ∈ l, b.size = r) := by
  induction l generalizing m with
  | nil => simp
  | cons b bs ih =>
    intro r
    have := ih (if b.size > m then b.size else m)
    simp only at this
    obtain ⟨h1, h2, h3⟩ := this
    have hr : r = bs.foldl (fun m b => if b.size > m then b.size else m) (if b.size > m then b.size else m) := rfl
    rw [← hr] at h1 h2 h3
    refine ⟨?_, ?_, ?_⟩
    · split at h1 <;> omega
    · intro x hx
      rcases List.mem_cons.1 hx with rfl | hx
      · split at h1 <;> omega
      · exact h2 x hx
    · rcases h3 with h3 | ⟨x, hx, hxr⟩
      · split at h3
        · exact Or.inr ⟨b, by simp, h3.symm⟩
        · exact Or.inl h3
      · exact Or.inr ⟨x, by simp [hx], hxr⟩

/-- After everything releasable has been released, every block has a live allocation. -/
theorem freed_held {a : Nat} (ha : 0 < a) {d d' : State} {O O' L : Held} (h : RelPost a d O L d' O') (o : Nat × Nat) :
    o ∈ O' ↔ o ∈ O ∧ ∃ l ∈ L, ¬ Disj l.1 l.2 o.1 o.2 := by
  obtain ⟨⟨q, hq, hrel⟩, hf, hs, hk⟩ := h
  have hfr : freeBlocks O' L = [] := by
    have h1 := QuickPool.Inv.relBlocks_eq hq ha
    have h2 := hq.relBlocks
    have h3 := (hrel.whole_perm hq).length_eq
    have h4 : d'.free.filter (fun b => decide (b.size = b.blockSize)) = [] := by
      rw [hf.free, List.nil_append, List.filter_filter, List.filter_eq_nil_iff]
      intro b _
      simp
    rw [h4] at h3
    simp only [List.map_nil, List.length_nil, List.length_map] at h3
    exact List.length_eq_zero_iff.1 (by omega)
  constructor
  · intro ho
    refine ⟨hs.subset ho, ?_⟩
    apply Classical.byContradiction
    intro hne
    have : o ∈ freeBlocks O' L := QuickPool.mem_freeBlocks.2
      ⟨ho, fun l hl => Classical.byContradiction fun hd => hne ⟨l, hl, hd⟩⟩
    rw [hfr] at this
    cases this
  · rintro ⟨ho, l, hl, hd⟩
    rcases hk o ho with h1 | h1
    · exact h1
    · exact absurd (h1 l hl) hd

theorem freeLoop_only_frees {kept rest : List Blk} {s s' : State} {O O' : Held} {t : List Ev}
    (h : RunT (freeLoop kept rest s) O t s' O') : ∀ e ∈ t, ∃ q m, e = .freed q m := by
  induction rest generalizing kept s O t with
  | nil => cases h; simp
  | cons e es ih =>
    unfold freeLoop at h
    split at h
    · simp only [alignedDealloc] at h
      split at h
      · cases h
      · cases h with
        | dealloc h =>
          have := ih h
          intro e he
          rcases List.mem_cons.1 he with rfl | he
          · exact ⟨_, _, rfl⟩
          · exact this e he
    · exact ih h

/-! ## Best fit -/

theorem findLoop_none {size : Nat} {best : Option Pos} {seen l : List Blk}
    (h : findLoop size best seen l = none) : best = none ∧ ∀ b ∈ l, b.size < size := by
  induction l generalizing best seen with
  | nil => exact ⟨h, by simp⟩
  | cons b bs ih =>
    unfold findLoop at h
    split at h
    · split at h
      · cases h
      · have := (ih h).1; cases this
    · rename_i hb
      obtain ⟨h1, h2⟩ := ih h
      refine ⟨h1, ?_⟩
      intro x hx
      rcases List.mem_cons.1 hx with rfl | hx
      · rw [h1] at hb; simp [better] at hb; exact hb
      · exact h2 x hx

theorem findLoop_min {size : Nat} {best : Option Pos} {seen l : List Blk} {pos : Pos}
    (hb : ∀ x, best = some x → size ≤ x.2.1.size)
    (h : findLoop size best seen l = some pos) :
    (∀ x, best = some x → pos.2.1.size ≤ x.2.1.size) ∧ ∀ b ∈ l, size ≤ b.size → pos.2.1.size ≤ b.size := by
  induction l generalizing best seen with
  | nil => simp only [findLoop] at h; subst h; exact ⟨fun x hx => by injection hx with hx; rw [hx]; exact Nat.le_refl _, by simp⟩
  | cons b bs ih =>
    unfold findLoop at h
    split at h
    · rename_i hbt
      simp only [better, Bool.and_eq_true, decide_eq_true_eq] at hbt
      split at h
      · rename_i heq
        injection h with h; subst h
        refine ⟨fun x hx => ?_, ?_⟩
        · have := hb x hx; simp only; omega
        · intro y _ hy; simp only; omega
      · obtain ⟨h1, h2⟩ := ih (by intro x hx; injection hx with hx; subst hx; exact hbt.1) h
        have h3 := h1 _ rfl
        simp only at h3
        refine ⟨fun x hx => ?_, ?_⟩
        · have := hbt.2
          rw [hx] at this
          simp only [decide_eq_true_eq] at this
          omega
        · intro y hy hys
          rcases List.mem_cons.1 hy with rfl | hy
          · exact h3
          · exact h2 y hy hys
    · rename_i hbt
      obtain ⟨h1, h2⟩ := ih hb h
      refine ⟨h1, ?_⟩
      intro y hy hys
      rcases List.mem_cons.1 hy with rfl | hy
      · cases hbest : best with
        | none => rw [hbest] at hbt; simp [better] at hbt; omega
        | some x =>
          have h3 := h1 x hbest
          rw [hbest] at hbt
          simp only [better, Bool.and_eq_true, decide_eq_true_eq, not_and] at hbt
          have := hbt hys
          omega
      · exact h2 y hy hys

end Umpire.DynPool
