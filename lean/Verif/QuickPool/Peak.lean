import Verif.QuickPool.Diverge
/-! # High watermarks (helper lemmas) -/
set_option autoImplicit false
set_option linter.unusedSimpArgs false
namespace Umpire.QuickPool
open Umpire Umpire.Prog

theorem heldBytes_drop {a p : Nat} {O : Held} : heldBytes a (drop p O) ≤ heldBytes a O := by
  unfold heldBytes drop
  have := sum_map_filter_split (fun o : Nat × Nat => o.2 - a) (fun r => decide (r.1 ≠ p)) O
  omega

theorem peak_append {α : Type} {a : Nat} {p : Prog α} {O : Held} {t1 t2 : List Ev} {x : α} {O1 : Held}
    (h : RunT p O t1 x O1) (h2 : heldBytes a O1 ≤ peak a O1 t2) :
    peak a O (t1 ++ t2) = max (peak a O t1) (peak a O1 t2) := by
  induction h with
  | ret => simp only [List.nil_append, peak]; omega
  | allocOk hp _ ih => simp only [List.cons_append, peak, ih h2]; omega
  | allocFail _ ih => simp only [List.cons_append, peak, ih h2]
  | dealloc _ ih => simp only [List.cons_append, peak, ih h2]; omega

theorem le_peak {a : Nat} (O : Held) (t : List Ev) : heldBytes a O ≤ peak a O t := by
  induction t generalizing O with
  | nil => exact Nat.le_refl _
  | cons e t ih =>
    cases e with
    | got p n => simp only [peak]; omega
    | refused n => exact ih O
    | freed p n => simp only [peak]; omega

theorem releaseLoop_peak {a : Nat} {es : List (Nat × Nat)} {s s' : State} {O O' : Held} {t : List Ev}
    (h : RunT (releaseLoop es s) O t s' O') : peak a O t = heldBytes a O ∧ heldBytes a O' ≤ heldBytes a O := by
  induction es generalizing s O t with
  | nil => cases h; exact ⟨rfl, Nat.le_refl _⟩
  | cons e es ih =>
    unfold releaseLoop at h
    split at h
    · cases h
    · split at h
      · simp only [alignedDealloc] at h
        split at h
        · cases h
        · cases h with
          | dealloc h =>
            have := ih h
            have hd := heldBytes_drop (a := a) (p := ‹Nat × Nat × Nat›.2.1) (O := O)
            simp only [peak]
            omega
      · exact ih h

theorem release_peak {a : Nat} {s s' : State} {O O' : Held} {t : List Ev}
    (h : RunT (release s) O t s' O') : peak a O t = heldBytes a O ∧ heldBytes a O' ≤ heldBytes a O :=
  releaseLoop_peak h

theorem allocate_peak {cfg : Cfg} {a n : Nat} {s : State} {r : Option Nat × State} {O O' : Held} {t : List Ev}
    (h : RunT (allocate cfg s n) O t r O') : peak a O t = max (heldBytes a O) (heldBytes a O') := by
  unfold allocate at h
  simp only at h
  split at h
  · cases h with
    | allocOk hp h => cases h; simp only [peak]
    | allocFail h =>
      obtain ⟨t1, t2, s1, O1, rfl, h1, h2⟩ := RunT.of_bind h
      have hr := release_peak (a := a) h1
      cases h2 with
      | allocOk hp h2 =>
        cases h2
        simp only [peak]
        rw [peak_append h1 (le_peak _ _)]
        simp only [peak]
        omega
      | allocFail h2 =>
        cases h2
        simp only [peak]
        rw [peak_append h1 (le_peak _ _)]
        simp only [peak]
        omega
  · split at h
    · cases h
    · cases h; simp only [peak]; omega

theorem deallocCore_hwm {s s' : State} {p : Nat} (h : deallocCore s p = some s') :
    s'.actualHwm = s.actualHwm ∧ s'.alignedHwm = s.alignedHwm := by
  unfold deallocCore at h
  simp only [Option.bind_eq_bind, Option.bind_eq_some_iff] at h
  obtain ⟨e, _, c, _, ⟨bs, m⟩, _, h⟩ := h
  injection h with h
  subst h
  exact ⟨rfl, rfl⟩

theorem allocate_thwm {cfg : Cfg} {s : State} {O L : Held} {n : Nat} (h : Inv cfg.align s O L)
    (hc : CfgOk cfg) (hn : ReqOk cfg n) {r : Option Nat × State} {O' : Held} {t : List Ev}
    (hr : RunT (allocate cfg s n) O t r O') : r.2.actualHwm = max s.actualHwm (peak cfg.align O t) := by
  have h1 := wp_run (allocate_wp h hc hn) hr.run
  rw [allocate_peak hr]
  have h2 := h.thwm
  rw [Inv.actual_eq h hc.al] at h2
  obtain ⟨r, s'⟩ := r
  cases r with
  | none =>
    obtain ⟨hi, hra, _⟩ := h1
    have h3 := hi.thwm
    rw [Inv.actual_eq hi hc.al] at h3
    have := hra.thwm
    unfold heldBytes
    simp only at *
    omega
  | some p =>
    obtain ⟨hi, _, _, ht⟩ := h1
    simp only at *
    rw [Inv.actual_eq hi hc.al] at ht
    unfold heldBytes
    omega

theorem release_thwm {a : Nat} (ha : 0 < a) {s s' : State} {O O' L : Held} (h : Inv a s O L) {t : List Ev}
    (hr : RunT (release s) O t s' O') : s'.actualHwm = max s.actualHwm (peak a O t) := by
  have h1 := wp_run (release_wp h) hr.run
  have h2 := h.thwm
  rw [Inv.actual_eq h ha] at h2
  have := release_peak (a := a) hr
  have := h1.2.1.thwm
  unfold heldBytes at *
  omega

theorem deallocWith_thwm {cfg : Cfg} (hc : CfgOk cfg) {co : State → Nat → Prog State} {s s' : State} {O O' L : Held} {p n : Nat}
    {t : List Ev} (h : Inv cfg.align s O L) (hL : (p, n) ∈ L)
    (hco : ∀ s O L t s' O', Inv cfg.align s O L → cfg.heur s ≠ 0 → RunT (co s (cfg.heur s)) O t s' O' →
      s'.actualHwm = max s.actualHwm (peak cfg.align O t))
    (hr : RunT (deallocWith cfg co s p) O t s' O') : s'.actualHwm = max s.actualHwm (peak cfg.align O t) := by
  obtain ⟨s1, hs, hi⟩ := deallocCore_inv h hL
  have h1 := deallocCore_hwm hs
  unfold deallocWith at hr
  rw [hs] at hr
  simp only at hr
  split at hr
  · rename_i hne; rw [← h1.1]; exact hco s1 O _ t s' O' hi hne hr
  · cases hr
    have h2 := hi.thwm
    rw [Inv.actual_eq hi hc.al] at h2
    unfold peak heldBytes
    omega

theorem doCoalesce_thwm {cfg : Cfg} (hc : CfgOk cfg) (hh : HeurOk cfg) {fuel : Nat} {s s' : State} {O O' L : Held}
    {sug : Nat} {t : List Ev} (h : Inv cfg.align s O L) (hs : sug + 2 * cfg.align ≤ W)
    (hr : RunT (doCoalesce cfg fuel s sug) O t s' O') : s'.actualHwm = max s.actualHwm (peak cfg.align O t) := by
  induction fuel generalizing s s' O O' L sug t with
  | zero => unfold doCoalesce at hr; cases hr
  | succ fuel ih =>
    have h0 := h.thwm
    rw [Inv.actual_eq h hc.al] at h0
    unfold doCoalesce at hr
    split at hr
    · obtain ⟨t1, t2, s1, O1, rfl, hr1, hr2⟩ := RunT.of_bind hr
      have ht1 := release_thwm hc.al h hr1
      have h1 := (wp_run (release_wp h) hr1.run).1
      rw [peak_append hr1 (le_peak _ _)]
      have ht2 : s'.actualHwm = max s1.actualHwm (peak cfg.align O1 t2) := by
        have h01 := h1.thwm
        rw [Inv.actual_eq h1 hc.al] at h01
        split at hr2
        · have hreq : ReqOk cfg (sug - s1.actualBytes) := ⟨by omega, by omega⟩
          obtain ⟨t3, t4, ⟨r, s2⟩, O2, rfl, hr3, hr4⟩ := RunT.of_bind hr2
          have ha := allocate_thwm h1 hc hreq hr3
          have hpost := wp_run (allocate_wp h1 hc hreq) hr3.run
          rw [peak_append hr3 (le_peak _ _)]
          cases r with
          | none => cases hr4
          | some p =>
            replace hpost := hpost.1
            have := deallocWith_thwm (L := (p, sug - s1.actualBytes) :: L) (n := sug - s1.actualBytes) hc hpost (by simp)
              (fun s O L t s' O' hi _ hr => ih hi (hh s O L hi) hr) hr4
            simp only at ha this
            omega
        · cases hr2; unfold peak heldBytes; omega
      omega
    · cases hr; unfold peak heldBytes; omega

theorem reachHeld_reach {cfg : Cfg} {S : Sys} {m : Nat} (h : ReachHeld cfg S m) : Reach cfg S := by
  induction h with
  | init => exact .init
  | allocOk _ hn hr ih => exact .step ih (.allocOk hn hr.run)
  | allocErr _ hn hr ih => exact .step ih (.allocErr hn hr.run)
  | dealloc _ hL hr ih => exact .step ih (.dealloc hL hr.run)
  | release _ hr ih => exact .step ih (.release hr.run)
  | coalesce _ hr ih => exact .step ih (.coalesce hr.run)

theorem reach_reachHeld {cfg : Cfg} {S : Sys} (h : Reach cfg S) : ∃ m, ReachHeld cfg S m := by
  induction h with
  | init => exact ⟨_, .init⟩
  | step _ hs ih =>
    obtain ⟨m, ih⟩ := ih
    cases hs with
    | allocOk hn hr => obtain ⟨t, ht⟩ := hr.trace; exact ⟨_, .allocOk ih hn ht⟩
    | allocErr hn hr => obtain ⟨t, ht⟩ := hr.trace; exact ⟨_, .allocErr ih hn ht⟩
    | dealloc hL hr => obtain ⟨t, ht⟩ := hr.trace; exact ⟨_, .dealloc ih hL ht⟩
    | release hr => obtain ⟨t, ht⟩ := hr.trace; exact ⟨_, .release ih ht⟩
    | coalesce hr => obtain ⟨t, ht⟩ := hr.trace; exact ⟨_, .coalesce ih ht⟩

theorem reachHeld_hwm {cfg : Cfg} (hc : CfgOk cfg) (hh : HeurOk cfg) {S : Sys} {m : Nat} (h : ReachHeld cfg S m) :
    S.pool.actualHwm = m := by
  induction h with
  | init => rfl
  | allocOk hS hn hr ih =>
    have := allocate_thwm (reach_inv hc hh (reachHeld_reach hS)) hc hn hr
    simp only at *; omega
  | allocErr hS hn hr ih =>
    have := allocate_thwm (reach_inv hc hh (reachHeld_reach hS)) hc hn hr
    simp only at *; omega
  | dealloc hS hL hr ih =>
    have := deallocWith_thwm hc (reach_inv hc hh (reachHeld_reach hS)) hL
      (fun s O L t s' O' hi _ hr => doCoalesce_thwm hc hh hi (hh s O L hi) hr) hr
    simp only at *; omega
  | release hS hr ih =>
    have := release_thwm hc.al (reach_inv hc hh (reachHeld_reach hS)) hr
    simp only at *; omega
  | @coalesce S m fuel s' t O' hS hr ih =>
    have hi := reach_inv hc hh (reachHeld_reach hS)
    have : s'.actualHwm = max S.pool.actualHwm (peak cfg.align S.held t) := by
      unfold QuickPool.coalesce at hr
      split at hr
      · exact doCoalesce_thwm hc hh hi (hh _ _ _ hi) hr
      · cases hr
        have h0 := hi.thwm
        rw [Inv.actual_eq hi hc.al] at h0
        unfold peak heldBytes; omega
    simp only at *; omega

theorem reachLive_reach {cfg : Cfg} {S : Sys} {m : Nat} (h : ReachLive cfg S m) : Reach cfg S := by
  induction h with
  | init => exact .init
  | step _ hs ih => exact .step ih hs

theorem Inv.liveBytes_le {a : Nat} (ha : 0 < a) {s : State} {O L : Held} (h : Inv a s O L) :
    liveBytes a L ≤ s.alignedHwm := by
  have := h.ahwm
  rw [Inv.aligned_eq h ha] at this
  exact this

theorem deallocWith_ahwm {cfg : Cfg} {co : State → Nat → Prog State} {s s' : State} {O O' L : Held} {p n : Nat}
    (h : Inv cfg.align s O L) (hL : (p, n) ∈ L)
    (hco : ∀ s O L s' O', Inv cfg.align s O L → cfg.heur s ≠ 0 → Run (co s (cfg.heur s)) O s' O' →
      s.alignedHwm ≤ s'.alignedHwm)
    (hr : Run (deallocWith cfg co s p) O s' O') : s.alignedHwm ≤ s'.alignedHwm := by
  obtain ⟨s1, hs, hi⟩ := deallocCore_inv h hL
  have h1 := deallocCore_hwm hs
  unfold deallocWith at hr
  rw [hs] at hr
  simp only at hr
  split at hr
  · rename_i hne; rw [← h1.2]; exact hco s1 O _ s' O' hi hne hr
  · cases hr; omega

theorem doCoalesce_ahwm {cfg : Cfg} (hc : CfgOk cfg) (hh : HeurOk cfg) {fuel : Nat} {s s' : State} {O O' L : Held}
    {sug : Nat} (h : Inv cfg.align s O L) (hs : sug + 2 * cfg.align ≤ W)
    (hr : Run (doCoalesce cfg fuel s sug) O s' O') : s.alignedHwm ≤ s'.alignedHwm := by
  induction fuel generalizing s s' O O' L sug with
  | zero => unfold doCoalesce at hr; cases hr
  | succ fuel ih =>
    unfold doCoalesce at hr
    split at hr
    · obtain ⟨s1, O1, hr1, hr2⟩ := Run.of_bind hr
      obtain ⟨h1, hra, _⟩ := wp_run (release_wp h) hr1
      have := hra.ahwm
      split at hr2
      · have hreq : ReqOk cfg (sug - s1.actualBytes) := ⟨by omega, by omega⟩
        obtain ⟨⟨r, s2⟩, O2, hr3, hr4⟩ := Run.of_bind hr2
        have hpost := wp_run (allocate_wp h1 hc hreq) hr3
        cases r with
        | none => cases hr4
        | some p =>
          obtain ⟨hp, _, ha, _⟩ := hpost
          have := deallocWith_ahwm (L := (p, sug - s1.actualBytes) :: L) (n := sug - s1.actualBytes) hp (by simp)
            (fun s O L s' O' hi _ hr => ih hi (hh s O L hi) hr) hr4
          simp only at ha this
          omega
      · cases hr2; omega
    · cases hr; omega

theorem step_ahwm {cfg : Cfg} (hc : CfgOk cfg) (hh : HeurOk cfg) {S T : Sys} (hS : Reach cfg S) (h : Step cfg S T) :
    S.pool.alignedHwm ≤ T.pool.alignedHwm := by
  have hi := reach_inv hc hh hS
  cases h with
  | allocOk hn hr =>
    have h2 := (wp_run (allocate_wp hi hc hn) hr).2.2.1
    simp only at h2 ⊢; omega
  | allocErr hn hr =>
    have h2 := (wp_run (allocate_wp hi hc hn) hr).2.1.ahwm
    simp only at h2 ⊢; omega
  | dealloc hL hr =>
    exact deallocWith_ahwm hi hL (fun s O L s' O' hi _ hr => doCoalesce_ahwm hc hh hi (hh s O L hi) hr) hr
  | release hr =>
    have h2 := (wp_run (release_wp hi) hr).2.1.ahwm
    simp only at h2 ⊢; omega
  | coalesce hr =>
    unfold QuickPool.coalesce at hr
    split at hr
    · exact doCoalesce_ahwm hc hh hi (hh _ _ _ hi) hr
    · cases hr; simp

theorem reachLive_le {cfg : Cfg} (hc : CfgOk cfg) (hh : HeurOk cfg) {S : Sys} {m : Nat}
    (h : ReachLive cfg S m) : m ≤ S.pool.alignedHwm := by
  induction h with
  | init => exact Nat.le_refl _
  | @step S T m hS hs ih =>
    have h1 := step_ahwm hc hh (reachLive_reach hS) hs
    have h2 := Inv.liveBytes_le hc.al (reach_inv hc hh (.step (reachLive_reach hS) hs))
    omega

theorem Inv.aligned_le_actual {a : Nat} {s : State} {O L : Held} (h : Inv a s O L) : s.alignedBytes ≤ s.actualBytes := by
  rw [h.actual, h.aligned]
  have h1 : ∀ bs : List (List Chunk), (bs.map bsize).sum = (bs.flatten.map (·.size)).sum := by
    intro bs
    induction bs with
    | nil => rfl
    | cons b bs ih => simp [ih, bsize]
  rw [h1]
  have := sum_map_filter_split (fun c : Chunk => c.size) (fun c => !c.free) s.blocks.flatten
  unfold usedL
  omega

theorem dvd_liveBytes (a : Nat) (L : Held) : a ∣ liveBytes a L := by
  unfold liveBytes
  induction L with
  | nil => exact Nat.dvd_zero a
  | cons l L ih =>
    simp only [List.map_cons, List.sum_cons]
    exact Nat.dvd_add (Nat.dvd_mul_left _ _) ih

/-- If the size aimed at is at most the aligned high watermark, coalescing does not
move it. -/
theorem doCoalesce_ahwm_eq {cfg : Cfg} (hc : CfgOk cfg) (hh : HeurOk cfg) (hz : ∀ s, cfg.heur s ≤ s.alignedHwm)
    {fuel : Nat} {s s' : State} {O O' L : Held} {sug : Nat} (h : Inv cfg.align s O L) (hs : sug + 2 * cfg.align ≤ W)
    (hd : cfg.align ∣ s.alignedHwm) (hle : sug ≤ s.alignedHwm)
    (hr : Run (doCoalesce cfg fuel s sug) O s' O') : s'.alignedHwm = s.alignedHwm := by
  induction fuel generalizing s s' O O' L sug with
  | zero => unfold doCoalesce at hr; cases hr
  | succ fuel ih =>
    unfold doCoalesce at hr
    split at hr
    · obtain ⟨s1, O1, hr1, hr2⟩ := Run.of_bind hr
      obtain ⟨h1, hra, _⟩ := wp_run (release_wp h) hr1
      have hra := hra.ahwm
      split at hr2
      · have hreq : ReqOk cfg (sug - s1.actualBytes) := ⟨by omega, by omega⟩
        obtain ⟨⟨r, s2⟩, O2, hr3, hr4⟩ := Run.of_bind hr2
        have hpost := wp_run (allocate_wp h1 hc hreq) hr3
        cases r with
        | none => cases hr4
        | some p =>
          obtain ⟨hp, _, ha, _⟩ := hpost
          simp only at ha hp
          have hkey : s2.alignedHwm = s.alignedHwm := by
            rw [ha, hra]
            have e2 : s2.alignedBytes = liveBytes cfg.align ((p, sug - s1.actualBytes) :: L) := Inv.aligned_eq hp hc.al
            have e1 : s1.alignedBytes = liveBytes cfg.align L := Inv.aligned_eq h1 hc.al
            have hl := Inv.aligned_le_actual h1
            have hdl := dvd_liveBytes cfg.align L
            have hw := h1.ahwm
            have e3 : liveBytes cfg.align ((p, sug - s1.actualBytes) :: L)
                = ceil cfg.align (sug - s1.actualBytes) + liveBytes cfg.align L := by
              unfold liveBytes; simp
            have hce : ceil cfg.align (sug - s1.actualBytes) ≤ s.alignedHwm - liveBytes cfg.align L := by
              obtain ⟨k, hk⟩ := Nat.dvd_sub hd hdl
              rw [hk]
              unfold ceil
              rw [Nat.mul_comm cfg.align k]
              refine Nat.mul_le_mul_right _ ?_
              have : sug - s1.actualBytes ≤ cfg.align * k := by omega
              have hal := hc.al
              refine Nat.le_of_lt_succ (Nat.div_lt_of_lt_mul ?_)
              rw [Nat.mul_succ]
              omega
            omega
          have hdr := deallocCore_inv hp (ptr := p) (n := sug - s1.actualBytes) (by simp)
          obtain ⟨s3, hs3, hi3⟩ := hdr
          have h3 := (deallocCore_hwm hs3).2
          simp only [deallocWith, hs3] at hr4
          split at hr4
          · have := ih hi3 (hh _ _ _ hi3) (by rw [h3, hkey]; exact hd) (hz s3) hr4
            omega
          · cases hr4; omega
      · cases hr2; omega
    · cases hr; omega

/-- The aligned high watermark is exact if coalescing never aims at more than it. -/
theorem reachLive_hwm {cfg : Cfg} (hc : CfgOk cfg) (hh : HeurOk cfg) (hz : ∀ s, cfg.heur s ≤ s.alignedHwm) {S : Sys} {m : Nat}
    (h : ReachLive cfg S m) : S.pool.alignedHwm = m ∧ cfg.align ∣ m := by
  induction h with
  | init => exact ⟨rfl, Nat.dvd_zero _⟩
  | @step S T m hS hs ih =>
    obtain ⟨ih, ihd⟩ := ih
    refine ⟨?_, by
      rcases Nat.le_total m (liveBytes cfg.align T.live) with hm | hm
      · rw [Nat.max_eq_right hm]; exact dvd_liveBytes _ _
      · rw [Nat.max_eq_left hm]; exact ihd⟩
    have hi := reach_inv hc hh (reachLive_reach hS)
    have hT := reach_inv hc hh (.step (reachLive_reach hS) hs)
    have hle := Inv.liveBytes_le hc.al hT
    rw [← ih]
    cases hs with
    | allocOk hn hr =>
      obtain ⟨h1, _, h2, _⟩ := wp_run (allocate_wp hi hc hn) hr
      simp only at h1 h2 ⊢
      rw [h2, Inv.aligned_eq h1 hc.al]
      unfold liveBytes
      omega
    | allocErr hn hr =>
      have h1 := wp_run (allocate_wp hi hc hn) hr
      have h2 := h1.2.1.ahwm
      simp only at h2 hle ⊢
      omega
    | @dealloc p n fuel s' O' hL hr =>
      have h2 : s'.alignedHwm = S.pool.alignedHwm := by
        obtain ⟨s1, hs1, hi1⟩ := deallocCore_inv hi hL
        have h1 := (deallocCore_hwm hs1).2
        simp only [deallocate, deallocWith, hs1] at hr
        split at hr
        · rw [doCoalesce_ahwm_eq hc hh hz hi1 (hh _ _ _ hi1) (by rw [h1, ih]; exact ihd) (hz _) hr, h1]
        · cases hr; exact h1
      simp only at hle ⊢
      omega
    | release hr =>
      have h2 := (wp_run (release_wp hi) hr).2.1.ahwm
      simp only at h2 hle ⊢
      omega
    | @coalesce fuel s' O' hr =>
      have h2 : s'.alignedHwm = S.pool.alignedHwm := by
        unfold QuickPool.coalesce at hr
        split at hr
        · exact doCoalesce_ahwm_eq hc hh hz hi (hh _ _ _ hi) (by rw [ih]; exact ihd) (hz _) hr
        · cases hr; rfl
      simp only at hle ⊢
      omega

end Umpire.QuickPool
