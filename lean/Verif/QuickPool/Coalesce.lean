import Verif.QuickPool.Free
/-! # `do_coalesce`, `deallocate` and `coalesce` keep the invariant -/
set_option autoImplicit false
set_option linter.unusedSimpArgs false
namespace Umpire.QuickPool
open Umpire Umpire.Prog

/-- The heuristic never suggests a size near the end of the 64-bit range. -/
def HeurOk (cfg : Cfg) : Prop := ∀ s O L, Inv cfg.align s O L → cfg.heur s + 2 * cfg.align ≤ W

theorem deallocWith_wp {cfg : Cfg} {co : State → Nat → Prog State} {s : State} {O L : Held} {p n : Nat}
    (h : Inv cfg.align s O L) (hL : (p, n) ∈ L)
    (hco : ∀ s O L, Inv cfg.align s O L → cfg.heur s ≠ 0 →
      (co s (cfg.heur s)).wp (KeepUB L) O fun s' O' => Inv cfg.align s' O' L) :
    (deallocWith cfg co s p).wp (KeepUB (drop p L)) O fun s' O' => Inv cfg.align s' O' (drop p L) := by
  obtain ⟨s', hs, hi⟩ := deallocCore_inv h hL
  unfold deallocWith
  rw [hs]
  simp only
  split
  · rename_i hne; exact hco s' O _ hi hne
  · exact hi

theorem drop_cons_fresh {p n : Nat} {L : Held} (h : ∀ r ∈ L, r.1 ≠ p) : drop p ((p, n) :: L) = L := by
  unfold drop
  simp only [List.filter_cons, ne_eq, not_true_eq_false, decide_false, Bool.false_eq_true, if_false]
  rw [List.filter_eq_self]
  intro r hr
  simpa using h r hr

theorem Inv0.live_fst_nodup {a : Nat} {s : State} {O L : Held} {sm : List (Nat × Nat)} (h : Inv0 a s O L sm) :
    (L.map (·.1)).Nodup := by
  have h1 : (L.map (·.1)).Perm ((usedL s.blocks.flatten).map (·.data)) := by
    have := h.live.map (·.1)
    simpa [List.map_map, Function.comp_def] using this
  rw [h1.nodup_iff, List.Nodup, List.pairwise_map]
  have h2 := h.chunks_disj.filter (fun c => !c.free)
  refine List.Pairwise.imp_of_mem ?_ h2
  intro x y hx hy hd
  have px := h.pos_of (List.mem_filter.1 hx).1
  have py := h.pos_of (List.mem_filter.1 hy).1
  unfold Disj at hd
  omega

theorem doCoalesce_wp {cfg : Cfg} (hc : CfgOk cfg) (hh : HeurOk cfg) {fuel : Nat} {s : State} {O L : Held}
    {sug : Nat} (h : Inv cfg.align s O L) (hs : sug + 2 * cfg.align ≤ W) :
    (doCoalesce cfg fuel s sug).wp (KeepUB L) O fun s' O' => Inv cfg.align s' O' L := by
  induction fuel generalizing s O L sug with
  | zero => simp [doCoalesce, wp, KeepUB]
  | succ fuel ih =>
    unfold doCoalesce
    split
    · refine wp_bind (wp_mono (wp_weaken (release_wp h) (fun _ hb => hb.elim) (fun _ _ hf => hf)) ?_)
      rintro s1 O1 ⟨h1, _, _⟩
      split
      · rename_i hlt
        have hreq : ReqOk cfg (sug - s1.actualBytes) := ⟨by omega, by omega⟩
        refine wp_bind (wp_mono (wp_weaken (allocate_wp h1 hc hreq) (fun _ hb => hb.elim) (fun _ _ hf => hf)) ?_)
        rintro ⟨r, s2⟩ O2 hpost
        cases r with
        | none => simp [wp, KeepUB]
        | some p =>
          simp only [AllocPost] at hpost
          replace hpost := hpost.1
          have hnd := hpost.live_fst_nodup
          simp only [List.map_cons, List.nodup_cons, List.mem_map, not_exists, not_and] at hnd
          have hdr := drop_cons_fresh (L := L) (p := p) (n := sug - s1.actualBytes) (fun r hr => fun he => hnd.1 r hr he)
          have := deallocWith_wp (co := doCoalesce cfg fuel) (n := sug - s1.actualBytes)
            (L := (p, sug - s1.actualBytes) :: L) (p := p) hpost (by simp)
            (fun s O L hi _ => ih hi (hh s O L hi))
          rwa [hdr] at this
      · exact h1
    · exact h

theorem deallocate_wp {cfg : Cfg} (hc : CfgOk cfg) (hh : HeurOk cfg) {fuel : Nat} {s : State} {O L : Held}
    {p n : Nat} (h : Inv cfg.align s O L) (hL : (p, n) ∈ L) :
    (deallocate cfg fuel s p).wp (KeepUB (drop p L)) O fun s' O' => Inv cfg.align s' O' (drop p L) :=
  deallocWith_wp h hL fun s O L hi _ => doCoalesce_wp hc hh hi (hh s O L hi)

theorem coalesce_wp {cfg : Cfg} (hc : CfgOk cfg) (hh : HeurOk cfg) {fuel : Nat} {s : State} {O L : Held}
    (h : Inv cfg.align s O L) :
    (coalesce cfg fuel s).wp (KeepUB L) O fun s' O' => Inv cfg.align s' O' L := by
  unfold coalesce
  split
  · exact doCoalesce_wp hc hh h (hh s O L h)
  · exact h

theorem init_inv (a : Nat) : Inv a init [] [] := by
  refine
    { blk := ?_, ids := ?_, idlt := ?_, sm := ?_, sorted := ?_, pm := ?_, own := ?_, keys := ?_, akey := ?_,
      bases := ?_, inside := ?_, disj := ?_, range := ?_, total := ?_, relBlocks := ?_,
      relBytes := ?_, actual := ?_, aligned := ?_, ahwm := ?_, ahwmle := ?_, thwm := ?_, live := ?_, req := ?_ }
    <;> simp [init, freeL, usedL, Held.Disjoint]

end Umpire.QuickPool
