import Verif.Nest.Kinds
/-!
# The other strategies as `Strat`
-/
set_option autoImplicit false
set_option linter.unusedSimpArgs false
namespace Umpire.Nest
open Umpire.Prog

/-! ## FixedPool -/

/-- Requests are not larger than the objects; the blocks are not larger than `B`. -/
structure FixedFits (cfg : FixedPool.Cfg) (cap B : Nat) : Prop where
  ok : FixedPool.CfgOk cfg
  cap : cap ≤ cfg.obj
  data : cfg.data ≤ B

theorem fixed_alloc_asks {cfg : FixedPool.Cfg} {P : Nat → Prop} (hP : P cfg.data) {fuel : Nat} {s : FixedPool.State} {O : Held} :
    (FixedPool.allocate cfg fuel s).asks P O := by
  induction fuel generalizing s O with
  | zero => trivial
  | succ fuel ih =>
    unfold FixedPool.allocate
    split
    · trivial
    · exact ⟨hP, fun p _ => ih, trivial⟩

theorem fixed_release_asks {cfg : FixedPool.Cfg} {P : Nat → Prop} {s : FixedPool.State} {O : Held} :
    (FixedPool.release cfg s).asks P O := by
  unfold FixedPool.release
  refine asks_bind' ?_ fun _ _ => trivial
  have : ∀ (ps : List FixedPool.Pool) (O : Held), (FixedPool.freeFull cfg ps).asks P O := by
    intro ps
    induction ps with
    | nil => intro O; trivial
    | cons p ps ih =>
      intro O
      unfold FixedPool.freeFull
      split
      · exact ih _
      · exact ih _
  exact this _ _

theorem FixedFits.upto {cfg : FixedPool.Cfg} {cap B : Nat} (h : FixedFits cfg cap B) : Upto B cfg.data :=
  ⟨h.ok.data_pos, h.data⟩

theorem fixed_nz {cfg : FixedPool.Cfg} {s : FixedPool.State} {O L : Held} {p n : Nat}
    (h : FixedPool.Inv cfg s O ((p, n) :: L)) : p ≠ 0 := by
  obtain ⟨a, q, b, i, hs, hi, -, he⟩ := h.slot (List.mem_cons_self ..)
  have hr := h.rngs (FixedPool.rng cfg q) (h.held.mem_iff.2 (List.mem_map.2 ⟨q, by rw [hs]; simp, rfl⟩))
  have : p = q.data + cfg.obj * i := congrArg Prod.fst he
  unfold FixedPool.rng at hr
  simp only at hr
  omega

theorem fixed_ok {cfg : FixedPool.Cfg} {cap B : Nat} (hF : FixedFits cfg cap B) :
    (fixedS cfg).Ok (Upto cap) (Upto B) True fun s O U => MixedPool.FixOk (cfg, s) ⟨O, U⟩ where
  good := fun h => h.good
  make := by
    refine wpa_bind (wpa_of (wp_mono (wp_weaken MixedPool.fixedCreate_wp ?_ fun _ _ h => h.elim) ?_) ⟨hF.upto, fun _ _ => trivial, trivial⟩)
    · intro b hb
      have : b = .abort := hb
      subst this
      simp [KeepUB]
    · intro s O h
      exact ⟨hF.ok, h, by simp⟩
  alloc := by
    rintro s O U n h ⟨hn, hle⟩
    have hcap := hF.cap
    refine wpa_of (wp_mono (keep_keepUB (Q := fun r O' => match r.1 with
        | some p => FixedPool.Inv cfg r.2 O' ((p, cfg.obj) :: U.map fun u => (u.1, cfg.obj))
        | none => r.2 = s ∧ O' = O) ?_) ?_) (fixed_alloc_asks hF.upto)
    · refine wp_mono (wp_weaken (FixedPool.allocate_wp h.inv hF.ok 0) (fun _ h => h) ?_) ?_
      · rintro q m ⟨h1, h2⟩
        refine ⟨h1, fun l hl => ?_⟩
        have h3 := h2 _ (List.mem_map.2 ⟨l, hl, rfl⟩)
        have h4 := (h.size l hl).2
        unfold Disj at *
        simp only at h3 h4
        omega
      · rintro ⟨r, s'⟩ O' h1
        cases r with
        | none => exact h1
        | some p => exact h1.1
    · rintro ⟨r, s'⟩ O' h1
      cases r with
      | none =>
        obtain ⟨rfl, rfl⟩ := h1
        exact ⟨h, by simp⟩
      | some p =>
        have hp : p ≠ 0 := fixed_nz h1
        refine ⟨?_, by simp [hp]⟩
        simp only [record_some hp]
        refine ⟨hF.ok, h1, ?_⟩
        intro u hu
        rcases List.mem_cons.1 hu with rfl | hu
        · exact ⟨hn, Nat.le_trans hle hcap⟩
        · exact h.size u hu
  dealloc := by
    intro s O U p n h hl
    obtain ⟨s', h1, h2, -⟩ := FixedPool.deallocate_wp h.inv h.cfg (List.mem_map.2 ⟨_, hl, rfl⟩)
    show (FixedPool.deallocate cfg s p).wpa _ _ _ _
    simp only at h1 h2
    rw [h1]
    rw [MixedPool.drop_map] at h2
    exact ⟨h.cfg, h2, fun u hu => h.size u (drop_sub u hu)⟩
  op := by
    intro s O U o h
    cases o with
    | coalesce => exact h
    | release =>
      refine wpa_of (wp_mono (wp_weaken (FixedPool.release_wp h.inv h.cfg) (fun _ h => h.elim) ?_) ?_) fixed_release_asks
      · rintro q m ⟨h1, h2⟩
        refine ⟨h1, fun l hl => ?_⟩
        have h3 := h2 _ (List.mem_map.2 ⟨l, hl, rfl⟩)
        have h4 := (h.size l hl).2
        unfold Disj at *
        simp only at h3 h4
        omega
      · intro s' O' h1
        exact ⟨h.cfg, h1.1, h.size⟩

/-! ## MixedPool -/

/-- Sizes up to `cap` asked of the pool lead to sizes up to `B` asked of its parent;
the constructor does not divide by zero. -/
structure MixedFits (cfg : MixedPool.Cfg) (cap B : Nat) : Prop where
  quick : QuickFits cfg.quick cap B
  init : cfg.maxInit ≤ B
  small : 0 < cfg.smallest
  mult : 0 < cfg.mult
  large : cfg.largest * cfg.mult < W

section
variable {cfg : MixedPool.Cfg} {cap B : Nat}

theorem MixedFits.ok (h : MixedFits cfg cap B) : MixedPool.CfgOk cfg :=
  ⟨h.quick.ok, h.quick.heurOk, Nat.lt_of_le_of_lt h.init h.quick.top⟩

theorem perPool_upto (h : MixedFits cfg cap B) {obj : Nat} (ho : 0 < obj) (hp : 1 < MixedPool.perPool cfg obj) :
    Upto B (FixedPool.Cfg.data ⟨obj, MixedPool.perPool cfg obj⟩) := by
  have h1 : MixedPool.perPool cfg obj ≤ cfg.maxInit / obj := Nat.min_le_right _ _
  have h2 := Nat.mul_le_mul_left obj h1
  have h3 := Nat.mul_div_le cfg.maxInit obj
  have h4 := h.init
  have h5 := h.quick.top
  unfold FixedPool.Cfg.data w64
  rw [Nat.mod_eq_of_lt (by show obj * MixedPool.perPool cfg obj < W; omega)]
  refine ⟨Nat.mul_pos ho (by show 0 < MixedPool.perPool cfg obj; omega), by show obj * MixedPool.perPool cfg obj ≤ B; omega⟩

theorem mkFixed_asks (h : MixedFits cfg cap B) {fuel obj : Nat} {O : Held} : (MixedPool.mkFixed cfg fuel obj).asks (Upto B) O := by
  induction fuel generalizing obj O with
  | zero => trivial
  | succ fuel ih =>
    unfold MixedPool.mkFixed
    split
    · split
      · trivial
      · rename_i hz
        split
        · rename_i hp
          refine asks_bind' ⟨perPool_upto h (Nat.pos_of_ne_zero hz) hp, fun _ _ => trivial, trivial⟩ fun s O1 => ?_
          exact asks_bind' ih fun _ _ => trivial
        · trivial
    · trivial

theorem mkFixed_rets (h : MixedFits cfg cap B) {fuel obj : Nat} :
    rets (fun fs => ∀ f ∈ fs, Upto B f.1.data) (MixedPool.mkFixed cfg fuel obj) := by
  induction fuel generalizing obj with
  | zero => trivial
  | succ fuel ih =>
    unfold MixedPool.mkFixed
    split
    · split
      · trivial
      · rename_i hz
        split
        · rename_i hp
          refine rets_bind (rets_true _) fun s _ => rets_bind ih fun rest hr => ?_
          intro f hf
          rcases List.mem_cons.1 hf with rfl | hf
          · exact perPool_upto h (Nat.pos_of_ne_zero hz) hp
          · exact hr f hf
        · exact fun f hf => by cases hf
    · exact fun f hf => by cases hf

theorem mkFixed_noub (h : MixedFits cfg cap B) {fuel obj : Nat} {T : Held} (h0 : 0 < obj) :
    (MixedPool.mkFixed cfg fuel obj).wp (KeepUB []) T fun _ _ => True := by
  have hl := h.large
  have hm := h.mult
  induction fuel generalizing obj T with
  | zero => simp [MixedPool.mkFixed, wp, KeepUB]
  | succ fuel ih =>
    unfold MixedPool.mkFixed
    split
    · rename_i hle
      rw [if_neg (by omega)]
      split
      · refine ⟨fun d _ => ?_, by simp [KeepUB, Prog.bind, wp]⟩
        simp only [Prog.ret_bind]
        have h1 := Nat.mul_le_mul_right cfg.mult hle
        have h2 : w64 (obj * cfg.mult) = obj * cfg.mult := Nat.mod_eq_of_lt (by omega)
        rw [h2]
        exact wp_bind (wp_mono (ih (Nat.mul_pos h0 hm)) fun _ _ _ => trivial)
      · trivial
    · trivial

theorem wp_and {α : Type} {E E' : Mode} {p : Prog α} {O : Held} {Q Q' : α → Held → Prop} (h : p.wp E O Q) (h' : p.wp E' O Q') :
    p.wp E' O fun a O' => Q a O' ∧ Q' a O' := by
  induction p generalizing O with
  | ret a => exact ⟨h, h'⟩
  | fail b => exact h'
  | alloc n k ih => exact ⟨fun p hp => ih _ (h.1 p hp) (h'.1 p hp), ih _ h.2 h'.2⟩
  | dealloc p n k ih => exact ⟨h'.1, ih h.2 h'.2⟩

/-- The object sizes do not change. -/
def SameCfgs (s s' : MixedPool.State) : Prop := s'.fixed.map (·.1) = s.fixed.map (·.1)

theorem map_set_same {α β : Type} {f : α → β} {l : List α} {i : Nat} {x y : α} (h : l[i]? = some x) (he : f y = f x) :
    (l.set i y).map f = l.map f := by
  obtain ⟨A, B, rfl, rfl⟩ := MixedPool.split_at h
  rw [MixedPool.set_mid]
  simp [he]

theorem mixed_alloc_rets {fuel n : Nat} {s : MixedPool.State} :
    rets (fun r => SameCfgs s r.2) (MixedPool.allocate cfg fuel s n) := by
  unfold MixedPool.allocate
  simp only
  split
  · rename_i fc fs hg
    refine rets_bind (rets_true _) fun r _ => ?_
    obtain ⟨r, fs'⟩ := r
    cases r with
    | none => exact map_set_same hg rfl
    | some p => exact map_set_same hg rfl
  · refine rets_bind (rets_true _) fun r _ => ?_
    obtain ⟨r, q⟩ := r
    cases r with
    | none => exact rfl
    | some p => exact rfl

theorem mixed_dealloc_rets {fuel p : Nat} {s : MixedPool.State} :
    rets (fun r => SameCfgs s r.2) (MixedPool.deallocate cfg fuel s p) := by
  unfold MixedPool.deallocate
  split
  · exact rfl
  · split
    · exact rets_bind (rets_true _) fun r _ => rfl
    · split
      · trivial
      · rename_i fc fs hg
        exact rets_bind (rets_true _) fun r _ => map_set_same hg rfl

/-- The invariant: also, no sub-pool asks for more than `B`. -/
def MixedInv (cfg : MixedPool.Cfg) (B : Nat) (s : MixedPool.State) (O U : Held) : Prop :=
  MixedPool.Inv cfg s O U ∧ ∀ f ∈ s.fixed.map (·.1), Upto B f.data

theorem mixed_good (hc : MixedPool.CfgOk cfg) {s : MixedPool.State} {T L : Held} (h : MixedPool.Inv cfg s T L) : Client.Good ⟨T, L⟩ := by
  obtain ⟨OQ, LQ, P, h, -⟩ := h
  have h1 := h.live_ok hc
  refine ⟨?_, fun u hu => (h1.2 u hu).1, h1.1, fun u hu => (h1.2 u hu).2⟩
  intro o ho
  obtain ⟨c, hcm, ho'⟩ := List.mem_flatMap.1 (h.held.mem_iff.1 ho)
  exact (h.good hc c hcm).pos o ho'

theorem mixed_nz (hc : MixedPool.CfgOk cfg) {s : MixedPool.State} {T L : Held} {p n : Nat}
    (h : MixedPool.Inv cfg s T ((p, n) :: L)) : p ≠ 0 := by
  obtain ⟨OQ, LQ, P, h, -⟩ := h
  obtain ⟨-, o, ho, hw⟩ := (h.live_ok hc).2 (p, n) (by simp)
  have : o.1 ≠ 0 := by
    rcases List.mem_append.1 ((List.Perm.of_eq List.flatMap_cons).mem_iff.1 (h.held.mem_iff.1 ho)) with ho | ho
    · exact (h.quick.range o ho).1
    · obtain ⟨c, hcm, ho⟩ := List.mem_flatMap.1 ho
      obtain ⟨x, hx, rfl⟩ := List.mem_map.1 hcm
      exact ((h.ok x hx).inv.rngs o ho).1
  unfold Within at hw
  simp only at hw
  omega

theorem mixed_ok {fuel : Nat} (hF : MixedFits cfg cap B) :
    (mixedS cfg fuel).Ok (Upto cap) (Upto B) True (MixedInv cfg B) where
  good := fun h => mixed_good hF.ok h.1
  make := by
    refine wpa_bind (wpa_of ?_ (asks_bind' (mkFixed_asks hF) fun _ _ => trivial))
    have h1 : (MixedPool.create cfg fuel).wp (KeepUB []) [] fun _ _ => True :=
      wp_bind (wp_mono (mkFixed_noub hF hF.small) fun _ _ _ => trivial)
    have h2 : rets (fun s => ∀ f ∈ s.fixed.map (·.1), Upto B f.data) (MixedPool.create cfg fuel) := by
      refine rets_bind (mkFixed_rets hF) fun fs hr => ?_
      intro f hf
      obtain ⟨x, hx, rfl⟩ := List.mem_map.1 hf
      exact hr x hx
    refine wp_mono (wp_rets (wp_and (MixedPool.create_wp hF.ok) h1) h2) ?_
    rintro s O ⟨⟨h3, -⟩, h4⟩
    exact ⟨h3, h4⟩
  alloc := by
    rintro s O U n h ⟨hn, hle⟩
    have hcap := hF.quick.cap
    have htop := hF.quick.top
    refine wpa_of (wp_mono (wp_rets (keep_keepUB (MixedPool.allocate_wp h.1 hF.ok ⟨hn, by omega⟩ fuel)) mixed_alloc_rets) ?_) ?_
    · rintro ⟨r, s'⟩ O' ⟨h1, h2⟩
      have h3 : ∀ f ∈ s'.fixed.map (·.1), Upto B f.data := by
        unfold SameCfgs at h2
        simp only at h2
        rw [h2]
        exact h.2
      cases r with
      | none => exact ⟨⟨h1, h3⟩, by simp⟩
      | some p =>
        have hp : p ≠ 0 := mixed_nz hF.ok h1
        refine ⟨?_, by simp [hp]⟩
        simp only [record_some hp]
        exact ⟨h1, h3⟩
    · show (MixedPool.allocate cfg (fuel + 2) s n).asks _ _
      unfold MixedPool.allocate
      simp only
      split
      · rename_i fc fs hg
        refine asks_bind' (fixed_alloc_asks (h.2 fc (List.mem_map.2 ⟨_, List.mem_of_getElem? hg, rfl⟩))) fun r O => ?_
        obtain ⟨r, _⟩ := r
        cases r <;> trivial
      · refine asks_bind' (quick_alloc_asks hF.quick hn (by omega)) fun r O => ?_
        obtain ⟨r, _⟩ := r
        cases r <;> trivial
  dealloc := by
    intro s O U p n h hl
    refine wpa_of (wp_mono (wp_rets (MixedPool.deallocate_wp h.1 hF.ok hl) mixed_dealloc_rets) ?_) ?_
    · rintro ⟨r, s'⟩ O' ⟨h1, h2⟩
      refine ⟨h1.2, ?_⟩
      unfold SameCfgs at h2
      simp only at h2
      rw [h2]
      exact h.2
    · obtain ⟨⟨OQ, LQ, P, h, hm⟩, -⟩ := h
      show (MixedPool.deallocate cfg fuel s p).asks _ _
      unfold MixedPool.deallocate
      have hl' := h.live.mem_iff.1 hl
      rw [List.flatMap_cons] at hl'
      rcases List.mem_append.1 hl' with hl1 | hl1
      · simp only at hl1
        rw [hm.quick _ hl1]
        simp only [show (-1 : Int) < 0 by decide, if_true]
        refine asks_bind' (asks_sub (quick_dealloc_asks hF.quick h.quick hl1) fun o ho => ?_) fun _ _ => trivial
        exact h.held.mem_iff.2 (by rw [List.flatMap_cons]; exact List.mem_append_left _ ho)
      · obtain ⟨c', hc', hu⟩ := List.mem_flatMap.1 hl1
        obtain ⟨x, hx, rfl⟩ := List.mem_map.1 hc'
        obtain ⟨i, hi⟩ := List.getElem?_of_mem hx
        have hmi := hm.fixed i x hi _ hu
        simp only at hmi
        rw [hmi]
        simp only [show ¬ ((i : Int) < 0) by omega, if_false]
        split
        · trivial
        · unfold FixedPool.deallocate
          split <;> trivial
  op := by
    intro s O U o h
    cases o with
    | release => exact h
    | coalesce => exact h
end

/-! ## MonotonicAllocationStrategy -/

/-- Everything given out and not returned lies before `size`. -/
structure MonoInv (C : Nat) (s : Monotonic.State) (O U : Held) : Prop where
  capEq : s.cap = C
  pos : 0 < C
  held : O = [(s.block, C)]
  top : s.block + C ≤ AMax
  nz : s.block ≠ 0
  given : ∀ g ∈ U, 0 < g.2 ∧ Within g.1 g.2 s.block s.size ∧ Within g.1 g.2 s.block C
  disj : U.Pairwise fun x y => Disj x.1 x.2 y.1 y.2

theorem mono_ok {C cap B : Nat} (h0 : 0 < C) (hB : C ≤ B) :
    (monoS C).Ok (Upto cap) (Upto B) True (MonoInv C) where
  good := by
    intro s O U h
    refine ⟨?_, fun u hu => (h.given u hu).1, h.disj, fun u hu => ⟨(s.block, C), by rw [h.held]; simp, (h.given u hu).2.2⟩⟩
    intro o ho
    rw [h.held] at ho
    simp only [List.mem_singleton] at ho
    subst ho
    exact h0
  make := by
    refine ⟨⟨h0, hB⟩, fun p hp => ?_, rfl⟩
    exact ⟨rfl, h0, rfl, hp.2.1, hp.1, by simp, List.Pairwise.nil⟩
  alloc := by
    rintro s O U n h ⟨hn, -⟩
    show Prog.wpa _ _ (if s.size + n < W then .ret (Monotonic.allocate s n) else .fail .diverge) _ _
    have h1 := h.capEq
    have h2 := h.top
    have h3 := h.nz
    by_cases hw : s.size + n < W
    · rw [if_pos hw]
      have hw' : w64 (s.size + n) = s.size + n := Nat.mod_eq_of_lt hw
      have hnon : (none, ({ s with size := s.size + n } : Monotonic.State)).1 = (none : Option Nat) := rfl
      unfold Monotonic.allocate
      simp only [hw']
      by_cases hc : s.size + n > s.cap
      · rw [if_pos hc]
        refine ⟨⟨h.capEq, h.pos, h.held, h.top, h.nz, ?_, h.disj⟩, by simp⟩
        intro g hg
        have hg : g ∈ U := hg
        have := h.given g hg
        unfold Within at *
        simp only
        omega
      · rw [if_neg hc]
        have hA : AMax < W := by decide
        have hb : w64 (s.block + s.size) = s.block + s.size := Nat.mod_eq_of_lt (by omega)
        rw [hb]
        have hp : s.block + s.size ≠ 0 := by omega
        refine ⟨?_, by simp; omega⟩
        simp only [record_some hp]
        refine ⟨h.capEq, h.pos, h.held, h.top, h.nz, ?_, ?_⟩
        · intro g hg
          rcases List.mem_cons.1 hg with rfl | hg
          · unfold Within; simp only; omega
          · have := h.given g hg
            unfold Within at *
            simp only
            omega
        · refine List.pairwise_cons.2 ⟨fun g hg => ?_, h.disj⟩
          have := (h.given g hg).2.1
          unfold Within at this
          unfold Disj
          simp only
          omega
    · rw [if_neg hw]
      simp [Prog.wpa, KeepUB]
  dealloc := by
    intro s O U p n h hl
    exact ⟨h.capEq, h.pos, h.held, h.top, h.nz, fun g hg => h.given g (drop_sub g hg), List.Pairwise.filter _ h.disj⟩
  op := fun _ h => h

/-! ## Strategies that hand out exactly what they hold -/

/-- Invariant of the forwarding strategies: what is given out is held. -/
structure FwdInv (O U : Held) : Prop where
  pos : ∀ o ∈ O, 0 < o.2
  nz : ∀ o ∈ O, o.1 ≠ 0
  disj : O.Disjoint
  sub : U.Sublist O

theorem FwdInv.good {O U : Held} (h : FwdInv O U) : Client.Good ⟨O, U⟩ :=
  ⟨h.pos, fun u hu => h.pos u (h.sub.subset hu), h.disj.sublist h.sub,
    fun u hu => ⟨u, h.sub.subset hu, Nat.le_refl _, Nat.le_refl _⟩⟩

theorem FwdInv.add {O U : Held} (h : FwdInv O U) {p n : Nat} (hn : 0 < n) (hp : Fresh p n O) :
    FwdInv ((p, n) :: O) ((p, n) :: U) ∧ FwdInv ((p, n) :: O) U := by
  have h1 : ∀ o ∈ (p, n) :: O, 0 < o.2 := by
    intro o ho
    rcases List.mem_cons.1 ho with rfl | ho
    · exact hn
    · exact h.pos o ho
  have h2 : ∀ o ∈ (p, n) :: O, o.1 ≠ 0 := by
    intro o ho
    rcases List.mem_cons.1 ho with rfl | ho
    · exact hp.1
    · exact h.nz o ho
  have h3 : Held.Disjoint ((p, n) :: O) := List.pairwise_cons.2 ⟨hp.2.2, h.disj⟩
  exact ⟨⟨h1, h2, h3, h.sub.cons_cons _⟩, ⟨h1, h2, h3, h.sub.cons _⟩⟩

theorem FwdInv.remove {O U : Held} (h : FwdInv O U) (p : Nat) : FwdInv (Umpire.drop p O) (Umpire.drop p U) :=
  ⟨fun o ho => h.pos o (drop_sub o ho), fun o ho => h.nz o (drop_sub o ho), h.disj.drop p, h.sub.filter _⟩

/-- Handing back a live allocation touches no other one. -/
theorem FwdInv.free {O U : Held} (h : FwdInv O U) {p n : Nat} (hl : (p, n) ∈ U) : (KeepUB (Umpire.drop p U)).free p n := by
  refine ⟨h.pos _ (h.sub.subset hl), fun l hl' => ?_⟩
  obtain ⟨h1, h2⟩ := mem_drop.1 hl'
  exact pairwise_mem (R := fun a b : Nat × Nat => Disj a.1 a.2 b.1 b.2) h.disj (fun _ _ h => h.symm) (h.sub.subset h1)
    (h.sub.subset hl) fun he => h2 (by rw [he])

theorem limiter_ok {limit cap B : Nat} (hB : cap ≤ B) :
    (limiterS limit).Ok (Upto cap) (Upto B) True fun _ O U => FwdInv O U ∧ O = U where
  good := fun h => h.1.good
  make := ⟨⟨by simp, by simp, List.Pairwise.nil, List.Sublist.refl _⟩, rfl⟩
  alloc := by
    rintro s O U n h ⟨hn, hle⟩
    show Prog.wpa _ _ (Prog.bind (SizeLimiter.allocate s n) _) _ _
    unfold SizeLimiter.allocate
    simp only
    split
    · exact ⟨h, by simp⟩
    · refine ⟨⟨hn, by omega⟩, fun p hp => ?_, h, by simp⟩
      refine ⟨?_, by simp [hp.1]⟩
      simp only [record_some hp.1]
      exact ⟨(h.1.add hn hp).1, by rw [h.2]⟩
  dealloc := by
    intro s O U p n h hl
    exact ⟨⟨h.1.sub.subset hl, h.1.free hl⟩, h.1.remove p, by rw [h.2]⟩
  op := fun _ h => h

/-- The operation on a new allocation does not throw. -/
def Sure (k : Forward.Kind) : Prop := ∀ p n, k.hook p n = true

theorem forward_ok {k : Forward.Kind} {cap B : Nat} (hB : cap ≤ B) :
    (forwardS k).Ok (Upto cap) (Upto B) True fun _ O U => FwdInv O U ∧ (Sure k → O = U) where
  good := fun h => h.1.good
  make := ⟨⟨by simp, by simp, List.Pairwise.nil, List.Sublist.refl _⟩, fun _ => rfl⟩
  alloc := by
    rintro s O U n h ⟨hn, hle⟩
    refine ⟨⟨hn, by omega⟩, fun p hp => ?_, h, by simp⟩
    have : ∀ b : Bool, (Sure k → b = true) → (Prog.bind (.ret (if b then Forward.Res.ok p else .hook)) fun r => match r with
        | .ok p => .ret (some p, s)
        | _ => .ret (none, s) : Prog (Option Nat × Unit)).wpa (Upto B) (KeepUB U) ((p, n) :: O) fun r O' =>
          (FwdInv O' (record r.1 n U) ∧ (Sure k → O' = record r.1 n U)) ∧ (r.1 = some 0 → ¬ True) := by
      intro b hb
      cases b with
      | true =>
        refine ⟨?_, by simp [hp.1]⟩
        simp only [record_some hp.1]
        exact ⟨(h.1.add hn hp).1, fun hk => by rw [h.2 hk]⟩
      | false => exact ⟨⟨(h.1.add hn hp).2, fun hk => absurd (hb hk) (by simp)⟩, by simp⟩
    exact this _ fun hk => hk p n
  dealloc := by
    intro s O U p n h hl
    exact ⟨⟨h.1.sub.subset hl, h.1.free hl⟩, h.1.remove p, fun hk => by rw [h.2 hk]⟩
  op := fun _ h => h

/-! ## AlignedAllocator -/

theorem aligned_ok {a cap B : Nat} (hB : cap + 8 + a ≤ B) (hW : B ≤ W) :
    (alignedS a).Ok (Upto cap) (Upto B) True fun m O U => 16 ≤ a ∧ (∃ L, Aligned.Inv a m L O U) ∧ ∀ u ∈ U, 0 < u.2 where
  good := by
    rintro m O U ⟨ha, ⟨L, h⟩, hp⟩
    refine ⟨?_, hp, ?_, ?_⟩
    · intro o ho
      have ho : o ∈ O := ho
      rw [h.held] at ho
      obtain ⟨b, -, rfl⟩ := List.mem_map.1 ho
      simp only
      omega
    · show U.Pairwise _
      rw [h.live, List.pairwise_map]
      have hd := h.disj
      rw [h.held] at hd
      unfold Held.Disjoint at hd
      rw [List.pairwise_map] at hd
      refine List.Pairwise.imp_of_mem ?_ hd
      intro x y hx hy hxy
      have h1 := Aligned.place ha (h.top x hx)
      have h2 := Aligned.place ha (h.top y hy)
      unfold Disj at *
      simp only at *
      omega
    · intro u hu
      have hu : u ∈ U := hu
      rw [h.live] at hu
      obtain ⟨b, hb, rfl⟩ := List.mem_map.1 hu
      refine ⟨_, h.held_mem hb, ?_⟩
      have h1 := Aligned.place ha (h.top b hb)
      unfold Within
      simp only
      omega
  make := by
    show Prog.wpa _ _ (match Aligned.create a with
      | some _ => .ret (some fun _ => 0)
      | none => .ret none : Prog (Option Mem)) _ _
    unfold Aligned.create
    by_cases h : 16 ≤ a ∧ a &&& (a - 1) = 0
    · rw [if_pos h]
      exact ⟨h.1, ⟨[], rfl, rfl, List.Pairwise.nil, by simp, by simp⟩, by simp⟩
    · rw [if_neg h]
      rfl
  alloc := by
    rintro m O U n ⟨ha, ⟨L, h⟩, hp⟩ ⟨hn, hle⟩
    have ht : Aligned.total a n = n + 8 + a - 1 := Nat.mod_eq_of_lt (by omega)
    refine ⟨?_, fun q hq => ?_, ⟨ha, ⟨L, h⟩, hp⟩, by simp⟩
    · rw [ht]; exact ⟨by omega, by omega⟩
    · obtain ⟨-, h2⟩ := Aligned.allocate_eq ha (by omega) hq
      have hA := Aligned.place ha (n := n) (b := q) (by rw [← ht]; exact hq.2.1)
      have hz : alignPtr a (q + 8) ≠ 0 := by omega
      simp only
      rw [if_pos h2]
      refine ⟨?_, by simp [hz]⟩
      simp only [record_some hz]
      rw [ht] at hq ⊢
      refine ⟨ha, ⟨_, h.add ha hq⟩, ?_⟩
      intro u hu
      rcases List.mem_cons.1 hu with rfl | hu
      · exact hn
      · exact hp u hu
  dealloc := by
    rintro m O U p n ⟨ha, ⟨L, h⟩, hp⟩ hl
    have hl' := hl
    rw [h.live] at hl'
    obtain ⟨b, hb, he⟩ := List.mem_map.1 hl'
    injection he with e1 e2
    have hd := Aligned.deallocate_eq (S := ⟨m, O, U⟩) h hb
    rw [e1, e2] at hd
    show Prog.wpa _ _ (Prog.bind (Aligned.deallocate a m p n) _) _ _
    simp only at hd
    rw [hd]
    have hpl := Aligned.place ha (h.top b hb)
    refine ⟨⟨?_, ?_, ?_⟩, ha, ?_, fun u hu => hp u (drop_sub u hu)⟩
    · rw [← e2]; exact h.held_mem hb
    · show 0 < n + 8 + a - 1
      omega
    · intro l hl1
      obtain ⟨h1, h2⟩ := mem_drop.1 hl1
      rw [h.live] at h1
      obtain ⟨c, hc, rfl⟩ := List.mem_map.1 h1
      have hne : c ≠ b := by
        intro he
        subst he
        exact h2 e1
      have h3 := h.block hc hb hne
      have h4 := Aligned.place ha (h.top c hc)
      unfold Disj at *
      simp only
      omega
    · have := h.remove ha hb
      rw [e1] at this
      exact ⟨_, this⟩
  op := fun _ h => h

/-! ## SlotPool -/

theorem slots_ok {k cap B : Nat} (hB : cap ≤ B) :
    (slotsS k).Ok (Upto cap) (Upto B) False fun s O U => ∃ lost, SlotPool.Inv k s O U lost where
  good := by
    rintro s O U ⟨lost, h⟩
    refine ⟨h.pos, fun u hu => h.pos u (h.sub u hu), ?_, fun u hu => ⟨u, h.sub u hu, Nat.le_refl _, Nat.le_refl _⟩⟩
    have hk := h.live_keys
    show U.Pairwise _
    rw [List.Nodup, List.pairwise_map] at hk
    refine List.Pairwise.imp_of_mem ?_ hk
    intro x y hx hy hne
    exact pairwise_mem (R := fun a b : Nat × Nat => Disj a.1 a.2 b.1 b.2) h.disj (fun _ _ h => h.symm) (h.sub x hx) (h.sub y hy)
      fun he => hne (by rw [he])
  make := ⟨0, SlotPool.create_inv k⟩
  alloc := by
    rintro s O U n ⟨lost, h⟩ ⟨hn, hle⟩
    have hinv := @SlotPool.allocate_inv k s O U lost n h hn
    show (SlotPool.allocate s n).wpa _ _ _ _
    have key : ∀ {r s' O' t}, RunT (SlotPool.allocate s n) O t (r, s') O' →
        (∃ lost, SlotPool.Inv k s' O' (record r n U) lost) ∧ (r = some 0 → ¬ False) := by
      intro r s' O' t hr
      refine ⟨?_, fun _ => id⟩
      rcases hinv hr with ⟨-, -, rfl, rfl, rfl⟩ | ⟨p, -, rfl, hp, -, -, rfl, hi⟩ | ⟨-, -, p, -, rfl, hp, -, rfl, hi⟩ |
        ⟨-, -, -, rfl, rfl, hi⟩ | ⟨-, -, -, rfl, rfl, rfl⟩
      · exact ⟨_, h⟩
      · rw [record_some hp]; exact ⟨_, hi⟩
      · rw [record_some hp]; exact ⟨_, hi⟩
      · exact ⟨_, hi⟩
      · exact ⟨_, h⟩
    rcases SlotPool.allocate_cases h hn with ⟨-, e⟩ | ⟨-, a, x, b, -, -, -, -, e⟩ | ⟨-, -, used, m, -, -, -, -, e⟩ | ⟨-, -, -, -, -, e⟩
    · rw [e] at key ⊢; exact key .ret
    · rw [e] at key ⊢; exact key .ret
    · rw [e] at key ⊢
      exact ⟨⟨hn, by omega⟩, fun p hp => key (.allocOk hp .ret), key (.allocFail .ret)⟩
    · rw [e] at key ⊢; exact key .ret
  dealloc := by
    rintro s O U p n ⟨lost, h⟩ hl
    exact ⟨lost, SlotPool.deallocate_inv h hl⟩
  op := fun _ h => h

end Umpire.Nest
