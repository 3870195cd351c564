import Verif.Nest.EndProps
/-!
# Calling `release` on every allocator

`Allocator::release` (src/umpire/Allocator.cpp) calls `release` of the strategy the
allocator names and of no other; what that does is `Strat.op` with `release`
(QuickPool.cpp:204-214, DynamicPoolList.cpp:51-55, FixedPool.cpp:177-187,
MixedPool.cpp:96-99, AllocationStrategy.cpp:67-70 for the others).
-/
set_option autoImplicit false
set_option linter.unusedSimpArgs false
namespace Umpire.Nest
open Umpire.Prog

/-- `release` as an operation of the strategy. -/
def Kind.rel : (k : Kind) → k.strat.Op
  | .quick _ _ => PoolOp.release
  | .dyn _ _ => PoolOp.release
  | .fixed _ => PoolOp.release
  | .mixed _ _ => PoolOp.release
  | .mono _ => PoolOp.release
  | .limiter _ => PoolOp.release
  | .aligned _ => PoolOp.release
  | .slots _ => PoolOp.release
  | .forward _ => PoolOp.release

/-- `Allocator::release` of the allocator at a place. -/
def Arr.rel : (a : Arr) → a.Spot → a.sys.Cmd
  | .none, c => nomatch c
  | .node k _ kids, c =>
    match (c : Option kids.Spot) with
    | Option.none => NodeCmd.op k.rel
    | .some c => NodeCmd.down (kids.rel c)
  | .par a b, c =>
    match (c : a.Spot ⊕ b.Spot) with
    | .inl c => (.inl (a.rel c) : a.sys.Cmd ⊕ b.sys.Cmd)
    | .inr c => (.inr (b.rel c) : a.sys.Cmd ⊕ b.sys.Cmd)

/-- The strategy at a place. -/
def Arr.stratAt : (a : Arr) → a.Spot → Kind
  | .none, c => nomatch c
  | .node k _ kids, c =>
    match (c : Option kids.Spot) with
    | Option.none => k
    | .some c => kids.stratAt c
  | .par a b, c =>
    match (c : a.Spot ⊕ b.Spot) with
    | .inl c => a.stratAt c
    | .inr c => b.stratAt c

/-- After `release` it keeps no memory beyond what it needs. -/
def Kind.Frees : Kind → Prop
  | .mixed _ _ => False
  | .mono _ => False
  | .slots _ => False
  | .forward k => Sure k
  | _ => True

/-- Every block of `O` contains an entry of `U`. -/
def Tight (O U : Held) : Prop := ∀ o ∈ O, ∃ u ∈ U, Within u.1 u.2 o.1 o.2

theorem tight_of {O U : Held} (hg : Client.Good ⟨O, U⟩) (hd : O.Disjoint)
    (h : ∀ o ∈ O, ∃ u ∈ U, ¬ Disj u.1 u.2 o.1 o.2) : Tight O U := by
  intro o ho
  obtain ⟨u, hu, hn⟩ := h o ho
  obtain ⟨o', ho', hw⟩ := hg.cov u hu
  refine ⟨u, hu, ?_⟩
  have h0 := hg.upos u hu
  by_cases e : o = o'
  · rw [e]; exact hw
  · rcases pairwise_mem hd (fun _ _ h => h.symm) ho ho' e with h1 | h1
    · exfalso; apply hn; unfold Disj Within at *; omega
    · exfalso; apply hn; unfold Disj Within at *; omega

/-- What `release` achieves. -/
def Kind.Gives (k : Kind) (B : Nat) (Inv : k.strat.σ → Held → Held → Prop) : Prop :=
  ∀ s O U, Inv s O U → k.Frees → O.Disjoint →
    (k.strat.op k.rel s).wpa (Upto B) (KeepUB U) O fun s' O' => Inv s' O' U ∧ Tight O' U

theorem Kind.okRel (k : Kind) {cap B : Nat} (h : k.Fits cap B) :
    ∃ Inv, k.strat.Ok (Upto cap) (Upto B) k.Solid Inv ∧ k.Gives B Inv := by
  cases k with
  | quick cfg fuel =>
    refine ⟨_, quick_ok h, fun s O U hi _ hd => ?_⟩
    refine wpa_mono (wpa_of (keep_keepUB (QuickPool.release_wp hi)) quick_release_asks) ?_
    rintro s' O' ⟨h1, h2, h3, h4⟩
    have hO := QuickPool.released_held (QuickFits.ok h).al h1 h2 h3 h4
    exact ⟨h1, tight_of ((quick_ok (fuel := fuel) h).good h1) (hd.sublist h3) fun o ho => ((hO o).1 ho).2⟩
  | dyn cfg heur =>
    refine ⟨_, dyn_ok h, fun s O U hi _ hd => ?_⟩
    refine wpa_mono (wpa_of (keep_keepUB (DynPool.freeReleased_wp hi)) dyn_release_asks) ?_
    rintro s' O' h1
    have hO := DynPool.freed_held (DynFits.ok h).al h1
    exact ⟨h1.1, tight_of ((dyn_ok h).good h1.1) (hd.sublist h1.2.2.1) fun o ho => ((hO o).1 ho).2⟩
  | fixed cfg =>
    refine ⟨_, fixed_ok h, fun s O U hi _ hd => ?_⟩
    refine wpa_of (wp_mono (wp_weaken (FixedPool.release_wp hi.inv hi.cfg) (fun _ h => h.elim) ?_) ?_) fixed_release_asks
    · rintro q m ⟨h1, h2⟩
      refine ⟨h1, fun l hl => ?_⟩
      have h3 := h2 _ (List.mem_map.2 ⟨l, hl, rfl⟩)
      have h4 := (hi.size l hl).2
      unfold Disj at *
      simp only at h3 h4
      omega
    · rintro s' O' ⟨h1, -, -, h2, h3, -⟩
      have hi' : MixedPool.FixOk (cfg, s') ⟨O', U⟩ := ⟨hi.cfg, h1, hi.size⟩
      refine ⟨hi', tight_of hi'.good (hd.sublist h3) fun o ho => ?_⟩
      obtain ⟨p, hp, rfl⟩ := List.mem_map.1 (h1.held.mem_iff.1 ho)
      obtain ⟨i, hiu⟩ := List.exists_mem_of_ne_nil _ (h2 p hp)
      have hlt : i < cfg.per := by
        unfold FixedPool.used at hiu
        exact List.mem_range.1 (List.mem_filter.1 hiu).1
      have hm : (p.data + cfg.obj * i, cfg.obj) ∈ U.map fun u => (u.1, cfg.obj) := by
        refine h1.live.mem_iff.2 (List.mem_flatMap.2 ⟨p, hp, ?_⟩)
        exact List.mem_map.2 ⟨i, hiu, rfl⟩
      obtain ⟨u, hu, he⟩ := List.mem_map.1 hm
      refine ⟨u, hu, fun hdj => ?_⟩
      have he1 : u.1 = p.data + cfg.obj * i := congrArg Prod.fst he
      have hu0 := (hi.size u hu).1
      have hdata : cfg.data = cfg.obj * cfg.per := FixedPool.CfgOk.data hi.cfg
      have hmul : cfg.obj * (i + 1) ≤ cfg.obj * cfg.per := Nat.mul_le_mul_left _ hlt
      rw [Nat.mul_add, Nat.mul_one] at hmul
      have hobj : 0 < cfg.obj := FixedPool.CfgOk.obj hi.cfg
      unfold Disj FixedPool.rng at hdj
      simp only at hdj hu0
      omega
  | mixed cfg fuel => exact ⟨_, mixed_ok h, fun s O U hi hf => hf.elim⟩
  | mono c => exact ⟨_, mono_ok h.1 h.2, fun s O U hi hf => hf.elim⟩
  | limiter l =>
    refine ⟨_, limiter_ok h, fun s O U hi _ _ => ⟨hi, fun o ho => ⟨o, ?_, Nat.le_refl _, Nat.le_refl _⟩⟩⟩
    rw [← hi.2]; exact ho
  | aligned a =>
    refine ⟨_, aligned_ok h.1 h.2, fun s O U hi _ hd => ⟨hi, ?_⟩⟩
    obtain ⟨ha, ⟨L, hl⟩, hp⟩ := hi
    intro o ho
    rw [hl.held] at ho
    obtain ⟨b, hb, rfl⟩ := List.mem_map.1 ho
    refine ⟨_, by rw [hl.live]; exact List.mem_map.2 ⟨b, hb, rfl⟩, ?_⟩
    have := Aligned.place ha (hl.top b hb)
    unfold Within
    simp only
    omega
  | slots k => exact ⟨_, slots_ok h, fun s O U hi hf => hf.elim⟩
  | forward k =>
    refine ⟨_, forward_ok h, fun s O U hi hk _ => ⟨hi, fun o ho => ⟨o, ?_, Nat.le_refl _, Nat.le_refl _⟩⟩⟩
    rw [← hi.2 hk]; exact ho

/-- Every strategy in the arrangement gives back what it does not need. -/
def Arr.Frees : Arr → Prop
  | .none => True
  | .node k _ kids => k.Frees ∧ kids.Frees
  | .par a b => a.Frees ∧ b.Frees

/-- What holds while the allocators are released, with `J D t O`: those in `D` have
been. -/
structure Arr.RelOk (a : Arr) (B : Nat) (I : a.sys.σ → Held → Prop) (J : (a.Spot → Prop) → a.sys.σ → Held → Prop) : Prop where
  ok : a.sys.Ok (Upto B) I
  start : ∀ {t O}, I t O → J (fun _ => False) t O
  inv : ∀ {D t O}, J D t O → I t O
  congr : ∀ {D D' t O}, J D t O → (∀ c, D' c → D c) → J D' t O
  done : ∀ {D t O}, J D t O → (∀ c, a.alive c t = true → D c) → Tight O (a.sys.live t)
  rel : ∀ {D t O c}, J D t O → a.sys.can (a.rel c) t → (∀ d, D d → ¬ a.under c d) → O.Disjoint → Real O →
    (a.sys.run (a.rel c) t).wpa (Upto B) (KeepUB (a.sys.live t)) O fun r O' => J (fun d => D d ∨ d = c) r.2 O'

/-- The invariant of a node. -/
def RelInv {σ τ S : Type} (Inv : σ → Held → Held → Prop) (I : τ → Held → Prop) (J : (S → Prop) → τ → Held → Prop)
    (D : Option S → Prop) (t : NodeSt σ τ) (O : Held) : Prop :=
  match t.own with
  | none => O = [] ∧ t.user = [] ∧ I t.kids []
  | some s => ∃ U Ot, U.Perm (t.user ++ Ot) ∧ Inv s O U ∧ J (fun c => D (some c)) t.kids Ot ∧ (D none → Tight O U)

theorem Arr.okRel (a : Arr) {B : Nat} (h : a.Fits B) (hf : a.Frees) : ∃ I J, a.RelOk B I J := by
  induction a generalizing B with
  | none =>
    refine ⟨_, fun _ _ O => O = [], Sys.empty_ok _, fun h => h, fun h => h, fun h _ => h, ?_, fun {D t O c} => nomatch c⟩
    intro D t O h _ o ho
    rw [h] at ho
    cases ho
  | node k cap kids ih =>
    obtain ⟨h1, h2, h3⟩ := h
    obtain ⟨Inv, hk, hrel⟩ := k.okRel h1
    obtain ⟨I, J, hI⟩ := ih h2 hf.2
    have hok := Sys.node_ok hk hI.ok (h3.imp id fun he c t => by subst he; exact id)
    refine ⟨_, RelInv (S := kids.Spot) Inv I J, hok, ?_, ?_, ?_, ?_, ?_⟩
    · rintro ⟨own, user, ks⟩ O hi
      cases own with
      | none => exact hi
      | some s =>
        obtain ⟨U, Ot, h4, h5, h6⟩ := hi
        exact ⟨U, Ot, h4, h5, hI.start h6, False.elim⟩
    · rintro D ⟨own, user, ks⟩ O hj
      cases own with
      | none => exact hj
      | some s =>
        obtain ⟨U, Ot, h4, h5, h6, -⟩ := hj
        exact ⟨U, Ot, h4, h5, hI.inv h6⟩
    · rintro D D' ⟨own, user, ks⟩ O hj hs
      cases own with
      | none => exact hj
      | some s =>
        obtain ⟨U, Ot, h4, h5, h6, h7⟩ := hj
        exact ⟨U, Ot, h4, h5, hI.congr h6 fun c hc => hs (some c) hc, fun hn => h7 (hs Option.none hn)⟩
    · rintro D ⟨own, user, ks⟩ O hj ha o ho
      cases own with
      | none => rw [hj.1] at ho; cases ho
      | some s =>
        obtain ⟨U, Ot, h4, h5, h6, h7⟩ := hj
        obtain ⟨u, hu, hw⟩ := h7 (ha Option.none rfl) o ho
        rcases List.mem_append.1 (h4.mem_iff.1 hu) with hu | hu
        · exact ⟨u, List.mem_append_left _ hu, hw⟩
        · obtain ⟨l, hl, hw'⟩ := hI.done h6 (fun c hc => ha (some c) hc) u hu
          exact ⟨l, List.mem_append_right _ hl, by unfold Within at *; omega⟩
    · rintro D ⟨own, user, ks⟩ O c hj hc hD hd hR
      cases own with
      | none =>
        cases c with
        | none => exact absurd hc (by simp [Arr.rel, Arr.sys, Sys.node])
        | some c => exact absurd hc.1 (by simp)
      | some s =>
        obtain ⟨U, Ot, h4, h5, h6, h7⟩ := hj
        simp only at h4 h6
        have hgu := hk.good h5
        have hgt := hI.ok.good (hI.inv h6)
        cases c with
        | none =>
          have hsub : ∀ l ∈ user ++ kids.sys.live ks, ∃ u ∈ U, Within l.1 l.2 u.1 u.2 := by
            intro l hl
            rcases List.mem_append.1 hl with hl | hl
            · exact ⟨l, h4.mem_iff.2 (List.mem_append_left _ hl), Nat.le_refl _, Nat.le_refl _⟩
            · obtain ⟨o, ho, hw⟩ := hgt.cov l hl
              exact ⟨o, h4.mem_iff.2 (List.mem_append_right _ ho), hw⟩
          refine wpa_bind (wpa_mono (wpa_weaken (hrel s O U h5 hf.1 hd) (fun _ h => h) (fun _ h => h)
            fun q m h => keepUB_sub hsub h) ?_)
          rintro s' O' ⟨h8, h9⟩
          refine ⟨U, Ot, h4, h8, hI.congr h6 fun c hc => ?_, fun _ => h9⟩
          rcases hc with hc | hc
          · exact hc
          · cases hc
        | some c =>
          rcases h3 with hnn | hno
          · have hS' : k.strat.Ok (Upto cap) (Upto B) True Inv :=
              { hk with alloc := fun h1 h2 => wpa_mono (hk.alloc h1 h2) fun _ _ h => ⟨h.1, fun e _ => h.2 e hnn⟩ }
            have hdu : (user ++ Ot).Disjoint := perm_disjoint h4 hgu.disj
            have hdt : Ot.Disjoint := (List.pairwise_append.1 hdu).2.1
            have hcu : Cov U O := Client.Good.cover hgu
            have hrt : Real Ot := by
              intro o ho
              obtain ⟨-, x, hx, hw⟩ := hcu o (h4.mem_iff.2 (List.mem_append_right _ ho))
              have := hR x hx
              unfold Within at hw
              omega
            have hrun := hI.rel (c := c) h6 hc.2 (fun d hd hu => hD (some d) hd hu) hdt hrt
            refine wpa_bind (wpa_mono (through_wpa hS' hrun h5 h4 (Client.Good.cover hgt) hd hR) ?_)
            rintro ⟨⟨x, ks'⟩, s'⟩ O' ⟨U', Ot', h8, h9, h10⟩
            refine ⟨U', Ot', h8, h9, hI.congr h10 fun d hd => ?_, fun hn => ?_⟩
            · rcases hd with hd | hd
              · exact .inl hd
              · injection hd with hd
                exact .inr hd
            · rcases hn with hn | hn
              · exact absurd trivial (hD Option.none hn)
              · cases hn
          · subst hno
            exact nomatch c
  | par a b iha ihb =>
    obtain ⟨I, J, hA⟩ := iha h.1 hf.1
    obtain ⟨I', J', hB⟩ := ihb h.2 hf.2
    refine ⟨_, fun D t O => O.Disjoint ∧ ∃ O1 O2, O.Perm (O1 ++ O2) ∧ J (fun c => D (.inl c)) t.1 O1 ∧ J' (fun c => D (.inr c)) t.2 O2,
      Sys.par_ok hA.ok hB.ok, ?_, ?_, ?_, ?_, ?_⟩
    · rintro t O ⟨hd, O1, O2, h1, h2, h3⟩
      exact ⟨hd, O1, O2, h1, hA.start h2, hB.start h3⟩
    · rintro D t O ⟨hd, O1, O2, h1, h2, h3⟩
      exact ⟨hd, O1, O2, h1, hA.inv h2, hB.inv h3⟩
    · rintro D D' t O ⟨hd, O1, O2, h1, h2, h3⟩ hs
      exact ⟨hd, O1, O2, h1, hA.congr h2 fun c hc => hs (.inl c) hc, hB.congr h3 fun c hc => hs (.inr c) hc⟩
    · rintro D ⟨x, y⟩ O ⟨hd, O1, O2, h1, h2, h3⟩ ha o ho
      rcases List.mem_append.1 (h1.mem_iff.1 ho) with ho | ho
      · obtain ⟨l, hl, hw⟩ := hA.done h2 (fun c hc => ha (.inl c) hc) o ho
        exact ⟨l, List.mem_append_left _ hl, hw⟩
      · obtain ⟨l, hl, hw⟩ := hB.done h3 (fun c hc => ha (.inr c) hc) o ho
        exact ⟨l, List.mem_append_right _ hl, hw⟩
    · rintro D ⟨x, y⟩ O c ⟨hd, O1, O2, h1, h2, h3⟩ hc hD - hR
      have hd' := List.pairwise_append.1 (perm_disjoint h1 hd)
      have hR' : Real (O1 ++ O2) := fun o ho => hR o (h1.mem_iff.2 ho)
      have hgA := hA.ok.good (hA.inv h2)
      have hgB := hB.ok.good (hB.inv h3)
      cases c with
      | inl c =>
        have hrun := hA.rel (c := c) h2 hc (fun d hd hu => hD (.inl d) hd hu) hd'.1 fun o ho => hR' o (List.mem_append_left _ ho)
        have := wpa_next hrun h1 hd hgB.pos (Client.Good.cover hgB)
        refine wpa_bind (wpa_mono (wpa_real this hd hR) ?_)
        rintro ⟨x', t'⟩ O' ⟨⟨O1', h4, h5⟩, h7, -⟩
        refine ⟨h7, O1', O2, h4, hA.congr h5 fun d hd => ?_, hB.congr h3 fun d hd => ?_⟩
        · rcases hd with hd | hd
          · exact .inl hd
          · injection hd with hd
            exact .inr hd
        · rcases hd with hd | hd
          · exact hd
          · cases hd
      | inr c =>
        have hrun := hB.rel (c := c) h3 hc (fun d hd hu => hD (.inr d) hd hu) hd'.2.1 fun o ho => hR' o (List.mem_append_right _ ho)
        have := wpa_next hrun (h1.trans List.perm_append_comm) hd hgA.pos (Client.Good.cover hgA)
        refine wpa_bind (wpa_mono (wpa_real (wpa_weaken this (fun _ h => h) (fun _ h => h) fun _ _ h => keepUB_comm h) hd hR) ?_)
        rintro ⟨x', t'⟩ O' ⟨⟨O2', h4, h5⟩, h7, -⟩
        refine ⟨h7, O1, O2', h4.trans List.perm_append_comm, hA.congr h2 fun d hd => ?_, hB.congr h5 fun d hd => ?_⟩
        · rcases hd with hd | hd
          · exact hd
          · cases hd
        · rcases hd with hd | hd
          · exact .inl hd
          · injection hd with hd
            exact .inr hd

/-- `release` constructs nothing and is no request for memory. -/
theorem Arr.rel_plain (a : Arr) (c : a.Spot) : a.makes (a.rel c) = Option.none ∧ a.req (a.rel c) = .other := by
  induction a with
  | none => cases c
  | node k cap kids ih =>
    cases c with
    | none => exact ⟨rfl, rfl⟩
    | some c => exact ⟨by show (kids.makes (kids.rel c)).map _ = Option.none; rw [(ih c).1]; rfl, (ih c).2⟩
  | par a b iha ihb =>
    cases c with
    | inl c => exact ⟨by show (a.makes (a.rel c)).map _ = Option.none; rw [(iha c).1]; rfl, (iha c).2⟩
    | inr c => exact ⟨by show (b.makes (b.rel c)).map _ = Option.none; rw [(ihb c).1]; rfl, (ihb c).2⟩

/-- It can be called iff the allocator, and what it is built on, exists. -/
theorem Arr.can_rel (a : Arr) {c : a.Spot} {t : a.sys.σ} (ht : a.closed t) : a.sys.can (a.rel c) t ↔ a.alive c t = true := by
  induction a with
  | none => cases c
  | node k cap kids ih =>
    obtain ⟨own, user, ks⟩ := t
    cases c with
    | none => exact Iff.rfl
    | some c =>
      have h := ih (c := c) (Arr.closed_node.1 ht).2
      exact ⟨fun hc => h.1 hc.2, fun hc => ⟨ht (some c) Option.none trivial hc, h.2 hc⟩⟩
  | par a b iha ihb =>
    obtain ⟨x, y⟩ := t
    cases c with
    | inl c => exact iha (Arr.closed_par.1 ht).1
    | inr c => exact ihb (Arr.closed_par.1 ht).2

/-! ## All resources -/

/-- `release` is called on the allocators of the list, front to back. -/
inductive Sweep (arr : Nat → Arr) :
    Strategies arr → (∀ r, (arr r).sys.σ) → (Nat → Held) → (∀ r, (arr r).sys.σ) → (Nat → Held) → Prop where
  | nil {f H} : Sweep arr [] f H f H
  | snoc {M f H f' H' r c x t H''} : Sweep arr M f H f' H' → (arr r).sys.can ((arr r).rel c) (f' r) →
      SRun r ((arr r).sys.run ((arr r).rel c) (f' r)) H' (x, t) H'' →
      Sweep arr (M ++ [⟨r, c⟩]) f H (upd (T := fun r => (arr r).sys) f' r t) H''

/-- The calls are calls like any other. -/
theorem Sweep.exec {arr : Nat → Arr} {f f' : ∀ r, (arr r).sys.σ} {H H' L : Nat → Held} {M M₀ : Strategies arr}
    (hs : Sweep arr M f H f' H') (h : ExecC arr f H L M₀) : ExecC arr f' H' L M₀ := by
  induction hs with
  | nil => exact h
  | @snoc M f H f' H' r c x t H'' _ hc hr ih =>
    have h1 := ExecC.step (ih h) hc hr
    have h2 : put L r (((arr r).req ((arr r).rel c)).after x (L r)) = L := by
      rw [((arr r).rel_plain c).2]
      funext k
      by_cases e : k = r
      · subst e; exact put_same
      · exact put_ne e
    have h3 : logMade arr r ((arr r).rel c) t M₀ = M₀ := by
      unfold logMade
      rw [((arr r).rel_plain c).1]
    rw [h2, h3] at h1
    exact h1

theorem srun_others {α : Type} {r k : Nat} {p : Prog α} {H H' : Nat → Held} {a : α} (h : SRun r p H a H') (hk : k ≠ r) :
    H' k = H k := by
  induction h with
  | ret => rfl
  | allocOk _ _ ih => rw [ih, put_ne hk]
  | allocFail _ ih => exact ih
  | dealloc _ ih => rw [ih, put_ne hk]

section
variable {arr : Nat → Arr} {B : Nat → Nat} {I : ∀ r, (arr r).sys.σ → Held → Prop}
  {J : ∀ r, ((arr r).Spot → Prop) → (arr r).sys.σ → Held → Prop}

theorem Sweep.inv {P : Nat → Prop} (hE : ∀ r, P r → (arr r).RelOk (B r) (I r) (J r)) {f f' : ∀ r, (arr r).sys.σ} {H H' : Nat → Held}
    {M : Strategies arr} (hs : Sweep arr M f H f' H') (hM : M.Pairwise NotUnder) (hi : ∀ r, P r → I r (f r) (H r))
    (hw : ∀ {M' f' H'}, Sweep arr M' f H f' H' → World H') :
    ∀ r, P r → J r (fun c => (⟨r, c⟩ : Σ r, (arr r).Spot) ∈ M) (f' r) (H' r) := by
  induction hs with
  | nil => exact fun r hr => (hE r hr).congr ((hE r hr).start (hi r hr)) (by intro c hc; cases hc)
  | @snoc M f H f' H' r c x t H'' hs hc hr ih =>
    have h0 := List.pairwise_append.1 hM
    have ih := ih h0.1 hi hw
    intro k hk
    by_cases e : k = r
    · subst e
      rw [upd_same (T := fun r => (arr r).sys)]
      have h1 := (hE k hk).rel (c := c) (ih k hk) hc (fun d hd hu => h0.2.2 _ hd ⟨k, c⟩ (by simp) rfl hu) ((hw hs).disj k) ((hw hs).real k)
      have h2 := swp_run (swp_of_wpa rfl h1 (hw hs)) hr
      refine (hE k hk).congr h2.1 fun d hd => ?_
      rcases List.mem_append.1 hd with hd | hd
      · exact .inl hd
      · rw [List.mem_singleton] at hd
        cases hd
        exact .inr rfl
    · rw [upd_ne (T := fun r => (arr r).sys) e, srun_others hr e]
      refine (hE k hk).congr (ih k hk) fun d hd => ?_
      rcases List.mem_append.1 hd with hd | hd
      · exact hd
      · rw [List.mem_singleton] at hd
        injection hd with hd
        exact absurd hd e
end

end Umpire.Nest
