import Verif.Nest.Kinds2
/-!
# Arrangements of strategies

Every strategy has exactly one parent, given when it is constructed
(src/umpire/ResourceManager.inl:52-104, the constructors in
src/umpire/strategy/*.cpp), so what is built on one resource is a forest.
-/
set_option autoImplicit false
set_option linter.unusedSimpArgs false
namespace Umpire.Nest
open Umpire.Prog

/-- The strategies of the library with their parameters. -/
inductive Kind where
  | quick (cfg : QuickPool.Cfg) (fuel : Nat)
  | dyn (cfg : DynPool.Cfg) (heur : DynPool.State → Nat)
  | fixed (cfg : FixedPool.Cfg)
  | mixed (cfg : MixedPool.Cfg) (fuel : Nat)
  | mono (capacity : Nat)
  | limiter (limit : Nat)
  | aligned (a : Nat)
  | slots (k : Nat)
  | forward (k : Forward.Kind)

/-- Its model. -/
def Kind.strat : Kind → Strat
  | .quick cfg fuel => quickS cfg fuel
  | .dyn cfg heur => dynS cfg heur
  | .fixed cfg => fixedS cfg
  | .mixed cfg fuel => mixedS cfg fuel
  | .mono c => monoS c
  | .limiter l => limiterS l
  | .aligned a => alignedS a
  | .slots k => slotsS k
  | .forward k => forwardS k

/-- It never answers a request with null. -/
def Kind.Solid : Kind → Prop
  | .slots _ => False
  | _ => True

/-- If it is asked for at most `cap` bytes at a time, its arithmetic does not
overflow, its objects are large enough, and it asks its parent for at most `B` bytes
at a time. -/
def Kind.Fits (k : Kind) (cap B : Nat) : Prop :=
  match k with
  | .quick cfg _ => QuickFits cfg cap B
  | .dyn cfg heur => DynFits cfg heur cap B
  | .fixed cfg => FixedFits cfg cap B
  | .mixed cfg _ => MixedFits cfg cap B
  | .mono c => 0 < c ∧ c ≤ B
  | .limiter _ => cap ≤ B
  | .aligned a => cap + 8 + a ≤ B ∧ B ≤ W
  | .slots _ => cap ≤ B
  | .forward _ => cap ≤ B

theorem Kind.ok (k : Kind) {cap B : Nat} (h : k.Fits cap B) : ∃ Inv, k.strat.Ok (Upto cap) (Upto B) k.Solid Inv := by
  cases k with
  | quick cfg fuel => exact ⟨_, quick_ok h⟩
  | dyn cfg heur => exact ⟨_, dyn_ok h⟩
  | fixed cfg => exact ⟨_, fixed_ok h⟩
  | mixed cfg fuel => exact ⟨_, mixed_ok h⟩
  | mono c => exact ⟨_, mono_ok h.1 h.2⟩
  | limiter l => exact ⟨_, limiter_ok h⟩
  | aligned a => exact ⟨_, aligned_ok h.1 h.2⟩
  | slots k => exact ⟨_, slots_ok h⟩
  | forward k => exact ⟨_, forward_ok h⟩

/-- A forest of strategies.  `node k cap kids`: a strategy whose users (the strategies
in `kids` among them) ask for at most `cap` bytes at a time. -/
inductive Arr where
  | none
  | node (k : Kind) (cap : Nat) (kids : Arr)
  | par (a b : Arr)

/-- Its model. -/
def Arr.sys : Arr → Sys
  | .none => Sys.empty
  | .node k cap kids => Sys.node k.strat (Upto cap) kids.sys
  | .par a b => Sys.par a.sys b.sys

/-- Sizes fit together all the way down, where the bottom may be asked for at most
`B` bytes; nothing is built on a strategy that may answer null. -/
def Arr.Fits : Arr → Nat → Prop
  | .none, _ => True
  | .node k cap kids, B => k.Fits cap B ∧ kids.Fits cap ∧ (k.Solid ∨ kids = .none)
  | .par a b, B => a.Fits B ∧ b.Fits B

theorem Arr.ok (a : Arr) {B : Nat} (h : a.Fits B) : ∃ I, a.sys.Ok (Upto B) I := by
  induction a generalizing B with
  | none => exact ⟨_, Sys.empty_ok _⟩
  | node k cap kids ih =>
    obtain ⟨h1, h2, h3⟩ := h
    obtain ⟨Inv, hk⟩ := k.ok h1
    obtain ⟨I, hI⟩ := ih h2
    refine ⟨_, Sys.node_ok hk hI (h3.imp id fun he c t => ?_)⟩
    subst he
    exact id
  | par a b iha ihb =>
    obtain ⟨I, hI⟩ := iha h.1
    obtain ⟨J, hJ⟩ := ihb h.2
    exact ⟨_, Sys.par_ok hI hJ⟩

/-! ## The whole system -/

/-- Update of one component. -/
def upd {T : Nat → Sys} (f : ∀ r, (T r).σ) (r : Nat) (x : (T r).σ) : ∀ k, (T k).σ :=
  fun k => if h : k = r then h ▸ x else f k

theorem upd_same {T : Nat → Sys} {f : ∀ r, (T r).σ} {r : Nat} {x : (T r).σ} : upd f r x r = x := by simp [upd]
theorem upd_ne {T : Nat → Sys} {f : ∀ r, (T r).σ} {r k : Nat} {x : (T r).σ} (h : k ≠ r) : upd f r x k = f k := by simp [upd, h]

/-- What can happen: starting with nothing constructed, users of any strategy on any
resource do something allowed, and it finishes. -/
inductive Reach (T : Nat → Sys) : (∀ r, (T r).σ) → (Nat → Held) → Prop where
  | init : Reach T (fun r => (T r).init) (fun _ => [])
  | step {f H r c x t H'} : Reach T f H → (T r).can c (f r) → SRun r ((T r).run c (f r)) H (x, t) H' → Reach T (upd f r t) H'

/-- The memory obtained from the resources. -/
structure World (H : Nat → Held) : Prop where
  disj : ∀ r, (H r).Disjoint
  real : ∀ r, Real (H r)
  cross : ∀ r k, r ≠ k → ∀ x ∈ H r, ∀ y ∈ H k, Disj x.1 x.2 y.1 y.2

theorem World.add {H : Nat → Held} (h : World H) {r p n : Nat} (hp : FreshAll p n H) : World (put H r ((p, n) :: H r)) where
  disj := by
    intro k
    by_cases hk : k = r
    · subst hk
      rw [put_same]
      exact List.pairwise_cons.2 ⟨hp.2.2 k, h.disj k⟩
    · rw [put_ne hk]; exact h.disj k
  real := by
    intro k
    by_cases hk : k = r
    · subst hk
      rw [put_same]
      intro o ho
      rcases List.mem_cons.1 ho with rfl | ho
      · exact ⟨hp.1, hp.2.1⟩
      · exact h.real k o ho
    · rw [put_ne hk]; exact h.real k
  cross := by
    intro i j hij x hx y hy
    by_cases hi : i = r
    · subst hi
      rw [put_same] at hx
      rw [put_ne (Ne.symm hij)] at hy
      rcases List.mem_cons.1 hx with rfl | hx
      · exact hp.2.2 j y hy
      · exact h.cross i j hij x hx y hy
    · rw [put_ne hi] at hx
      by_cases hj : j = r
      · subst hj
        rw [put_same] at hy
        rcases List.mem_cons.1 hy with rfl | hy
        · exact (hp.2.2 i x hx).symm
        · exact h.cross i j hij x hx y hy
      · rw [put_ne hj] at hy
        exact h.cross i j hij x hx y hy

theorem World.remove {H : Nat → Held} (h : World H) {r p : Nat} : World (put H r (Umpire.drop p (H r))) := by
  have hs : ∀ k, ∀ x ∈ put H r (Umpire.drop p (H r)) k, x ∈ H k := by
    intro k x hx
    by_cases hk : k = r
    · subst hk
      rw [put_same] at hx
      exact drop_sub x hx
    · rw [put_ne hk] at hx
      exact hx
  refine ⟨fun k => ?_, fun k o ho => h.real k o (hs k o ho), fun i j hij x hx y hy => h.cross i j hij x (hs i x hx) y (hs j y hy)⟩
  by_cases hk : k = r
  · subst hk
    rw [put_same]
    exact (h.disj k).drop p
  · rw [put_ne hk]; exact h.disj k

/-- A program that works on its own works while others use other resources, and
leaves what others hold alone. -/
theorem swp_of_wpa {α : Type} {P : Nat → Prop} {K : Held} {r : Nat} {p : Prog α} {H : Nat → Held} {Q : α → Held → Prop}
    {O : Held} (hO : H r = O) (h : p.wpa P (KeepUB K) O Q) (hw : World H) :
    p.swp r ⟨fun b => b ≠ .ub, fun q m => (KeepUB K).free q m ∧ ∀ k, k ≠ r → ∀ y ∈ H k, Disj y.1 y.2 q m⟩ H
      fun a H' => Q a (H' r) ∧ World H' ∧ ∀ k, k ≠ r → H' k = H k := by
  suffices hs : ∀ (J : Nat → Held), (∀ k, k ≠ r → J k = H k) → J r = O → World J →
      p.swp r ⟨fun b => b ≠ .ub, fun q m => (KeepUB K).free q m ∧ ∀ k, k ≠ r → ∀ y ∈ H k, Disj y.1 y.2 q m⟩ J
        fun a H' => Q a (H' r) ∧ World H' ∧ ∀ k, k ≠ r → H' k = H k from hs H (fun _ _ => rfl) hO hw
  clear hO hw
  induction p generalizing O with
  | ret a => intro J h1 h2 h3; exact ⟨h2 ▸ h, h3, h1⟩
  | fail b => intro J _ _ _; exact h
  | alloc n k ih =>
    intro J h1 h2 h3
    refine ⟨fun q hq => ?_, ih _ h.2.2 J h1 h2 h3⟩
    have hf : Fresh q n O := ⟨hq.1, hq.2.1, fun x hx => hq.2.2 r x (h2 ▸ hx)⟩
    refine ih _ (h.2.1 q hf) _ (fun k hk => ?_) ?_ (h3.add hq)
    · rw [put_ne hk]; exact h1 k hk
    · rw [put_same, h2]
  | dealloc q m k ih =>
    intro J h1 h2 h3
    obtain ⟨⟨h4, h5⟩, h6⟩ := h
    refine ⟨⟨h2 ▸ h4, h5, fun k hk y hy => ?_⟩, ih h6 _ (fun k hk => ?_) ?_ h3.remove⟩
    · exact h3.cross k r hk y (by rw [h1 k hk]; exact hy) (q, m) (h2 ▸ h4)
    · rw [put_ne hk]; exact h1 k hk
    · rw [put_same, h2]

section
variable {T : Nat → Sys} {B : Nat → Nat} {I : ∀ r, (T r).σ → Held → Prop}

/-- In every reachable state each resource's part satisfies its invariant. -/
theorem Reach.inv (hT : ∀ r, (T r).Ok (Upto (B r)) (I r)) {f : ∀ r, (T r).σ} {H : Nat → Held} (h : Reach T f H) :
    (∀ r, I r (f r) (H r)) ∧ World H := by
  induction h with
  | init => exact ⟨fun r => (hT r).init, fun _ => List.Pairwise.nil, (fun _ _ h => by cases h), (fun _ _ _ _ h => by cases h)⟩
  | @step f H r c x t H' _ hc hr ih =>
    obtain ⟨h1, h2⟩ := ih
    have h3 := swp_run (swp_of_wpa rfl ((hT r).run (h1 r) hc (h2.disj r) (h2.real r)) h2) hr
    refine ⟨fun k => ?_, h3.2.1⟩
    by_cases hk : k = r
    · subst hk
      rw [upd_same]
      exact h3.1
    · rw [upd_ne hk, h3.2.2 k hk]
      exact h1 k

/-- Within one resource and across resources. -/
theorem Reach.live (hT : ∀ r, (T r).Ok (Upto (B r)) (I r)) {f : ∀ r, (T r).σ} {H : Nat → Held} (h : Reach T f H) :
    (∀ r, Client.Good ⟨H r, (T r).live (f r)⟩) ∧
    ∀ r k, r ≠ k → ∀ x ∈ (T r).live (f r), ∀ y ∈ (T k).live (f k), Disj x.1 x.2 y.1 y.2 := by
  obtain ⟨h1, h2⟩ := h.inv hT
  refine ⟨fun r => (hT r).good (h1 r), fun r k hrk x hx y hy => ?_⟩
  obtain ⟨o, ho, hw⟩ := ((hT r).good (h1 r)).cov x hx
  obtain ⟨o', ho', hw'⟩ := ((hT k).good (h1 k)).cov y hy
  exact Disj.of_within (h2.cross r k hrk o ho o' ho') hw hw'

/-- No undefined behaviour; memory handed back overlaps no allocation that stays live. -/
theorem Reach.next (hT : ∀ r, (T r).Ok (Upto (B r)) (I r)) {f : ∀ r, (T r).σ} {H : Nat → Held} (h : Reach T f H)
    {r : Nat} {c : (T r).Cmd} (hc : (T r).can c (f r)) :
    (¬ SGoes r ((T r).run c (f r)) H .ub) ∧
    ∀ q m, SFrees r ((T r).run c (f r)) H q m →
      (∀ l ∈ (T r).keep c (f r), Disj l.1 l.2 q m) ∧ ∀ k, k ≠ r → ∀ l ∈ (T k).live (f k), Disj l.1 l.2 q m := by
  obtain ⟨h1, h2⟩ := h.inv hT
  have h3 := swp_of_wpa rfl ((hT r).run (h1 r) hc (h2.disj r) (h2.real r)) h2
  refine ⟨fun hg => swp_safe h3 hg rfl, fun q m hf => ?_⟩
  have h4 := swp_frees h3 hf
  refine ⟨h4.1.2, fun k hk l hl => ?_⟩
  obtain ⟨o, ho, hw⟩ := ((hT k).good (h1 k)).cov l hl
  have := h4.2 k hk o ho
  unfold Disj Within at *
  omega
end

end Umpire.Nest
