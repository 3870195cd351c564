import Verif.Nest.Ledger
/-!
# Destroying strategies

The destructors of the strategies (src/umpire/strategy/*.cpp) and of
`ResourceManager` (src/umpire/ResourceManager.cpp:77-91), which destroys every
strategy, the newest first.

An exception from the parent's `deallocate` ends the modelled execution (`abort`);
in the code the pools ignore it while they are destroyed (QuickPool.cpp:223-234,
DynamicSizePool.hpp:233-245), from the other destructors it would end the program.
-/
set_option autoImplicit false
set_option linter.unusedSimpArgs false
namespace Umpire.Nest
open Umpire.Prog

/-- The destructors: QuickPool.cpp:36-41, DynamicSizePool.hpp:297-302,
FixedPool.cpp:56-93, the members of `MixedPool` (MixedPool.hpp:68-73),
MonotonicAllocationStrategy.cpp:26-29, SlotPool.cpp:34-46.  The others have none. -/
def Kind.destroy : (k : Kind) → k.strat.σ → Prog Unit
  | .quick _ _, s => (QuickPool.release s).bind fun _ => .ret ()
  | .dyn _ _, s => (DynPool.freeReleased s).bind fun _ => .ret ()
  | .fixed cfg, s => FixedPool.destroy cfg s
  | .mixed _ _, s => MixedPool.destroy s
  | .mono _, s => .dealloc (Monotonic.State.block s) (Monotonic.State.cap s) (.ret ())
  | .limiter _, _ => .ret ()
  | .aligned _, _ => .ret ()
  | .slots _, s => SlotPool.destroy s
  | .forward _, _ => .ret ()

/-- Its destructor also hands back memory that users have not returned. -/
def Kind.Strict : Kind → Prop
  | .mono _ => True
  | .slots _ => True
  | _ => False

/-- It never keeps memory that it could not give out.  (`AllocationAdvisor`,
`AllocationPrefetcher` and `NumaPolicy` do if their operation on a new allocation
throws.) -/
def Kind.Clean : Kind → Prop
  | .forward k => Sure k
  | _ => True

/-- Memory that stays live stays covered. -/
theorem wpa_cover {α : Type} {P : Nat → Prop} (hP : ∀ n, P n → 0 < n) {p : Prog α} {O U : Held} {Q : α → Held → Prop}
    (h : p.wpa P (KeepUB U) O Q) (hg : Client.Good ⟨O, U⟩) (hd : O.Disjoint) :
    p.wpa P (KeepUB U) O fun a O' => Q a O' ∧ Client.Good ⟨O', U⟩ := by
  induction p generalizing O with
  | ret a => exact ⟨h, hg⟩
  | fail b => exact h
  | alloc n k ih =>
    refine ⟨h.1, fun q hq => ih _ (h.2.1 q hq) ⟨?_, hg.upos, hg.disj, ?_⟩ (List.pairwise_cons.2 ⟨hq.2.2, hd⟩), ih _ h.2.2 hg hd⟩
    · intro o ho
      rcases List.mem_cons.1 ho with rfl | ho
      · exact hP _ h.1
      · exact hg.pos o ho
    · intro u hu
      obtain ⟨o, ho, hw⟩ := hg.cov u hu
      exact ⟨o, List.mem_cons_of_mem _ ho, hw⟩
  | dealloc q m k ih =>
    obtain ⟨⟨h1, h2, h3⟩, h4⟩ := h
    have hc := (Client.Good.cover hg).drop hd h1 h2 hg.pos h3
    exact ⟨⟨h1, h2, h3⟩, ih h4 ⟨fun o ho => hg.pos o (drop_sub o ho), hg.upos, hg.disj, fun u hu => (hc u hu).2⟩ (hd.drop q)⟩

/-- What holds of a program that allocates nothing. -/
theorem wp_pos {α : Type} {p : Prog α} {O : Held} {Q : α → Held → Prop} {E : Mode} (h : p.wp E O Q) (hb : ∀ b, E.bad b → b ≠ .ub)
    (ha : p.asks (fun n => 0 < n) O) (hp : ∀ o ∈ O, 0 < o.2) : p.wp (KeepUB []) O Q := by
  induction p generalizing O with
  | ret a => exact h
  | fail b => exact hb _ h
  | alloc n k ih =>
    refine ⟨fun q hq => ih _ (h.1 q hq) (ha.2.1 q hq) ?_, ih _ h.2 ha.2.2 hp⟩
    intro o ho
    rcases List.mem_cons.1 ho with rfl | ho
    · exact ha.1
    · exact hp o ho
  | dealloc q m k ih =>
    exact ⟨⟨h.1.1, hp _ h.1.1, by simp⟩, ih h.2 ha fun o ho => hp o (drop_sub o ho)⟩

theorem fixed_destroy_asks {cfg : FixedPool.Cfg} {P : Nat → Prop} {s : FixedPool.State} {O : Held} :
    (FixedPool.destroy cfg s).asks P O := by
  unfold FixedPool.destroy
  split
  · trivial
  · have : ∀ (ps : List FixedPool.Pool) (O : Held), (FixedPool.freeAll cfg ps).asks P O := by
      intro ps
      induction ps with
      | nil => intro O; trivial
      | cons p ps ih => intro O; exact ih _
    exact this _ _

theorem mixed_destroy_asks {P : Nat → Prop} {s : MixedPool.State} {O : Held} : (MixedPool.destroy s).asks P O := by
  unfold MixedPool.destroy
  refine asks_bind' quick_release_asks fun _ O => ?_
  generalize s.fixed = fs
  induction fs generalizing O with
  | nil => trivial
  | cons f fs ih => exact asks_bind' fixed_destroy_asks fun _ O => ih O

theorem slots_destroy_asks {P : Nat → Prop} {s : SlotPool.State} {O : Held} : (SlotPool.destroy s).asks P O := by
  induction s generalizing O with
  | nil => trivial
  | cons x s ih =>
    unfold SlotPool.destroy
    split
    · exact ih
    · exact ih

/-- What a destructor achieves: memory that users have not returned stays; if they
have returned everything, everything goes back to the parent. -/
def Kind.Ends (k : Kind) (B : Nat) (Inv : k.strat.σ → Held → Held → Prop) : Prop :=
  ∀ s O U, Inv s O U → (k.Strict → U = []) →
    (k.destroy s).wpa (Upto B) (KeepUB U) O fun _ O' => k.Clean → U = [] → O' = []

theorem Kind.okEnd (k : Kind) {cap B : Nat} (h : k.Fits cap B) :
    ∃ Inv, k.strat.Ok (Upto cap) (Upto B) k.Solid Inv ∧ k.Ends B Inv := by
  cases k with
  | quick cfg fuel =>
    refine ⟨_, quick_ok h, fun s O U hi _ => ?_⟩
    refine wpa_bind (wpa_mono (wpa_of (keep_keepUB (QuickPool.release_wp hi)) quick_release_asks) ?_)
    rintro s' O' ⟨h1, h2, h3, h4⟩ - rfl
    have hO := QuickPool.released_held (QuickFits.ok h).al h1 h2 h3 h4
    exact List.eq_nil_iff_forall_not_mem.2 fun o ho => by obtain ⟨_, l, hl, _⟩ := (hO o).1 ho; cases hl
  | dyn cfg heur =>
    refine ⟨_, dyn_ok h, fun s O U hi _ => ?_⟩
    refine wpa_bind (wpa_mono (wpa_of (keep_keepUB (DynPool.freeReleased_wp hi)) dyn_release_asks) ?_)
    rintro s' O' h1 - rfl
    have hO := DynPool.freed_held (DynFits.ok h).al h1
    exact List.eq_nil_iff_forall_not_mem.2 fun o ho => by obtain ⟨_, l, hl, _⟩ := (hO o).1 ho; cases hl
  | fixed cfg =>
    refine ⟨_, fixed_ok h, fun s O U hi _ => ?_⟩
    refine wpa_of (wp_mono (wp_weaken (FixedPool.destroy_wp hi.inv hi.cfg) (fun _ h => h.elim) ?_) ?_) fixed_destroy_asks
    · rintro q m ⟨h1, h2⟩
      refine ⟨h1, fun l hl => ?_⟩
      have h3 := h2 _ (List.mem_map.2 ⟨l, hl, rfl⟩)
      have h4 := (hi.size l hl).2
      unfold Disj at *
      simp only at h3 h4
      omega
    · rintro _ O' h1 - rfl
      exact h1
  | mixed cfg fuel =>
    refine ⟨_, mixed_ok h, fun s O U hi _ => ?_⟩
    exact wpa_of (wp_mono (keep_keepUB (MixedPool.destroy_wp hi.1 (MixedFits.ok h))) fun _ _ h _ => h) mixed_destroy_asks
  | mono c =>
    refine ⟨_, mono_ok h.1 h.2, fun s O U hi hs => ?_⟩
    have hU := hs trivial
    subst hU
    have h1 := hi.held
    have h2 := hi.capEq
    refine ⟨⟨?_, ?_, by simp⟩, fun _ _ => ?_⟩
    · rw [h1, h2]; simp
    · rw [h2]; exact hi.pos
    · rw [h1]; simp [Umpire.drop]
  | limiter l => exact ⟨_, limiter_ok h, fun s O U hi _ _ hU => hi.2.trans hU⟩
  | aligned a =>
    refine ⟨_, aligned_ok h.1 h.2, fun s O U hi _ _ hU => ?_⟩
    obtain ⟨-, ⟨L, hl⟩, -⟩ := hi
    have h1 := hl.live
    rw [hU] at h1
    have h2 : L = [] := by
      cases L with
      | nil => rfl
      | cons x L => simp at h1
    rw [hl.held, h2]
    rfl
  | slots k =>
    refine ⟨_, slots_ok h, fun s O U hi hs => ?_⟩
    have hU := hs trivial
    subst hU
    obtain ⟨lost, hi⟩ := hi
    have hw : (SlotPool.destroy s).wp NoBad O fun _ O' => O' = [] := by
      refine SlotPool.destroy_wp hi.held hi.keys ?_
      intro x hx hp
      refine ⟨?_, hi.bound x hx⟩
      obtain ⟨used, m, hs, hk, hu, -⟩ := hi.shape
      have h0 : x.len ≠ 0 := by
        rw [hs] at hx
        rcases List.mem_append.1 hx with hx | hx
        · exact (hu x hx).1
        · rw [List.eq_of_mem_replicate hx] at hp; exact absurd rfl hp
      have h2 := hi.live.symm.eq_nil
      apply Classical.byContradiction
      intro hneg
      have : (x.ptr, x.len.natAbs) ∈ SlotPool.live s := by
        refine List.mem_map.2 ?_
        exact ⟨x, List.mem_filter.2 ⟨hx, by simp only [decide_eq_true_eq]; exact ⟨hp, by omega⟩⟩, rfl⟩
      rw [h2] at this
      cases this
    exact wpa_of (wp_mono (wp_pos hw (fun _ h => h.elim) slots_destroy_asks hi.pos) fun _ _ h _ _ => h) slots_destroy_asks
  | forward k => exact ⟨_, forward_ok h, fun s O U hi _ hk hU => (hi.2 hk).trans hU⟩

/-! ## In an arrangement -/

/-- The places of an arrangement. -/
def Arr.Spot : Arr → Type
  | .none => Empty
  | .node _ _ kids => Option kids.Spot
  | .par a b => a.Spot ⊕ b.Spot

/-- The strategy at that place exists. -/
def Arr.alive : (a : Arr) → a.Spot → a.sys.σ → Bool
  | .none, c, _ => nomatch c
  | .node _ _ kids, c, t =>
    match (c : Option kids.Spot) with
    | Option.none => (NodeSt.own t).isSome
    | .some c => kids.alive c (NodeSt.kids t)
  | .par a b, c, t =>
    match (c : a.Spot ⊕ b.Spot) with
    | .inl c => a.alive c t.1
    | .inr c => b.alive c t.2

/-- Destroy the strategy at that place.  Destroying what does not exist, or
something whose parent does not exist any more, is undefined behaviour. -/
def Arr.kill : (a : Arr) → a.Spot → a.sys.σ → Prog a.sys.σ
  | .none, c, _ => nomatch c
  | .node k _ kids, c, t =>
    match (c : Option kids.Spot), NodeSt.own t with
    | Option.none, .some s => (k.destroy s).bind fun _ => .ret ({ t with own := Option.none } : NodeSt _ _)
    | .some c, .some s => (through k.strat (kids.kill c (NodeSt.kids t)) s).bind fun r =>
        .ret ({ t with own := .some r.2, kids := r.1 } : NodeSt _ _)
    | _, Option.none => .fail .ub
  | .par a b, c, t =>
    match (c : a.Spot ⊕ b.Spot) with
    | .inl c => (a.kill c t.1).bind fun r => .ret (r, t.2)
    | .inr c => (b.kill c t.2).bind fun r => .ret (t.1, r)

/-- Nothing exists. -/
def Arr.gone (a : Arr) (t : a.sys.σ) : Prop := ∀ c, a.alive c t = false

/-- No strategy whose destructor hands back memory in use. -/
def Arr.Lax : Arr → Prop
  | .none => True
  | .node k _ kids => ¬ k.Strict ∧ kids.Lax
  | .par a b => a.Lax ∧ b.Lax

def Arr.Clean : Arr → Prop
  | .none => True
  | .node k _ kids => k.Clean ∧ kids.Clean
  | .par a b => a.Clean ∧ b.Clean

/-- The strategy can be destroyed: it exists, so do the ones below, nothing is left
on top of it. -/
def Arr.ready : (a : Arr) → a.Spot → a.sys.σ → Prop
  | .none, c, _ => nomatch c
  | .node _ _ kids, c, t => (NodeSt.own t).isSome ∧
    match (c : Option kids.Spot) with
    | Option.none => kids.gone (NodeSt.kids t)
    | .some c => kids.ready c (NodeSt.kids t)
  | .par a b, c, t =>
    match (c : a.Spot ⊕ b.Spot) with
    | .inl c => a.ready c t.1
    | .inr c => b.ready c t.2

/-- What holds while strategies are destroyed, with `J t O`: in state `t`, `O` is held
from the parent. -/
structure Arr.EndOk (a : Arr) (B : Nat) (I J : a.sys.σ → Held → Prop) : Prop where
  ok : a.sys.Ok (Upto B) I
  start : ∀ {t O}, I t O → J t O
  good : ∀ {t O}, J t O → Client.Good ⟨O, a.sys.live t⟩
  done : ∀ {t O}, J t O → a.gone t → a.Clean → a.sys.live t = [] → O = []
  kill : ∀ {t O c}, J t O → a.ready c t → (a.Lax ∨ a.Clean ∧ a.sys.live t = []) → O.Disjoint → Real O →
    (a.kill c t).wpa (Upto B) (KeepUB (a.sys.live t)) O fun t' O' => J t' O' ∧ a.sys.live t' = a.sys.live t

/-- The invariant of a node: what it leaves behind covers what has not been returned. -/
def EndInv {σ τ : Type} (Inv : σ → Held → Held → Prop) (J : τ → Held → Prop) (live : τ → Held) (clean : Prop)
    (t : NodeSt σ τ) (O : Held) : Prop :=
  match t.own with
  | none => Client.Good ⟨O, t.user ++ live t.kids⟩ ∧ (clean → t.user ++ live t.kids = [] → O = [])
  | some s => ∃ U Ot, U.Perm (t.user ++ Ot) ∧ Inv s O U ∧ J t.kids Ot

theorem upto_pos {B n : Nat} (h : Upto B n) : 0 < n := h.1

theorem Arr.okEnd (a : Arr) {B : Nat} (h : a.Fits B) : ∃ I J, a.EndOk B I J := by
  induction a generalizing B with
  | none => 
    refine ⟨_, fun _ O => O = [], Sys.empty_ok _, fun h => h, ?_, fun h _ _ _ => h, fun {t O c} => nomatch c⟩
    intro t O h
    exact (Sys.empty_ok (Upto B)).good h
  | node k cap kids ih =>
    obtain ⟨h1, h2, h3⟩ := h
    obtain ⟨Inv, hk, hend⟩ := k.okEnd h1
    obtain ⟨I, J, hI⟩ := ih h2
    have hok := Sys.node_ok hk hI.ok (h3.imp id fun he c t => by subst he; exact id)
    have hgood : ∀ {t : (Arr.node k cap kids).sys.σ} {O : Held}, EndInv Inv J kids.sys.live (k.Clean ∧ kids.Clean) t O →
        Client.Good ⟨O, (Arr.node k cap kids).sys.live t⟩ := by
      rintro ⟨own, user, ks⟩ O hj
      cases own with
      | none => exact hj.1
      | some s =>
        obtain ⟨U, Ot, h4, h5, h6⟩ := hj
        exact node_good (hk.good h5) h4 (hI.good h6)
    refine ⟨_, EndInv Inv J kids.sys.live (k.Clean ∧ kids.Clean), hok, ?_, hgood, ?_, ?_⟩
    · rintro ⟨own, user, ks⟩ O hi
      cases own with
      | none => exact ⟨hok.good hi, fun _ _ => hi.1⟩
      | some s =>
        obtain ⟨U, Ot, h4, h5, h6⟩ := hi
        exact ⟨U, Ot, h4, h5, hI.start h6⟩
    · rintro ⟨own, user, ks⟩ O hj hg hc hl
      cases own with
      | none => exact hj.2 hc hl
      | some s =>
        have : (some s).isSome = false := hg Option.none
        cases this
    · rintro ⟨own, user, ks⟩ O c hj hr hx hd hR
      cases own with
      | none => exact absurd hr.1 (by simp)
      | some s =>
        have hg := hgood hj
        obtain ⟨U, Ot, h4, h5, h6⟩ := hj
        simp only at h4 h6
        have hgu := hk.good h5
        have hgt := hI.good h6
        cases c with
        | none =>
          have hgone : kids.gone ks := hr.2
          have hsub : ∀ l ∈ user ++ kids.sys.live ks, ∃ u ∈ U, Within l.1 l.2 u.1 u.2 := by
            intro l hl
            rcases List.mem_append.1 hl with hl | hl
            · exact ⟨l, h4.mem_iff.2 (List.mem_append_left _ hl), Nat.le_refl _, Nat.le_refl _⟩
            · obtain ⟨o, ho, hw⟩ := hgt.cov l hl
              exact ⟨o, h4.mem_iff.2 (List.mem_append_right _ ho), hw⟩
          have hempty : kids.Clean → user ++ kids.sys.live ks = [] → U = [] := by
            intro hc hl
            have hl := List.append_eq_nil_iff.1 hl
            have e := hI.done h6 hgone hc hl.2
            rw [hl.1, e] at h4
            exact h4.eq_nil
          have hU : k.Strict → U = [] := by
            intro hs
            rcases hx with hx | hx
            · exact absurd hs hx.1
            · exact hempty hx.1.2 hx.2
          refine wpa_bind (wpa_mono (wpa_weaken (wpa_cover (fun _ => upto_pos) (hend s O U h5 hU) hgu hd) (fun _ h => h)
            (fun _ h => h) fun q m h => keepUB_sub hsub h) ?_)
          rintro _ O' ⟨h7, h8⟩
          refine ⟨⟨?_, fun hc hl => h7 hc.1 (hempty hc.2 hl)⟩, rfl⟩
          refine ⟨h8.pos, hg.upos, hg.disj, fun l hl => ?_⟩
          obtain ⟨u, hu, hw⟩ := hsub l hl
          obtain ⟨o, ho, hw'⟩ := h8.cov u hu
          exact ⟨o, ho, by unfold Within at *; omega⟩
        | some c =>
          have hrk : kids.ready c ks := hr.2
          rcases h3 with hnn | hno
          · have hS' : k.strat.Ok (Upto cap) (Upto B) True Inv :=
              { hk with alloc := fun h1 h2 => wpa_mono (hk.alloc h1 h2) fun _ _ h => ⟨h.1, fun e _ => h.2 e hnn⟩ }
            have hdu : (user ++ Ot).Disjoint := perm_disjoint h4 hgu.disj
            have hdt : Ot.Disjoint := (List.pairwise_append.1 hdu).2.1
            have hcu : Cov U O := Client.Good.cover hgu
            have hrt : Real Ot := by
              intro o ho
              obtain ⟨-, x, hx, hw⟩ := hcu o (h4.mem_iff.2 (List.mem_append_right _ ho))
              have := hR x hx
              unfold Within at hw
              omega
            have hx' : kids.Lax ∨ kids.Clean ∧ kids.sys.live ks = [] :=
              hx.imp (fun h => h.2) fun h => ⟨h.1.2, (List.append_eq_nil_iff.1 h.2).2⟩
            refine wpa_bind (wpa_mono (through_wpa hS' (hI.kill h6 hrk hx' hdt hrt) h5 h4 (Client.Good.cover hgt) hd hR) ?_)
            rintro ⟨ks', s'⟩ O' ⟨U', Ot', h7, h8, h9, h10⟩
            exact ⟨⟨U', Ot', h7, h8, h9⟩, congrArg (user ++ ·) h10⟩
          · subst hno
            exact nomatch c
  | par a b iha ihb =>
    obtain ⟨I, J, hA⟩ := iha h.1
    obtain ⟨I', J', hB⟩ := ihb h.2
    refine ⟨_, fun t O => O.Disjoint ∧ ∃ O1 O2, O.Perm (O1 ++ O2) ∧ J t.1 O1 ∧ J' t.2 O2, Sys.par_ok hA.ok hB.ok, ?_, ?_, ?_, ?_⟩
    · rintro t O ⟨hd, O1, O2, h1, h2, h3⟩
      exact ⟨hd, O1, O2, h1, hA.start h2, hB.start h3⟩
    · rintro t O ⟨hd, O1, O2, h1, h2, h3⟩
      exact good_append (hA.good h2) (hB.good h3) h1 hd
    · rintro ⟨x, y⟩ O ⟨hd, O1, O2, h1, h2, h3⟩ hg hc hl
      have hl := List.append_eq_nil_iff.1 (show a.sys.live x ++ b.sys.live y = [] from hl)
      have e1 := hA.done h2 (fun c => hg (.inl c)) hc.1 hl.1
      have e2 := hB.done h3 (fun c => hg (.inr c)) hc.2 hl.2
      rw [e1, e2] at h1
      exact h1.eq_nil
    · rintro ⟨x, y⟩ O c ⟨hd, O1, O2, h1, h2, h3⟩ hr hx - hR
      have hd' := List.pairwise_append.1 (perm_disjoint h1 hd)
      have hR' : Real (O1 ++ O2) := fun o ho => hR o (h1.mem_iff.2 ho)
      cases c with
      | inl c =>
        have hx' : a.Lax ∨ a.Clean ∧ a.sys.live x = [] :=
          hx.imp (fun h => h.1) fun h => ⟨h.1.1, (List.append_eq_nil_iff.1 h.2).1⟩
        have hrun := hA.kill h2 hr hx' hd'.1 fun o ho => hR' o (List.mem_append_left _ ho)
        have := wpa_next hrun h1 hd (hB.good h3).pos (Client.Good.cover (hB.good h3))
        refine wpa_bind (wpa_mono (wpa_real this hd hR) ?_)
        rintro x' O' ⟨⟨O1', h4, h5, h6⟩, h7, -⟩
        exact ⟨⟨h7, O1', O2, h4, h5, h3⟩, congrArg (· ++ b.sys.live y) h6⟩
      | inr c =>
        have hx' : b.Lax ∨ b.Clean ∧ b.sys.live y = [] :=
          hx.imp (fun h => h.2) fun h => ⟨h.1.2, (List.append_eq_nil_iff.1 h.2).2⟩
        have hrun := hB.kill h3 hr hx' hd'.2.1 fun o ho => hR' o (List.mem_append_right _ ho)
        have := wpa_next hrun (h1.trans List.perm_append_comm) hd (hA.good h2).pos (Client.Good.cover (hA.good h2))
        refine wpa_bind (wpa_mono (wpa_real (wpa_weaken this (fun _ h => h) (fun _ h => h) fun _ _ h => keepUB_comm h) hd hR) ?_)
        rintro y' O' ⟨⟨O2', h4, h5, h6⟩, h7, -⟩
        exact ⟨⟨h7, O1, O2', h4.trans List.perm_append_comm, h2, h5⟩, congrArg (a.sys.live x ++ ·) h6⟩

end Umpire.Nest
