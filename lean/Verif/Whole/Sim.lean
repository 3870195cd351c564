import Verif.Whole.Model
/-!
# Every execution of the whole is one of the facade layer
-/
set_option autoImplicit false
set_option linter.unusedSimpArgs false
namespace Umpire.Whole
open Umpire.Prog Umpire.Nest Umpire.Mgr

variable {L : Lay}

abbrev Lay.sys (L : Lay) : Nat → Sys := fun r => (L.arr r).sys

theorem zeroFits : zeroArr.Fits (W - 1) :=
  ⟨⟨⟨by decide, by decide, by decide⟩, by decide, by decide⟩, trivial, .inl trivial⟩

/-- `pointerIsFromPool` in terms of the memory of the pool. -/
def ZeroSpec (L : Lay) : (r : Nat) → ((L.arr r).sys.σ → Held → Prop) → Prop
  | 0, I => ∀ (t : NodeSt FixedPool.State Unit) (O : Held), I t O → ∀ p,
      (match t.own with
      | some s => FixedPool.pointerIsFromPool zeroCfg s p
      | none => false) = true ↔ ∃ o ∈ O, o.1 ≤ p ∧ p < o.1 + o.2
  | _ + 1, _ => True

theorem Lay.Ok.inv (hL : L.Ok) (r : Nat) :
    ∃ I, (L.arr r).sys.Ok (Upto (W - 1)) I ∧ (L.arr r).NonNull (Upto (W - 1)) I ∧ ZeroSpec L r I := by
  cases r with
  | succ r =>
    obtain ⟨I, h1, h2⟩ := (L.forest r).ok' (hL.fits r)
    exact ⟨I, h1, h2, trivial⟩
  | zero =>
    have hF : FixedFits zeroCfg 1 (W - 1) := zeroFits.1
    have hN : Arr.none.NonNull (Upto 1) fun _ O => O = [] := fun {q} => (by cases q)
    refine ⟨_, Sys.node_ok (fixed_ok hF) (Sys.empty_ok _) (.inl trivial),
      Arr.node_nonnull (k := .fixed zeroCfg) (kids := .none) (fixed_ok hF) (Sys.empty_ok _) hN (.inl trivial), ?_⟩
    rintro ⟨own, user, kids⟩ O h p
    cases own with
    | none =>
      obtain ⟨h1, -, -⟩ := h
      subst h1
      simp
    | some s =>
      obtain ⟨U, Ot, -, h2, -⟩ := h
      have hi : FixedPool.Inv zeroCfg s O (U.map fun u => (u.1, zeroCfg.obj)) := h2.inv
      show FixedPool.pointerIsFromPool zeroCfg s p = true ↔ _
      unfold FixedPool.pointerIsFromPool
      rw [List.any_eq_true]
      constructor
      · rintro ⟨q, hq, hin⟩
        refine ⟨FixedPool.rng zeroCfg q, hi.held.mem_iff.2 (List.mem_map.2 ⟨q, hq, rfl⟩), ?_⟩
        unfold FixedPool.inPool at hin
        simp only [decide_eq_true_eq] at hin
        simp only [FixedPool.rng]
        omega
      · rintro ⟨o, ho, h1⟩
        obtain ⟨q, hq, rfl⟩ := List.mem_map.1 (hi.held.mem_iff.1 ho)
        refine ⟨q, hq, ?_⟩
        unfold FixedPool.inPool
        simp only [decide_eq_true_eq]
        simp only [FixedPool.rng] at h1
        omega

/-! ## Reachable states -/

/-- What holds in all reachable states. -/
structure Sane (S : St L) : Prop where
  disj : ∀ x, (S.user x).Disjoint
  cross : ∀ x y, x ≠ y → ∀ u ∈ S.user x, ∀ v ∈ S.user y, Disj u.1 u.2 v.1 v.2
  pos : ∀ x, ∀ u ∈ S.user x, 0 < u.2
  cov : ∀ x, ∀ u ∈ S.user x, ∃ o ∈ S.H x.1, Within u.1 u.2 o.1 o.2
  real : ∀ r, Real (S.H r)
  apart : ∀ r k, r ≠ k → ∀ x ∈ S.H r, ∀ y ∈ S.H k, Disj x.1 x.2 y.1 y.2
  zero : ∀ p, S.fromZero p = true ↔ ∃ o ∈ S.H 0, o.1 ≤ p ∧ p < o.1 + o.2
  safe : ∀ x u, ¬S.Bad x u
  nonnull : ∀ x n v S', ((L.arr x.1).kindAt x.2).Solid → S.Does x (.alloc n) v S' → v ≠ some 0

theorem Sane.of (hL : L.Ok) {S : St L} (h : Reach L.sys S.f S.H) : Sane S := by
  have hT := fun r => Classical.choose_spec (hL.inv r)
  have hl := h.live fun r => (hT r).1
  obtain ⟨hi, hw⟩ := h.inv fun r => (hT r).1
  refine ⟨?_, ?_, ?_, ?_, hw.real, hw.cross, ?_, ?_, ?_⟩
  · rintro ⟨r, q⟩
    exact ((L.arr r).user_disj (hl.1 r).disj).1 q
  · rintro ⟨r, q⟩ ⟨k, q'⟩ hne u hu v hv
    by_cases hrk : r = k
    · subst hrk
      exact ((L.arr r).user_disj (hl.1 r).disj).2 q q' (fun e => hne (by rw [e])) u hu v hv
    · exact hl.2 r k hrk u ((L.arr r).mem_live.2 ⟨q, hu⟩) v ((L.arr k).mem_live.2 ⟨q', hv⟩)
  · rintro ⟨r, q⟩ u hu
    exact (hl.1 r).upos u ((L.arr r).mem_live.2 ⟨q, hu⟩)
  · rintro ⟨r, q⟩ u hu
    exact (hl.1 r).cov u ((L.arr r).mem_live.2 ⟨q, hu⟩)
  · exact (hT 0).2.2 _ _ (hi 0)
  · rintro ⟨r, q⟩ u ⟨h1, h2⟩
    exact (h.next (fun r => (hT r).1) h1).1 h2
  · rintro ⟨r, q⟩ n v S' hs ⟨hc, t, -, hr, -⟩
    exact (swp_run (swp_of_wpa rfl ((hT r).2.1 hs (hi r) hc (hw.disj r) (hw.real r)) hw) hr).1

theorem user_set_ne {S : St L} {r : Nat} {t : (L.arr r).sys.σ} {H : Nat → Held} {m : Nat → Nat} {k : Nat} {q : (L.arr k).Pos} (h : k ≠ r) :
    (S.set r t H m).user ⟨k, q⟩ = S.user ⟨k, q⟩ ∧ (S.set r t H m).built ⟨k, q⟩ = S.built ⟨k, q⟩ := by
  unfold St.user St.built St.set
  dsimp only
  rw [upd_ne (T := L.sys) h]
  exact ⟨rfl, rfl⟩

theorem user_set_same {S : St L} {r : Nat} {t : (L.arr r).sys.σ} {H : Nat → Held} {m : Nat → Nat} {q : (L.arr r).Pos} :
    (S.set r t H m).user ⟨r, q⟩ = (L.arr r).user q t ∧ (S.set r t H m).built ⟨r, q⟩ = (L.arr r).built q t := by
  unfold St.user St.built St.set
  dsimp only
  rw [upd_same (T := L.sys)]
  exact ⟨rfl, rfl⟩

/-- What one command changes. -/
theorem St.Does.changes {S S' : St L} {x : Σ r, (L.arr r).Pos} {u : Use} {v : Option Nat} (h : S.Does x u v S') :
    (∀ y, S.built y = true → S'.built y = true) ∧ (∀ y, y ≠ x → S'.user y = S.user y) ∧ S'.user x = u.req.after v (S.user x) := by
  obtain ⟨r, q⟩ := x
  obtain ⟨hc, t, he, hr, -⟩ := h
  rw [he]
  have hch := rets_run ((L.arr r).use_changes hc) hr
  refine ⟨?_, ?_, ?_⟩
  · rintro ⟨k, q'⟩ hb
    by_cases hk : k = r
    · subst hk
      rw [user_set_same.2]
      exact hch.1 q' hb
    · rw [(user_set_ne hk).2]
      exact hb
  · rintro ⟨k, q'⟩ hne
    by_cases hk : k = r
    · subst hk
      rw [user_set_same.1]
      refine hch.2.1 q' fun z hz e => ?_
      injection hz with hz
      subst hz
      exact hne (by rw [e])
    · exact (user_set_ne hk).1
  · rw [user_set_same.1]
    exact hch.2.2 q rfl

theorem St.Does.reach {S S' : St L} {x : Σ r, (L.arr r).Pos} {u : Use} {v : Option Nat} (h : S.Does x u v S') (hr : Reach L.sys S.f S.H) :
    Reach L.sys S'.f S'.H := by
  obtain ⟨hc, t, he, hrun, -⟩ := h
  have := Reach.step (T := L.sys) hr hc hrun
  rw [he]
  exact this

theorem Lay.Ok.place_inj (hL : L.Ok) {s s' : Nat} {x : Σ r, (L.arr r).Pos} (h : L.place s = some x) (h' : L.place s' = some x) : s = s' := by
  unfold Lay.place at h h'
  by_cases hs : s = zero
  · by_cases hs' : s' = zero
    · rw [hs, hs']
    · rw [if_pos hs] at h
      rw [if_neg hs'] at h'
      cases hp : L.spot s' with
      | none => rw [hp] at h'; cases h'
      | some y =>
        rw [hp, ← h] at h'
        injection h' with h'
        exact absurd (congrArg Sigma.fst h') (by simp [Lay.up])
  · by_cases hs' : s' = zero
    · rw [if_neg hs] at h
      rw [if_pos hs'] at h'
      cases hp : L.spot s with
      | none => rw [hp] at h; cases h
      | some y =>
        rw [hp, ← h'] at h
        injection h with h
        exact absurd (congrArg Sigma.fst h) (by simp [Lay.up])
    · rw [if_neg hs] at h
      rw [if_neg hs'] at h'
      cases hp : L.spot s with
      | none => rw [hp] at h; cases h
      | some y =>
        cases hp' : L.spot s' with
        | none => rw [hp'] at h'; cases h'
        | some y' =>
          rw [hp] at h
          rw [hp', ← h] at h'
          injection h' with h'
          have hy : y = y' := by
            obtain ⟨a, b⟩ := y
            obtain ⟨a', b'⟩ := y'
            unfold Lay.up at h'
            simp only [Sigma.mk.injEq, Nat.add_right_cancel_iff] at h'
            obtain ⟨rfl, rfl⟩ := h'
            rfl
          subst hy
          exact hL.inj hp hp'

theorem Lay.Ok.place_solid (hL : L.Ok) {s : Nat} {x : Σ r, (L.arr r).Pos} (h : L.place s = some x) : ((L.arr x.1).kindAt x.2).Solid := by
  unfold Lay.place at h
  by_cases hs : s = zero
  · rw [if_pos hs] at h
    injection h with h
    subst h
    trivial
  · rw [if_neg hs] at h
    cases hp : L.spot s with
    | none => rw [hp] at h; cases h
    | some y =>
      rw [hp] at h
      injection h with h
      subst h
      exact hL.solid hp

/-! ## The relation with the facade layer's view -/

structure Rel (S : St L) (w : Mgr.World) : Prop where
  reach : Reach L.sys S.f S.H
  built : ∀ x, S.user x ≠ [] → S.built x = true
  mem : w.mem = S.mem
  held : ∀ b, b ∈ w.held ↔ ∃ x, L.place b.own = some x ∧ (b.ptr, b.size) ∈ S.user x

theorem Rel.memw {S : St L} {w : Mgr.World} (h : Rel S w) (m : Nat → Nat) : Rel (⟨S.f, S.H, m⟩ : St L) ⟨w.held, m⟩ :=
  ⟨h.reach, h.built, rfl, h.held⟩

theorem built_next {S S' : St L} (hb : ∀ x, S.user x ≠ [] → S.built x = true) (h1 : ∀ y, S.built y = true → S'.built y = true)
    (h2 : ∀ y, S'.user y = S.user y ∨ S.built y = true) : ∀ x, S'.user x ≠ [] → S'.built x = true := by
  intro x hx
  rcases h2 x with h | h
  · exact h1 x (hb x (h ▸ hx))
  · exact h1 x h

theorem St.Does.built {S S' : St L} {x : Σ r, (L.arr r).Pos} {u : Use} {v : Option Nat} (h : S.Does x u v S') : S.built x = true := by
  obtain ⟨r, q⟩ := x
  cases u with
  | alloc n => exact ((L.arr r).can_alloc.1 h.1).1
  | dealloc p => exact ((L.arr r).can_dealloc.1 h.1).1

theorem St.Does.builts {S S' : St L} {x : Σ r, (L.arr r).Pos} {u : Use} {v : Option Nat} (h : S.Does x u v S')
    (hb : ∀ x, S.user x ≠ [] → S.built x = true) : ∀ x, S'.user x ≠ [] → S'.built x = true := by
  refine built_next hb h.changes.1 fun y => ?_
  by_cases hy : y = x
  · subst hy
    exact .inr h.built
  · exact .inl (h.changes.2.1 y hy)

theorem St.Does.alloc_none {S S' : St L} {w : Mgr.World} {x : Σ r, (L.arr r).Pos} {n : Nat} (hr : Rel S w) (h : S.Does x (.alloc n) none S') :
    Agree w.held w.mem S'.mem ∧ Rel S' ⟨w.held, S'.mem⟩ := by
  have hu : ∀ y, S'.user y = S.user y := by
    intro y
    by_cases hy : y = x
    · subst hy
      exact h.changes.2.2
    · exact h.changes.2.1 y hy
  refine ⟨?_, h.reach hr.reach, h.builts hr.built, rfl, fun b => ?_⟩
  · intro b hb q h1 h2
    obtain ⟨y, -, hy⟩ := (hr.held b).1 hb
    obtain ⟨-, -, -, -, hk⟩ := h
    rw [hr.mem]
    exact hk y _ hy (hu y ▸ hy) q h1 h2
  · rw [hr.held b]
    constructor
    · rintro ⟨y, h1, h2⟩
      exact ⟨y, h1, (hu y).symm ▸ h2⟩
    · rintro ⟨y, h1, h2⟩
      exact ⟨y, h1, hu y ▸ h2⟩

theorem St.Does.alloc_some (hL : L.Ok) {S S' : St L} {w : Mgr.World} {s : Nat} {x : Σ r, (L.arr r).Pos} {n p : Nat} (hr : Rel S w)
    (hx : L.place s = some x) (h : S.Does x (.alloc n) (some p) S') :
    Fresh p n (ranges w.held) ∧ Agree w.held w.mem S'.mem ∧ Rel S' ⟨⟨s, p, n⟩ :: w.held, S'.mem⟩ := by
  have hs := Sane.of hL hr.reach
  have hs' := Sane.of hL (h.reach hr.reach)
  have hp : p ≠ 0 := fun e => hs.nonnull x n (some p) S' (hL.place_solid hx) h (by rw [e])
  have hux : S'.user x = (p, n) :: S.user x := by
    rw [h.changes.2.2]
    show (if p = 0 then _ else _) = _
    rw [if_neg hp]
  have hin : (p, n) ∈ S'.user x := by rw [hux]; exact List.mem_cons_self
  have hsub : ∀ y, ∀ u ∈ S.user y, u ∈ S'.user y := by
    intro y u hu
    by_cases hy : y = x
    · subst hy
      rw [hux]
      exact List.mem_cons_of_mem _ hu
    · rw [h.changes.2.1 y hy]
      exact hu
  refine ⟨⟨hp, ?_, ?_⟩, ?_, h.reach hr.reach, h.builts hr.built, rfl, fun b => ?_⟩
  · obtain ⟨o, ho, hw⟩ := hs'.cov x _ hin
    have := hs'.real x.1 o ho
    unfold Within at hw
    simp only at hw
    omega
  · intro r hr'
    obtain ⟨b, hb, rfl⟩ := List.mem_map.1 hr'
    obtain ⟨y, hy, hby⟩ := (hr.held b).1 hb
    by_cases hyx : y = x
    · subst hyx
      have := hs'.disj y
      rw [hux] at this
      exact (List.pairwise_cons.1 this).1 _ hby
    · exact hs'.cross x y (Ne.symm hyx) _ hin _ (hsub y _ hby)
  · intro b hb q h1 h2
    obtain ⟨y, -, hy⟩ := (hr.held b).1 hb
    obtain ⟨-, -, -, -, hk⟩ := h
    rw [hr.mem]
    exact hk y _ hy (hsub y _ hy) q h1 h2
  · rw [List.mem_cons, hr.held b]
    constructor
    · rintro (rfl | ⟨y, h1, h2⟩)
      · exact ⟨x, hx, hin⟩
      · exact ⟨y, h1, hsub y _ h2⟩
    · rintro ⟨y, h1, h2⟩
      by_cases hyx : y = x
      · subst hyx
        rw [hux] at h2
        rcases List.mem_cons.1 h2 with h2 | h2
        · left
          obtain ⟨o, p', n'⟩ := b
          injection h2 with h3 h4
          simp only at h3 h4 h1
          subst h3 h4
          rw [hL.place_inj hx h1]
        · exact .inr ⟨y, h1, h2⟩
      · rw [h.changes.2.1 y hyx] at h2
        exact .inr ⟨y, h1, h2⟩

theorem mem_dropB {p : Nat} {H : List Blk} {b : Blk} : b ∈ dropB p H ↔ b ∈ H ∧ b.ptr ≠ p := by
  unfold dropB
  rw [List.mem_filter]
  simp

/-- Addresses of live allocations of users tell them apart. -/
theorem Sane.unique {S : St L} (h : Sane S) {x y : Σ r, (L.arr r).Pos} {p n m : Nat} (h1 : (p, n) ∈ S.user x) (h2 : (p, m) ∈ S.user y) : x = y ∧ n = m := by
  by_cases hxy : x = y
  · subst hxy
    refine ⟨rfl, ?_⟩
    exact congrArg Prod.snd (Held.inj (h.disj x) (h.pos x) h1 h2 rfl)
  · have := h.cross x y hxy _ h1 _ h2
    have hpn := h.pos x _ h1
    have hpm := h.pos y _ h2
    unfold Disj at this
    simp only at this hpn hpm
    omega

theorem St.Does.dealloc_rel (hL : L.Ok) {S S' : St L} {w : Mgr.World} {s : Nat} {x : Σ r, (L.arr r).Pos} {p : Nat} {v : Option Nat} (hr : Rel S w)
    (hx : L.place s = some x) (h : S.Does x (.dealloc p) v S') :
    (∃ n, (p, n) ∈ S.user x ∧ ⟨s, p, n⟩ ∈ w.held) ∧ Agree (dropB p w.held) w.mem S'.mem ∧ Rel S' ⟨dropB p w.held, S'.mem⟩ := by
  have hs := Sane.of hL hr.reach
  obtain ⟨n, hn⟩ := ((L.arr x.1).can_dealloc.1 h.1).2
  have hn : (p, n) ∈ S.user x := hn
  have hu : ∀ y u, u ∈ S'.user y ↔ u ∈ S.user y ∧ u.1 ≠ p := by
    intro y u
    by_cases hy : y = x
    · subst hy
      rw [h.changes.2.2]
      exact mem_drop
    · rw [h.changes.2.1 y hy]
      refine ⟨fun hu => ⟨hu, fun e => hy ?_⟩, fun h => h.1⟩
      obtain ⟨u1, u2⟩ := u
      simp only at e
      subst e
      exact (hs.unique hu hn).1
  refine ⟨⟨n, hn, (hr.held _).2 ⟨x, hx, hn⟩⟩, ?_, h.reach hr.reach, h.builts hr.built, rfl, fun b => ?_⟩
  · intro b hb q h1 h2
    obtain ⟨hb1, hb2⟩ := mem_dropB.1 hb
    obtain ⟨y, -, hy⟩ := (hr.held b).1 hb1
    obtain ⟨-, -, -, -, hk⟩ := h
    rw [hr.mem]
    exact hk y _ hy ((hu y _).2 ⟨hy, hb2⟩) q h1 h2
  · show b ∈ dropB p w.held ↔ _
    rw [mem_dropB, hr.held b]
    constructor
    · rintro ⟨⟨y, h1, h2⟩, h3⟩
      exact ⟨y, h1, (hu y _).2 ⟨h2, h3⟩⟩
    · rintro ⟨y, h1, h2⟩
      have := (hu y _).1 h2
      exact ⟨⟨y, h1, this.1⟩, this.2⟩

theorem Rel.usable {S : St L} {w : Mgr.World} (h : Rel S w) {p n : Nat} : Mgr.Usable w.held p n ↔ S.Usable p n := by
  unfold Mgr.Usable St.Usable
  refine or_congr_right ⟨?_, ?_⟩
  · rintro ⟨b, hb, h1, h2⟩
    obtain ⟨x, h3, h4⟩ := (h.held b).1 hb
    exact ⟨b.own, x, h1, h3, _, h4, h2⟩
  · rintro ⟨s, x, h1, h2, ⟨u1, u2⟩, h3, h4⟩
    exact ⟨⟨s, u1, u2⟩, (h.held _).2 ⟨x, h2, h3⟩, h1, h4⟩

theorem Rel.zero_in (hL : L.Ok) {S : St L} {w : Mgr.World} (h : Rel S w) {p : Nat} :
    (InZero w.held p → S.fromZero p = true) ∧ (InOther w.held p → S.fromZero p = false) := by
  have hs := Sane.of hL h.reach
  constructor
  · rintro ⟨b, hb, h1, h2, h3⟩
    obtain ⟨x, h4, h5⟩ := (h.held b).1 hb
    unfold Lay.place at h4
    rw [if_pos h1] at h4
    injection h4 with h4
    subst h4
    obtain ⟨o, ho, hw⟩ := hs.cov _ _ h5
    refine (hs.zero p).2 ⟨o, ho, ?_⟩
    unfold Within at hw
    simp only at hw
    omega
  · rintro ⟨b, hb, h1, h2, h3⟩
    obtain ⟨x, h4, h5⟩ := (h.held b).1 hb
    unfold Lay.place at h4
    rw [if_neg h1] at h4
    cases hp : L.spot b.own with
    | none => rw [hp] at h4; cases h4
    | some y =>
      rw [hp] at h4
      injection h4 with h4
      subst h4
      obtain ⟨o, ho, hw⟩ := hs.cov _ _ h5
      cases hf : S.fromZero p with
      | false => rfl
      | true =>
        obtain ⟨o', ho', h6⟩ := (hs.zero p).1 hf
        have := hs.apart 0 (y.1 + 1) (by omega) o' ho' o ho
        unfold Within at hw
        unfold Disj at this
        simp only at hw
        omega

/-- The facade layer's view of where strategies place blocks: anywhere. -/
def anywhere (_ _ : Nat) : Prop := True

theorem Rel.init (L : Lay) (m : Nat → Nat) : Rel (St.init L m) ⟨[], m⟩ where
  reach := .init
  built := fun x hx => absurd ((L.arr x.1).user_init x.2) hx
  mem := rfl
  held := by
    intro b
    refine ⟨fun h => (by cases h), ?_⟩
    rintro ⟨x, -, h⟩
    have : (St.init L m).user x = [] := (L.arr x.1).user_init x.2
    rw [this] at h
    cases h

section
variable {α : Type}

theorem Rel.moved (hL : L.Ok) {S S1 S2 : St L} {w : Mgr.World} {s : Nat} {x : Σ r, (L.arr r).Pos} {p n q : Nat} {v : Option Nat} {m : Nat → Nat}
    (hr : Rel S w) (hx : L.place s = some x) (h1 : S.Does x (.dealloc p) v S1) (h2 : S1.Does x (.alloc n) (some q) S2)
    (hk : ∀ x, ∀ u ∈ S1.user x, ∀ a, u.1 ≤ a → a < u.1 + u.2 → m a = S.mem a)
    (hm : ∀ l, (p, l) ∈ S.user x → ∀ i, i < n → i < l → m (q + i) = S.mem (p + i)) :
    MP.Gives w.held s p none ∧ Fresh q n (ranges (dropB p w.held)) ∧ Agree (dropB p w.held) w.mem m ∧ MP.Moved w.held p q n w.mem m ∧
      Rel (⟨S2.f, S2.H, m⟩ : St L) ⟨⟨s, q, n⟩ :: dropB p w.held, m⟩ := by
  obtain ⟨⟨l, h3, h4⟩, -, h5⟩ := h1.dealloc_rel hL hr hx
  obtain ⟨h6, -, h7⟩ := h2.alloc_some hL h5 hx
  refine ⟨⟨_, h4, rfl, rfl, fun m h => by cases h⟩, h6, ?_, ?_, h7.memw m⟩
  · intro b hb a ha1 ha2
    obtain ⟨y, -, hy⟩ := (h5.held b).1 hb
    rw [hr.mem]
    exact hk y _ hy a ha1 ha2
  · rintro b hb rfl i hi1 hi2
    obtain ⟨y, h8, h9⟩ := (hr.held b).1 hb
    have := (Sane.of hL hr.reach).unique h9 h3
    rw [this.1] at h9
    rw [hr.mem]
    exact hm _ h9 i hi1 hi2

/-- Every execution of the whole is an execution of the facade layer. -/
theorem sim_run (hL : L.Ok) {prog : MP α} {S S' : St L} {a : α} (h : FRun prog S a S') {w : Mgr.World} (hr : Rel S w) :
    ∃ w', MP.Run anywhere prog w a w' ∧ Rel S' w' := by
  induction h generalizing w with
  | ret => exact ⟨w, .ret, hr⟩
  | idle _ _ ih =>
    obtain ⟨w', h1, h2⟩ := ih hr
    exact ⟨w', .allocFail (m := w.mem) (fun _ _ _ _ _ => rfl) h1, h2⟩
  | @alloc s n k S x v S1 a S' hx hd _ ih =>
    cases v with
    | none =>
      obtain ⟨h1, h2⟩ := hd.alloc_none hr
      obtain ⟨w', h3, h4⟩ := ih h2
      exact ⟨w', .allocFail h1 h3, h4⟩
    | some p =>
      obtain ⟨h1, h2, h3⟩ := hd.alloc_some hL hr hx
      obtain ⟨w', h4, h5⟩ := ih h3
      exact ⟨w', .allocOk h1 trivial h2 h4, h5⟩
  | @dealloc s p n k S x v S1 a S' hx hn hd _ ih =>
    obtain ⟨-, h2, h3⟩ := hd.dealloc_rel hL hr hx
    obtain ⟨w', h4, h5⟩ := ih h3
    refine ⟨w', .dealloc ⟨⟨s, p, n⟩, (hr.held _).2 ⟨x, hx, hn⟩, rfl, rfl, ?_⟩ h2 h4, h5⟩
    intro m hm
    injection hm
  | @reallocOk s p n k S x v S1 q S2 m a S' hx h1 h2 h3 h4 _ ih =>
    obtain ⟨h5, h6, h7, h8, h9⟩ := hr.moved hL hx h1 h2 h3 h4
    obtain ⟨w', h10, h11⟩ := ih h9
    exact ⟨w', .reallocOk h5 h6 trivial h7 h8 h10, h11⟩
  | @reallocFail s p n k S x a S' hx hc _ ih =>
    obtain ⟨w', h1, h2⟩ := ih hr
    obtain ⟨l, hl⟩ := ((L.arr x.1).can_dealloc.1 hc).2
    exact ⟨w', .reallocFail ⟨⟨s, p, l⟩, (hr.held _).2 ⟨x, hx, hl⟩, rfl, rfl, fun m h => by cases h⟩ h1, h2⟩
  | @fromZero p k S a S' _ ih =>
    obtain ⟨w', h1, h2⟩ := ih hr
    exact ⟨w', .fromZero (hr.zero_in hL).1 (hr.zero_in hL).2 h1, h2⟩
  | @memcpy d s n k S a S' _ ih =>
    obtain ⟨w', h1, h2⟩ := ih (hr.memw (copied S.mem d s n))
    refine ⟨w', .memcpy ?_, h2⟩
    rw [hr.mem]
    exact h1
  | @memset p v n k S a S' _ ih =>
    obtain ⟨w', h1, h2⟩ := ih (hr.memw (filled S.mem p v n))
    refine ⟨w', .memset ?_, h2⟩
    rw [hr.mem]
    exact h1

/-- All requests of a facade program are for sizes the strategies can handle, and everything
handed back is handed back with its size; `Q` holds of the results. -/
def Fit (L : Lay) : MP α → (α → Prop) → Prop
  | .ret a, Q => Q a
  | .fail, _ => True
  | .alloc s n k, Q => (0 < n ∧ L.Takes s n) ∧ ∀ x, Fit L (k x) Q
  | .dealloc _ _ n k, Q => n.isSome ∧ Fit L k Q
  | .realloc s _ n k, Q => (0 < n ∧ L.Takes s n) ∧ ∀ x, Fit L (k x) Q
  | .fromZero _ k, Q => ∀ b, Fit L (k b) Q
  | .memcpy _ _ _ k, Q => Fit L k Q
  | .memset _ _ _ k, Q => Fit L k Q

theorem Rel.can_alloc {S : St L} {s n : Nat} {x : Σ r, (L.arr r).Pos} (hx : L.place s = some x) (hb : S.built x = true)
    (h : 0 < n ∧ L.Takes s n) : S.can x (.alloc n) :=
  (L.arr x.1).can_alloc.2 ⟨hb, h.1, h.2 x hx⟩

/-- Undefined behaviour of the whole is undefined behaviour of the facade layer. -/
theorem sim_goes (hL : L.Ok) {prog : MP α} {S : St L} {Q : α → Prop} (h : FGoes prog S) {w : Mgr.World} (hr : Rel S w) (hf : Fit L prog Q) :
    MP.Goes anywhere prog w := by
  induction h generalizing w with
  | fail => exact .fail
  | idle _ _ ih => exact .allocFail (m := w.mem) (fun _ _ _ _ _ => rfl) (ih hr (hf.2 _))
  | allocSize hx hb hn => exact absurd (Rel.can_alloc hx hb hf.1) hn
  | allocBad hx hb => exact absurd hb ((Sane.of hL hr.reach).safe _ _)
  | @alloc s n k S x v S1 hx hd _ ih =>
    cases v with
    | none =>
      obtain ⟨h1, h2⟩ := hd.alloc_none hr
      exact .allocFail h1 (ih h2 (hf.2 _))
    | some p =>
      obtain ⟨h1, h2, h3⟩ := hd.alloc_some hL hr hx
      exact .allocOk h1 trivial h2 (ih h3 (hf.2 _))
  | @badFree s p n k S hb =>
    obtain ⟨m, hm⟩ := Option.isSome_iff_exists.1 hf.1
    refine .badFree ?_
    rintro ⟨⟨bo, bp, bs⟩, h1, rfl, rfl, h4⟩
    obtain ⟨x, h5, h6⟩ := (hr.held _).1 h1
    have hbs : bs = m := h4 m hm
    subst hbs
    refine hb x bs h5 hm h6 ((L.arr x.1).can_dealloc.2 ⟨hr.built x ?_, bs, h6⟩)
    intro e
    simp only at h6
    rw [e] at h6
    cases h6
  | deallocBad hx hb => exact absurd hb ((Sane.of hL hr.reach).safe _ _)
  | @dealloc s p n k S x v S1 hx hn hd _ ih =>
    obtain ⟨-, h2, h3⟩ := hd.dealloc_rel hL hr hx
    refine .dealloc ⟨⟨s, p, n⟩, (hr.held _).2 ⟨x, hx, hn⟩, rfl, rfl, ?_⟩ h2 (ih h3 hf.2)
    intro m hm
    injection hm
  | @badRealloc s p n k S hb =>
    refine .badRealloc ?_
    rintro ⟨⟨bo, bp, bs⟩, h1, rfl, rfl, -⟩
    obtain ⟨x, h5, h6⟩ := (hr.held _).1 h1
    refine hb x h5 ((L.arr x.1).can_dealloc.2 ⟨hr.built x ?_, bs, h6⟩)
    intro e
    simp only at h6
    rw [e] at h6
    cases h6
  | reallocBad hx hb => exact absurd hb ((Sane.of hL hr.reach).safe _ _)
  | @reallocSize s p n k S x v S1 hx hd hn =>
    exact absurd (Rel.can_alloc hx (hd.changes.1 _ hd.built) hf.1) hn
  | @reallocBad' s p n k S x v S1 hx hd hb =>
    obtain ⟨-, -, h3⟩ := hd.dealloc_rel hL hr hx
    exact absurd hb ((Sane.of hL h3.reach).safe _ _)
  | @reallocOk s p n k S x v S1 q S2 m hx h1 h2 h3 h4 _ ih =>
    obtain ⟨h5, h6, h7, h8, h9⟩ := hr.moved hL hx h1 h2 h3 h4
    exact .reallocOk h5 h6 trivial h7 h8 (ih h9 (hf.2 _))
  | @reallocFail s p n k S x hx hc _ ih =>
    obtain ⟨l, hl⟩ := ((L.arr x.1).can_dealloc.1 hc).2
    exact .reallocFail ⟨⟨s, p, l⟩, (hr.held _).2 ⟨x, hx, hl⟩, rfl, rfl, fun m h => by cases h⟩ (ih hr (hf.2 _))
  | @fromZero p k S _ ih => exact .fromZero (hr.zero_in hL).1 (hr.zero_in hL).2 (ih hr (hf _))
  | badCopy hb => exact .badCopy fun h => hb ⟨hr.usable.1 h.1, hr.usable.1 h.2.1, h.2.2⟩
  | @memcpy d s n k S _ ih =>
    refine .memcpy ?_
    rw [hr.mem]
    exact ih (hr.memw (copied S.mem d s n)) hf
  | badSet hb => exact .badSet fun h => hb (hr.usable.1 h)
  | @memset p v n k S _ ih =>
    refine .memset ?_
    rw [hr.mem]
    exact ih (hr.memw (filled S.mem p v n)) hf

end
end Umpire.Whole
