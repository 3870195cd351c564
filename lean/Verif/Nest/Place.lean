import Verif.Nest.Ledger
/-!
# The strategies of an arrangement and their users

A place in an arrangement is one strategy.  `Arr.user` are the allocations that the
users of that strategy have, `Arr.cmd` is the command they give it.
-/
set_option autoImplicit false
set_option linter.unusedSimpArgs false
namespace Umpire.Nest
open Umpire.Prog

/-- The strategies of an arrangement: `none` is the strategy of a node itself, `some`
one of those built on it. -/
def Arr.Pos : Arr → Type
  | .none => Empty
  | .node _ _ kids => Option kids.Pos
  | .par a b => a.Pos ⊕ b.Pos

/-- A user asks for memory or hands it back. -/
inductive Use where
  | alloc (n : Nat)
  | dealloc (p : Nat)

def Use.req : Use → Req
  | .alloc n => .alloc n
  | .dealloc p => .dealloc p

/-- The command for the strategy at a place. -/
def Arr.cmd : (a : Arr) → a.Pos → Use → a.sys.Cmd
  | .none, q, _ => nomatch q
  | .node k _ kids, q, u =>
    match (q : Option kids.Pos), u with
    | .none, .alloc n => (NodeCmd.alloc n : NodeCmd k.strat.Op kids.sys.Cmd)
    | .none, .dealloc p => (NodeCmd.dealloc p : NodeCmd k.strat.Op kids.sys.Cmd)
    | .some q, u => (NodeCmd.down (kids.cmd q u) : NodeCmd k.strat.Op kids.sys.Cmd)
  | .par a b, q, u =>
    match (q : a.Pos ⊕ b.Pos) with
    | .inl q => (Sum.inl (a.cmd q u) : a.sys.Cmd ⊕ b.sys.Cmd)
    | .inr q => (Sum.inr (b.cmd q u) : a.sys.Cmd ⊕ b.sys.Cmd)

/-- The largest size it may be asked for. -/
def Arr.capAt : (a : Arr) → a.Pos → Nat
  | .none, q => nomatch q
  | .node _ cap kids, q =>
    match (q : Option kids.Pos) with
    | .none => cap
    | .some q => kids.capAt q
  | .par a b, q =>
    match (q : a.Pos ⊕ b.Pos) with
    | .inl q => a.capAt q
    | .inr q => b.capAt q

/-- What kind of strategy it is. -/
def Arr.kindAt : (a : Arr) → a.Pos → Kind
  | .none, q => nomatch q
  | .node k _ kids, q =>
    match (q : Option kids.Pos) with
    | .none => k
    | .some q => kids.kindAt q
  | .par a b, q =>
    match (q : a.Pos ⊕ b.Pos) with
    | .inl q => a.kindAt q
    | .inr q => b.kindAt q

/-- The live allocations of its users. -/
def Arr.user : (a : Arr) → a.Pos → a.sys.σ → Held
  | .none, q, _ => nomatch q
  | .node _ _ kids, q, t =>
    match (q : Option kids.Pos) with
    | .none => NodeSt.user t
    | .some q => kids.user q (NodeSt.kids t)
  | .par a b, q, t =>
    match (q : a.Pos ⊕ b.Pos) with
    | .inl q => a.user q t.1
    | .inr q => b.user q t.2

/-- It and everything below it has been constructed. -/
def Arr.built : (a : Arr) → a.Pos → a.sys.σ → Bool
  | .none, q, _ => nomatch q
  | .node _ _ kids, q, t =>
    match (q : Option kids.Pos) with
    | .none => (NodeSt.own t).isSome
    | .some q => (NodeSt.own t).isSome && kids.built q (NodeSt.kids t)
  | .par a b, q, t =>
    match (q : a.Pos ⊕ b.Pos) with
    | .inl q => a.built q t.1
    | .inr q => b.built q t.2

theorem Arr.can_alloc (a : Arr) {q : a.Pos} {t : a.sys.σ} {n : Nat} :
    a.sys.can (a.cmd q (.alloc n)) t ↔ a.built q t = true ∧ 0 < n ∧ n ≤ a.capAt q := by
  induction a with
  | none => cases q
  | node k cap kids ih =>
    cases q with
    | none => exact Iff.rfl
    | some q =>
      show _ ∧ _ ↔ (_ && _) = true ∧ _
      rw [Bool.and_eq_true, and_assoc]
      exact and_congr_right fun _ => ih
  | par a b iha ihb =>
    cases q with
    | inl q => exact iha
    | inr q => exact ihb

theorem Arr.can_dealloc (a : Arr) {q : a.Pos} {t : a.sys.σ} {p : Nat} :
    a.sys.can (a.cmd q (.dealloc p)) t ↔ a.built q t = true ∧ ∃ n, (p, n) ∈ a.user q t := by
  induction a with
  | none => cases q
  | node k cap kids ih =>
    cases q with
    | none => exact Iff.rfl
    | some q =>
      show _ ∧ _ ↔ (_ && _) = true ∧ _
      rw [Bool.and_eq_true, and_assoc]
      exact and_congr_right fun _ => ih
  | par a b iha ihb =>
    cases q with
    | inl q => exact iha
    | inr q => exact ihb

theorem Arr.req_cmd (a : Arr) {q : a.Pos} {u : Use} : a.req (a.cmd q u) = u.req := by
  induction a with
  | none => cases q
  | node k cap kids ih =>
    cases q with
    | none => cases u <;> rfl
    | some q => exact ih
  | par a b iha ihb =>
    cases q with
    | inl q => exact iha
    | inr q => exact ihb

/-- The live allocations of all users are those of the users of the single strategies. -/
theorem Arr.mem_live (a : Arr) {t : a.sys.σ} {x : Nat × Nat} : x ∈ a.sys.live t ↔ ∃ q, x ∈ a.user q t := by
  induction a with
  | none => exact ⟨fun h => (by cases h), fun ⟨q, _⟩ => (by cases q)⟩
  | node k cap kids ih =>
    show x ∈ NodeSt.user t ++ kids.sys.live (NodeSt.kids t) ↔ _
    rw [List.mem_append, ih]
    constructor
    · rintro (h | ⟨q, h⟩)
      · exact ⟨(Option.none : Option kids.Pos), h⟩
      · exact ⟨(Option.some q : Option kids.Pos), h⟩
    · rintro ⟨q, h⟩
      cases q with
      | none => exact .inl h
      | some q => exact .inr ⟨q, h⟩
  | par a b iha ihb =>
    show x ∈ a.sys.live t.1 ++ b.sys.live t.2 ↔ _
    rw [List.mem_append, iha, ihb]
    constructor
    · rintro (⟨q, h⟩ | ⟨q, h⟩)
      · exact ⟨(Sum.inl q : a.Pos ⊕ b.Pos), h⟩
      · exact ⟨(Sum.inr q : a.Pos ⊕ b.Pos), h⟩
    · rintro ⟨q, h⟩
      cases q with
      | inl q => exact .inl ⟨q, h⟩
      | inr q => exact .inr ⟨q, h⟩

/-- The allocations of one strategy are disjoint, and so are those of two. -/
theorem Arr.user_disj (a : Arr) {t : a.sys.σ} (h : (a.sys.live t).Disjoint) :
    (∀ q, (a.user q t).Disjoint) ∧ ∀ q q', q ≠ q' → ∀ x ∈ a.user q t, ∀ y ∈ a.user q' t, Disj x.1 x.2 y.1 y.2 := by
  induction a with
  | none => exact ⟨fun q => (by cases q), fun q => (by cases q)⟩
  | node k cap kids ih =>
    obtain ⟨h1, h2, h3⟩ := List.pairwise_append.1 (show (NodeSt.user t ++ kids.sys.live (NodeSt.kids t)).Pairwise _ from h)
    have ih := ih h2
    have hin : ∀ {q : kids.Pos} {x}, x ∈ kids.user q (NodeSt.kids t) → x ∈ kids.sys.live (NodeSt.kids t) :=
      fun {q x} hx => kids.mem_live.2 ⟨q, hx⟩
    constructor
    · intro q
      cases q with
      | none => exact h1
      | some q => exact ih.1 q
    · intro q q' hq x hx y hy
      cases q with
      | none =>
        cases q' with
        | none => exact absurd rfl hq
        | some q' => exact h3 x hx y (hin hy)
      | some q =>
        cases q' with
        | none => exact (h3 y hy x (hin hx)).symm
        | some q' => exact ih.2 q q' (fun e => hq (by rw [e])) x hx y hy
  | par a b iha ihb =>
    obtain ⟨h1, h2, h3⟩ := List.pairwise_append.1 (show (a.sys.live t.1 ++ b.sys.live t.2).Pairwise _ from h)
    have iha := iha h1
    have ihb := ihb h2
    constructor
    · intro q
      cases q with
      | inl q => exact iha.1 q
      | inr q => exact ihb.1 q
    · intro q q' hq x hx y hy
      cases q with
      | inl q =>
        cases q' with
        | inl q' => exact iha.2 q q' (fun e => hq (by rw [e])) x hx y hy
        | inr q' => exact h3 x (a.mem_live.2 ⟨q, hx⟩) y (b.mem_live.2 ⟨q', hy⟩)
      | inr q =>
        cases q' with
        | inl q' => exact (h3 y (a.mem_live.2 ⟨q', hy⟩) x (b.mem_live.2 ⟨q, hx⟩)).symm
        | inr q' => exact ihb.2 q q' (fun e => hq (by rw [e])) x hx y hy

/-- What a command changes: nothing is unbuilt, and the allocations of the users of all
strategies stay the same, except for the user who gave the command. -/
def Arr.Changes (a : Arr) (t : a.sys.σ) (q : Option a.Pos) (u : Option Nat → Held → Held) (r : Option Nat × a.sys.σ) : Prop :=
  (∀ q', a.built q' t = true → a.built q' r.2 = true) ∧
  (∀ q', (∀ x, q = some x → q' ≠ x) → a.user q' r.2 = a.user q' t) ∧
  ∀ x, q = some x → a.user x r.2 = u r.1 (a.user x t)

theorem Arr.use_changes (a : Arr) {q : a.Pos} {u : Use} {t : a.sys.σ} (hc : a.sys.can (a.cmd q u) t) :
    rets (a.Changes t (some q) u.req.after) (a.sys.run (a.cmd q u) t) := by
  induction a with
  | none => cases q
  | node k cap kids ih =>
    obtain ⟨own, user, ks⟩ := t
    have hown : own.isSome := by
      cases q with
      | none => cases u <;> exact hc.1
      | some q => exact hc.1
    cases own with
    | none => cases hown
    | some s =>
      cases q with
      | none =>
        cases u with
        | alloc n =>
          refine rets_bind (rets_true _) fun r _ => ⟨?_, ?_, ?_⟩
          · intro q' h
            cases q' with
            | none => rfl
            | some q' => exact h
          · intro q' h
            cases q' with
            | none => exact absurd rfl (h _ rfl)
            | some q' => rfl
          · intro x h
            injection h with h
            subst h
            rfl
        | dealloc p =>
          show rets _ (match user.find? (fun u => u.1 = p) with
            | .none => .fail .ub
            | .some u => _)
          split
          · trivial
          · refine rets_bind (rets_true _) fun r _ => ⟨?_, ?_, ?_⟩
            · intro q' h
              cases q' with
              | none => rfl
              | some q' => exact h
            · intro q' h
              cases q' with
              | none => exact absurd rfl (h _ rfl)
              | some q' => rfl
            · intro x h
              injection h with h
              subst h
              rfl
      | some q =>
        refine rets_bind (rets_through (ih hc.2)) fun r hr => ⟨?_, ?_, ?_⟩
        · intro q' h
          cases q' with
          | none => rfl
          | some q' => exact hr.1 q' h
        · intro q' h
          cases q' with
          | none => rfl
          | some q' =>
            refine hr.2.1 q' fun x hx he => ?_
            injection hx with hx
            subst hx
            exact h _ rfl (by rw [he])
        · intro x h
          injection h with h
          subst h
          exact hr.2.2 q rfl
  | par a b iha ihb =>
    obtain ⟨ta, tb⟩ := t
    cases q with
    | inl q =>
      refine rets_bind (iha hc) fun r hr => ⟨?_, ?_, ?_⟩
      · intro q' h
        cases q' with
        | inl q' => exact hr.1 q' h
        | inr q' => exact h
      · intro q' h
        cases q' with
        | inl q' =>
          refine hr.2.1 q' fun x hx he => ?_
          injection hx with hx
          subst hx
          exact h _ rfl (by rw [he])
        | inr q' => rfl
      · intro x h
        injection h with h
        subst h
        exact hr.2.2 q rfl
    | inr q =>
      refine rets_bind (ihb hc) fun r hr => ⟨?_, ?_, ?_⟩
      · intro q' h
        cases q' with
        | inr q' => exact hr.1 q' h
        | inl q' => exact h
      · intro q' h
        cases q' with
        | inr q' =>
          refine hr.2.1 q' fun x hx he => ?_
          injection hx with hx
          subst hx
          exact h _ rfl (by rw [he])
        | inl q' => rfl
      · intro x h
        injection h with h
        subst h
        exact hr.2.2 q rfl

/-- Constructing a strategy, releasing or coalescing a pool changes the allocations of no
user. -/
theorem Arr.other_changes (a : Arr) {c : a.sys.Cmd} {t : a.sys.σ} (hc : a.sys.can c t) (hr : a.req c = .other) :
    rets (a.Changes t Option.none fun _ L => L) (a.sys.run c t) := by
  induction a with
  | none => cases c
  | node k cap kids ih =>
    obtain ⟨own, user, ks⟩ := t
    have same : ∀ (q' : (Arr.node k cap kids).Pos) (o o' : Option k.strat.σ) (ks : kids.sys.σ),
        (Arr.node k cap kids).user q' ⟨o, user, ks⟩ = (Arr.node k cap kids).user q' ⟨o', user, ks⟩ := by
      intro q' o o' ks
      cases q' <;> rfl
    cases c with
    | alloc n => cases hr
    | dealloc p => cases hr
    | make =>
      cases own with
      | some s => cases hc
      | none =>
        refine rets_bind (rets_true _) fun r _ => ⟨?_, fun q' _ => same q' _ _ _, fun x h => by cases h⟩
        intro q' h
        cases q' <;> cases h
    | op o =>
      cases own with
      | none => cases hc
      | some s =>
        refine rets_bind (rets_true _) fun r _ => ⟨?_, fun q' _ => same q' _ _ _, fun x h => by cases h⟩
        intro q' h
        cases q' with
        | none => rfl
        | some q' => exact h
    | down c =>
      cases own with
      | none => cases hc.1
      | some s =>
        refine rets_bind (rets_through (ih hc.2 hr)) fun r hr => ⟨?_, ?_, fun x h => by cases h⟩
        · intro q' h
          cases q' with
          | none => rfl
          | some q' => exact hr.1 q' h
        · intro q' h
          cases q' with
          | none => rfl
          | some q' => exact hr.2.1 q' fun x hx => by cases hx
  | par a b iha ihb =>
    obtain ⟨ta, tb⟩ := t
    cases c with
    | inl c =>
      refine rets_bind (iha hc hr) fun r hr => ⟨?_, ?_, fun x h => by cases h⟩
      · intro q' h
        cases q' with
        | inl q' => exact hr.1 q' h
        | inr q' => exact h
      · intro q' h
        cases q' with
        | inl q' => exact hr.2.1 q' fun x hx => by cases hx
        | inr q' => rfl
    | inr c =>
      refine rets_bind (ihb hc hr) fun r hr => ⟨?_, ?_, fun x h => by cases h⟩
      · intro q' h
        cases q' with
        | inr q' => exact hr.1 q' h
        | inl q' => exact h
      · intro q' h
        cases q' with
        | inr q' => exact hr.2.1 q' fun x hx => by cases hx
        | inl q' => rfl

theorem Arr.user_init (a : Arr) (q : a.Pos) : a.user q a.sys.init = [] := by
  induction a with
  | none => cases q
  | node k cap kids ih =>
    cases q with
    | none => rfl
    | some q => exact ih q
  | par a b iha ihb =>
    cases q with
    | inl q => exact iha q
    | inr q => exact ihb q

/-- Requests to strategies other than a `SlotPool` are not answered with null. -/
def Arr.NonNull (a : Arr) (P : Nat → Prop) (I : a.sys.σ → Held → Prop) : Prop :=
  ∀ {q n t O}, (a.kindAt q).Solid → I t O → a.sys.can (a.cmd q (.alloc n)) t → O.Disjoint → Real O →
    (a.sys.run (a.cmd q (.alloc n)) t).wpa P (KeepUB (a.sys.keep (a.cmd q (.alloc n)) t)) O fun r _ => r.1 ≠ some 0

theorem Arr.node_nonnull {k : Kind} {cap B : Nat} {kids : Arr} {Inv : k.strat.σ → Held → Held → Prop} {I : kids.sys.σ → Held → Prop}
    (hS : k.strat.Ok (Upto cap) (Upto B) k.Solid Inv) (hT : kids.sys.Ok (Upto cap) I) (hN : kids.NonNull (Upto cap) I)
    (hn : k.Solid ∨ kids = .none) : (Arr.node k cap kids).NonNull (Upto B) (NodeInv Inv I) := by
  rintro q n ⟨own, user, ks⟩ O hq h hc hd hr
  have hown : own.isSome := by
    cases q with
    | none => exact hc.1
    | some q => exact hc.1
  cases own with
  | none => cases hown
  | some s =>
    obtain ⟨U, Ot, h1, h2, h3⟩ := h
    simp only at h1 h3
    have hgu := hS.good h2
    have hgt := hT.good h3
    cases q with
    | none =>
      have hsub : ∀ l ∈ user ++ kids.sys.live ks, ∃ k ∈ U, Within l.1 l.2 k.1 k.2 := by
        intro l hl
        rcases List.mem_append.1 hl with hl | hl
        · exact ⟨l, h1.mem_iff.2 (List.mem_append_left _ hl), Nat.le_refl _, Nat.le_refl _⟩
        · obtain ⟨o, ho, hw⟩ := hgt.cov l hl
          exact ⟨o, h1.mem_iff.2 (List.mem_append_right _ ho), hw⟩
      refine wpa_bind (wpa_mono (wpa_weaken (hS.alloc h2 hc.2) (fun _ h => h) (fun _ h => h) fun q m h => keepUB_sub hsub h) ?_)
      rintro ⟨r, s'⟩ O' ⟨-, h5⟩
      exact fun he => h5 he hq
    | some q =>
      rcases hn with hnn | hno
      · have hS' : k.strat.Ok (Upto cap) (Upto B) True Inv :=
          { hS with alloc := fun h1 h2 => wpa_mono (hS.alloc h1 h2) fun _ _ h => ⟨h.1, fun e _ => h.2 e hnn⟩ }
        have hdu : (user ++ Ot).Disjoint := perm_disjoint h1 hgu.disj
        have hdt : Ot.Disjoint := (List.pairwise_append.1 hdu).2.1
        have hcu : Cov U O := Client.Good.cover hgu
        have hrt : Real Ot := by
          intro o ho
          obtain ⟨-, x, hx, hw⟩ := hcu o (h1.mem_iff.2 (List.mem_append_right _ ho))
          have := hr x hx
          unfold Within at hw
          omega
        have hk := hT.keep hc.2
        have hcov : Cov (kids.sys.keep (kids.cmd q (.alloc n)) ks) Ot := fun l hl => Client.Good.cover hgt l (hk l hl)
        refine wpa_bind (wpa_mono (through_wpa hS' (hN hq h3 hc.2 hdt hrt) h2 h1 hcov hd hr) ?_)
        rintro ⟨⟨x, kids'⟩, s'⟩ O' ⟨U', Ot', h4, h5, h6⟩
        exact h6
      · subst hno
        cases q

theorem Arr.par_nonnull {a b : Arr} {P : Nat → Prop} {I : a.sys.σ → Held → Prop} {J : b.sys.σ → Held → Prop} (hA : a.sys.Ok P I)
    (hB : b.sys.Ok P J) (hNA : a.NonNull P I) (hNB : b.NonNull P J) :
    (Arr.par a b).NonNull P fun t O => O.Disjoint ∧ ∃ O1 O2, O.Perm (O1 ++ O2) ∧ I t.1 O1 ∧ J t.2 O2 := by
  rintro q n ⟨ta, tb⟩ O hq ⟨hd, O1, O2, hp, h1, h2⟩ hc - hr
  have hr' : Real (O1 ++ O2) := fun o ho => hr o (hp.mem_iff.2 ho)
  have hd' := List.pairwise_append.1 (perm_disjoint hp hd)
  cases q with
  | inl q =>
    have hrun := hNA hq h1 hc hd'.1 fun o ho => hr' o (List.mem_append_left _ ho)
    have := wpa_next hrun hp hd (hB.good h2).pos (Client.Good.cover (hB.good h2))
    refine wpa_bind (wpa_mono this ?_)
    rintro ⟨x, a'⟩ O' ⟨O1', -, h4⟩
    exact h4
  | inr q =>
    have hrun := hNB hq h2 hc hd'.2.1 fun o ho => hr' o (List.mem_append_right _ ho)
    have := wpa_next hrun (hp.trans List.perm_append_comm) hd (hA.good h1).pos (Client.Good.cover (hA.good h1))
    refine wpa_bind (wpa_mono (wpa_weaken this (fun _ h => h) (fun _ h => h) fun _ _ h => keepUB_comm h) ?_)
    rintro ⟨x, b'⟩ O' ⟨O2', -, h4⟩
    exact h4

/-- `Arr.ok` with `NonNull`. -/
theorem Arr.ok' (a : Arr) {B : Nat} (h : a.Fits B) : ∃ I, a.sys.Ok (Upto B) I ∧ a.NonNull (Upto B) I := by
  induction a generalizing B with
  | none => exact ⟨_, Sys.empty_ok _, fun {q} => (by cases q)⟩
  | node k cap kids ih =>
    obtain ⟨h1, h2, h3⟩ := h
    obtain ⟨Inv, hk⟩ := k.ok h1
    obtain ⟨I, hI, hN⟩ := ih h2
    refine ⟨_, Sys.node_ok hk hI (h3.imp id fun he c t => ?_), Arr.node_nonnull hk hI hN h3⟩
    subst he
    exact id
  | par a b iha ihb =>
    obtain ⟨I, hI, hN⟩ := iha h.1
    obtain ⟨J, hJ, hM⟩ := ihb h.2
    exact ⟨_, Sys.par_ok hI hJ, Arr.par_nonnull hI hJ hN hM⟩

end Umpire.Nest
