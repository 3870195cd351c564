import Verif.Nest.Arr
/-!
# The requests of the users and their answers

The specification of the live allocations: a ledger that only sees the users'
requests and the answers, not the strategies.
-/
set_option autoImplicit false
set_option linter.unusedSimpArgs false
namespace Umpire.Nest
open Umpire.Prog

/-- What a user does, as far as memory is concerned. -/
inductive Req where
  | alloc (n : Nat)
  | dealloc (p : Nat)
  | other

/-- The ledger after a request was answered with `x`. -/
def Req.after (q : Req) (x : Option Nat) (L : Held) : Held :=
  match q with
  | .alloc n => record x n L
  | .dealloc p => Umpire.drop p L
  | .other => L

/-- The allocations that have to survive the request. -/
def Req.stay (q : Req) (L : Held) : Held :=
  match q with
  | .dealloc p => Umpire.drop p L
  | _ => L

/-- The request a command of an arrangement makes. -/
def Arr.req : (a : Arr) → a.sys.Cmd → Req
  | .none, c => nomatch c
  | .node _ _ kids, c =>
    match (c : NodeCmd _ _) with
    | .alloc n => .alloc n
    | .dealloc p => .dealloc p
    | .down c => kids.req c
    | .make => .other
    | .op _ => .other
  | .par a b, c =>
    match (c : a.sys.Cmd ⊕ b.sys.Cmd) with
    | .inl c => a.req c
    | .inr c => b.req c

/-- A ledger with non-empty, pairwise disjoint entries. -/
structure Sound (L : Held) : Prop where
  disj : L.Disjoint
  pos : ∀ x ∈ L, 0 < x.2

theorem Sound.left {A B : Held} (h : Sound (A ++ B)) : Sound A :=
  ⟨(List.pairwise_append.1 h.disj).1, fun x hx => h.pos x (List.mem_append_left _ hx)⟩

theorem Sound.right {A B : Held} (h : Sound (A ++ B)) : Sound B :=
  ⟨(List.pairwise_append.1 h.disj).2.1, fun x hx => h.pos x (List.mem_append_right _ hx)⟩

theorem rets_mono {α : Type} {p : Prog α} {R R' : α → Prop} (h : rets R p) (hr : ∀ a, R a → R' a) : rets R' p := by
  induction p with
  | ret a => exact hr _ h
  | fail b => trivial
  | alloc n k ih => exact fun r => ih _ (h r)
  | dealloc p n k ih => exact ih h

theorem rets_run {α : Type} {r : Nat} {p : Prog α} {H : Nat → Held} {R : α → Prop} {a : α} {H' : Nat → Held} (h : rets R p)
    (hr : SRun r p H a H') : R a := by
  induction hr with
  | ret => exact h
  | allocOk _ _ ih => exact ih (h _)
  | allocFail _ ih => exact ih (h _)
  | dealloc _ ih => exact ih h

theorem rets_through {S : Strat} {α : Type} {p : Prog α} {s : S.σ} {R : α → Prop} (h : rets R p) :
    rets (fun r => R r.1) (through S p s) := by
  induction p generalizing s with
  | ret a => exact h
  | fail b => trivial
  | alloc n k ih => exact rets_bind (rets_true _) fun r _ => ih _ (h _)
  | dealloc p n k ih =>
    refine rets_bind (rets_true _) fun r _ => ?_
    obtain ⟨b, s'⟩ := r
    cases b with
    | true => exact ih h
    | false => trivial

/-- A dealloc request names an entry of the ledger. -/
def Req.names (q : Req) (L : Held) : Prop := ∀ p, q = .dealloc p → ∃ n, (p, n) ∈ L

theorem after_left {q : Req} {x : Option Nat} {A B : Held} (hs : Sound (A ++ B)) (hn : q.names A) :
    (q.after x (A ++ B)).Perm (q.after x A ++ B) := by
  cases q with
  | alloc n => exact record_perm (List.Perm.refl _)
  | dealloc p =>
    obtain ⟨n, hn⟩ := hn p rfl
    exact List.Perm.of_eq (drop_append_left hs.disj hs.pos hn)
  | other => exact List.Perm.refl _

theorem after_right {q : Req} {x : Option Nat} {A B : Held} (hs : Sound (A ++ B)) (hn : q.names B) :
    (q.after x (A ++ B)).Perm (A ++ q.after x B) := by
  cases q with
  | alloc n =>
    unfold Req.after record
    cases x with
    | none => exact List.Perm.refl _
    | some p =>
      by_cases hp : p = 0
      · simp only [hp, if_true]; exact List.Perm.refl _
      · simp only [hp, if_false]; exact List.perm_middle.symm
  | dealloc p =>
    obtain ⟨n, hn⟩ := hn p rfl
    exact List.Perm.of_eq (drop_append_right hs.disj hs.pos hn)
  | other => exact List.Perm.refl _

theorem stay_eq {q : Req} {L : Held} : q.stay L = q.after none L := by cases q <;> rfl

/-- Only live allocations are handed back. -/
theorem Arr.names (a : Arr) {c : a.sys.Cmd} {t : a.sys.σ} (hc : a.sys.can c t) : (a.req c).names (a.sys.live t) := by
  induction a with
  | none => cases c
  | node k cap kids ih =>
    obtain ⟨own, user, ks⟩ := t
    intro p hp
    cases c with
    | dealloc q =>
      obtain ⟨-, n, hn⟩ := hc
      injection hp with hp
      subst hp
      exact ⟨n, List.mem_append_left _ hn⟩
    | down c =>
      obtain ⟨n, hn⟩ := ih hc.2 p hp
      exact ⟨n, List.mem_append_right _ hn⟩
    | make => cases hp
    | alloc n => cases hp
    | op o => cases hp
  | par a b iha ihb =>
    intro p hp
    cases c with
    | inl c =>
      obtain ⟨n, hn⟩ := iha hc p hp
      exact ⟨n, List.mem_append_left _ hn⟩
    | inr c =>
      obtain ⟨n, hn⟩ := ihb hc p hp
      exact ⟨n, List.mem_append_right _ hn⟩

/-- The live allocations of all users change as the ledger says. -/
theorem Arr.tracks (a : Arr) {c : a.sys.Cmd} {t : a.sys.σ} (hc : a.sys.can c t) (hs : Sound (a.sys.live t)) :
    rets (fun r => (a.sys.live r.2).Perm ((a.req c).after r.1 (a.sys.live t))) (a.sys.run c t) := by
  induction a with
  | none => cases c
  | node k cap kids ih =>
    obtain ⟨own, user, ks⟩ := t
    have hs' : Sound (user ++ kids.sys.live ks) := hs
    cases own with
    | none =>
      cases c with
      | make => exact rets_bind (rets_true _) fun r _ => List.Perm.refl _
      | dealloc q => exact absurd hc.1 (by simp)
      | down c => exact absurd hc.1 (by simp)
      | alloc n => exact absurd hc.1 (by simp)
      | op o => exact absurd hc (by simp [Arr.sys, Sys.node])
    | some s =>
      cases c with
      | make => exact absurd hc (by simp [Arr.sys, Sys.node])
      | alloc n =>
        exact rets_bind (rets_true _) fun r _ => (after_left (q := .alloc n) hs' fun p hp => by cases hp).symm
      | op o => exact rets_bind (rets_true _) fun r _ => List.Perm.refl _
      | dealloc q =>
        obtain ⟨-, n, hn⟩ := hc
        show rets _ (match user.find? (fun u => u.1 = q) with
          | .none => .fail .ub
          | .some u => _)
        split
        · trivial
        · refine rets_bind (rets_true _) fun r _ => (after_left (q := .dealloc q) (x := Option.none) hs' ?_).symm
          intro p hp
          injection hp with hp
          subst hp
          exact ⟨n, hn⟩
      | down c =>
        refine rets_bind (rets_through (ih hc.2 hs'.right)) fun r hr => ?_
        exact (List.Perm.append_left user hr).trans (after_right hs' (kids.names hc.2)).symm
  | par a b iha ihb =>
    obtain ⟨ta, tb⟩ := t
    have hs' : Sound (a.sys.live ta ++ b.sys.live tb) := hs
    cases c with
    | inl c =>
      refine rets_bind (iha hc hs'.left) fun r hr => ?_
      exact (List.Perm.append_right _ hr).trans (after_left hs' (a.names hc)).symm
    | inr c =>
      refine rets_bind (ihb hc hs'.right) fun r hr => ?_
      exact (List.Perm.append_left _ hr).trans (after_right hs' (b.names hc)).symm

/-- The allocations that have to survive. -/
theorem Arr.stays (a : Arr) {c : a.sys.Cmd} {t : a.sys.σ} (hc : a.sys.can c t) (hs : Sound (a.sys.live t)) :
    ((a.req c).stay (a.sys.live t)).Perm (a.sys.keep c t) := by
  rw [stay_eq]
  induction a with
  | none => cases c
  | node k cap kids ih =>
    obtain ⟨own, user, ks⟩ := t
    have hs' : Sound (user ++ kids.sys.live ks) := hs
    cases c with
    | make => exact List.Perm.refl _
    | alloc n => exact List.Perm.refl _
    | op o => exact List.Perm.refl _
    | dealloc q =>
      obtain ⟨-, n, hn⟩ := hc
      refine after_left (q := .dealloc q) hs' ?_
      intro p hp
      injection hp with hp
      subst hp
      exact ⟨n, hn⟩
    | down c => exact (after_right hs' (kids.names hc.2)).trans (List.Perm.append_left _ (ih hc.2 hs'.right))
  | par a b iha ihb =>
    obtain ⟨ta, tb⟩ := t
    have hs' : Sound (a.sys.live ta ++ b.sys.live tb) := hs
    cases c with
    | inl c => exact (after_left hs' (a.names hc)).trans (List.Perm.append_right _ (iha hc hs'.left))
    | inr c => exact (after_right hs' (b.names hc)).trans (List.Perm.append_left _ (ihb hc hs'.right))

/-- Executions with the ledger: `L r` are the live allocations on resource `r`
according to the requests and the answers. -/
inductive Exec (arr : Nat → Arr) : (∀ r, (arr r).sys.σ) → (Nat → Held) → (Nat → Held) → Prop where
  | init : Exec arr (fun r => (arr r).sys.init) (fun _ => []) (fun _ => [])
  | step {f H L r c x t H'} : Exec arr f H L → (arr r).sys.can c (f r) → SRun r ((arr r).sys.run c (f r)) H (x, t) H' →
      Exec arr (upd (T := fun r => (arr r).sys) f r t) H' (put L r (((arr r).req c).after x (L r)))

theorem Exec.reach {arr : Nat → Arr} {f : ∀ r, (arr r).sys.σ} {H L : Nat → Held} (h : Exec arr f H L) :
    Reach (fun r => (arr r).sys) f H := by
  induction h with
  | init => exact .init
  | step _ hc hr ih => exact .step ih hc hr

theorem after_perm {q : Req} {x : Option Nat} {A B : Held} (h : A.Perm B) : (q.after x A).Perm (q.after x B) := by
  cases q with
  | alloc n =>
    unfold Req.after record
    cases x with
    | none => exact h
    | some p =>
      by_cases hp : p = 0
      · simp only [hp, if_true]; exact h
      · simp only [hp, if_false]; exact h.cons _
  | dealloc p => exact h.filter _
  | other => exact h

theorem good_sound {O U : Held} (h : Client.Good ⟨O, U⟩) : Sound U := ⟨h.disj, h.upos⟩

/-- The ledger agrees with the records the library keeps. -/
theorem Exec.ledger {arr : Nat → Arr} {B : Nat → Nat} {I : ∀ r, (arr r).sys.σ → Held → Prop}
    (hT : ∀ r, (arr r).sys.Ok (Upto (B r)) (I r)) {f : ∀ r, (arr r).sys.σ} {H L : Nat → Held} (h : Exec arr f H L) :
    ∀ r, (L r).Perm ((arr r).sys.live (f r)) := by
  induction h with
  | init =>
    intro r
    have h1 := Client.Good.cover ((hT r).good (hT r).init)
    rw [show (arr r).sys.live (arr r).sys.init = [] from cov_nil h1]
  | @step f H L r c x t H' he hc hr ih =>
    intro k
    by_cases hk : k = r
    · subst hk
      rw [put_same, upd_same (T := fun r => (arr r).sys)]
      have hs := good_sound ((he.reach.live hT).1 k)
      exact (after_perm (ih k)).trans (rets_run ((arr k).tracks hc hs) hr).symm
    · rw [put_ne hk, upd_ne (T := fun r => (arr r).sys) hk]
      exact ih k

end Umpire.Nest
