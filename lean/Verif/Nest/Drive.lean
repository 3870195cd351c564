import Verif.Nest.Ledger
/-!
# Running an arrangement on given inputs

For the concrete cases in `Props.lean`: one resource, a list of commands, for each
the answers of the resource.
-/
set_option autoImplicit false
set_option linter.unusedSimpArgs false
namespace Umpire.Nest
open Umpire.Prog

/-- Decides `can`. -/
def Arr.canB : (a : Arr) → a.sys.Cmd → a.sys.σ → Bool
  | .none, c, _ => nomatch c
  | .node _ cap kids, c, t =>
    match (c : NodeCmd _ _) with
    | .make => (NodeSt.own t).isNone
    | .alloc n => (NodeSt.own t).isSome && decide (0 < n) && decide (n ≤ cap)
    | .dealloc p => (NodeSt.own t).isSome && (NodeSt.user t).any fun u => u.1 = p
    | .op _ => (NodeSt.own t).isSome
    | .down c => (NodeSt.own t).isSome && kids.canB c (NodeSt.kids t)
  | .par a b, c, t =>
    match (c : a.sys.Cmd ⊕ b.sys.Cmd) with
    | .inl c => a.canB c t.1
    | .inr c => b.canB c t.2

theorem Arr.canB_can (a : Arr) {c : a.sys.Cmd} {t : a.sys.σ} (h : a.canB c t = true) : a.sys.can c t := by
  induction a with
  | none => cases c
  | node k cap kids ih =>
    obtain ⟨own, user, ks⟩ := t
    cases c with
    | make => exact h
    | alloc n =>
      simp only [Arr.canB, Bool.and_eq_true, decide_eq_true_eq] at h
      exact ⟨h.1.1, h.1.2, h.2⟩
    | dealloc p =>
      simp only [Arr.canB, Bool.and_eq_true, List.any_eq_true, decide_eq_true_eq] at h
      obtain ⟨h1, ⟨q, n⟩, h2, rfl⟩ := h
      exact ⟨h1, n, h2⟩
    | op o => exact h
    | down c =>
      simp only [Arr.canB, Bool.and_eq_true] at h
      exact ⟨h.1, ih h.2⟩
  | par a b iha ihb =>
    cases c with
    | inl c => exact iha h
    | inr c => exact ihb h

/-- Carry out commands; the last component is the ledger. -/
def Arr.drive (a : Arr) : List (a.sys.Cmd × List (Option Nat)) → a.sys.σ → Held → Held → Option (a.sys.σ × Held × Held)
  | [], t, O, L => .some (t, O, L)
  | (c, sc) :: cs, t, O, L =>
    if a.canB c t then
      match (a.sys.run c t).execOk sc O with
      | .some ((x, t'), O') => a.drive cs t' O' ((a.req c).after x L)
      | .none => .none
    else .none

theorem run_srun {α : Type} {r : Nat} {p : Prog α} {O O' : Held} {a : α} (h : Run p O a O') :
    ∀ H : Nat → Held, H r = O → (∀ k, k ≠ r → H k = []) → ∃ H', SRun r p H a H' ∧ H' r = O' ∧ ∀ k, k ≠ r → H' k = [] := by
  induction h with
  | ret => intro H h1 h2; exact ⟨H, .ret, h1, h2⟩
  | @allocOk n k O p a O' hp _ ih =>
    intro H h1 h2
    obtain ⟨H', h3, h4⟩ := ih (put H r ((p, n) :: H r)) (by rw [put_same, h1]) fun k hk => by rw [put_ne hk]; exact h2 k hk
    refine ⟨H', .allocOk ⟨hp.1, hp.2.1, fun k x hx => ?_⟩ h3, h4⟩
    by_cases hk : k = r
    · subst hk
      exact hp.2.2 x (h1 ▸ hx)
    · rw [h2 k hk] at hx
      cases hx
  | allocFail _ ih =>
    intro H h1 h2
    obtain ⟨H', h3, h4⟩ := ih H h1 h2
    exact ⟨H', .allocFail h3, h4⟩
  | @dealloc p n k O a O' _ ih =>
    intro H h1 h2
    obtain ⟨H', h3, h4⟩ := ih (put H r (Umpire.drop p (H r))) (by rw [put_same, h1]) fun k hk => by rw [put_ne hk]; exact h2 k hk
    exact ⟨H', .dealloc h3, h4⟩

/-- What `drive` does is an execution. -/
theorem drive_exec {a : Arr} {cs : List (a.sys.Cmd × List (Option Nat))} {f : ∀ _ : Nat, a.sys.σ} {H L : Nat → Held}
    {t' : a.sys.σ} {O' L' : Held} (he : Exec (fun _ => a) f H L) (hH : ∀ k, k ≠ 0 → H k = [])
    (h : a.drive cs (f 0) (H 0) (L 0) = some (t', O', L')) :
    ∃ f' H' M', Exec (fun _ => a) f' H' M' ∧ f' 0 = t' ∧ H' 0 = O' ∧ M' 0 = L' := by
  induction cs generalizing f H L with
  | nil =>
    simp only [Arr.drive, Option.some.injEq, Prod.mk.injEq] at h
    exact ⟨f, H, L, he, h.1, h.2.1, h.2.2⟩
  | cons c cs ih =>
    obtain ⟨c, sc⟩ := c
    unfold Arr.drive at h
    by_cases hc : a.canB c (f 0) = true
    · rw [if_pos hc] at h
      split at h
      · rename_i x t1 O1 hx
        obtain ⟨H1, h1, h2, h3⟩ := run_srun (execOk_run sc hx) H rfl hH
        have he' := Exec.step (arr := fun _ => a) he (a.canB_can hc) h1
        refine ih he' h3 ?_
        rw [h2, put_same]
        have : upd (T := fun _ => Arr.sys a) f 0 t1 0 = t1 := upd_same (T := fun _ => Arr.sys a)
        rw [this]
        exact h
      · cases h
    · rw [if_neg hc] at h
      cases h

/-- From the start. -/
theorem drive_start {a : Arr} (cs : List (a.sys.Cmd × List (Option Nat))) {O L : Held}
    (h : (a.drive cs a.sys.init [] []).map (fun r => r.2) = some (O, L)) :
    ∃ f H M, Exec (fun _ => a) f H M ∧ H 0 = O ∧ M 0 = L := by
  cases hd : a.drive cs a.sys.init [] [] with
  | none => rw [hd] at h; cases h
  | some r =>
    obtain ⟨t, O1, L1⟩ := r
    rw [hd] at h
    simp only [Option.map_some, Option.some.injEq, Prod.mk.injEq] at h
    obtain ⟨f, H, M, h1, -, h2, h3⟩ := drive_exec (a := a) (f := fun _ => a.sys.init) (H := fun _ => []) (L := fun _ => [])
      .init (fun _ _ => rfl) hd
    exact ⟨f, H, M, h1, h2.trans h.1, h3.trans h.2⟩

end Umpire.Nest
