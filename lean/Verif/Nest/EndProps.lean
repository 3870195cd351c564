import Verif.Nest.Order
import Verif.Nest.Props
/-!
# C59: the end of the program
-/
set_option autoImplicit false
set_option linter.unusedSimpArgs false
namespace Umpire.Nest
open Umpire.Prog

section
variable {arr : Nat → Arr} {B : Nat → Nat} {I J : ∀ r, (arr r).sys.σ → Held → Prop}

/-- What holds after some of the strategies have been destroyed: `M` are left. -/
structure Ending (arr : Nat → Arr) (J : ∀ r, (arr r).sys.σ → Held → Prop) (f₀ f : ∀ r, (arr r).sys.σ) (H : Nat → Held)
    (M : Strategies arr) : Prop where
  inv : ∀ r, J r (f r) (H r)
  world : World H
  live : ∀ r, (arr r).sys.live (f r) = (arr r).sys.live (f₀ r)
  listed : Listed arr f M

theorem Ending.next (hE : ∀ r, (arr r).EndOk (B r) (I r) (J r)) {f₀ f : ∀ r, (arr r).sys.σ} {H : Nat → Held}
    {M : Strategies arr} {r : Nat} {c : (arr r).Spot} (h : Ending arr J f₀ f H (⟨r, c⟩ :: M))
    (hx : (arr r).Lax ∨ (arr r).Clean ∧ (arr r).sys.live (f₀ r) = []) :
    ((arr r).kill c (f r)).swp r
      ⟨fun b => b ≠ .ub, fun q m => (KeepUB ((arr r).sys.live (f r))).free q m ∧ ∀ k, k ≠ r → ∀ y ∈ H k, Disj y.1 y.2 q m⟩ H
      fun t H' => (J r t (H' r) ∧ (arr r).sys.live t = (arr r).sys.live (f r)) ∧ World H' ∧ ∀ k, k ≠ r → H' k = H k :=
  swp_of_wpa rfl ((hE r).kill (h.inv r) h.listed.ready (by rw [h.live r]; exact hx) (h.world.disj r) (h.world.real r)) h.world

/-- The list after the first has been destroyed. -/
theorem Listed.tail {f : ∀ r, (arr r).sys.σ} {M : Strategies arr} {r : Nat} {c : (arr r).Spot} {t : (arr r).sys.σ}
    {H H' : Nat → Held} (h : Listed arr f (⟨r, c⟩ :: M)) (hr : SRun r ((arr r).kill c (f r)) H t H') :
    Listed arr (upd (T := fun r => (arr r).sys) f r t) M := by
  have hk := rets_run ((arr r).kills h.ready (h.closed r)) hr
  have hn := List.nodup_cons.1 h.nodup
  refine ⟨fun k => ?_, fun k d => ?_, hn.2, (List.pairwise_cons.1 h.order).2⟩
  · by_cases e : k = r
    · subst e
      rw [upd_same (T := fun r => (arr r).sys)]
      exact hk.1
    · rw [upd_ne (T := fun r => (arr r).sys) e]
      exact h.closed k
  · by_cases e : k = r
    · subst e
      rw [upd_same (T := fun r => (arr r).sys), hk.2 d, h.mem k d]
      constructor
      · rintro ⟨h1, h2⟩
        rcases List.mem_cons.1 h1 with h3 | h3
        · cases h3
          exact absurd rfl h2
        · exact h3
      · intro h1
        refine ⟨List.mem_cons_of_mem _ h1, fun h2 => ?_⟩
        subst h2
        exact hn.1 h1
    · rw [upd_ne (T := fun r => (arr r).sys) e, h.mem k d]
      refine ⟨fun h1 => ?_, List.mem_cons_of_mem _⟩
      rcases List.mem_cons.1 h1 with h3 | h3
      · injection h3 with h4
        exact absurd h4 e
      · exact h3

theorem Ends.ending (hE : ∀ r, (arr r).EndOk (B r) (I r) (J r)) {f f' : ∀ r, (arr r).sys.σ} {H H' : Nat → Held}
    {M₁ : Strategies arr} (he : Ends arr M₁ f H f' H') :
    ∀ M₂, Ending arr J f f H (M₁ ++ M₂) → (∀ r, (arr r).Lax ∨ (arr r).Clean ∧ (arr r).sys.live (f r) = []) →
      Ending arr J f f' H' M₂ := by
  induction he with
  | nil => intro M₂ h _; exact h
  | @snoc M₁ f H f' H' r c t H'' _ hr ih =>
    intro M₂ h hx
    have h1 := ih (⟨r, c⟩ :: M₂) (by rw [List.append_assoc] at h; exact h) hx
    have h2 := swp_run (h1.next hE (hx r)) hr
    refine ⟨fun k => ?_, h2.2.1, fun k => ?_, h1.listed.tail hr⟩
    · by_cases e : k = r
      · subst e
        rw [upd_same (T := fun r => (arr r).sys)]
        exact h2.1.1
      · rw [upd_ne (T := fun r => (arr r).sys) e, h2.2.2 k e]
        exact h1.inv k
    · by_cases e : k = r
      · subst e
        rw [upd_same (T := fun r => (arr r).sys)]
        exact h2.1.2.trans (h1.live k)
      · rw [upd_ne (T := fun r => (arr r).sys) e]
        exact h1.live k
end

/-- C59.  `M` is the list of strategies, the newest first; `M₁` have been destroyed in
that order.  The memory of allocations that have not been returned is still held; the
next destructor runs into no undefined behaviour and hands back nothing that overlaps
such an allocation; and once all have been destroyed, everything is back at a resource
with whose allocations all have been returned.

Partial: sizes fit together (`Arr.Fits`); with a `MonotonicAllocationStrategy` or
`SlotPool` on a resource its allocations must have been returned, and operations on
new allocations (`AllocationAdvisor` and similar) must not have failed
(`…_counterexample` below). -/
theorem teardown_partial {arr : Nat → Arr} (hF : ∀ r, (arr r).Fits (W - 1)) {f f' : ∀ r, (arr r).sys.σ} {H H' L : Nat → Held}
    {M₁ M₂ : Strategies arr} (h : ExecC arr f H L (M₁ ++ M₂)) (hx : ∀ r, (arr r).Lax ∨ (arr r).Clean ∧ L r = [])
    (he : Ends arr M₁ f H f' H') :
    (∀ r, ∀ x ∈ L r, ∃ o ∈ H' r, o.1 ≤ x.1 ∧ x.1 + x.2 ≤ o.1 + o.2) ∧
    (∀ r c M₃, M₂ = ⟨r, c⟩ :: M₃ →
      (¬ SGoes r ((arr r).kill c (f' r)) H' .ub) ∧
      ∀ q m, SFrees r ((arr r).kill c (f' r)) H' q m → ∀ k, ∀ l ∈ L k, Disj l.1 l.2 q m) ∧
    (M₂ = [] → ∀ r, (arr r).Clean → L r = [] → H' r = []) := by
  have hT := fun r => (arr r).okEnd (hF r)
  have hT' := fun r => Classical.choose_spec (Classical.choose_spec (hT r))
  have hp := h.exec.ledger fun r => (hT' r).ok
  have hnil : ∀ r, L r = [] → (arr r).sys.live (f r) = [] := fun r e => by
    have := hp r
    rw [e] at this
    exact this.symm.eq_nil
  have hi := h.exec.reach.inv fun r => (hT' r).ok
  have h1 := he.ending hT' M₂ ⟨fun r => (hT' r).start (hi.1 r), hi.2, fun _ => rfl, h.listed⟩
    fun r => (hx r).imp id fun e => ⟨e.1, hnil r e.2⟩
  have hcov : ∀ r, ∀ x ∈ L r, ∃ o ∈ H' r, o.1 ≤ x.1 ∧ x.1 + x.2 ≤ o.1 + o.2 := fun r x hx =>
    ((hT' r).good (h1.inv r)).cov x (by rw [h1.live r]; exact (hp r).mem_iff.1 hx)
  refine ⟨hcov, ?_, ?_⟩
  · intro r c M₃ hM
    subst hM
    have h2 := h1.next hT' ((hx r).imp id fun e => ⟨e.1, hnil r e.2⟩)
    refine ⟨fun hg => swp_safe h2 hg rfl, fun q m hf k l hl => ?_⟩
    have h3 := swp_frees h2 hf
    by_cases e : k = r
    · subst e
      exact h3.1.2 l (by rw [h1.live k]; exact (hp k).mem_iff.1 hl)
    · obtain ⟨o, ho, hw1, hw2⟩ := hcov k l hl
      have := h3.2 k e o ho
      unfold Disj at *
      omega
  · intro hM r hc hl
    subst hM
    refine (hT' r).done (h1.inv r) (fun d => ?_) hc (by rw [h1.live r]; exact hnil r hl)
    apply Bool.eq_false_iff.2
    intro ha
    cases (h1.listed.mem r d).1 ha

/-- The list holds every strategy that exists, once, and no strategy comes before one
that is built on it. -/
theorem creation_order {arr : Nat → Arr} {f : ∀ r, (arr r).sys.σ} {H L : Nat → Held} {M : Strategies arr}
    (h : ExecC arr f H L M) :
    (∀ r d, (arr r).alive d (f r) = true ↔ (⟨r, d⟩ : Σ r, (arr r).Spot) ∈ M) ∧ M.Nodup ∧
    ∀ M₁ M₂ r c d, M = M₁ ++ ⟨r, c⟩ :: M₂ → (arr r).under d c → (⟨r, d⟩ : Σ r, (arr r).Spot) ∈ M → ⟨r, d⟩ ∈ M₁ := by
  have hl := h.listed
  refine ⟨hl.mem, hl.nodup, fun M₁ M₂ r c d hM hu hd => ?_⟩
  rw [hM] at hd
  rcases List.mem_append.1 hd with hd | hd
  · exact hd
  rcases List.mem_cons.1 hd with hd | hd
  · injection hd with _ hd
    subst hd
    exact absurd hu ((arr r).under_irrefl d)
  · have h1 := hl.order
    rw [hM] at h1
    have h2 := (List.pairwise_cons.1 (List.pairwise_append.1 h1).2.1).1 _ hd
    exact absurd hu (h2 rfl)

/-! ## Concrete cases -/

/-- `drive` with the list of strategies. -/
def Arr.driveC (a : Arr) : List (a.sys.Cmd × List (Option Nat)) → a.sys.σ → Held → Held → List a.Spot →
    Option (a.sys.σ × Held × Held × List a.Spot)
  | [], t, O, L, M => .some (t, O, L, M)
  | (c, sc) :: cs, t, O, L, M =>
    if a.canB c t then
      match (a.sys.run c t).execOk sc O with
      | .some ((x, t'), O') => a.driveC cs t' O' ((a.req c).after x L)
          (match a.makes c with
            | .some d => if a.alive d t' then d :: M else M
            | .none => M)
      | .none => .none
    else .none

/-- Destroy strategies in the order of a list, with answers for each. -/
def Arr.driveEnd (a : Arr) : List (a.Spot × List (Option Nat)) → a.sys.σ → Held → Option (a.sys.σ × Held)
  | [], t, O => .some (t, O)
  | (c, sc) :: cs, t, O =>
    match (a.kill c t).execOk sc O with
    | .some (t', O') => a.driveEnd cs t' O'
    | .none => .none

/-- Everything on the resource 0. -/
def at0 {a : Arr} (M : List a.Spot) : Strategies fun _ => a := M.map fun d => ⟨0, d⟩

theorem driveC_exec {a : Arr} {cs : List (a.sys.Cmd × List (Option Nat))} {f : ∀ _ : Nat, a.sys.σ} {H L : Nat → Held}
    {M M' : List a.Spot} {t' : a.sys.σ} {O' L' : Held} (he : ExecC (fun _ => a) f H L (at0 M)) (hH : ∀ k, k ≠ 0 → H k = [])
    (hL : ∀ k, k ≠ 0 → L k = [])
    (h : a.driveC cs (f 0) (H 0) (L 0) M = some (t', O', L', M')) :
    ∃ f' H' L'', ExecC (fun _ => a) f' H' L'' (at0 M') ∧ f' 0 = t' ∧ H' 0 = O' ∧ L'' 0 = L' ∧ (∀ k, k ≠ 0 → H' k = []) ∧
      ∀ k, k ≠ 0 → L'' k = [] := by
  induction cs generalizing f H L M with
  | nil =>
    simp only [Arr.driveC, Option.some.injEq, Prod.mk.injEq] at h
    obtain ⟨h1, h2, h3, rfl⟩ := h
    exact ⟨f, H, L, he, h1, h2, h3, hH, hL⟩
  | cons c cs ih =>
    obtain ⟨c, sc⟩ := c
    unfold Arr.driveC at h
    by_cases hc : a.canB c (f 0) = true
    · rw [if_pos hc] at h
      split at h
      · rename_i x t1 O1 hx
        obtain ⟨H1, h1, h2, h3⟩ := run_srun (execOk_run sc hx) H rfl hH
        have he' := ExecC.step (arr := fun _ => a) he (a.canB_can hc) h1
        have hlog : logMade (fun _ => a) 0 c t1 (at0 M) = at0 (match a.makes c with
            | .some d => if a.alive d t1 then d :: M else M
            | .none => M) := by
          unfold logMade at0
          split
          · rename_i d hd
            rw [hd]
            simp only
            split <;> rfl
          · rename_i hd
            rw [hd]
        rw [hlog] at he'
        refine ih he' h3 (fun k hk => by rw [put_ne hk]; exact hL k hk) ?_
        rw [h2, put_same]
        have : upd (T := fun _ => Arr.sys a) f 0 t1 0 = t1 := upd_same (T := fun _ => Arr.sys a)
        rw [this]
        exact h
      · cases h
    · rw [if_neg hc] at h
      cases h

theorem driveEnd_ends {a : Arr} {f₀ : ∀ _ : Nat, a.sys.σ} {H₀ : Nat → Held} (ks : List (a.Spot × List (Option Nat)))
    {M₁ : Strategies fun _ => a} {f : ∀ _ : Nat, a.sys.σ} {H : Nat → Held} {t' : a.sys.σ} {O' : Held}
    (he : Ends (fun _ => a) M₁ f₀ H₀ f H) (hH : ∀ k, k ≠ 0 → H k = [])
    (h : a.driveEnd ks (f 0) (H 0) = some (t', O')) :
    ∃ f' H', Ends (fun _ => a) (M₁ ++ at0 (ks.map Prod.fst)) f₀ H₀ f' H' ∧ f' 0 = t' ∧ H' 0 = O' ∧ ∀ k, k ≠ 0 → H' k = [] := by
  induction ks generalizing f H M₁ with
  | nil =>
    simp only [Arr.driveEnd, Option.some.injEq, Prod.mk.injEq] at h
    refine ⟨f, H, ?_, h.1, h.2, hH⟩
    simp only [at0, List.map_nil, List.append_nil]
    exact he
  | cons c cs ih =>
    obtain ⟨c, sc⟩ := c
    unfold Arr.driveEnd at h
    split at h
    · rename_i t1 O1 hx
      obtain ⟨H1, h1, h2, h3⟩ := run_srun (execOk_run sc hx) H rfl hH
      have he' := Ends.snoc (arr := fun _ => a) he h1
      have := ih he' h3 (by
        rw [h2]
        have : upd (T := fun _ => Arr.sys a) f 0 t1 0 = t1 := upd_same (T := fun _ => Arr.sys a)
        rw [this]
        exact h)
      obtain ⟨f', H', h4, h5⟩ := this
      refine ⟨f', H', ?_, h5⟩
      rw [List.append_assoc] at h4
      exact h4
    · cases h

/-- Both from the start; `g` looks at the final state. -/
theorem driveC_start {a : Arr} {β : Type} (cs : List (a.sys.Cmd × List (Option Nat))) (ks : List (a.Spot × List (Option Nat)))
    (g : a.sys.σ → Held → β) {M : List a.Spot} {O L : Held} {b : β}
    (h : ((a.driveC cs a.sys.init [] [] []).bind fun r => (a.driveEnd ks r.1 r.2.1).map fun e => (g e.1 e.2, r.2)) =
      some (b, O, L, M)) :
    ∃ f H L₁ f' H', ExecC (fun _ => a) f H L₁ (at0 M) ∧ Ends (fun _ => a) (at0 (ks.map Prod.fst)) f H f' H' ∧
      g (f' 0) (H' 0) = b ∧ H 0 = O ∧ L₁ 0 = L ∧ (∀ k, k ≠ 0 → L₁ k = []) ∧ ∀ k, k ≠ 0 → H' k = [] := by
  cases hd : a.driveC cs a.sys.init [] [] [] with
  | none => rw [hd] at h; cases h
  | some r =>
    obtain ⟨t, O1, L1, M1⟩ := r
    rw [hd] at h
    simp only [Option.bind_some, Option.map_eq_some_iff, Prod.mk.injEq] at h
    obtain ⟨e, h1, rfl, rfl, rfl, rfl⟩ := h
    obtain ⟨f, H, L2, h2, rfl, rfl, rfl, h3, h4⟩ := driveC_exec (a := a) (f := fun _ => a.sys.init) (H := fun _ => [])
      (L := fun _ => []) (M := []) .init (fun _ _ => rfl) (fun _ _ => rfl) hd
    obtain ⟨f', H', h5, h6, h7, h8⟩ := driveEnd_ends ks .nil h3 h1
    exact ⟨f, H, L2, f', H', h2, h5, by rw [h6, h7], rfl, rfl, h4, h8⟩

theorem Ends.of_nil {arr : Nat → Arr} {M : Strategies arr} {f f' : ∀ r, (arr r).sys.σ} {H H' : Nat → Held}
    (h : Ends arr M f H f' H') (hM : M = []) : f' = f ∧ H' = H := by
  cases h with
  | nil => exact ⟨rfl, rfl⟩
  | snoc _ _ => simp at hM

theorem goes_sgoes {α : Type} {r : Nat} {p : Prog α} {O : Held} {b : Bad} (h : Goes p O b) :
    ∀ H : Nat → Held, H r = O → (∀ k, k ≠ r → H k = []) → SGoes r p H b := by
  induction h with
  | fail => intro H _ _; exact .fail
  | @allocOk n k O p b hp _ ih =>
    intro H h1 h2
    refine .allocOk ⟨hp.1, hp.2.1, fun k x hx => ?_⟩
      (ih (put H r ((p, n) :: H r)) (by rw [put_same, h1]) fun k hk => by rw [put_ne hk]; exact h2 k hk)
    by_cases hk : k = r
    · subst hk
      exact hp.2.2 x (h1 ▸ hx)
    · rw [h2 k hk] at hx
      cases hx
  | allocFail _ ih => intro H h1 h2; exact .allocFail (ih H h1 h2)
  | badFree hn => intro H h1 _; exact .badFree (h1 ▸ hn)
  | @dealloc p n k O b _ ih =>
    intro H h1 h2
    exact .dealloc (ih (put H r (Umpire.drop p (H r))) (by rw [put_same, h1]) fun k hk => by rw [put_ne hk]; exact h2 k hk)

instance Arr.Spot.decEq : (a : Arr) → DecidableEq a.Spot
  | .none => fun c _ => nomatch c
  | .node _ _ kids => letI := Arr.Spot.decEq kids; inferInstanceAs (DecidableEq (Option kids.Spot))
  | .par a b => letI := Arr.Spot.decEq a; letI := Arr.Spot.decEq b; inferInstanceAs (DecidableEq (a.Spot ⊕ b.Spot))

/-- Places in `exArr`. -/
def qSpot (c : Option (Option Empty ⊕ Option (Option Empty))) : exArr.Spot := Sum.inl c
def mSpot (c : Option (Option (Option Empty))) : exArr.Spot := Sum.inr (Sum.inl c)
def xSpot : exArr.Spot := Sum.inr (Sum.inr Option.none)

/-- The eight strategies of `exRun`, the newest first. -/
def exList : List exArr.Spot :=
  [xSpot, mSpot (some (some none)), mSpot (some none), mSpot none, qSpot (some (.inr (some none))), qSpot (some (.inr none)),
   qSpot (some (.inl none)), qSpot none]

/-- All allocations of `exRun` are returned, then the strategies are destroyed:
everything is back at the resource. -/
theorem exEnd : ∃ f H L f' H', ExecC (fun _ => exArr) f H L (at0 exList) ∧ Ends (fun _ => exArr) (at0 exList) f H f' H' ∧
    (H 0).length = 5 ∧ L 0 = [] ∧ H' 0 = [] ∧ ∀ k, k ≠ 0 → L k = [] := by
  obtain ⟨f, H, L, f', H', h1, h2, h3, h4, h5, h6, -⟩ := driveC_start (a := exArr)
    (exRun ++ [(qCmd (.down (.inl (.dealloc 4144))), []), (qCmd (.down (.inr (.dealloc 4208))), []),
      (qCmd (.down (.inr (.down (.dealloc 4256)))), []), (mCmd (.down (.dealloc 16384)), []),
      (mCmd (.down (.down (.dealloc 16404))), []), (xCmd (.dealloc 32768), []), (xCmd (.dealloc 40960), [])])
    (exList.map fun c => (c, [])) (fun _ O => O) (M := exList)
    (O := [(40960, 528), (36864, 64), (32768, 64), (16384, 1000), (4096, 528)]) (L := []) (b := []) (by decide +kernel)
  refine ⟨f, H, L, f', H', h1, ?_, by rw [h4]; rfl, h5, h3, h6⟩
  simpa only [List.map_map, Function.comp_def, List.map_id'] using h2

theorem exArr_clean : exArr.Clean := by simp [exArr, Arr.Clean, Kind.Clean]

/-- The hypotheses of `teardown_partial` hold for it. -/
example : ∃ f H L f' H', ExecC (fun _ => exArr) f H L (at0 exList ++ []) ∧ Ends (fun _ => exArr) (at0 exList) f H f' H' ∧
    (∀ _ : Nat, exArr.Fits (W - 1)) ∧ (∀ r, exArr.Lax ∨ exArr.Clean ∧ L r = []) := by
  obtain ⟨f, H, L, f', H', h1, h2, -, h3, -, h4⟩ := exEnd
  refine ⟨f, H, L, f', H', by rw [List.append_nil]; exact h1, h2, fun _ => exArr_fits, fun r => .inr ⟨exArr_clean, ?_⟩⟩
  by_cases h : r = 0
  · rw [h]; exact h3
  · exact h4 r h

/-- A `QuickPool` on a `QuickPool`. -/
def laxArr : Arr := .node (.quick exQuick 5) (W - 50) (.node (.dyn exDyn fun _ => 0) (W - 100) .none)

theorem laxArr_fits : laxArr.Fits (W - 1) := by
  have hq : QHeur exQuick.heur AMax := ⟨Nat.le_refl _, fun s => .inl (Nat.zero_le _)⟩
  have hd : DHeur (fun _ => 0) AMax := ⟨Nat.le_refl _, fun s => .inl (Nat.zero_le _)⟩
  exact ⟨⟨by decide, by decide, by decide, by decide, by decide, AMax, hq, by decide⟩,
    ⟨⟨by decide, by decide, by decide, by decide, by decide, AMax, hd, by decide⟩, trivial, .inl trivial⟩, .inl trivial⟩

/-- Allocations that were never returned, on both levels: the memory stays. -/
example : ∃ f H L f' H', ExecC (fun _ => laxArr) f H L (at0 (a := laxArr) [some none, none] ++ []) ∧
    Ends (fun _ => laxArr) (at0 (a := laxArr) [some none, none]) f H f' H' ∧ (∀ _ : Nat, laxArr.Fits (W - 1)) ∧
    (∀ r, laxArr.Lax ∨ laxArr.Clean ∧ L r = []) ∧ (L 0).length = 2 ∧ H' 0 = [(8192, 528), (4096, 528)] := by
  obtain ⟨f, H, L, f', H', h1, h2, h3, h4, h5, h6, -⟩ := driveC_start (a := laxArr)
    [(.make, []), (.alloc 500, [some 4096]), (.down .make, []), (.down (.alloc 10), [some 8192])]
    [(some none, []), (none, [])] (fun _ O => O) (M := [some none, none])
    (O := [(8192, 528), (4096, 528)]) (L := [(8192, 10), (4096, 500)]) (b := [(8192, 528), (4096, 528)]) (by decide +kernel)
  refine ⟨f, H, L, f', H', by rw [List.append_nil]; exact h1, h2, fun _ => laxArr_fits, fun r => .inl ?_, by rw [h5]; rfl, h3⟩
  simp [laxArr, Arr.Lax, Kind.Strict]

/-! ## What goes wrong otherwise -/

/-- The order matters: once the `QuickPool` has been destroyed, the destructor of the
pool on top of it is undefined behaviour. -/
theorem teardown_order_counterexample : ∃ f H L f' H', ExecC (fun _ => laxArr) f H L (at0 (a := laxArr) [some none, none]) ∧
    Ends (fun _ => laxArr) (at0 (a := laxArr) [none]) f H f' H' ∧ L 0 = [] ∧ SGoes 0 (laxArr.kill (some none) (f' 0)) H' .ub := by
  obtain ⟨f, H, L, f', H', h1, h2, h3, h4, h5, h6, h7⟩ := driveC_start (a := laxArr)
    [(.make, []), (.down .make, []), (.down (.alloc 10), [some 8192]), (.down (.dealloc 8192), [])]
    [(none, [])] (fun t O => (laxArr.kill (some none) t).execBad [] O) (M := [some none, none])
    (O := [(8192, 528)]) (L := []) (b := some .ub) (by decide +kernel)
  exact ⟨f, H, L, f', H', h1, h2, h5, goes_sgoes (execBad_goes [] h3) H' rfl h7⟩

/-- A `MonotonicAllocationStrategy`. -/
def monoArr : Arr := .node (.mono 1000) 64 .none

/-- Its destructor hands back its block (MonotonicAllocationStrategy.cpp:26-29) under
allocations that have not been returned. -/
theorem teardown_mono_counterexample : ∃ f H L f' H', ExecC (fun _ => monoArr) f H L (at0 (a := monoArr) [Option.none]) ∧
    Ends (fun _ => monoArr) (at0 (a := monoArr) [Option.none]) f H f' H' ∧ monoArr.Fits (W - 1) ∧ L 0 = [(4096, 20)] ∧ H' 0 = [] := by
  obtain ⟨f, H, L, f', H', h1, h2, h3, h4, h5, h6, h7⟩ := driveC_start (a := monoArr)
    [(.make, [some 4096]), (.alloc 20, [])] [(none, [])] (fun _ O => O) (M := [none])
    (O := [(4096, 1000)]) (L := [(4096, 20)]) (b := []) (by decide +kernel)
  exact ⟨f, H, L, f', H', h1, h2, ⟨⟨by decide, by decide⟩, trivial, .inl trivial⟩, h5, h3⟩

/-- A `SlotPool`. -/
def slotsArr : Arr := .node (.slots 2) 64 .none

/-- The destructor of a `SlotPool` (SlotPool.cpp:34-46) hands back what has not been
returned, with a negative size. -/
theorem teardown_slots_counterexample : ∃ f H L, ExecC (fun _ => slotsArr) f H L (at0 (a := slotsArr) [Option.none]) ∧ slotsArr.Fits (W - 1) ∧
    L 0 = [(4096, 20)] ∧ SGoes 0 (slotsArr.kill none (f 0)) H .ub := by
  obtain ⟨f, H, L, f', H', h1, h2, h3, h4, h5, h6, h7⟩ := driveC_start (a := slotsArr)
    [(.make, []), (.alloc 20, [some 4096])] [] (fun t O => (slotsArr.kill none t).execBad [] O) (M := [none])
    (O := [(4096, 20)]) (L := [(4096, 20)]) (b := some .ub) (by decide +kernel)
  obtain ⟨rfl, rfl⟩ := h2.of_nil rfl
  exact ⟨f', H', L, h1, ⟨show (64 : Nat) ≤ W - 1 by decide, trivial, .inr rfl⟩, h5, goes_sgoes (execBad_goes [] h3) H' rfl h7⟩

/-- An `AllocationAdvisor` whose advice is refused. -/
def adviceArr : Arr := .node (.forward (Forward.advisor fun _ _ => false)) 64 .none

/-- Then the memory is lost: `allocate` threw, nobody can return it, and the
destructor does not know about it. -/
theorem teardown_leak_counterexample : ∃ f H L f' H', ExecC (fun _ => adviceArr) f H L (at0 (a := adviceArr) [none]) ∧
    Ends (fun _ => adviceArr) (at0 (a := adviceArr) [none]) f H f' H' ∧ adviceArr.Fits (W - 1) ∧ L 0 = [] ∧ H' 0 = [(4096, 20)] := by
  obtain ⟨f, H, L, f', H', h1, h2, h3, h4, h5, h6, h7⟩ := driveC_start (a := adviceArr)
    [(.make, []), (.alloc 20, [some 4096])] [(none, [])] (fun _ O => O) (M := [none])
    (O := [(4096, 20)]) (L := []) (b := [(4096, 20)]) (by decide +kernel)
  exact ⟨f, H, L, f', H', h1, h2, ⟨show (64 : Nat) ≤ W - 1 by decide, trivial, .inl trivial⟩, h5, h3⟩

end Umpire.Nest
