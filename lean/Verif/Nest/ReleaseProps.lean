import Verif.Nest.Release
/-!
# C80: releasing every allocator
-/
set_option autoImplicit false
set_option linter.unusedSimpArgs false
namespace Umpire.Nest
open Umpire.Prog

/-- C80.  `M` are allocators on which `release` is called one after the other, none of
them after one that it is built on, and every allocator that exists is among them.
Afterwards the memory held from a resource is what its users have not returned and
nothing else: every allocation `x` that is live lies in a block that is held, and every
block that is held contains one.

Partial: sizes fit together (`Arr.Fits`); the second part is for resources without
`MixedPool`, `MonotonicAllocationStrategy` and `SlotPool`, and with operations on new
allocations that do not fail (`Arr.Frees`; `…_counterexample` below). -/
theorem release_all_partial {arr : Nat → Arr} (hF : ∀ r, (arr r).Fits (W - 1)) {f f' : ∀ r, (arr r).sys.σ} {H H' L : Nat → Held}
    {M₀ M : Strategies arr} (h : ExecC arr f H L M₀) (hs : Sweep arr M f H f' H') (hM : M.Pairwise NotUnder)
    (ha : ∀ r c, (arr r).alive c (f r) = true → (⟨r, c⟩ : Σ r, (arr r).Spot) ∈ M) :
    (∀ r, ∀ x ∈ L r, ∃ o ∈ H' r, o.1 ≤ x.1 ∧ x.1 + x.2 ≤ o.1 + o.2) ∧
    ∀ r, (arr r).Frees → ∀ o ∈ H' r, ∃ x ∈ L r, o.1 ≤ x.1 ∧ x.1 + x.2 ≤ o.1 + o.2 := by
  have h' := hs.exec h
  refine ⟨fun r x hx => ((nested_safe_partial hF h'.exec).2.2 r x hx).2, ?_⟩
  have hT : ∀ r, ∃ I J, (arr r).Frees → (arr r).RelOk (W - 1) I J := by
    intro r
    by_cases hf : (arr r).Frees
    · obtain ⟨I, J, hI⟩ := (arr r).okRel (hF r) hf
      exact ⟨I, J, fun _ => hI⟩
    · exact ⟨fun _ _ => True, fun _ _ _ => True, fun hf' => absurd hf' hf⟩
  have hT' := fun r => Classical.choose_spec (Classical.choose_spec (hT r))
  have hok := fun r => Classical.choose_spec ((arr r).ok (hF r))
  have hw : ∀ {M' f' H'}, Sweep arr M' f H f' H' → World H' := fun hs => ((hs.exec h).exec.reach.inv hok).2
  intro r hf o ho
  -- the invariant of the resource `r` alone
  have hi : (Classical.choose (hT r)) (f r) (H r) := by
    have hI := (hT' r hf).ok
    have h3 : ∀ k, ∃ I, (arr k).sys.Ok (Upto (W - 1)) I ∧ ∀ e : k = r, HEq I (Classical.choose (hT r)) := by
      intro k
      by_cases e : k = r
      · subst e; exact ⟨_, hI, fun _ => HEq.rfl⟩
      · exact ⟨_, hok k, fun e' => absurd e' e⟩
    have h4 := fun k => Classical.choose_spec (h3 k)
    have h5 := (h.exec.reach.inv fun k => (h4 k).1).1 r
    have h6 := eq_of_heq ((h4 r).2 rfl)
    rw [h6] at h5
    exact h5
  have h1 := hs.inv (P := fun k => k = r ∧ (arr k).Frees) (fun k hk => hT' k hk.2) hM
    (fun k hk => by obtain ⟨rfl, _⟩ := hk; exact hi) hw r ⟨rfl, hf⟩
  have hl := h'.listed
  have h2 := (hT' r hf).done h1 (fun c hc => ha r c ?_) o ho
  · obtain ⟨x, hx, hw⟩ := h2
    exact ⟨x, (h'.exec.ledger hok r).mem_iff.2 hx, hw⟩
  · exact (h.listed.mem r c).2 ((hl.mem r c).1 hc)

/-- In particular, without live allocations everything is back at the resource. -/
theorem release_empty_partial {arr : Nat → Arr} (hF : ∀ r, (arr r).Fits (W - 1)) {f f' : ∀ r, (arr r).sys.σ} {H H' L : Nat → Held}
    {M : Strategies arr} (h : ExecC arr f H L M) (hs : Sweep arr M f H f' H') {r : Nat} (hf : (arr r).Frees) (hL : L r = []) :
    H' r = [] := by
  have hl := h.listed
  have h1 := (release_all_partial hF h hs hl.order fun r c hc => (hl.mem r c).1 hc).2 r hf
  refine List.eq_nil_iff_forall_not_mem.2 fun o ho => ?_
  obtain ⟨x, hx, -⟩ := h1 o ho
  rw [hL] at hx
  cases hx

/-- Strategies with a `release` of their own that does something. -/
def Kind.Pools : Kind → Prop
  | .quick _ _ => True
  | .dyn _ _ => True
  | .fixed _ => True
  | _ => False

/-- `release` of any other allocator does nothing at all, also not to the pool it is
built on; it does not fail either. -/
theorem release_other (a : Arr) {c : a.Spot} {t : a.sys.σ} (hc : a.sys.can (a.rel c) t) (hk : ¬ (a.stratAt c).Pools) :
    a.sys.run (a.rel c) t = .ret (Option.none, t) := by
  induction a with
  | none => cases c
  | node k cap kids ih =>
    obtain ⟨own, user, ks⟩ := t
    cases own with
    | none =>
      cases c with
      | none => exact absurd hc (by simp [Arr.rel, Arr.sys, Sys.node])
      | some c => exact absurd hc.1 (by simp)
    | some s =>
      cases c with
      | none =>
        have : k.strat.op k.rel s = .ret s := by
          cases k with
          | quick _ _ => exact absurd trivial hk
          | dyn _ _ => exact absurd trivial hk
          | fixed _ => exact absurd trivial hk
          | _ => rfl
        show (k.strat.op k.rel s).bind _ = _
        rw [this]
        rfl
      | some c =>
        have := ih (c := c) hc.2 hk
        show (through k.strat (kids.sys.run (kids.rel c) ks) s).bind _ = _
        rw [this]
        rfl
  | par a b iha ihb =>
    obtain ⟨x, y⟩ := t
    cases c with
    | inl c =>
      show (a.sys.run (a.rel c) x).bind _ = _
      rw [iha hc hk]
      rfl
    | inr c =>
      show (b.sys.run (b.rel c) y).bind _ = _
      rw [ihb hc hk]
      rfl

/-! ## Concrete cases -/

/-- Call `release` on the allocators of a list, with answers for each. -/
def Arr.driveRel (a : Arr) : List (a.Spot × List (Option Nat)) → a.sys.σ → Held → Option (a.sys.σ × Held)
  | [], t, O => .some (t, O)
  | (c, sc) :: cs, t, O =>
    if a.canB (a.rel c) t then
      match (a.sys.run (a.rel c) t).execOk sc O with
      | .some ((_, t'), O') => a.driveRel cs t' O'
      | .none => .none
    else .none

theorem driveRel_sweep {a : Arr} {f₀ : ∀ _ : Nat, a.sys.σ} {H₀ : Nat → Held} (ks : List (a.Spot × List (Option Nat)))
    {M₁ : Strategies fun _ => a} {f : ∀ _ : Nat, a.sys.σ} {H : Nat → Held} {t' : a.sys.σ} {O' : Held}
    (he : Sweep (fun _ => a) M₁ f₀ H₀ f H) (hH : ∀ k, k ≠ 0 → H k = [])
    (h : a.driveRel ks (f 0) (H 0) = some (t', O')) :
    ∃ f' H', Sweep (fun _ => a) (M₁ ++ at0 (ks.map Prod.fst)) f₀ H₀ f' H' ∧ f' 0 = t' ∧ H' 0 = O' ∧ ∀ k, k ≠ 0 → H' k = [] := by
  induction ks generalizing f H M₁ with
  | nil =>
    simp only [Arr.driveRel, Option.some.injEq, Prod.mk.injEq] at h
    refine ⟨f, H, ?_, h.1, h.2, hH⟩
    simp only [at0, List.map_nil, List.append_nil]
    exact he
  | cons c cs ih =>
    obtain ⟨c, sc⟩ := c
    unfold Arr.driveRel at h
    by_cases hc : a.canB (a.rel c) (f 0) = true
    · rw [if_pos hc] at h
      split at h
      · rename_i x t1 O1 hx
        obtain ⟨H1, h1, h2, h3⟩ := run_srun (execOk_run sc hx) H rfl hH
        have he' := Sweep.snoc (arr := fun _ => a) he (a.canB_can hc) h1
        have := ih he' h3 (by
          rw [h2]
          have : upd (T := fun _ => Arr.sys a) f 0 t1 0 = t1 := upd_same (T := fun _ => Arr.sys a)
          rw [this]
          exact h)
        obtain ⟨f', H', h4, h5⟩ := this
        refine ⟨f', H', ?_, h5⟩
        rw [List.append_assoc] at h4
        exact h4
      · cases h
    · rw [if_neg hc] at h
      cases h

/-- Both from the start. -/
theorem driveRel_start {a : Arr} (cs : List (a.sys.Cmd × List (Option Nat))) (ks : List (a.Spot × List (Option Nat)))
    {M : List a.Spot} {O L O' : Held}
    (h : ((a.driveC cs a.sys.init [] [] []).bind fun r => (a.driveRel ks r.1 r.2.1).map fun e => (e.2, r.2)) =
      some (O', O, L, M)) :
    ∃ f H L₁ f' H', ExecC (fun _ => a) f H L₁ (at0 M) ∧ Sweep (fun _ => a) (at0 (ks.map Prod.fst)) f H f' H' ∧
      H' 0 = O' ∧ H 0 = O ∧ L₁ 0 = L ∧ (∀ k, k ≠ 0 → L₁ k = []) ∧ ∀ k, k ≠ 0 → H' k = [] := by
  cases hd : a.driveC cs a.sys.init [] [] [] with
  | none => rw [hd] at h; cases h
  | some r =>
    obtain ⟨t, O1, L1, M1⟩ := r
    rw [hd] at h
    simp only [Option.bind_some, Option.map_eq_some_iff, Prod.mk.injEq] at h
    obtain ⟨e, h1, rfl, rfl, rfl, rfl⟩ := h
    obtain ⟨f, H, L2, h2, rfl, rfl, rfl, h3, h4⟩ := driveC_exec (a := a) (f := fun _ => a.sys.init) (H := fun _ => [])
      (L := fun _ => []) (M := []) .init (fun _ _ => rfl) (fun _ _ => rfl) hd
    obtain ⟨f', H', h5, h6, h7, h8⟩ := driveRel_sweep ks .nil h3 h1
    exact ⟨f, H, L2, f', H', h2, h5, h7, rfl, rfl, h4, h8⟩

/-- A `FixedPool` and a `DynamicPoolList` on a `QuickPool`. -/
def relArr : Arr :=
  .node (.quick exQuick 5) (W - 50) (.par (.node (.fixed ⟨16, 4⟩) 16 .none)
    (.node (.dyn exDyn fun _ => 0) (W - 100) (.node (.forward Forward.named) 1000 .none)))

theorem relArr_fits : relArr.Fits (W - 1) := by
  have hq : QHeur exQuick.heur AMax := ⟨Nat.le_refl _, fun s => .inl (Nat.zero_le _)⟩
  have hd : DHeur (fun _ => 0) AMax := ⟨Nat.le_refl _, fun s => .inl (Nat.zero_le _)⟩
  exact ⟨⟨by decide, by decide, by decide, by decide, by decide, AMax, hq, by decide⟩,
      ⟨⟨⟨⟨by decide, by decide, by decide⟩, by decide, by decide⟩, trivial, .inl trivial⟩,
      ⟨⟨by decide, by decide, by decide, by decide, by decide, AMax, hd, by decide⟩,
        ⟨show (1000 : Nat) ≤ W - 100 by decide, trivial, .inl trivial⟩, .inl trivial⟩⟩,
      .inl trivial⟩

theorem relArr_frees : relArr.Frees := by
  simp only [relArr, Arr.Frees, Kind.Frees, and_true, true_and]
  exact fun _ _ => rfl

/-- Its four allocators, the newest first. -/
def relList : List relArr.Spot := [some (.inr (some none)), some (.inr none), some (.inl none), none]

/-- Three allocations from two blocks of the resource, one of them is live; releasing
everything gives one of the blocks back. -/
example : ∃ f H L f' H', ExecC (fun _ => relArr) f H L (at0 relList) ∧ Sweep (fun _ => relArr) (at0 relList) f H f' H' ∧
    (at0 relList).Pairwise NotUnder ∧
    (∀ r c, relArr.alive c (f r) = true → (⟨r, c⟩ : Σ _ : Nat, relArr.Spot) ∈ at0 relList) ∧
    (∀ _ : Nat, relArr.Fits (W - 1) ∧ relArr.Frees) ∧ L 0 = [(8192, 10)] ∧
    H 0 = [(8192, 528), (4096, 528)] ∧ H' 0 = [(8192, 528)] := by
  obtain ⟨f, H, L, f', H', h1, h2, h3, h4, h5, -, -⟩ := driveRel_start (a := relArr)
    [(.make, []), (.down (.inl .make), [some 4096]), (.down (.inr .make), []), (.down (.inr (.down .make)), []),
     (.down (.inl (.alloc 16)), []), (.alloc 400, []), (.down (.inr (.down (.alloc 10))), [some 8192]),
     (.down (.inl (.dealloc 4096)), []), (.dealloc 4160, [])]
    (relList.map fun c => (c, [])) (M := relList)
    (O := [(8192, 528), (4096, 528)]) (L := [(8192, 10)]) (O' := [(8192, 528)]) (by decide +kernel)
  refine ⟨f, H, L, f', H', h1, ?_, h1.listed.order, fun r c hc => (h1.listed.mem r c).1 hc,
    fun _ => ⟨relArr_fits, relArr_frees⟩, h5, h4, h3⟩
  simpa only [List.map_map, Function.comp_def, List.map_id'] using h2

/-- Everything returned, everything released. -/
example : ∃ f H L f' H', ExecC (fun _ => relArr) f H L (at0 relList) ∧ Sweep (fun _ => relArr) (at0 relList) f H f' H' ∧
    L 0 = [] ∧ (H 0).length = 2 ∧ H' 0 = [] := by
  obtain ⟨f, H, L, f', H', h1, h2, h3, h4, h5, -, -⟩ := driveRel_start (a := relArr)
    [(.make, []), (.down (.inl .make), [some 4096]), (.down (.inr .make), []), (.down (.inr (.down .make)), []),
     (.down (.inl (.alloc 16)), []), (.alloc 400, []), (.down (.inr (.down (.alloc 10))), [some 8192]),
     (.down (.inl (.dealloc 4096)), []), (.dealloc 4160, []), (.down (.inr (.down (.dealloc 8192))), [])]
    (relList.map fun c => (c, [])) (M := relList)
    (O := [(8192, 528), (4096, 528)]) (L := []) (O' := []) (by decide +kernel)
  refine ⟨f, H, L, f', H', h1, ?_, h5, by rw [h4]; rfl, h3⟩
  simpa only [List.map_map, Function.comp_def, List.map_id'] using h2

/-- The allocator with a name of its own is not a pool, and exists. -/
example : ∃ f H L, ∃ _ : ExecC (fun _ => relArr) f H L (at0 relList),
    relArr.sys.can (relArr.rel (some (.inr (some none)))) (f 0) ∧ ¬ (relArr.stratAt (some (.inr (some none)))).Pools := by
  obtain ⟨f, H, L, f', H', h1, h2, -⟩ := driveRel_start (a := relArr)
    [(.make, []), (.down (.inl .make), [some 4096]), (.down (.inr .make), []), (.down (.inr (.down .make)), [])] [] (M := relList)
    (O := [(4096, 528)]) (L := []) (O' := [(4096, 528)]) (by decide +kernel)
  refine ⟨f, H, L, h1, (relArr.can_rel (h1.listed.closed 0)).2 ((h1.listed.mem 0 _).2 ?_), id⟩
  decide

/-! ## What goes wrong otherwise -/

/-- The pool below first, then the one on top of it: the block that the second call
returns to the pool below stays there. -/
theorem release_order_counterexample : ∃ f H L f' H', ExecC (fun _ => laxArr) f H L (at0 (a := laxArr) [some none, none]) ∧
    Sweep (fun _ => laxArr) (at0 (a := laxArr) [none, some none]) f H f' H' ∧ laxArr.Fits (W - 1) ∧ laxArr.Frees ∧ L 0 = [] ∧
    H' 0 = [(8192, 528)] := by
  obtain ⟨f, H, L, f', H', h1, h2, h3, h4, h5, -, -⟩ := driveRel_start (a := laxArr)
    [(.make, []), (.down .make, []), (.down (.alloc 10), [some 8192]), (.down (.dealloc 8192), [])]
    [(none, []), (some none, [])] (M := [some none, none])
    (O := [(8192, 528)]) (L := []) (O' := [(8192, 528)]) (by decide +kernel)
  exact ⟨f, H, L, f', H', h1, h2, laxArr_fits, by simp [laxArr, Arr.Frees, Kind.Frees], h5, h3⟩

/-- A `ThreadSafeAllocator` around a pool. -/
def safeArr : Arr := .node (.quick exQuick 5) (W - 50) (.node (.forward Forward.threadSafe) 1000 .none)

theorem safeArr_fits : safeArr.Fits (W - 1) := by
  have hq : QHeur exQuick.heur AMax := ⟨Nat.le_refl _, fun s => .inl (Nat.zero_le _)⟩
  exact ⟨⟨by decide, by decide, by decide, by decide, by decide, AMax, hq, by decide⟩,
    ⟨show (1000 : Nat) ≤ W - 50 by decide, trivial, .inl trivial⟩, .inl trivial⟩

/-- A user who only knows the `ThreadSafeAllocator` cannot make the pool give anything
back. -/
theorem release_wrapper_counterexample : ∃ f H L f' H', ExecC (fun _ => safeArr) f H L (at0 (a := safeArr) [some none, none]) ∧
    Sweep (fun _ => safeArr) (at0 (a := safeArr) [some none]) f H f' H' ∧ safeArr.Fits (W - 1) ∧ L 0 = [] ∧
    H' 0 = [(8192, 528)] := by
  obtain ⟨f, H, L, f', H', h1, h2, h3, h4, h5, -, -⟩ := driveRel_start (a := safeArr)
    [(.make, []), (.down .make, []), (.down (.alloc 10), [some 8192]), (.down (.dealloc 8192), [])]
    [(some none, [])] (M := [some none, none])
    (O := [(8192, 528)]) (L := []) (O' := [(8192, 528)]) (by decide +kernel)
  exact ⟨f, H, L, f', H', h1, h2, safeArr_fits, h5, h3⟩

/-- A `MixedPool`. -/
def mixedArr : Arr := .node (.mixed exMixed 5) 1000 .none

theorem mixedArr_fits : mixedArr.Fits (W - 1) := by
  have hq : QHeur exQuick.heur AMax := ⟨Nat.le_refl _, fun s => .inl (Nat.zero_le _)⟩
  exact ⟨⟨⟨by decide, by decide, by decide, by decide, by decide, AMax, hq, by decide⟩, by decide, by decide, by decide, by decide⟩,
    trivial, .inl trivial⟩

/-- `MixedPool::release` is not implemented (MixedPool.cpp:96-99). -/
theorem release_mixed_counterexample : ∃ f H L f' H', ExecC (fun _ => mixedArr) f H L (at0 (a := mixedArr) [none]) ∧
    Sweep (fun _ => mixedArr) (at0 (a := mixedArr) [none]) f H f' H' ∧ mixedArr.Fits (W - 1) ∧ L 0 = [] ∧
    H' 0 = [(40960, 528), (36864, 64), (32768, 64)] := by
  obtain ⟨f, H, L, f', H', h1, h2, h3, h4, h5, -, -⟩ := driveRel_start (a := mixedArr)
    [(.make, [some 32768, some 36864]), (.alloc 100, [some 40960]), (.dealloc 40960, [])]
    [(none, [])] (M := [none])
    (O := [(40960, 528), (36864, 64), (32768, 64)]) (L := []) (O' := [(40960, 528), (36864, 64), (32768, 64)]) (by decide +kernel)
  exact ⟨f, H, L, f', H', h1, h2, mixedArr_fits, h5, h3⟩

/-- A `MonotonicAllocationStrategy` has no `release`. -/
theorem release_mono_counterexample : ∃ f H L f' H', ExecC (fun _ => monoArr) f H L (at0 (a := monoArr) [none]) ∧
    Sweep (fun _ => monoArr) (at0 (a := monoArr) [none]) f H f' H' ∧ monoArr.Fits (W - 1) ∧ L 0 = [] ∧ H' 0 = [(4096, 1000)] := by
  obtain ⟨f, H, L, f', H', h1, h2, h3, h4, h5, -, -⟩ := driveRel_start (a := monoArr)
    [(.make, [some 4096]), (.alloc 20, []), (.dealloc 4096, [])] [(none, [])] (M := [none])
    (O := [(4096, 1000)]) (L := []) (O' := [(4096, 1000)]) (by decide +kernel)
  exact ⟨f, H, L, f', H', h1, h2, ⟨⟨by decide, by decide⟩, trivial, .inl trivial⟩, h5, h3⟩

/-- Neither has a `SlotPool`, which keeps what users return. -/
theorem release_slots_counterexample : ∃ f H L f' H', ExecC (fun _ => slotsArr) f H L (at0 (a := slotsArr) [none]) ∧
    Sweep (fun _ => slotsArr) (at0 (a := slotsArr) [none]) f H f' H' ∧ slotsArr.Fits (W - 1) ∧ L 0 = [] ∧ H' 0 = [(4096, 20)] := by
  obtain ⟨f, H, L, f', H', h1, h2, h3, h4, h5, -, -⟩ := driveRel_start (a := slotsArr)
    [(.make, []), (.alloc 20, [some 4096]), (.dealloc 4096, [])] [(none, [])] (M := [none])
    (O := [(4096, 20)]) (L := []) (O' := [(4096, 20)]) (by decide +kernel)
  exact ⟨f, H, L, f', H', h1, h2, ⟨show (64 : Nat) ≤ W - 1 by decide, trivial, .inr rfl⟩, h5, h3⟩

/-- Memory on which the advice failed is nobody's. -/
theorem release_leak_counterexample : ∃ f H L f' H', ExecC (fun _ => adviceArr) f H L (at0 (a := adviceArr) [none]) ∧
    Sweep (fun _ => adviceArr) (at0 (a := adviceArr) [none]) f H f' H' ∧ adviceArr.Fits (W - 1) ∧ L 0 = [] ∧ H' 0 = [(4096, 20)] := by
  obtain ⟨f, H, L, f', H', h1, h2, h3, h4, h5, -, -⟩ := driveRel_start (a := adviceArr)
    [(.make, []), (.alloc 20, [some 4096])] [(none, [])] (M := [none])
    (O := [(4096, 20)]) (L := []) (O' := [(4096, 20)]) (by decide +kernel)
  exact ⟨f, H, L, f', H', h1, h2, ⟨show (64 : Nat) ≤ W - 1 by decide, trivial, .inl trivial⟩, h5, h3⟩

end Umpire.Nest
