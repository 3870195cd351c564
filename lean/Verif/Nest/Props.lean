import Verif.Nest.Drive
/-!
# C36: any nesting of strategies
-/
set_option autoImplicit false
set_option linter.unusedSimpArgs false
namespace Umpire.Nest
open Umpire.Prog

/-- C36.  `arr r` is what is built on resource `r`.  `L r` are the live allocations
according to the requests and answers alone, `H r` the memory held from `r`.

Partial: the sizes have to fit together (`Arr.Fits`), and nothing may be built on a
`SlotPool`; the `…_counterexample` theorems below show what happens otherwise. -/
theorem nested_safe_partial {arr : Nat → Arr} (hF : ∀ r, (arr r).Fits (W - 1)) {f : ∀ r, (arr r).sys.σ} {H L : Nat → Held}
    (h : Exec arr f H L) :
    (∀ r, (L r).Pairwise fun x y => Disj x.1 x.2 y.1 y.2) ∧
    (∀ r k, r ≠ k → ∀ x ∈ L r, ∀ y ∈ L k, Disj x.1 x.2 y.1 y.2) ∧
    (∀ r, ∀ x ∈ L r, 0 < x.2 ∧ ∃ o ∈ H r, o.1 ≤ x.1 ∧ x.1 + x.2 ≤ o.1 + o.2) := by
  have hT := fun r => (arr r).ok (hF r)
  have hT' := fun r => Classical.choose_spec (hT r)
  have hl := h.reach.live hT'
  have hp := h.ledger hT'
  refine ⟨fun r => ?_, fun r k hrk x hx y hy => hl.2 r k hrk x ((hp r).mem_iff.1 hx) y ((hp k).mem_iff.1 hy), fun r x hx => ?_⟩
  · exact perm_disjoint (hp r).symm (hl.1 r).disj
  · have hx' := (hp r).mem_iff.1 hx
    exact ⟨(hl.1 r).upos x hx', (hl.1 r).cov x hx'⟩

/-- C36, the step from a reachable state: no command of any user leads to undefined
behaviour, and memory that goes back to a resource on the way overlaps no allocation
of any user that stays live. -/
theorem nested_step_safe_partial {arr : Nat → Arr} (hF : ∀ r, (arr r).Fits (W - 1)) {f : ∀ r, (arr r).sys.σ} {H L : Nat → Held}
    (h : Exec arr f H L) {r : Nat} {c : (arr r).sys.Cmd} (hc : (arr r).sys.can c (f r)) :
    (¬ SGoes r ((arr r).sys.run c (f r)) H .ub) ∧
    ∀ q m, SFrees r ((arr r).sys.run c (f r)) H q m →
      (∀ l ∈ ((arr r).req c).stay (L r), Disj l.1 l.2 q m) ∧ ∀ k, k ≠ r → ∀ l ∈ L k, Disj l.1 l.2 q m := by
  have hT := fun r => (arr r).ok (hF r)
  have hT' := fun r => Classical.choose_spec (hT r)
  have hn := h.reach.next hT' hc
  have hp := h.ledger hT'
  have hs := good_sound ((h.reach.live hT').1 r)
  refine ⟨hn.1, fun q m hf => ?_⟩
  have h1 := hn.2 q m hf
  refine ⟨fun l hl => h1.1 l ?_, fun k hk l hl => h1.2 k hk l ((hp k).mem_iff.1 hl)⟩
  rw [stay_eq] at hl
  have h2 := (after_perm (q := (arr r).req c) (x := none) (hp r)).mem_iff.1 hl
  rw [← stay_eq] at h2
  exact ((arr r).stays hc hs).mem_iff.1 h2

/-! ## Concrete cases -/

/-- A pool without coalescing. -/
def exQuick : QuickPool.Cfg := ⟨16, 512, 512, fun _ => 0⟩
def exDyn : DynPool.Cfg := ⟨16, 128, 128⟩
def exMixed : MixedPool.Cfg := ⟨8, 16, 64, 2, exQuick⟩

/-- Two pools sharing a `QuickPool`, one of them with an `AlignedAllocator` on top,
next to it a limited `MonotonicAllocationStrategy` with a `SlotPool`, and a
`MixedPool`. -/
def exArr : Arr :=
  .par
    (.node (.quick exQuick 5) (W - 50) (.par
      (.node (.fixed ⟨16, 4⟩) 16 .none)
      (.node (.dyn exDyn fun _ => 0) (W - 100) (.node (.aligned 32) 1000 .none))))
    (.par
      (.node (.mono 1000) 64 (.node (.limiter 32) 64 (.node (.slots 2) 64 .none)))
      (.node (.mixed exMixed 5) 1000 .none))

theorem W_eq : W = 18446744073709551616 := by decide

theorem exArr_fits : exArr.Fits (W - 1) := by
  have hq : QHeur exQuick.heur AMax := ⟨Nat.le_refl _, fun s => .inl (Nat.zero_le _)⟩
  have hd : DHeur (fun _ => 0) AMax := ⟨Nat.le_refl _, fun s => .inl (Nat.zero_le _)⟩
  refine ⟨⟨⟨by decide, by decide, by decide, by decide, by decide, AMax, hq, by decide⟩,
      ⟨⟨⟨⟨by decide, by decide, by decide⟩, by decide, by decide⟩, trivial, .inl trivial⟩,
      ⟨⟨by decide, by decide, by decide, by decide, by decide, AMax, hd, by decide⟩, ⟨⟨by decide, by decide⟩, trivial, .inl trivial⟩, .inl trivial⟩⟩,
      .inl trivial⟩,
    ⟨⟨by decide, by decide⟩, ⟨?_, ⟨?_, trivial, .inr rfl⟩, .inl trivial⟩, .inl trivial⟩,
    ⟨⟨by decide, by decide, by decide, by decide, by decide, AMax, hq, by decide⟩, by decide, by decide, by decide, by decide⟩, trivial, .inl trivial⟩
  · exact Nat.le_refl _
  · exact Nat.le_refl _

/-- Commands for parts of `exArr`. -/
def qCmd (c : NodeCmd PoolOp (NodeCmd PoolOp Empty ⊕ NodeCmd PoolOp (NodeCmd PoolOp Empty))) : exArr.sys.Cmd := Sum.inl c
def mCmd (c : NodeCmd PoolOp (NodeCmd PoolOp (NodeCmd PoolOp Empty))) : exArr.sys.Cmd := Sum.inr (Sum.inl c)
def xCmd (c : NodeCmd PoolOp Empty) : exArr.sys.Cmd := Sum.inr (Sum.inr c)

/-- Everything is constructed, users of seven strategies allocate, one allocation is
returned. -/
def exRun : List (exArr.sys.Cmd × List (Option Nat)) :=
  [(qCmd .make, []),
   (qCmd (.alloc 40), [some 4096]),
   (qCmd (.down (.inl .make)), []),
   (qCmd (.down (.inl (.alloc 16))), []),
   (qCmd (.down (.inr .make)), []),
   (qCmd (.down (.inr (.alloc 10))), []),
   (qCmd (.down (.inr (.down .make))), []),
   (qCmd (.down (.inr (.down (.alloc 5)))), [some 8192]),
   (mCmd .make, [some 16384]),
   (mCmd (.down .make), []),
   (mCmd (.down (.alloc 20)), []),
   (mCmd (.down (.down .make)), []),
   (mCmd (.down (.down (.alloc 12))), []),
   (xCmd .make, [some 32768, some 36864]),
   (xCmd (.alloc 8), []),
   (xCmd (.alloc 100), [some 40960]),
   (qCmd (.dealloc 4096), [])]

/-- The hypotheses of `nested_safe_partial` hold for it, with seven live allocations. -/
theorem exRun_exec : ∃ f H L, Exec (fun _ => exArr) f H L ∧
    H 0 = [(40960, 528), (36864, 64), (32768, 64), (16384, 1000), (4096, 528)] ∧
    L 0 = [(40960, 100), (32768, 8), (16404, 12), (16384, 20), (4256, 5), (4208, 10), (4144, 16)] :=
  drive_start exRun (by decide +kernel)

example : ∃ f H L, Exec (fun _ => exArr) f H L ∧ (L 0).length = 7 ∧ (∀ _ : Nat, exArr.Fits (W - 1)) ∧
    (L 0).Pairwise fun x y => Disj x.1 x.2 y.1 y.2 := by
  obtain ⟨f, H, L, h, -, hL⟩ := exRun_exec
  exact ⟨f, H, L, h, by rw [hL]; rfl, fun _ => exArr_fits, (nested_safe_partial (fun _ => exArr_fits) h).1 0⟩

/-- A command that is allowed in a reachable state. -/
example : ∃ f H L, ∃ _ : Exec (fun _ => exArr) f H L, exArr.sys.can (xCmd .make) (f 1) :=
  ⟨_, _, _, .init, rfl⟩

/-! ## Arrangements that are not safe -/

/-- The statement without the restriction to arrangements that fit. -/
def Safe (H L : Nat → Held) : Prop :=
  (∀ r, (L r).Pairwise fun x y => Disj x.1 x.2 y.1 y.2) ∧ ∀ r, ∀ x ∈ L r, ∃ o ∈ H r, o.1 ≤ x.1 ∧ x.1 + x.2 ≤ o.1 + o.2

/-- A `QuickPool` on a `SlotPool` with one slot. -/
def slotArr : Arr := .node (.slots 1) 1000 (.node (.quick exQuick 5) 1000 .none)

/-- A full `SlotPool` answers null instead of throwing (SlotPool.cpp:57-71); the pool
on top takes that for memory at address 0 and hands out addresses that nobody
obtained. -/
theorem nested_slotpool_counterexample : ∃ f H L, Exec (fun _ => slotArr) f H L ∧
    H 0 = [(4096, 528)] ∧ (16, 16) ∈ L 0 ∧ ¬ Safe H L := by
  obtain ⟨f, H, L, h, hH, hL⟩ := drive_start (a := slotArr)
    [(.make, []), (.down .make, []), (.down (.alloc 512), [some 4096]), (.down (.alloc 16), []), (.down (.alloc 16), [])]
    (O := [(4096, 528)]) (L := [(16, 16), (4096, 512)]) (by decide +kernel)
  refine ⟨f, H, L, h, hH, by rw [hL]; decide, fun hs => ?_⟩
  obtain ⟨o, ho, h1, h2⟩ := hs.2 0 (16, 16) (by rw [hL]; decide)
  rw [hH] at ho
  simp only [List.mem_singleton] at ho
  subst ho
  exact absurd h1 (by decide)

/-- Two `QuickPool`s on top of each other. -/
def stackArr : Arr := .node (.quick exQuick 5) (W - 32) (.node (.quick exQuick 5) (W - 32) .none)

/-- A request that each of two pools can handle (the upper one alone asks for
2^64 - 16 bytes or gets an exception) makes the lower one ask the resource for 0
bytes: `size + alignment` wraps around (QuickPool.cpp:69).  The user gets
2^64 - 32 bytes. -/
theorem nested_overflow_counterexample : ∃ f H L, Exec (fun _ => stackArr) f H L ∧
    H 0 = [(4096, 0)] ∧ (4096, W - 32) ∈ L 0 ∧ ¬ Safe H L := by
  obtain ⟨f, H, L, h, hH, hL⟩ := drive_start (a := stackArr)
    [(.make, []), (.down .make, []), (.down (.alloc (W - 32)), [some 4096])]
    (O := [(4096, 0)]) (L := [(4096, W - 32)]) (by decide +kernel)
  refine ⟨f, H, L, h, hH, by rw [hL]; decide, fun hs => ?_⟩
  obtain ⟨o, ho, h1, h2⟩ := hs.2 0 (4096, W - 32) (by rw [hL]; decide)
  rw [hH] at ho
  simp only [List.mem_singleton] at ho
  subst ho
  exact absurd h2 (by decide)

/-- A `QuickPool` on a `FixedPool`. -/
def fixedArr : Arr := .node (.fixed ⟨64, 8⟩) 64 (.node (.quick exQuick 5) 1000 .none)

/-- A `FixedPool` does not look at the size (FixedPool.cpp:124), so a pool on top
that asks for more than one object overlaps with other allocations. -/
theorem nested_fixedpool_counterexample : ∃ f H L, Exec (fun _ => fixedArr) f H L ∧
    (4096, 512) ∈ L 0 ∧ (4160, 64) ∈ L 0 ∧ ¬ Safe H L := by
  obtain ⟨f, H, L, h, hH, hL⟩ := drive_start (a := fixedArr)
    [(.make, [some 4096]), (.down .make, []), (.down (.alloc 512), []), (.alloc 64, [])]
    (O := [(4096, 512)]) (L := [(4160, 64), (4096, 512)]) (by decide +kernel)
  refine ⟨f, H, L, h, by rw [hL]; decide, by rw [hL]; decide, fun hs => ?_⟩
  have h1 := hs.1 0
  rw [hL] at h1
  have h2 := (List.pairwise_cons.1 h1).1 (4096, 512) (by decide)
  revert h2
  decide

end Umpire.Nest
