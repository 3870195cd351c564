import Verif.Base.Lists
/-!
# Model of `HipConstantMemoryResource` (src/umpire/resource/HipConstantMemoryResource.cpp)

`CudaConstantMemoryResource` (CudaConstantMemoryResource.cu:31-75) is the same after
its first call has looked up the address of the 64 KB array; failure of that lookup
is not modelled.  Both functions hold `m_mutex` throughout.
-/
set_option autoImplicit false
set_option linter.unusedSimpArgs false
namespace Umpire.Constant
open Umpire.Prog

/-- Size of `s_umpire_internal_device_constant_memory` (line 17). -/
def cap : Nat := 64 * 1024

/-- `allocate` (lines 32-50) with the array at `base`; `none` is the exception. -/
def allocate (base : Nat) (s : Nat) (bytes : Nat) : Option Nat × Nat :=
  let ptr := base + s                                                           -- 36
  let s := w64 (s + bytes)                                                      -- 37
  if s > cap then (none, s) else (some ptr, s)                                  -- 41-44

/-- `deallocate` (lines 52-63); `false` is the exception.  Pointer arithmetic wraps. -/
def deallocate (base : Nat) (s : Nat) (ptr size : Nat) : Bool × Nat :=
  if w64 (base + w64 (s + (W - size))) = ptr then (true, w64 (s + (W - size))) else (false, s)

structure Sys where
  /-- `m_offset` -/
  st : Nat
  /-- allocations not given back, newest first -/
  live : Held
deriving DecidableEq, Repr

/-- One call that returns.  Only the newest allocation may be given back, with the
size it was requested with.  Requests are below `2^63`. -/
inductive Step (base : Nat) : Sys → Sys → Prop where
  | alloc {S : Sys} {n p s'} : n < AMax → allocate base S.st n = (some p, s') → Step base S ⟨s', (p, n) :: S.live⟩
  | dealloc {S : Sys} {p n L s'} : S.live = (p, n) :: L → deallocate base S.st p n = (true, s') → Step base S ⟨s', L⟩
  /-- an attempt to give back something else, which throws -/
  | refused {S : Sys} {p n s'} : deallocate base S.st p n = (false, s') → Step base S ⟨s', S.live⟩

inductive Reach (base : Nat) : Sys → Prop where
  | init : Reach base ⟨0, []⟩
  | step {S T : Sys} : Reach base S → Step base S T → Reach base T

/-- The live allocations lie one after the other from `base` to `base + off`. -/
def Stacked (base : Nat) : Held → Nat → Prop
  | [], off => off = 0
  | l :: L, off => ∃ o, Stacked base L o ∧ l.1 = base + o ∧ off = o + l.2

theorem w64_sub {s n : Nat} (hs : s < W) (h : n ≤ s) : w64 (s + (W - n)) = s - n := by
  unfold w64
  have : s + (W - n) = (s - n) + W := by omega
  rw [this, Nat.add_mod_right, Nat.mod_eq_of_lt (by omega)]

theorem reach_stacked {base : Nat} (hb : base + cap ≤ AMax) {S : Sys} (h : Reach base S) :
    Stacked base S.live S.st ∧ S.st ≤ cap := by
  have hc : cap = 65536 := rfl
  have hA := AMax_add_AMax
  have hA2 : 65536 < AMax := by decide
  induction h with
  | init => exact ⟨rfl, by decide⟩
  | @step S T _ hs ih =>
    cases hs with
    | @alloc n p s' hn hr =>
      unfold allocate at hr
      simp only at hr
      split at hr
      · cases hr
      · rename_i hle
        injection hr with h1 h2
        injection h1 with h1
        subst h1 h2
        have hw : w64 (S.st + n) = S.st + n := Nat.mod_eq_of_lt (by omega)
        refine ⟨⟨S.st, ih.1, rfl, hw⟩, by simp only; omega⟩
    | @dealloc p n L s' hl hr =>
      rw [hl] at ih
      obtain ⟨⟨o, ho, h1, h2⟩, h3⟩ := ih
      simp only at h1 h2
      unfold deallocate at hr
      split at hr
      · injection hr with _ hr
        subst hr
        have : w64 (S.st + (W - n)) = o := by rw [w64_sub (by omega) (by omega)]; omega
        simp only [this]
        exact ⟨ho, by omega⟩
      · cases hr
    | refused hr =>
      unfold deallocate at hr
      split at hr
      · cases hr
      · injection hr with _ hr; subst hr; exact ih

theorem stacked_props {base : Nat} : ∀ {L : Held} {off : Nat}, Stacked base L off →
    (∀ l ∈ L, base ≤ l.1 ∧ l.1 + l.2 ≤ base + off) ∧ L.Disjoint ∧ off = (L.map (·.2)).sum
  | [], off, h => ⟨by simp, List.Pairwise.nil, h⟩
  | l :: L, off, ⟨o, h1, h2, h3⟩ => by
    obtain ⟨a, b, c⟩ := stacked_props h1
    refine ⟨?_, List.pairwise_cons.2 ⟨fun x hx => ?_, b⟩, ?_⟩
    · intro x hx
      rcases List.mem_cons.1 hx with rfl | hx
      · omega
      · have := a x hx; omega
    · have := a x hx
      unfold Disj; omega
    · simp only [List.map_cons, List.sum_cons]; omega

/-! ## C57 -/

/-- Constant memory behaves as a stack: live allocations are disjoint and inside the
array; the newest can be given back with its size and nothing else can; a request is
served exactly when it fits what is left.  Partial: as long as no request fails
(`constant_stuck_counterexample`) and requests are below `2^63`
(`constant_wrap_counterexample`). -/
theorem constant_stack_partial {base : Nat} (hb : base + cap ≤ AMax) {S : Sys} (h : Reach base S) :
    S.live.Disjoint ∧ (∀ l ∈ S.live, Within l.1 l.2 base cap) ∧
    (∀ n, n < AMax → ((allocate base S.st n).1.isSome ↔ (S.live.map (·.2)).sum + n ≤ cap)) ∧
    (∀ p n L, S.live = (p, n) :: L → ∃ s', deallocate base S.st p n = (true, s') ∧ Reach base ⟨s', L⟩) ∧
    (∀ p n s', n ≤ AMax → p < AMax → deallocate base S.st p n = (true, s') → p + n = base + (S.live.map (·.2)).sum) := by
  have hc : cap = 65536 := rfl
  have hA := AMax_add_AMax
  have hA2 : 65536 < AMax := by decide
  obtain ⟨hs, hle⟩ := reach_stacked hb h
  obtain ⟨h1, h2, h3⟩ := stacked_props hs
  refine ⟨h2, fun l hl => ?_, fun n hn => ?_, fun p n L hl => ?_, fun p n s' hn hp hr => ?_⟩
  · have := h1 l hl; unfold Within; omega
  · unfold allocate
    simp only
    have hw : w64 (S.st + n) = S.st + n := Nat.mod_eq_of_lt (by omega)
    rw [hw, ← h3]
    split
    · simp; omega
    · simp; omega
  · rw [hl] at hs h1
    obtain ⟨o, ho, h4, h5⟩ := hs
    simp only at h4 h5
    have hw : w64 (S.st + (W - n)) = o := by rw [w64_sub (by omega) (by omega)]; omega
    have hd : deallocate base S.st p n = (true, o) := by
      unfold deallocate
      rw [hw, if_pos]
      rw [h4]; exact Nat.mod_eq_of_lt (by omega)
    exact ⟨o, hd, .step h (.dealloc hl hd)⟩
  · unfold deallocate at hr
    split at hr
    · rename_i he
      rw [← h3]
      unfold w64 at he
      rw [Nat.add_mod_mod] at he
      by_cases hcase : base + (S.st + (W - n)) < W
      · rw [Nat.mod_eq_of_lt hcase] at he
        omega
      · rw [Nat.mod_eq_sub_mod (by omega), Nat.mod_eq_of_lt (by omega)] at he
        omega
    · cases hr

/-- Two allocations. -/
theorem sysX_reach : Reach 4096 ⟨300, [(4196, 200), (4096, 100)]⟩ :=
  .step (.step .init (.alloc (n := 100) (p := 4096) (s' := 100) (by decide) (by decide)))
    (.alloc (n := 200) (p := 4196) (s' := 300) (by decide) (by decide))

example : ∃ s', deallocate 4096 300 4196 200 = (true, s') ∧ Reach 4096 ⟨s', [(4096, 100)]⟩ :=
  (constant_stack_partial (by decide) sysX_reach).2.2.2.1 4196 200 _ rfl

/-- Negation of the rest of C57: a request that fails has already been added to the
offset, so that from then on neither can the newest allocation be given back nor is
any request served. -/
theorem constant_stuck_counterexample :
    ∃ (S : Sys) (s1 : Nat), Reach 4096 S ∧ S.live = [(4096, 100)] ∧ allocate 4096 S.st 65536 = (none, s1) ∧
      deallocate 4096 s1 4096 100 = (false, s1) ∧ (allocate 4096 s1 1).1 = none :=
  ⟨⟨100, [(4096, 100)]⟩, 65636, .step .init (.alloc (n := 100) (p := 4096) (s' := 100) (by decide) (by decide)), rfl,
    by decide, by decide, by decide⟩

/-- Negation of the rest of C57: a request of 2^64 - 50 bytes is served when at least
50 bytes are in use, and the next one overlaps a live allocation. -/
theorem constant_wrap_counterexample :
    ∃ (S : Sys) (s1 s2 : Nat), Reach 4096 S ∧ S.live = [(4096, 100)] ∧
      allocate 4096 S.st (2 ^ 64 - 50) = (some 4196, s1) ∧ allocate 4096 s1 10 = (some 4146, s2) ∧
      ¬ Disj 4146 10 4096 100 :=
  ⟨⟨100, [(4096, 100)]⟩, 50, 60, .step .init (.alloc (n := 100) (p := 4096) (s' := 100) (by decide) (by decide)), rfl,
    by decide, by decide, by decide⟩

end Umpire.Constant
