import Verif.Base.Prog
import Verif.Base.Arith
import Verif.Base.Lists
import Verif.Base.Mem
/-!
# `AlignedAllocator` (src/umpire/strategy/AlignedAllocator.cpp): C18

The pointer obtained from the parent is kept in memory in front of the result, so
memory contents are modelled.
-/
set_option autoImplicit false
set_option linter.unusedSimpArgs false
namespace Umpire.Aligned
open Umpire.Prog

/-- The check in the constructor (AlignedAllocator.cpp:24-28); the result is
`m_alignment`.  The platform check (20-22) is not modelled. -/
def create (a : Nat) : Option Nat := if 16 ≤ a ∧ a &&& (a - 1) = 0 then some a else none

/-- `total_bytes` (AlignedAllocator.cpp:33 and 52); `sizeof(void*)` is 8. -/
def total (a n : Nat) : Nat := w64 (n + 8 + a - 1)

/-- Is an access to `k` bytes at `x` inside the range `[p, p+n)`? -/
def inside (x k p n : Nat) : Bool := decide (Within x k p n)

/-- `allocate` (AlignedAllocator.cpp:31-43).  `none`: the parent threw.  Storing the
header outside the block obtained is undefined behaviour. -/
def allocate (a : Nat) (m : Mem) (n : Nat) : Prog (Option Nat × Mem) :=
  .alloc (total a n) fun
    | none => .ret (none, m)
    | some ptr =>
      let q := alignPtr a (ptr + 8)
      if inside (q - 8) 8 ptr (total a n) then .ret (some q, m.wr (q - 8) 8 ptr)
      else .fail .ub

/-- `deallocate` (AlignedAllocator.cpp:45-54). -/
def deallocate (a : Nat) (m : Mem) (p n : Nat) : Prog Unit := .dealloc (m.rd (p - 8) 8) (total a n) (.ret ())

structure Sys where
  mem : Mem
  held : Held
  live : Held

/-- One step: an operation, or any change of memory by anybody else that respects
what the allocator owns: blocks held except for the live allocations in them are
not written.  Requests are small enough for 64-bit arithmetic if `bounded`. -/
inductive Step (bounded : Prop) (a : Nat) : Sys → Sys → Prop where
  | alloc {S : Sys} {n p m' O'} : (bounded → n + 8 + a ≤ W) → Run (allocate a S.mem n) S.held (some p, m') O' →
      Step bounded a S ⟨m', O', (p, n) :: S.live⟩
  | allocErr {S : Sys} {n m' O'} : (bounded → n + 8 + a ≤ W) → Run (allocate a S.mem n) S.held (none, m') O' →
      Step bounded a S ⟨m', O', S.live⟩
  | dealloc {S : Sys} {p n u O'} : (p, n) ∈ S.live → Run (deallocate a S.mem p n) S.held u O' →
      Step bounded a S ⟨S.mem, O', drop p S.live⟩
  | write {S : Sys} {m : Mem} :
      (∀ x, (∃ o ∈ S.held, o.1 ≤ x ∧ x < o.1 + o.2) → (∀ l ∈ S.live, ¬ (l.1 ≤ x ∧ x < l.1 + l.2)) → m x = S.mem x) →
      Step bounded a S ⟨m, S.held, S.live⟩

/-- Everything that can happen to an allocator whose construction succeeded. -/
inductive Reach (bounded : Prop) (a : Nat) : Sys → Prop where
  | init {m} : create a = some a → Reach bounded a ⟨m, [], []⟩
  | step {S T : Sys} : Reach bounded a S → Step bounded a S T → Reach bounded a T

/-- Invariant.  `B` lists base pointer and requested size. -/
structure Inv (a : Nat) (m : Mem) (B O L : Held) : Prop where
  held : O = B.map fun b => (b.1, b.2 + 8 + a - 1)
  live : L = B.map fun b => (alignPtr a (b.1 + 8), b.2)
  disj : O.Disjoint
  top : ∀ b ∈ B, b.1 + (b.2 + 8 + a - 1) ≤ AMax
  head : ∀ b ∈ B, m.rd (alignPtr a (b.1 + 8) - 8) 8 = b.1

/-- Where the result lies in the block. -/
theorem place {a b n : Nat} (ha : 16 ≤ a) (h : b + (n + 8 + a - 1) ≤ AMax) :
    a ∣ alignPtr a (b + 8) ∧ b + 8 ≤ alignPtr a (b + 8) ∧ alignPtr a (b + 8) + n ≤ b + (n + 8 + a - 1) := by
  have hA : AMax + AMax = W := AMax_add_AMax
  have := alignPtr_bounds (a := a) (p := b + 8) (by omega) (by omega)
  exact ⟨this.1, this.2.1, by omega⟩

theorem Inv.block {a : Nat} {m : Mem} {B O L : Held} (h : Inv a m B O L) {x y : Nat × Nat} (hx : x ∈ B) (hy : y ∈ B)
    (hne : x ≠ y) : Disj x.1 (x.2 + 8 + a - 1) y.1 (y.2 + 8 + a - 1) := by
  have hd := h.disj
  rw [h.held] at hd
  unfold Held.Disjoint at hd
  rw [List.pairwise_map] at hd
  exact pairwise_mem hd (fun _ _ h => h.symm) hx hy hne

theorem Inv.base_inj {a : Nat} (ha : 16 ≤ a) {m : Mem} {B O L : Held} (h : Inv a m B O L) {x y : Nat × Nat} (hx : x ∈ B)
    (hy : y ∈ B) (he : x.1 = y.1) : x = y := by
  apply Classical.byContradiction
  intro hne
  have := h.block hx hy hne
  unfold Disj at this
  omega

theorem Inv.ptr_inj {a : Nat} (ha : 16 ≤ a) {m : Mem} {B O L : Held} (h : Inv a m B O L) {x y : Nat × Nat} (hx : x ∈ B)
    (hy : y ∈ B) (he : alignPtr a (x.1 + 8) = alignPtr a (y.1 + 8)) : x = y := by
  apply Classical.byContradiction
  intro hne
  have h1 := h.block hx hy hne
  have h2 := place ha (h.top x hx)
  have h3 := place ha (h.top y hy)
  unfold Disj at h1
  omega

theorem allocate_eq {a : Nat} (ha : 16 ≤ a) {n : Nat} (hn : n + 8 + a ≤ W) {p : Nat} {O : Held}
    (hp : Fresh p (total a n) O) :
    total a n = n + 8 + a - 1 ∧ inside (alignPtr a (p + 8) - 8) 8 p (total a n) = true := by
  have ht : total a n = n + 8 + a - 1 := Nat.mod_eq_of_lt (by omega)
  refine ⟨ht, ?_⟩
  have h1 := hp.2.1
  rw [ht] at h1 ⊢
  have := place ha h1
  unfold inside
  rw [decide_eq_true_eq]
  unfold Within
  omega

theorem Inv.add {a : Nat} (ha : 16 ≤ a) {m : Mem} {B O L : Held} (h : Inv a m B O L) {n p : Nat}
    (hp : Fresh p (n + 8 + a - 1) O) :
    Inv a (m.wr (alignPtr a (p + 8) - 8) 8 p) ((p, n) :: B) ((p, n + 8 + a - 1) :: O) ((alignPtr a (p + 8), n) :: L) := by
  have hpl := place ha hp.2.1
  refine ⟨by rw [h.held]; rfl, by rw [h.live]; rfl, List.pairwise_cons.2 ⟨hp.2.2, h.disj⟩, ?_, ?_⟩
  · intro b hb
    rcases List.mem_cons.1 hb with rfl | hb
    · exact hp.2.1
    · exact h.top b hb
  · intro b hb
    rcases List.mem_cons.1 hb with rfl | hb
    · rw [Mem.rd_wr]
      refine Nat.mod_eq_of_lt ?_
      have h1 := hp.2.1
      have h2 : AMax < 256 ^ 8 := by decide
      omega
    · rw [Mem.rd_wr_out]
      · exact h.head b hb
      · have h1 := hp.2.2 (b.1, b.2 + 8 + a - 1) (by rw [h.held]; exact List.mem_map.2 ⟨b, hb, rfl⟩)
        have h2 := place ha (h.top b hb)
        unfold Disj at h1
        simp only at h1
        omega

theorem Inv.remove {a : Nat} (ha : 16 ≤ a) {m : Mem} {B O L : Held} (h : Inv a m B O L) {b : Nat × Nat} (hb : b ∈ B) :
    Inv a m (B.filter fun x => decide (x ≠ b)) (drop b.1 O) (drop (alignPtr a (b.1 + 8)) L) := by
  refine ⟨?_, ?_, h.disj.drop _, fun x hx => h.top x (List.mem_filter.1 hx).1, fun x hx => h.head x (List.mem_filter.1 hx).1⟩
  · rw [h.held]
    unfold drop
    rw [List.filter_map]
    congr 1
    apply List.filter_congr
    intro x hx
    simp only [Function.comp]
    rw [decide_eq_decide]
    exact not_congr ⟨fun he => h.base_inj ha hx hb he, fun he => by rw [he]⟩
  · rw [h.live]
    unfold drop
    rw [List.filter_map]
    congr 1
    apply List.filter_congr
    intro x hx
    simp only [Function.comp]
    rw [decide_eq_decide]
    exact not_congr ⟨fun he => h.ptr_inj ha hx hb he, fun he => by rw [he]⟩

theorem Inv.held_mem {a : Nat} {m : Mem} {B O L : Held} (h : Inv a m B O L) {b : Nat × Nat} (hb : b ∈ B) :
    (b.1, b.2 + 8 + a - 1) ∈ O := by
  rw [h.held]
  exact List.mem_map.2 ⟨b, hb, rfl⟩

/-- The bytes of a header are not part of a live allocation. -/
theorem Inv.header {a : Nat} (ha : 16 ≤ a) {m : Mem} {B O L : Held} (h : Inv a m B O L) {b : Nat × Nat} (hb : b ∈ B) {x : Nat}
    (h1 : alignPtr a (b.1 + 8) - 8 ≤ x) (h2 : x < alignPtr a (b.1 + 8) - 8 + 8) :
    (b.1 ≤ x ∧ x < b.1 + (b.2 + 8 + a - 1)) ∧ ∀ l ∈ L, ¬ (l.1 ≤ x ∧ x < l.1 + l.2) := by
  have hp := place ha (h.top b hb)
  refine ⟨by omega, ?_⟩
  intro l hl
  rw [h.live] at hl
  obtain ⟨c, hc, rfl⟩ := List.mem_map.1 hl
  have hpc := place ha (h.top c hc)
  simp only
  by_cases hcb : c = b
  · subst hcb; omega
  · have := h.block hc hb hcb
    unfold Disj at this
    omega

theorem Inv.write {a : Nat} (ha : 16 ≤ a) {m m' : Mem} {B O L : Held} (h : Inv a m B O L)
    (hm : ∀ x, (∃ o ∈ O, o.1 ≤ x ∧ x < o.1 + o.2) → (∀ l ∈ L, ¬ (l.1 ≤ x ∧ x < l.1 + l.2)) → m' x = m x) : Inv a m' B O L := by
  refine ⟨h.held, h.live, h.disj, h.top, fun b hb => ?_⟩
  have := Mem.rd_congr (m := m') (m' := m) (a := alignPtr a (b.1 + 8) - 8) (n := 8) fun x h1 h2 =>
    hm x ⟨_, h.held_mem hb, (h.header ha hb h1 h2).1⟩ (h.header ha hb h1 h2).2
  exact this.trans (h.head b hb)

def SInv (a : Nat) (S : Sys) : Prop := 16 ≤ a ∧ ∃ B, Inv a S.mem B S.held S.live

theorem deallocate_eq {a : Nat} {S : Sys} {B : Held} (h : Inv a S.mem B S.held S.live) {b : Nat × Nat} (hb : b ∈ B) :
    deallocate a S.mem (alignPtr a (b.1 + 8)) b.2 = .dealloc b.1 (b.2 + 8 + a - 1) (.ret ()) := by
  unfold deallocate
  have h1 := h.top b hb
  have h2 : AMax < W := by decide
  rw [h.head b hb, show total a b.2 = b.2 + 8 + a - 1 from Nat.mod_eq_of_lt (by omega)]

theorem step_inv {a : Nat} {S T : Sys} (h : SInv a S) (hs : Step True a S T) : SInv a T := by
  obtain ⟨ha, B, h⟩ := h
  refine ⟨ha, ?_⟩
  cases hs with
  | @alloc n p m' O' hn hr =>
    unfold allocate at hr
    cases hr with
    | @allocOk _ _ _ q _ _ hp hr =>
      obtain ⟨h1, h2⟩ := allocate_eq ha (hn trivial) hp
      simp only [h2, if_true] at hr
      cases hr
      rw [h1] at hp ⊢
      exact ⟨_, h.add ha hp⟩
    | allocFail hr => cases hr
  | @allocErr n m' O' hn hr =>
    unfold allocate at hr
    cases hr with
    | @allocOk _ _ _ q _ _ hp hr =>
      obtain ⟨h1, h2⟩ := allocate_eq ha (hn trivial) hp
      simp only [h2, if_true] at hr
      cases hr
    | allocFail hr => cases hr; exact ⟨B, h⟩
  | @dealloc p n u O' hl hr =>
    have hl' := hl
    rw [h.live] at hl'
    obtain ⟨b, hb, he⟩ := List.mem_map.1 hl'
    injection he with h1 h2
    subst h1 h2
    rw [deallocate_eq h hb] at hr
    cases hr with
    | dealloc hr => cases hr; exact ⟨_, h.remove ha hb⟩
  | write hm => exact ⟨B, h.write ha hm⟩

theorem reach_inv {a : Nat} {S : Sys} (h : Reach True a S) : SInv a S := by
  induction h with
  | init hc =>
    unfold create at hc
    split at hc
    · rename_i h1
      exact ⟨h1.1, [], rfl, rfl, List.Pairwise.nil, by simp, by simp⟩
    · cases hc
  | step _ hs ih => exact step_inv ih hs

/-- The constructor accepts exactly the powers of two from 16 on. -/
theorem aligned_create (a : Nat) : (create a = some a ↔ 16 ≤ a ∧ ∃ k, a = 2 ^ k) ∧
    (create a = none ↔ ¬ (16 ≤ a ∧ ∃ k, a = 2 ^ k)) := by
  have key : (16 ≤ a ∧ a &&& (a - 1) = 0) ↔ (16 ≤ a ∧ ∃ k, a = 2 ^ k) := by
    constructor
    · rintro ⟨h1, h2⟩
      exact ⟨h1, (Nat.and_sub_one_eq_zero_iff_isPowerOfTwo (by omega)).1 h2⟩
    · rintro ⟨h1, h2⟩
      exact ⟨h1, (Nat.and_sub_one_eq_zero_iff_isPowerOfTwo (by omega)).2 h2⟩
  unfold create
  rw [← key]
  split <;> simp_all

/-- Results are multiples of the alignment; the bytes asked for lie in a block held
from the parent, at least 8 bytes after its beginning; and they are pairwise
disjoint.  Partial: only for `n + 8 + a ≤ 2^64`; see `aligned_overflow_counterexample`. -/
theorem aligned_live_partial {a : Nat} {S : Sys} (h : Reach True a S) :
    (S.live.Pairwise fun x y => Disj x.1 x.2 y.1 y.2) ∧
    ∀ l ∈ S.live, a ∣ l.1 ∧ ∃ o ∈ S.held, o.1 + 8 ≤ l.1 ∧ l.1 + l.2 ≤ o.1 + o.2 := by
  obtain ⟨ha, B, hi⟩ := reach_inv h
  constructor
  · rw [hi.live, List.pairwise_map]
    have hd := hi.disj
    rw [hi.held] at hd
    unfold Held.Disjoint at hd
    rw [List.pairwise_map] at hd
    refine hd.imp_of_mem ?_
    intro x y hx hy hd
    have h1 := place ha (hi.top x hx)
    have h2 := place ha (hi.top y hy)
    unfold Disj at hd ⊢
    simp only at hd ⊢
    omega
  · intro l hl
    rw [hi.live] at hl
    obtain ⟨b, hb, rfl⟩ := List.mem_map.1 hl
    have h1 := place ha (hi.top b hb)
    refine ⟨h1.1, _, hi.held_mem hb, h1.2.1, h1.2.2⟩

/-- Deallocating a live allocation hands back exactly the block it lies in, with
the size with which it was obtained, whatever was written in the meantime. -/
theorem aligned_deallocate_exact {a : Nat} {S : Sys} (h : Reach True a S) {p n : Nat} (hl : (p, n) ∈ S.live) :
    ∃ o ∈ S.held, o.1 + 8 ≤ p ∧ p + n ≤ o.1 + o.2 ∧ deallocate a S.mem p n = .dealloc o.1 o.2 (.ret ()) := by
  obtain ⟨ha, B, hi⟩ := reach_inv h
  rw [hi.live] at hl
  obtain ⟨b, hb, he⟩ := List.mem_map.1 hl
  injection he with h1 h2
  subst h1 h2
  have hp := place ha (hi.top b hb)
  exact ⟨_, hi.held_mem hb, hp.2.1, hp.2.2, deallocate_eq hi hb⟩

/-- No operation performs undefined behaviour, and storing the header does not
change the contents of live allocations. -/
theorem aligned_safe {a : Nat} {S : Sys} (h : Reach True a S) :
    (∀ n, n + 8 + a ≤ W → ∀ b, ¬ Goes (allocate a S.mem n) S.held b) ∧
    (∀ p n, (p, n) ∈ S.live → ∀ b, ¬ Goes (deallocate a S.mem p n) S.held b) ∧
    (∀ n, n + 8 + a ≤ W → ∀ r m' O', Run (allocate a S.mem n) S.held (r, m') O' →
      ∀ l ∈ S.live, ∀ x, l.1 ≤ x → x < l.1 + l.2 → m' x = S.mem x) := by
  obtain ⟨ha, B, hi⟩ := reach_inv h
  refine ⟨?_, ?_, ?_⟩
  · intro n hn b hg
    unfold allocate at hg
    cases hg with
    | allocOk hp hg =>
      obtain ⟨h1, h2⟩ := allocate_eq ha hn hp
      simp only [h2, if_true] at hg
      cases hg
    | allocFail hg => cases hg
  · intro p n hl b hg
    obtain ⟨o, ho, -, -, he⟩ := aligned_deallocate_exact h hl
    rw [he] at hg
    cases hg with
    | badFree hno => exact hno ho
    | dealloc hg => cases hg
  · intro n hn r m' O' hr l hl x h1 h2
    unfold allocate at hr
    cases hr with
    | allocOk hp hr =>
      obtain ⟨h3, h4⟩ := allocate_eq ha hn hp
      simp only [h4, if_true] at hr
      cases hr
      apply Mem.wr_out
      rw [hi.live] at hl
      obtain ⟨c, hc, rfl⟩ := List.mem_map.1 hl
      have h5 := place ha (hi.top c hc)
      rw [h3] at hp
      have h6 := place ha hp.2.1
      have h7 := hp.2.2 (c.1, c.2 + 8 + a - 1) (by rw [hi.held]; exact List.mem_map.2 ⟨c, hc, rfl⟩)
      unfold Disj at h7
      simp only at h1 h2 h7
      omega
    | allocFail hr => cases hr; rfl

/-! ## Non-vacuity -/

/-- Two live allocations with alignment 64. -/
theorem sysX_exists : ∃ S, Reach True 64 S ∧ S.live = [(3264, 10), (1664, 100)] ∧ S.held = [(3210, 81), (1600, 171)] := by
  have h0 : Reach True 64 ⟨fun x => x, [], []⟩ := .init (by decide)
  have e1 : Run (allocate 64 (fun x => x) 100) [] (some 1664, (Mem.wr (fun x => x) 1656 8 1600)) [(1600, 171)] :=
    .allocOk (p := 1600) (by decide) (by
      have : alignPtr 64 (1600 + 8) = 1664 := by decide
      simp only [this, show inside (1664 - 8) 8 1600 (total 64 100) = true by decide, if_true]
      exact .ret)
  have h1 := Reach.step h0 (.alloc (fun _ => by decide) e1)
  have e2 : Run (allocate 64 (Mem.wr (fun x => x) 1656 8 1600) 10) [(1600, 171)] (some 3264, (Mem.wr (Mem.wr (fun x => x) 1656 8 1600) 3256 8 3210))
      [(3210, 81), (1600, 171)] :=
    .allocOk (p := 3210) (by decide) (by
      have : alignPtr 64 (3210 + 8) = 3264 := by decide
      simp only [this, show inside (3264 - 8) 8 3210 (total 64 10) = true by decide, if_true]
      exact .ret)
  exact ⟨_, .step h1 (.alloc (fun _ => by decide) e2), rfl, rfl⟩

example : ∃ S, Reach True 64 S ∧ S.live.length = 2 ∧ (∀ l ∈ S.live, 64 ∣ l.1) ∧
    deallocate 64 S.mem 1664 100 = .dealloc 1600 171 (.ret ()) := by
  obtain ⟨S, h1, h2, h3⟩ := sysX_exists
  refine ⟨S, h1, by rw [h2]; rfl, fun l hl => ((aligned_live_partial h1).2 l hl).1, ?_⟩
  obtain ⟨o, ho, h4, h5, h6⟩ := aligned_deallocate_exact h1 (p := 1664) (n := 100) (by rw [h2]; simp)
  rw [h3] at ho
  simp only [List.mem_cons, List.not_mem_nil, or_false] at ho
  rcases ho with rfl | rfl
  · simp only at h4; omega
  · exact h6

/-- With a request of 2^64 - 1 bytes the size computation wraps around: a block of
22 bytes is obtained, and the allocation reaches far beyond it. -/
theorem aligned_overflow_counterexample :
    ∃ (S : Sys), Reach False 16 S ∧ S.held = [(1600, 22)] ∧ S.live = [(1616, 2 ^ 64 - 1)] := by
  have h0 : Reach False 16 ⟨fun x => x, [], []⟩ := .init (by decide)
  have e1 : Run (allocate 16 (fun x => x) (2 ^ 64 - 1)) [] (some 1616, (Mem.wr (fun x => x) 1608 8 1600)) [(1600, 22)] := by
    have ht : total 16 (2 ^ 64 - 1) = 22 := by decide
    unfold allocate
    rw [ht]
    exact .allocOk (p := 1600) (by decide) (by
      have : alignPtr 16 (1600 + 8) = 1616 := by decide
      simp only [this, show inside (1616 - 8) 8 1600 22 = true by decide, if_true]
      exact .ret)
  exact ⟨_, .step h0 (.alloc (fun h => h.elim) e1), rfl, rfl⟩

end Umpire.Aligned
