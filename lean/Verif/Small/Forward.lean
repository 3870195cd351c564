import Verif.Base.Prog
import Verif.Base.Lists
import Verif.QuickPool.Fit
import Std.Data.String.ToNat
/-!
# Forwarding strategies: C45 (`NamingShim`) and C53
-/
set_option autoImplicit false
set_option linter.unusedSimpArgs false
namespace Umpire.Forward
open Umpire.Prog
open Umpire.QuickPool (drop_perm)

/-! ## C53 -/

/-- The strategies that only forward.  `hook` is what is done with a new
allocation; its result tells whether it succeeds. -/
structure Kind where
  hook : Nat → Nat → Bool

/-- `NamedAllocationStrategy` (NamedAllocationStrategy.cpp:20-28). -/
def named : Kind := ⟨fun _ _ => true⟩

/-- `ThreadSafeAllocator` (ThreadSafeAllocator.cpp:23-31). -/
def threadSafe : Kind := ⟨fun _ _ => true⟩

/-- `AllocationAdvisor` (AllocationAdvisor.cpp:45-56) with an advice operation that
may throw; the Prefetcher (AllocationPrefetcher.cpp:26-38) and `NumaPolicy`
(NumaPolicy.cpp:47-61) have the same form. -/
def advisor (apply : Nat → Nat → Bool) : Kind := ⟨apply⟩

/-- How `allocate` can end. -/
inductive Res where
  | ok (p : Nat)
  /-- the parent threw -/
  | parent
  /-- the operation on the new allocation threw -/
  | hook
deriving DecidableEq, Repr

def allocate (k : Kind) (n : Nat) : Prog Res :=
  .alloc n fun
    | some p => .ret (if k.hook p n then .ok p else .hook)
    | none => .ret .parent

def deallocate (_ : Kind) (p n : Nat) : Prog Unit := .dealloc p n (.ret ())

/-- A strategy in use. -/
structure Sys where
  held : Held
  live : Held
deriving DecidableEq, Repr

inductive Step (k : Kind) : Sys → Sys → Prop where
  | alloc {S : Sys} {n p O'} : 0 < n → Run (allocate k n) S.held (.ok p) O' → Step k S ⟨O', (p, n) :: S.live⟩
  | allocErr {S : Sys} {n r O'} : 0 < n → Run (allocate k n) S.held r O' → (∀ p, r ≠ .ok p) → Step k S ⟨O', S.live⟩
  | dealloc {S : Sys} {p n u O'} : (p, n) ∈ S.live → Run (deallocate k p n) S.held u O' → Step k S ⟨O', drop p S.live⟩

inductive Reach (k : Kind) : Sys → Prop where
  | init : Reach k ⟨[], []⟩
  | step {S T : Sys} : Reach k S → Step k S T → Reach k T

structure Inv (S : Sys) : Prop where
  pos : ∀ r ∈ S.held, 0 < r.2
  disj : S.held.Disjoint
  sub : S.live.Sublist S.held

theorem reach_inv {k : Kind} {S : Sys} (h : Reach k S) : Inv S := by
  induction h with
  | init => exact ⟨by simp, List.Pairwise.nil, List.Sublist.refl _⟩
  | step _ hs ih =>
    have hadd : ∀ {S : Sys} {p n : Nat}, Inv S → 0 < n → Fresh p n S.held → (∀ r ∈ (p, n) :: S.held, 0 < r.2) ∧
        Held.Disjoint ((p, n) :: S.held) := by
      intro S p n ih hn hp
      refine ⟨?_, List.pairwise_cons.2 ⟨hp.2.2, ih.disj⟩⟩
      intro r hr
      rcases List.mem_cons.1 hr with rfl | hr
      · exact hn
      · exact ih.pos r hr
    cases hs with
    | alloc hn hr =>
      cases hr with
      | allocOk hp hr =>
        simp only at hr
        split at hr
        · cases hr
          obtain ⟨h1, h2⟩ := hadd ih hn hp
          exact ⟨h1, h2, ih.sub.cons_cons _⟩
        · cases hr
      | allocFail hr => cases hr
    | allocErr hn hr hne =>
      cases hr with
      | allocOk hp hr =>
        simp only at hr
        split at hr
        · cases hr; exact absurd rfl (hne _)
        · cases hr
          obtain ⟨h1, h2⟩ := hadd ih hn hp
          exact ⟨h1, h2, ih.sub.cons _⟩
      | allocFail hr => cases hr; exact ih
    | dealloc hl hr =>
      cases hr with
      | dealloc hr =>
        cases hr
        exact ⟨fun r hr => ih.pos r (drop_sub r hr), ih.disj.drop _, ih.sub.filter _⟩

/-- Each request goes to the parent with the same size; success yields the
parent's pointer; each deallocation goes to the parent with the same pointer and
size. -/
theorem forward_exact (k : Kind) (n : Nat) {O O' : Held} {t : List Ev} {r : Res} (hr : RunT (allocate k n) O t r O') :
    (∃ p, t = [.got p n] ∧ O' = (p, n) :: O ∧ (r = .ok p ∨ (k.hook p n = false ∧ r = .hook))) ∨
    (t = [.refused n] ∧ O' = O ∧ r = .parent) := by
  cases hr with
  | @allocOk _ _ _ p _ _ _ hp hr =>
    cases hr
    refine .inl ⟨p, rfl, rfl, ?_⟩
    cases hh : k.hook p n <;> simp [hh]
  | allocFail hr => cases hr; exact .inr ⟨rfl, rfl, rfl⟩

theorem forward_deallocate_exact (k : Kind) (p n : Nat) {O O' : Held} {t : List Ev} {u : Unit}
    (hr : RunT (deallocate k p n) O t u O') : t = [.freed p n] ∧ O' = drop p O := by
  cases hr with
  | dealloc hr => cases hr; exact ⟨rfl, rfl⟩

/-- Live allocations are blocks held from the parent, of the size asked for, so
they are pairwise disjoint; deallocating a live allocation is safe. -/
theorem forward_safe {k : Kind} {S : Sys} (h : Reach k S) :
    (∀ l ∈ S.live, l ∈ S.held) ∧ (S.live.Pairwise fun x y => Disj x.1 x.2 y.1 y.2) ∧
    (∀ p n, (p, n) ∈ S.live → ∀ b, ¬ Goes (deallocate k p n) S.held b) := by
  have hi := reach_inv h
  refine ⟨fun l hl => hi.sub.subset hl, List.Pairwise.sublist hi.sub hi.disj, ?_⟩
  intro p n hl b hg
  cases hg with
  | badFree hno => exact hno (hi.sub.subset hl)
  | dealloc hg => cases hg

/-- If the operation on new allocations does not throw, everything held from the
parent is live, so nothing leaks. -/
theorem forward_no_leak {k : Kind} (hk : ∀ p n, k.hook p n = true) {S : Sys} (h : Reach k S) : S.live = S.held := by
  induction h with
  | init => rfl
  | step _ hs ih =>
    cases hs with
    | alloc hn hr =>
      cases hr with
      | allocOk hp hr => simp only [hk, if_true] at hr; cases hr; simp only [ih]
      | allocFail hr => cases hr
    | allocErr hn hr hne =>
      cases hr with
      | allocOk hp hr => simp only [hk, if_true] at hr; cases hr; exact absurd rfl (hne _)
      | allocFail hr => cases hr; exact ih
    | dealloc hl hr =>
      cases hr with
      | dealloc hr => cases hr; simp only [ih]

theorem sysX_reach : Reach named ⟨[(3200, 8), (1600, 60)], [(3200, 8), (1600, 60)]⟩ :=
  .step (S := ⟨[(1600, 60)], [(1600, 60)]⟩)
    (.step .init (.alloc (n := 60) (p := 1600) (by decide) (execOk_run [some 1600] (by decide +kernel))))
    (.alloc (n := 8) (p := 3200) (by decide) (execOk_run [some 3200] (by decide +kernel)))

example : ∃ S, Reach named S ∧ S.live.length = 2 ∧ S.live = S.held :=
  ⟨_, sysX_reach, rfl, forward_no_leak (fun _ _ => rfl) sysX_reach⟩

/-- If the operation on the new allocation throws, the memory obtained from the
parent is lost. -/
theorem forward_hook_leaks_counterexample :
    ∃ (k : Kind) (S : Sys), Reach k S ∧ S.live = [] ∧ S.held = [(1600, 60)] := by
  refine ⟨advisor fun _ _ => false, ⟨[(1600, 60)], []⟩, ?_, rfl, rfl⟩
  exact .step .init (.allocErr (n := 60) (r := .hook) (by decide) (execOk_run [some 1600] (by decide +kernel)) (by simp))

/-! ## C45: `NamingShim` -/

/-- The statistics of the parent that the shim's calls change
(AllocationStrategy.cpp:37-55): `m_current_size`, `m_allocation_count`. -/
structure Stats where
  cur : Nat
  count : Nat
deriving DecidableEq, Repr

/-- `allocate_named_internal` (AllocationStrategy.cpp:37-47), statistics only. -/
def Stats.alloc (s : Stats) (n : Nat) : Stats := ⟨w64 (s.cur + n), w64 (s.count + 1)⟩

/-- `deallocate_internal` (AllocationStrategy.cpp:49-55), statistics only. -/
def Stats.dealloc (s : Stats) (n : Nat) : Stats := ⟨w64 (s.cur + (W - w64 n)), w64 (s.count + (W - 1))⟩

/-- `NamingShim`: `m_name` and `m_counter` (NamingShim.hpp:30). -/
structure Shim where
  name : String
  counter : Nat
deriving DecidableEq, Repr

/-- `allocate` (NamingShim.cpp:27-31): the name it gives to the parent and the new state. -/
def Shim.allocate (s : Shim) : String × Shim :=
  (s.name ++ "_alloc_" ++ toString s.counter, { s with counter := w64 (s.counter + 1) })

/-- The size `deallocate` announces to the parent (NamingShim.cpp:33-36): the
default argument of `deallocate_internal` (AllocationStrategy.hpp:52). -/
def Shim.freeSize (_size : Nat) : Nat := 0

/-- Everything a user can do with a shim: the names used so far, latest first, the
statistics of the parent, and the sizes of live allocations. -/
structure ShimSys where
  shim : Shim
  names : List String
  stats : Stats
  live : List Nat

inductive ShimReach (name : String) : ShimSys → Prop where
  | init : ShimReach name ⟨⟨name, 0⟩, [], ⟨0, 0⟩, []⟩
  | alloc {S : ShimSys} {n} : ShimReach name S →
      ShimReach name ⟨S.shim.allocate.2, S.shim.allocate.1 :: S.names, S.stats.alloc n, n :: S.live⟩
  | dealloc {S : ShimSys} {a n b} : ShimReach name S → S.live = a ++ n :: b →
      ShimReach name ⟨S.shim, S.names, S.stats.dealloc (Shim.freeSize n), a ++ b⟩

theorem shim_names {name : String} {S : ShimSys} (h : ShimReach name S) (hl : S.names.length < W) :
    S.shim = ⟨name, S.names.length⟩ ∧
    S.names = (List.range S.names.length).reverse.map fun i => name ++ "_alloc_" ++ toString i := by
  induction h with
  | init => exact ⟨rfl, rfl⟩
  | @alloc S n _ ih =>
    simp only [List.length_cons] at hl
    obtain ⟨h1, h2⟩ := ih (by omega)
    have hw : w64 (S.names.length + 1) = S.names.length + 1 := Nat.mod_eq_of_lt hl
    simp only [Shim.allocate, List.length_cons, List.range_succ, List.reverse_append, List.reverse_cons, List.reverse_nil,
      List.nil_append, List.singleton_append, List.map_cons]
    rw [h1]
    refine ⟨by simp only [hw], ?_⟩
    rw [← h2]
  | dealloc _ _ ih => exact ih hl

/-- The names of all allocations made through a shim are pairwise different (until
its 64-bit counter wraps around), and each begins with the shim's name. -/
theorem namingshim_unique_names {name : String} {S : ShimSys} (h : ShimReach name S) (hl : S.names.length < W) :
    S.names.Nodup ∧ ∀ x ∈ S.names, ∃ i, x = name ++ "_alloc_" ++ toString i ∧ i < S.names.length := by
  obtain ⟨-, h2⟩ := shim_names h hl
  constructor
  · rw [h2, List.Nodup, List.pairwise_map]
    refine List.Pairwise.imp ?_ ((List.reverse_perm _).nodup_iff.2 List.nodup_range)
    intro i j hij he
    apply hij
    have : toString i = toString j := by
      have := congrArg String.toList he
      simp only [String.toList_append, List.append_cancel_left_eq] at this
      exact String.toList_inj.1 this
    exact Nat.repr_inj.1 this
  · intro x hx
    rw [h2] at hx
    obtain ⟨i, hi, rfl⟩ := List.mem_map.1 hx
    exact ⟨i, rfl, List.mem_range.1 (List.mem_reverse.1 hi)⟩

theorem shim3_reach (name : String) : ShimReach name
    ⟨⟨name, 2⟩, [name ++ "_alloc_" ++ toString 1, name ++ "_alloc_" ++ toString 0], ⟨30, 1⟩, [20]⟩ := by
  have h1 := ShimReach.alloc (n := 20) (ShimReach.alloc (n := 10) (ShimReach.init (name := name)))
  have h2 := ShimReach.dealloc (a := [20]) (n := 10) (b := []) h1 rfl
  have e1 : w64 (w64 (0 + 1) + 1) = 2 := by decide
  have e2 : w64 (0 + 1) = 1 := by decide
  have e3 : Stats.dealloc (((⟨0, 0⟩ : Stats).alloc 10).alloc 20) (Shim.freeSize 10) = ⟨30, 1⟩ := by decide
  simp only [Shim.allocate, e1, e2, e3] at h2
  exact h2

example (name : String) : (name ++ "_alloc_" ++ toString 1) ≠ (name ++ "_alloc_" ++ toString 0) := by
  have := (namingshim_unique_names (shim3_reach name) (show 2 < W by decide)).1
  simp only [List.nodup_cons, List.mem_singleton] at this
  exact this.1

/-- The number of allocations of the parent stays balanced.  Partial: the claim
wants this for its reported size; see `namingshim_size_counterexample`. -/
theorem namingshim_count_partial {name : String} {S : ShimSys} (h : ShimReach name S) (hl : S.names.length < W) :
    S.stats.count = S.live.length := by
  have h0 : S.live.length ≤ S.names.length ∧ S.stats.count = S.live.length := by
    induction h with
    | init => exact ⟨Nat.le_refl _, rfl⟩
    | @alloc S n _ ih =>
      simp only [List.length_cons] at hl
      obtain ⟨h1, h2⟩ := ih (by omega)
      refine ⟨by simp only [List.length_cons]; omega, ?_⟩
      simp only [Stats.alloc, List.length_cons, h2]
      exact Nat.mod_eq_of_lt (by omega)
    | @dealloc S a n b _ hs ih =>
      obtain ⟨h1, h2⟩ := ih hl
      rw [hs] at h1 h2
      simp only [List.length_append, List.length_cons] at h1 h2 ⊢
      refine ⟨by omega, ?_⟩
      simp only [Stats.dealloc, h2]
      have : a.length + (b.length + 1) + (W - 1) = a.length + b.length + W := by
        have : 1 ≤ W := by decide
        omega
      rw [this]
      unfold w64
      rw [Nat.add_mod_right]
      simp only at hl
      exact Nat.mod_eq_of_lt (by omega)
  exact h0.2

/-- The size the parent reports is not reduced by deallocations: it is the sum of
all sizes ever allocated (modulo 2^64), whether live or not. -/
theorem namingshim_size_counterexample (name : String) (n : Nat) (hlt : n < W) :
    ∃ S : ShimSys, ShimReach name S ∧ S.live = [] ∧ S.stats.cur = n := by
  refine ⟨_, .dealloc (a := []) (n := n) (b := []) (.alloc (n := n) .init) rfl, rfl, ?_⟩
  simp only [Stats.dealloc, Stats.alloc, Shim.freeSize]
  unfold w64
  rw [Nat.zero_mod, Nat.sub_zero, Nat.add_mod_right, Nat.mod_mod, Nat.zero_add, Nat.mod_eq_of_lt hlt]

end Umpire.Forward
