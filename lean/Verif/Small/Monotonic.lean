import Verif.Base.Prog
import Verif.Base.Lists
/-!
# `MonotonicAllocationStrategy` (src/umpire/strategy/MonotonicAllocationStrategy.cpp): C16
-/
set_option autoImplicit false
set_option linter.unusedSimpArgs false
namespace Umpire.Monotonic
open Umpire.Prog

/-- `m_block`, `m_size`, `m_capacity` (MonotonicAllocationStrategy.hpp). -/
structure State where
  block : Nat
  size : Nat
  cap : Nat
deriving DecidableEq, Repr

/-- The constructor (MonotonicAllocationStrategy.cpp:16-24); `none` when the parent throws. -/
def create (cap : Nat) : Prog (Option State) :=
  .alloc cap fun
    | some p => .ret (some ⟨p, 0, cap⟩)
    | none => .ret none

/-- `allocate` (MonotonicAllocationStrategy.cpp:31-44).  The size is advanced
before it is tested, and stays advanced when the exception is thrown. -/
def allocate (s : State) (n : Nat) : Option Nat × State :=
  let s' := { s with size := w64 (s.size + n) }
  if s'.size > s.cap then (none, s') else (some (w64 (s.block + s.size)), s')

/-- `deallocate` (MonotonicAllocationStrategy.cpp:46-48). -/
def deallocate (s : State) : State := s

/-- The destructor (MonotonicAllocationStrategy.cpp:26-29). -/
def destroy (s : State) : Prog Unit := .dealloc s.block s.cap (.ret ())

/-- MonotonicAllocationStrategy.cpp:50-54. -/
def getCurrentSize (s : State) : Nat := s.size

/-- MonotonicAllocationStrategy.cpp:56-60. -/
def getHighWatermark (s : State) : Nat := s.cap

/-- A strategy in use: everything ever handed out stays reserved (`given`), and the
sizes of all requests so far (`asked`). -/
structure Sys where
  st : State
  held : Held
  given : Held
  asked : List Nat
deriving DecidableEq, Repr

/-- Everything a user can bring about with a strategy of capacity `cap`. -/
inductive Reach (cap : Nat) : Sys → Prop where
  | init {s O} : Run (create cap) [] (some s) O → Reach cap ⟨s, O, [], []⟩
  | alloc {S : Sys} {n p s'} : Reach cap S → allocate S.st n = (some p, s') →
      Reach cap ⟨s', S.held, (p, n) :: S.given, n :: S.asked⟩
  | allocErr {S : Sys} {n s'} : Reach cap S → allocate S.st n = (none, s') →
      Reach cap ⟨s', S.held, S.given, n :: S.asked⟩
  | dealloc {S : Sys} : Reach cap S → Reach cap ⟨deallocate S.st, S.held, S.given, S.asked⟩

/-- The invariant: all of `given` lies in the part of the block before `size`. -/
structure Inv (cap : Nat) (S : Sys) : Prop where
  capEq : S.st.cap = cap
  held : S.held = [(S.st.block, cap)]
  top : S.st.block + cap ≤ AMax
  nz : S.st.block ≠ 0
  size : S.st.size = S.asked.sum
  given : ∀ g ∈ S.given, Within g.1 g.2 S.st.block S.st.size ∧ Within g.1 g.2 S.st.block cap
  disj : S.given.Pairwise fun x y => Disj x.1 x.2 y.1 y.2

theorem reach_inv {cap : Nat} {S : Sys} (h : Reach cap S) (hs : S.asked.sum < W) : Inv cap S := by
  induction h with
  | init hr =>
    cases hr with
    | allocOk hp hr =>
      cases hr
      exact ⟨rfl, rfl, hp.2.1, hp.1, rfl, by simp, List.Pairwise.nil⟩
    | allocFail hr => cases hr
  | @alloc S n p s' hS he ih =>
    simp only [List.sum_cons] at hs
    have hi := ih (by omega)
    have h1 := hi.size
    have h2 := hi.capEq
    have h3 := hi.top
    have hw : w64 (S.st.size + n) = S.st.size + n := Nat.mod_eq_of_lt (by omega)
    unfold allocate at he
    simp only [hw] at he
    split at he
    · cases he
    · rename_i hle
      simp only [Prod.mk.injEq, Option.some.injEq] at he
      obtain ⟨rfl, rfl⟩ := he
      have hA : AMax < W := by decide
      have hb : w64 (S.st.block + S.st.size) = S.st.block + S.st.size := Nat.mod_eq_of_lt (by omega)
      rw [hb]
      refine ⟨h2, hi.held, h3, hi.nz, ?_, ?_, ?_⟩
      · simp only [List.sum_cons]; omega
      · intro g hg
        rcases List.mem_cons.1 hg with rfl | hg
        · unfold Within; simp only; omega
        · have := hi.given g hg
          unfold Within at this ⊢
          simp only
          omega
      · refine List.pairwise_cons.2 ⟨fun g hg => ?_, hi.disj⟩
        have := (hi.given g hg).1
        unfold Within at this
        unfold Disj
        simp only
        omega
  | @allocErr S n s' hS he ih =>
    simp only [List.sum_cons] at hs
    have hi := ih (by omega)
    have h1 := hi.size
    have hw : w64 (S.st.size + n) = S.st.size + n := Nat.mod_eq_of_lt (by omega)
    unfold allocate at he
    simp only [hw] at he
    split at he
    · simp only [Prod.mk.injEq, true_and] at he
      subst he
      refine ⟨hi.capEq, hi.held, hi.top, hi.nz, ?_, ?_, hi.disj⟩
      · simp only [List.sum_cons]; omega
      · intro g hg
        have := hi.given g hg
        unfold Within at this ⊢
        simp only
        omega
    · cases he
  | dealloc _ ih =>
    have hi := ih hs
    exact ⟨hi.capEq, hi.held, hi.top, hi.nz, hi.size, hi.given, hi.disj⟩

/-- Everything handed out lies inside the one block held from the parent, and is
pairwise disjoint.  Partial: only while the sizes of all requests so far, failed
ones included, add up to less than 2^64; see `monotonic_wraparound_counterexample`. -/
theorem monotonic_disjoint_partial {cap : Nat} {S : Sys} (h : Reach cap S) (hs : S.asked.sum < W) :
    (S.given.Pairwise fun x y => Disj x.1 x.2 y.1 y.2) ∧
    ∃ b, S.held = [(b, cap)] ∧ ∀ g ∈ S.given, Within g.1 g.2 b cap := by
  have hi := reach_inv h hs
  exact ⟨hi.disj, _, hi.held, fun g hg => (hi.given g hg).2⟩

/-- A request succeeds exactly if it fits the capacity together with all requests
made before.  So as long as no request has failed, a request succeeds exactly if
it fits the space that is left.  Partial: the claim wants this also after failed
requests; see `monotonic_failed_request_counterexample`. -/
theorem monotonic_fits_partial {cap : Nat} {S : Sys} (h : Reach cap S) {n : Nat} (hs : S.asked.sum + n < W) :
    ((allocate S.st n).1 ≠ none ↔ S.asked.sum + n ≤ cap) ∧
    ((S.asked.sum = (S.given.map (·.2)).sum) → ((allocate S.st n).1 ≠ none ↔ (S.given.map (·.2)).sum + n ≤ cap)) := by
  have hi := reach_inv h (by omega)
  have hw : w64 (S.st.size + n) = S.st.size + n := Nat.mod_eq_of_lt (by rw [hi.size]; exact hs)
  have key : (allocate S.st n).1 ≠ none ↔ S.asked.sum + n ≤ cap := by
    unfold allocate
    have hz := hi.size
    simp only [hw, hi.capEq]
    split
    · simp; omega
    · simp; omega
  exact ⟨key, fun he => by rw [← he]; exact key⟩

/-- The current size reported is the sum of all requests, the high watermark is
the capacity; the destructor hands back the block. -/
theorem monotonic_sizes {cap : Nat} {S : Sys} (h : Reach cap S) (hs : S.asked.sum < W) :
    getCurrentSize S.st = S.asked.sum ∧ getHighWatermark S.st = cap ∧
    (∀ b, ¬ Goes (destroy S.st) S.held b) ∧ (∀ u O', Run (destroy S.st) S.held u O' → O' = []) := by
  have hi := reach_inv h hs
  refine ⟨hi.size, hi.capEq, ?_, ?_⟩
  · intro b hg
    unfold destroy at hg
    rw [hi.held, hi.capEq] at hg
    cases hg with
    | badFree hn => exact hn (by simp)
    | dealloc hg => cases hg
  · intro u O' hr
    unfold destroy at hr
    rw [hi.held, hi.capEq] at hr
    cases hr with
    | dealloc hr => cases hr; simp [drop]

/-- Three requests on a capacity of 100, the last one failing. -/
def sysX : Sys :=
  { st := ⟨1600, 110, 100⟩, held := [(1600, 100)], given := [(1640, 20), (1600, 40)], asked := [50, 20, 40] }

theorem init_reach (cap : Nat) (h : 1600 + cap ≤ AMax) : Reach cap ⟨⟨1600, 0, cap⟩, [(1600, cap)], [], []⟩ :=
  .init (.allocOk ⟨by decide, h, by simp⟩ .ret)

theorem sysX_reach : Reach 100 sysX := by
  have h0 := init_reach 100 (by decide)
  have h1 := Reach.alloc (n := 40) (p := 1600) (s' := ⟨1600, 40, 100⟩) h0 (by decide)
  have h2 := Reach.alloc (n := 20) (p := 1640) (s' := ⟨1600, 60, 100⟩) h1 (by decide)
  exact Reach.allocErr (n := 50) (s' := ⟨1600, 110, 100⟩) h2 (by decide)

example : sysX.given.length = 2 ∧ sysX.given.Pairwise fun x y => Disj x.1 x.2 y.1 y.2 :=
  ⟨rfl, (monotonic_disjoint_partial sysX_reach (by decide)).1⟩

/-- A state in which no request has failed yet. -/
example : ∃ S, Reach 100 S ∧ S.asked.sum = (S.given.map (·.2)).sum ∧ S.given ≠ [] ∧ (allocate S.st 60).1 ≠ none := by
  have h1 := Reach.alloc (n := 40) (p := 1600) (s' := ⟨1600, 40, 100⟩) (init_reach 100 (by decide)) (by decide)
  exact ⟨_, h1, by decide, by decide, ((monotonic_fits_partial h1 (n := 60) (by decide)).2 (by decide)).2 (by decide)⟩

/-- A request that does not fit makes later requests fail although they fit: of a
capacity of 100 nothing is in use, and a request for 10 bytes fails. -/
theorem monotonic_failed_request_counterexample :
    ∃ S : Sys, Reach 100 S ∧ S.given = [] ∧ (allocate S.st 10).1 = none := by
  refine ⟨_, Reach.allocErr (n := 101) (s' := ⟨1600, 101, 100⟩) (init_reach 100 (by decide)) (by decide), rfl, by decide⟩

/-- The 64-bit size wraps around: a request for 2^64 - 40 bytes succeeds although
the capacity is 100, and the next request gets memory already in use. -/
theorem monotonic_wraparound_counterexample :
    ∃ S : Sys, Reach 100 S ∧ (1640, 2 ^ 64 - 40) ∈ S.given ∧
      (1600, 40) ∈ S.given ∧ (1600, 10) ∈ S.given := by
  have h1 := Reach.alloc (n := 40) (p := 1600) (s' := ⟨1600, 40, 100⟩) (init_reach 100 (by decide)) (by decide)
  have h2 := Reach.alloc (n := 2 ^ 64 - 40) (p := 1640) (s' := ⟨1600, 0, 100⟩) h1 (by decide)
  have h3 := Reach.alloc (n := 10) (p := 1600) (s' := ⟨1600, 10, 100⟩) h2 (by decide)
  exact ⟨_, h3, by decide, by decide, by decide⟩

end Umpire.Monotonic
