import Verif.Base.Prog
import Verif.Base.Lists
import Verif.QuickPool.Fit
/-!
# `SizeLimiter` (src/umpire/strategy/SizeLimiter.cpp): C17
-/
set_option autoImplicit false
set_option linter.unusedSimpArgs false
namespace Umpire.SizeLimiter
open Umpire.Prog
open Umpire.QuickPool (drop_perm)

/-- `m_size_limit`, `m_total_size` (SizeLimiter.hpp). -/
structure State where
  limit : Nat
  total : Nat
deriving DecidableEq, Repr

/-- How `allocate` can end. -/
inductive Res where
  | ok (p : Nat)
  /-- "Size limit exceeded" -/
  | limit
  /-- the parent threw -/
  | parent
deriving DecidableEq, Repr

/-- The constructor (SizeLimiter.cpp:15-21). -/
def create (limit : Nat) : State := ⟨limit, 0⟩

/-- `allocate` (SizeLimiter.cpp:23-33).  The total stays increased when the parent throws. -/
def allocate (s : State) (n : Nat) : Prog (Res × State) :=
  let s' := { s with total := w64 (s.total + n) }
  if s'.total > s.limit then .ret (.limit, { s' with total := w64 (s'.total + (W - w64 n)) })
  else .alloc n fun
    | some p => .ret (.ok p, s')
    | none => .ret (.parent, s')

/-- `deallocate` (SizeLimiter.cpp:35-39). -/
def deallocate (s : State) (p n : Nat) : Prog State :=
  .dealloc p n (.ret { s with total := w64 (s.total + (W - w64 n)) })

/-- A limiter in use.  `leaked` is the total size of the requests the parent has refused. -/
structure Sys where
  st : State
  held : Held
  live : Held
  leaked : Nat
deriving DecidableEq, Repr

/-- One user operation that completes.  Requests are positive, and small enough
for 64-bit arithmetic if `bounded`. -/
inductive Step (bounded : Prop) : Sys → Sys → Prop where
  | alloc {S : Sys} {n p s' O'} : 0 < n → (bounded → n + S.st.limit < W) → Run (allocate S.st n) S.held (.ok p, s') O' →
      Step bounded S ⟨s', O', (p, n) :: S.live, S.leaked⟩
  | allocLimit {S : Sys} {n s' O'} : 0 < n → (bounded → n + S.st.limit < W) → Run (allocate S.st n) S.held (.limit, s') O' →
      Step bounded S ⟨s', O', S.live, S.leaked⟩
  | allocParent {S : Sys} {n s' O'} : 0 < n → (bounded → n + S.st.limit < W) → Run (allocate S.st n) S.held (.parent, s') O' →
      Step bounded S ⟨s', O', S.live, S.leaked + n⟩
  | dealloc {S : Sys} {p n s' O'} : (p, n) ∈ S.live → Run (deallocate S.st p n) S.held s' O' →
      Step bounded S ⟨s', O', drop p S.live, S.leaked⟩

inductive Reach (bounded : Prop) (limit : Nat) : Sys → Prop where
  | init : Reach bounded limit ⟨create limit, [], [], 0⟩
  | step {S T : Sys} : Reach bounded limit S → Step bounded S T → Reach bounded limit T

structure Inv (limit : Nat) (S : Sys) : Prop where
  limEq : S.st.limit = limit
  eq : S.live = S.held
  pos : ∀ r ∈ S.held, 0 < r.2
  disj : S.held.Disjoint
  total : S.st.total = (S.live.map (·.2)).sum + S.leaked
  le : S.st.total ≤ limit
  lt : limit < W

theorem Inv.keys {limit : Nat} {S : Sys} (h : Inv limit S) : (S.held.map (·.1)).Nodup := by
  have hp := h.pos
  rw [List.Nodup, List.pairwise_map]
  refine List.Pairwise.imp_of_mem ?_ h.disj
  intro x y hx hy hd
  have := hp x hx
  have := hp y hy
  unfold Disj at hd
  omega

theorem allocate_eq {limit : Nat} {S : Sys} (h : Inv limit S) {n : Nat} (hn : n + limit < W) :
    allocate S.st n =
      if limit < (S.live.map (·.2)).sum + S.leaked + n then .ret (.limit, S.st)
      else .alloc n fun
        | some p => .ret (.ok p, { S.st with total := S.st.total + n })
        | none => .ret (.parent, { S.st with total := S.st.total + n }) := by
  have h1 := h.le
  have h2 := h.limEq
  have h3 := h.total
  have hw : w64 (S.st.total + n) = S.st.total + n := Nat.mod_eq_of_lt (by omega)
  have hw2 : w64 n = n := Nat.mod_eq_of_lt (by omega)
  have hw3 : w64 (S.st.total + n + (W - n)) = S.st.total := by
    have : S.st.total + n + (W - n) = S.st.total + W := by omega
    rw [this]
    unfold w64
    rw [Nat.add_mod_right, Nat.mod_eq_of_lt (by omega)]
  unfold allocate
  simp only [hw, hw2, hw3]
  rw [← h3, ← h2]

theorem deallocate_eq {limit : Nat} {S : Sys} (h : Inv limit S) {p n : Nat} (hl : (p, n) ∈ S.live) :
    deallocate S.st p n = .dealloc p n (.ret { S.st with total := S.st.total - n }) ∧ n ≤ S.st.total := by
  have h1 := h.le
  have h3 := h.total
  have h4 := h.lt
  have hle : n ≤ (S.live.map (·.2)).sum := le_sum_of_mem (List.mem_map.2 ⟨_, hl, rfl⟩)
  refine ⟨?_, by omega⟩
  unfold deallocate
  have hw : w64 n = n := Nat.mod_eq_of_lt (by omega)
  have hw3 : w64 (S.st.total + (W - n)) = S.st.total - n := by
    have : S.st.total + (W - n) = S.st.total - n + W := by omega
    rw [this]
    unfold w64
    rw [Nat.add_mod_right, Nat.mod_eq_of_lt (by omega)]
  rw [hw, hw3]

theorem step_inv {limit : Nat} {S T : Sys} (h : Inv limit S) (hs : Step True S T) : Inv limit T := by
  have hle := h.le
  have ht := h.total
  cases hs with
  | @alloc n p s' O' hn hb hr =>
    rw [h.limEq] at hb
    rw [allocate_eq h (hb trivial)] at hr
    split at hr
    · cases hr
    · cases hr with
      | allocOk hp hr =>
        cases hr
        refine ⟨h.limEq, ?_, ?_, ?_, ?_, ?_, h.lt⟩
        · simp only [h.eq]
        · intro r hr
          rcases List.mem_cons.1 hr with rfl | hr
          · exact hn
          · exact h.pos r hr
        · exact List.pairwise_cons.2 ⟨hp.2.2, h.disj⟩
        · simp only [List.map_cons, List.sum_cons]; omega
        · simp only; omega
      | allocFail hr => cases hr
  | @allocLimit n s' O' hn hb hr =>
    rw [h.limEq] at hb
    rw [allocate_eq h (hb trivial)] at hr
    split at hr
    · cases hr; exact h
    · cases hr with
      | allocOk hp hr => cases hr
      | allocFail hr => cases hr
  | @allocParent n s' O' hn hb hr =>
    rw [h.limEq] at hb
    rw [allocate_eq h (hb trivial)] at hr
    split at hr
    · cases hr
    · cases hr with
      | allocOk hp hr => cases hr
      | allocFail hr =>
        cases hr
        refine ⟨h.limEq, h.eq, h.pos, h.disj, ?_, ?_, h.lt⟩
        · simp only; omega
        · simp only; omega
  | @dealloc p n s' O' hl hr =>
    obtain ⟨he, hn⟩ := deallocate_eq h hl
    rw [he] at hr
    cases hr with
    | dealloc hr =>
      cases hr
      have hp := drop_perm (by rw [h.eq]; exact h.keys) hl
      have hsum := (hp.map (·.2)).sum_nat
      simp only [List.map_cons, List.sum_cons] at hsum
      refine ⟨h.limEq, ?_, fun r hr => h.pos r (drop_sub r hr), h.disj.drop p, ?_, ?_, h.lt⟩
      · simp only [h.eq]
      · simp only; omega
      · simp only; omega

theorem reach_inv {limit : Nat} (hl : limit < W) {S : Sys} (h : Reach True limit S) : Inv limit S := by
  induction h with
  | init => exact ⟨rfl, rfl, by simp, List.Pairwise.nil, rfl, Nat.zero_le _, hl⟩
  | step _ hs ih => exact step_inv ih hs

/-- The total size of live allocations never exceeds the limit.  Partial: only for
requests `n` with `n + limit < 2^64` (the first argument `True` of `Reach`); see
`sizelimiter_wraparound_counterexample`. -/
theorem sizelimiter_limit_partial {limit : Nat} (hl : limit < W) {S : Sys} (h : Reach True limit S) :
    (S.live.map (·.2)).sum ≤ limit ∧ S.live = S.held := by
  have hi := reach_inv hl h
  have := hi.le
  have := hi.total
  exact ⟨by omega, hi.eq⟩

/-- A request is refused by the limiter exactly if it would exceed the limit,
counting the live allocations and the requests the parent refused before; then
nothing changes and the parent is not contacted.  In particular, while the parent
has refused nothing, it is refused exactly if live allocations plus the request
exceed the limit.  Partial: requests refused by the parent should not count. -/
theorem sizelimiter_refuses_partial {limit : Nat} (hl : limit < W) {S : Sys} (h : Reach True limit S) {n : Nat}
    (hn : n + limit < W) {r : Res} {s' : State} {O' : Held} {t : List Ev}
    (hr : RunT (allocate S.st n) S.held t (r, s') O') :
    (limit < (S.live.map (·.2)).sum + S.leaked + n → t = [] ∧ r = .limit ∧ s' = S.st ∧ O' = S.held) ∧
    ((S.live.map (·.2)).sum + S.leaked + n ≤ limit →
      (∃ p, t = [.got p n] ∧ r = .ok p ∧ O' = (p, n) :: S.held) ∨ (t = [.refused n] ∧ r = .parent ∧ O' = S.held)) := by
  have hi := reach_inv hl h
  rw [allocate_eq hi hn] at hr
  split at hr
  · cases hr
    exact ⟨fun _ => ⟨rfl, rfl, rfl, rfl⟩, fun hle => by omega⟩
  · refine ⟨fun hlt => by omega, fun _ => ?_⟩
    cases hr with
    | allocOk hp hr => cases hr; exact .inl ⟨_, rfl, rfl, rfl⟩
    | allocFail hr => cases hr; exact .inr ⟨rfl, rfl, rfl⟩

/-- Deallocating hands the same pointer and size to the parent and gives the whole
size back to the budget: afterwards a request of the same size is not refused by
the limiter. -/
theorem sizelimiter_deallocate {limit : Nat} (hl : limit < W) {S : Sys} (h : Reach True limit S) {p n : Nat}
    (hp : (p, n) ∈ S.live) {s' : State} {O' : Held} {t : List Ev} (hr : RunT (deallocate S.st p n) S.held t s' O') :
    t = [.freed p n] ∧ (∀ b, ¬ Goes (deallocate S.st p n) S.held b) ∧
    (n + limit < W → ∀ s'' O'', ¬ Run (allocate s' n) O' (.limit, s'') O'') := by
  have hi := reach_inv hl h
  have hT := Reach.step h (.dealloc hp hr.run)
  have hi' := reach_inv hl hT
  obtain ⟨he, hn⟩ := deallocate_eq hi hp
  rw [he] at hr ⊢
  cases hr with
  | dealloc hr =>
    cases hr
    refine ⟨rfl, ?_, ?_⟩
    · intro b hg
      cases hg with
      | badFree hno => rw [← hi.eq] at hno; exact hno hp
      | dealloc hg => cases hg
    · intro hlt s'' O'' hr
      obtain ⟨t, ht⟩ := hr.trace
      have hle : ((drop p S.live).map (·.2)).sum + S.leaked + n ≤ limit := by
        have h1 := hi'.total
        have h2 := hi.le
        simp only at h1
        omega
      rcases (sizelimiter_refuses_partial hl hT hlt ht).2 hle with ⟨_, _, h1, _⟩ | ⟨_, h1, _⟩ <;> cases h1

/-- Limit 100, with 60 bytes live. -/
def sysX : Sys := { st := ⟨100, 60⟩, held := [(1600, 60)], live := [(1600, 60)], leaked := 0 }

theorem sysX_reach (b : Prop) : Reach b 100 sysX :=
  .step .init (.alloc (S := ⟨create 100, [], [], 0⟩) (n := 60) (p := 1600) (by decide) (fun _ => by decide)
    (execOk_run [some 1600] (by decide +kernel)))

example : (sysX.live.map (·.2)).sum ≤ 100 := (sizelimiter_limit_partial (by decide) (sysX_reach True)).1

example : RunT (allocate sysX.st 41) sysX.held [] (.limit, sysX.st) sysX.held := by
  obtain ⟨t, ht⟩ := (execOk_run (p := allocate sysX.st 41) [] (O := sysX.held) (a := (.limit, sysX.st))
    (O' := sysX.held) (by decide +kernel)).trace
  obtain ⟨h1, -⟩ := (sizelimiter_refuses_partial (by decide) (sysX_reach True) (by decide) ht).1 (by decide)
  subst h1
  exact ht

/-- When the parent refuses a request, the budget it took is not given back: the
limit is 100, nothing is live, and a request for 60 bytes is refused by the
limiter. -/
theorem sizelimiter_leak_counterexample :
    ∃ S : Sys, Reach True 100 S ∧ S.live = [] ∧ ∃ s', Run (allocate S.st 60) S.held (.limit, s') S.held := by
  refine ⟨⟨⟨100, 60⟩, [], [], 60⟩, ?_, rfl, ⟨100, 60⟩, execOk_run [] (by decide +kernel)⟩
  have := Step.allocParent (bounded := True) (S := ⟨create 100, [], [], 0⟩) (n := 60) (s' := ⟨100, 60⟩) (O' := [])
    (by decide) (fun _ => by decide) (execOk_run [none] (by decide +kernel))
  exact .step .init this

/-- The 64-bit total wraps around: after a request for 2^64 - 50 bytes, which the
parent of course refuses, 150 bytes can be live at once under a limit of 100. -/
theorem sizelimiter_wraparound_counterexample :
    ∃ S : Sys, Reach False 100 S ∧ (S.live.map (·.2)).sum = 150 := by
  have h1 := Step.allocParent (bounded := False) (S := sysX) (n := 2 ^ 64 - 50) (s' := ⟨100, 10⟩) (O' := [(1600, 60)])
    (by decide) (fun h => h.elim) (execOk_run [none] (by decide +kernel))
  have h2 := Step.alloc (bounded := False) (S := ⟨⟨100, 10⟩, [(1600, 60)], sysX.live, sysX.leaked + (2 ^ 64 - 50)⟩) (n := 90) (p := 3200)
    (s' := ⟨100, 100⟩) (O' := [(3200, 90), (1600, 60)])
    (by decide) (fun h => h.elim) (execOk_run [some 3200] (by decide +kernel))
  exact ⟨_, .step (.step (sysX_reach False) h1) h2, by decide⟩

end Umpire.SizeLimiter
