import Verif.Base.Prog
/-!
# Model of `DeviceAllocator::allocate` and `reset`

src/umpire/DeviceAllocator.cpp:72-125.  Any number of device threads; every access to
the shared counter is a step, the steps of all threads interleave arbitrarily.

The counter is `unsigned int` (32 bits); `atomicAdd` converts the size to 32 bits.
The check is compiled only for HIP (`hip`); it reads the counter again.  When it
fails, `UMPIRE_ERROR` aborts (here: the request is recorded as failed).

`reset` makes all earlier allocations void; this includes requests that are between
`atomicAdd` and their return at that moment, whose results are dropped from the model.
-/
set_option autoImplicit false
set_option linter.unusedSimpArgs false
namespace Umpire.Device
open Umpire

/-- Values of `unsigned int`. -/
def W32 : Nat := 2 ^ 32

/-- A request: offset obtained from the counter, and size asked for. -/
abbrev Req := Nat × Nat

/-- State of one device allocator.  `grants` (ghost) are all requests since the counter was
last set to 0, newest first; `pend` those that have not yet returned; `ret` those that
have returned their offset; `failed` those that have failed; `assumed` are the threads
inside `reset`, with the value they read. -/
structure Bump where
  size : Nat
  counter : Nat
  grants : List Req
  pend : List Req
  ret : List Req
  failed : List Req
  assumed : List Nat
deriving DecidableEq, Repr

/-- DeviceAllocator.cpp:19-30: `m_counter` is 0. -/
def Bump.new (size : Nat) : Bump := ⟨size, 0, [], [], [], [], []⟩

/-- DeviceAllocator.cpp:74: `atomicAdd(m_counter, size)`. -/
def Bump.add (s : Bump) (n : Nat) : Bump :=
  { s with counter := (s.counter + n % W32) % W32, grants := (s.counter, n) :: s.grants, pend := (s.counter, n) :: s.pend }

/-- DeviceAllocator.cpp:76, 81: return, or fail, after reading the counter once more. -/
def Bump.finish (hip : Bool) (s : Bump) (r : Req) : Bump :=
  if hip = true ∧ s.counter > s.size then { s with pend := s.pend.erase r, failed := r :: s.failed }
  else { s with pend := s.pend.erase r, ret := r :: s.ret }

/-- The counter is set to 0 (DeviceAllocator.cpp:117, or the successful `atomicCAS` of 122). -/
def Bump.zero (s : Bump) : Bump := { s with counter := 0, grants := [], pend := [], ret := [], failed := [] }

/-- One step of some thread. -/
inductive BStep (hip : Bool) : Bump → Bump → Prop where
  | add {s : Bump} {n : Nat} : BStep hip s (s.add n)
  | finish {s : Bump} {r : Req} (h : r ∈ s.pend) : BStep hip s (s.finish hip r)
  /-- DeviceAllocator.cpp:116-117 -/
  | hostReset {s : Bump} : BStep hip s s.zero
  /-- DeviceAllocator.cpp:121 -/
  | read {s : Bump} : BStep hip s { s with assumed := s.counter :: s.assumed }
  /-- DeviceAllocator.cpp:122: `atomicCAS` finds the value it assumed -/
  | cas {s : Bump} {a : Nat} (h : a ∈ s.assumed) (he : s.counter = a) : BStep hip s { s.zero with assumed := s.assumed.erase a }
  /-- DeviceAllocator.cpp:122-123: it does not, and the loop goes on -/
  | retry {s : Bump} {a : Nat} (h : a ∈ s.assumed) (he : s.counter ≠ a) : BStep hip s { s with assumed := s.assumed.erase a }

inductive BReach (hip : Bool) (size : Nat) : Bump → Prop where
  | init : BReach hip size (.new size)
  | step {s s' : Bump} (h : BReach hip size s) (hs : BStep hip s s') : BReach hip size s'

/-! ## Specification -/

/-- Bytes asked for since the last reset. -/
def asked (s : Bump) : Nat := (s.grants.map (·.2)).sum

/-! ## Invariant -/

structure BInv (hip : Bool) (size : Nat) (s : Bump) : Prop where
  sizeEq : s.size = size
  counter : s.counter = asked s % W32
  grants : asked s < W32 → s.grants.Pairwise (fun x y => y.1 + y.2 ≤ x.1) ∧ ∀ r ∈ s.grants, r.1 + r.2 ≤ s.counter
  perm : (s.ret ++ (s.failed ++ s.pend)).Perm s.grants
  fits : hip = true → asked s < W32 → ∀ r ∈ s.ret, r.1 + r.2 ≤ size

theorem zero_inv {hip : Bool} {size : Nat} {s : Bump} (h : s.size = size) {l : List Nat} : BInv hip size { s.zero with assumed := l } :=
  ⟨h, rfl, fun _ => ⟨.nil, fun r hr => (by cases hr)⟩, .nil, fun _ _ r hr => (by cases hr)⟩

theorem asked_add {s : Bump} {n : Nat} : asked (s.add n) = n + asked s := by
  unfold asked Bump.add
  rw [List.map_cons, List.sum_cons]

theorem BInv.step {hip : Bool} {size : Nat} {s s' : Bump} (h : BInv hip size s) (hs : BStep hip s s') : BInv hip size s' := by
  have hW : W32 = 4294967296 := rfl
  cases hs with
  | @add n =>
    have ha := asked_add (s := s) (n := n)
    refine ⟨h.sizeEq, ?_, fun hlt => ?_, ?_, fun h1 hlt r hr => ?_⟩
    · show (s.counter + n % W32) % W32 = _
      rw [ha, h.counter, hW]
      omega
    · rw [ha] at hlt
      obtain ⟨h1, h2⟩ := h.grants (by omega)
      have hc : s.counter = asked s := by rw [h.counter, hW]; omega
      have hc' : (s.add n).counter = s.counter + n := by
        show (s.counter + n % W32) % W32 = _
        rw [hW]; omega
      refine ⟨?_, fun r hr => ?_⟩
      · show ((s.counter, n) :: s.grants).Pairwise _
        exact .cons (fun y hy => h2 y hy) h1
      · rw [hc']
        rcases List.mem_cons.mp hr with rfl | hr
        · exact Nat.le_refl _
        · have := h2 r hr; omega
    · show (s.ret ++ (s.failed ++ (s.counter, n) :: s.pend)).Perm ((s.counter, n) :: s.grants)
      rw [← List.append_assoc]
      refine List.perm_middle.trans (.cons _ ?_)
      rw [List.append_assoc]; exact h.perm
    · rw [ha] at hlt
      exact h.fits h1 (by omega) r hr
  | @finish r hr =>
    have hp := List.perm_cons_erase hr
    unfold Bump.finish
    split
    · refine ⟨h.sizeEq, h.counter, h.grants, ?_, h.fits⟩
      show (s.ret ++ (r :: s.failed ++ s.pend.erase r)).Perm s.grants
      refine List.Perm.trans (.append_left _ ?_) h.perm
      exact List.Perm.trans List.perm_middle.symm (.append_left _ hp.symm)
    · rename_i hn
      have hmem : r ∈ s.grants := h.perm.subset (List.mem_append_right _ (List.mem_append_right _ hr))
      refine ⟨h.sizeEq, h.counter, h.grants, ?_, fun h1 hlt x hx => ?_⟩
      · show (r :: s.ret ++ (s.failed ++ s.pend.erase r)).Perm s.grants
        refine List.Perm.trans ?_ h.perm
        refine List.Perm.trans List.perm_middle.symm (.append_left _ ?_)
        exact List.Perm.trans List.perm_middle.symm (.append_left _ hp.symm)
      · rcases List.mem_cons.mp hx with rfl | hx
        · have h2 := (h.grants hlt).2 _ hmem
          have h3 := h.sizeEq
          have : ¬ s.counter > s.size := fun hc => hn ⟨h1, hc⟩
          omega
        · exact h.fits h1 hlt x hx
  | hostReset => exact zero_inv (l := s.assumed) h.sizeEq
  | read => exact ⟨h.sizeEq, h.counter, h.grants, h.perm, h.fits⟩
  | cas _ _ => exact zero_inv h.sizeEq
  | retry _ _ => exact ⟨h.sizeEq, h.counter, h.grants, h.perm, h.fits⟩

theorem BReach.inv {hip : Bool} {size : Nat} {s : Bump} (h : BReach hip size s) : BInv hip size s := by
  induction h with
  | init => exact zero_inv (s := .new size) (l := []) rfl
  | step _ hs ih => exact ih.step hs

/-! ## Properties (C41) -/

/-- C41, disjointness.  For any number of threads and any interleaving, as long as fewer than
2^32 bytes were asked for since the last reset (with success or not), the ranges returned
since then are pairwise disjoint, and disjoint from those of requests still in progress. -/
theorem device_disjoint_partial {hip : Bool} {size : Nat} {s : Bump} (h : BReach hip size s) (hn : asked s < W32) :
    (s.ret ++ s.pend).Pairwise fun x y => Disj x.1 x.2 y.1 y.2 := by
  have hi := h.inv
  have h1 : s.grants.Pairwise fun x y => Disj x.1 x.2 y.1 y.2 := (hi.grants hn).1.imp fun h => .inr h
  have h2 := (hi.perm.pairwise_iff (R := fun x y : Req => Disj x.1 x.2 y.1 y.2) (fun h => h.symm)).mpr h1
  exact h2.sublist (List.Sublist.append_left (List.sublist_append_right _ _) _)

/-- C41, bounds.  On HIP, under the same condition, every range that was returned lies in the
buffer: requests that do not fit fail. -/
theorem device_bounded_partial {size : Nat} {s : Bump} (h : BReach true size s) (hn : asked s < W32) :
    ∀ r ∈ s.ret, r.1 + r.2 ≤ size :=
  h.inv.fits rfl hn

/-- C41, no needless failure.  Under the same condition, if everything asked for since the
last reset fits, nothing has failed. -/
theorem device_no_failure_partial {hip : Bool} {size : Nat} {s : Bump} (h : BReach hip size s) (hn : asked s < W32) (hf : asked s ≤ size) :
    s.failed = [] := by
  have key : asked s < W32 → asked s ≤ size → s.failed = [] := by
    clear hn hf
    induction h with
    | init => exact fun _ _ => rfl
    | @step s s' hr hs ih =>
      have hi := hr.inv
      cases hs with
      | @add n =>
        rw [asked_add]
        exact fun h1 h2 => ih (by omega) (by omega)
      | @finish r hr =>
        intro h1 h2
        unfold Bump.finish at h1 h2 ⊢
        split
        · rename_i hc
          rw [if_pos hc] at h1 h2
          have h1 : asked s < W32 := h1
          have h2 : asked s ≤ size := h2
          have h3 := hi.counter
          have h4 := hi.sizeEq
          rw [Nat.mod_eq_of_lt h1] at h3
          omega
        · rename_i hc
          rw [if_neg hc] at h1 h2
          exact ih h1 h2
      | hostReset => exact fun _ _ => rfl
      | read => exact ih
      | cas _ _ => exact fun _ _ => rfl
      | retry _ _ => exact ih
  exact key hn hf

/-- C41, reset.  Whenever the counter has been set to 0, by the host or by the loop of a
device thread, the next requests are served as by a new allocator: the first one gets
offset 0, and on its own it succeeds if it fits. -/
theorem device_reset {hip : Bool} {size : Nat} {s : Bump} (h : BReach hip size s) {n : Nat} (hn : n ≤ size) (hW : n < W32) :
    BReach hip size s.zero ∧ BReach hip size ((s.zero.add n).finish hip (0, n)) ∧ ((s.zero.add n).finish hip (0, n)).ret = [(0, n)] := by
  have h1 : BReach hip size s.zero := .step h .hostReset
  have h2 : BReach hip size (s.zero.add n) := .step h1 .add
  have h3 : BReach hip size ((s.zero.add n).finish hip (0, n)) := .step h2 (.finish (.head _))
  refine ⟨h1, h3, ?_⟩
  have hc : (s.zero.add n).counter = n := by
    show (0 + n % W32) % W32 = n
    rw [Nat.zero_add, Nat.mod_mod, Nat.mod_eq_of_lt hW]
  have hs : (s.zero.add n).size = size := h.inv.sizeEq
  unfold Bump.finish
  rw [if_neg (by rw [hc, hs]; omega)]
  rfl

/-- The loop of `reset` on the device: what `atomicCAS` does when it succeeds is what the
reset of the host does. -/
theorem device_reset_cas {hip : Bool} {s s' : Bump} (hs : BStep hip s s') (hlt : s'.assumed.length < s.assumed.length) :
    (s' = { s.zero with assumed := s'.assumed }) ∨ (s' = { s with assumed := s'.assumed } ∧ ∃ a ∈ s.assumed, s.counter ≠ a) := by
  cases hs with
  | add => exact absurd hlt (Nat.lt_irrefl _)
  | finish h =>
    unfold Bump.finish at hlt
    split at hlt <;> exact absurd hlt (Nat.lt_irrefl _)
  | hostReset => exact absurd hlt (Nat.lt_irrefl _)
  | read => exact absurd hlt (by simp)
  | cas _ _ => exact .inl rfl
  | retry h he => exact .inr ⟨rfl, _, h, he⟩

/-! ## Where the property fails -/

/-- Follow a list of requests and returns. -/
inductive Act where
  | add (n : Nat)
  | fin (r : Req)

def Bump.act (hip : Bool) (s : Bump) : Act → Option Bump
  | .add n => some (s.add n)
  | .fin r => if r ∈ s.pend then some (s.finish hip r) else none

theorem acts_reach {hip : Bool} {size : Nat} {l : List Act} {s s' : Bump} (hs : BReach hip size s) (h : l.foldlM (Bump.act hip) s = some s') :
    BReach hip size s' := by
  induction l generalizing s with
  | nil => cases h; exact hs
  | cons a l ih =>
    rw [List.foldlM_cons] at h
    cases ha : s.act hip a with
    | none => rw [ha] at h; cases h
    | some s1 =>
      rw [ha] at h
      refine ih (.step hs ?_) h
      cases a with
      | add n => cases ha; exact .add
      | fin r =>
        have ha : (if r ∈ s.pend then some (s.finish hip r) else none) = some s1 := ha
        by_cases hm : r ∈ s.pend
        · rw [if_pos hm] at ha
          injection ha with ha
          subst ha
          exact .finish hm
        · rw [if_neg hm] at ha; cases ha

/-- Non-vacuity: two requests have returned and a third one, which will fail, is in progress;
the conditions of `device_disjoint_partial` and `device_bounded_partial` hold. -/
example : ∃ s, BReach true 100 s ∧ asked s < W32 ∧ s.ret = [(40, 60), (0, 40)] ∧ s.pend = [(100, 8)] := by
  refine ⟨_, acts_reach .init (l := [.add 40, .add 60, .fin (0, 40), .fin (40, 60), .add 8]) rfl, by decide, by decide, by decide⟩

/-- On CUDA there is no check: memory outside the buffer is returned. -/
theorem cuda_out_of_bounds_counterexample : ∃ s, BReach false 100 s ∧ asked s < W32 ∧ (60, 60) ∈ s.ret :=
  ⟨_, acts_reach .init (l := [.add 60, .fin (0, 60), .add 60, .fin (60, 60)]) rfl, by decide, by decide⟩

/-- A request that does not fit makes one fail that does, because the counter is read again:
the first thread gets `[0, 60)` of 100 bytes and fails, as another one has asked in between. -/
theorem hip_fitting_fails_counterexample :
    ∃ s, BReach true 100 s ∧ asked s < W32 ∧ (0, 60) ∈ s.failed ∧ s.ret = [] :=
  ⟨_, acts_reach .init (l := [.add 60, .add 60, .fin (0, 60), .fin (60, 60)]) rfl, by decide, by decide, by decide⟩

/-- A request that fails uses up the space: a later one that would fit fails. -/
theorem hip_failed_uses_space_counterexample :
    ∃ s, BReach true 100 s ∧ asked s < W32 ∧ s.ret = [(0, 60)] ∧ (120, 8) ∈ s.failed ∧ 60 + 8 ≤ 100 :=
  ⟨_, acts_reach .init (l := [.add 60, .fin (0, 60), .add 60, .fin (60, 60), .add 8, .fin (120, 8)]) rfl, by decide, by decide, by decide, by decide⟩

/-- The counter wraps: on HIP too, a huge request passes the check and is given memory
outside the buffer, and the next one overlaps an allocation in use. -/
theorem device_wrap_counterexample :
    ∃ s, BReach true 100 s ∧ s.ret = [(0, 10), (60, 2 ^ 32 - 60), (0, 60)] ∧ s.failed = [] :=
  ⟨_, acts_reach .init (l := [.add 60, .fin (0, 60), .add (2 ^ 32 - 60), .fin (60, 2 ^ 32 - 60), .add 10, .fin (0, 10)]) rfl, by decide, by decide⟩

/-- In a buffer of 4 GiB or more, requests that fit are given overlapping memory. -/
theorem device_large_counterexample :
    ∃ s, BReach true (2 ^ 33) s ∧ s.ret = [(0, 16), (0, 2 ^ 32)] ∧ asked s ≤ 2 ^ 33 :=
  ⟨_, acts_reach .init (l := [.add (2 ^ 32), .fin (0, 2 ^ 32), .add 16, .fin (0, 16)]) rfl, by decide, by decide⟩

/-- `device_no_failure_partial` and `device_reset` apply. -/
example : ∃ s, BReach true 100 s ∧ asked s = 100 ∧ s.ret = [(40, 60), (0, 40)] :=
  ⟨_, acts_reach .init (l := [.add 40, .add 60, .fin (0, 40), .fin (40, 60)]) rfl, by decide, by decide⟩

end Umpire.Device
