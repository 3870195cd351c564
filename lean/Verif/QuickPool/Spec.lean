import Verif.QuickPool.Model
import Verif.Base.PoolSpec
/-!
# Specification of a pool as seen from outside

Nothing here mentions chunks, size maps or counters.  A pool in use is
described by the ranges it holds from its parent (`held`) and the allocations
its user has not given back (`live`, as pointer and requested size).  The notions
used in the properties are in `Verif/Base/PoolSpec.lean`.
-/
set_option autoImplicit false
namespace Umpire.QuickPool
open Umpire Umpire.Prog

/-- A pool together with the ghost view of its two neighbours. -/
structure Sys where
  pool : State
  held : Held
  live : Held
deriving DecidableEq, Repr

/-- Requests for which the 64-bit size arithmetic does not overflow. -/
def ReqOk (cfg : Cfg) (n : Nat) : Prop := 0 < n ∧ n + 2 * cfg.align ≤ W

/-- One user operation that completes, against any well-behaved parent.  The
user deallocates only live pointers. -/
inductive Step (cfg : Cfg) : Sys → Sys → Prop where
  | allocOk {S : Sys} {n p s' O'} : ReqOk cfg n →
      Run (allocate cfg S.pool n) S.held (some p, s') O' → Step cfg S ⟨s', O', (p, n) :: S.live⟩
  | allocErr {S : Sys} {n s' O'} : ReqOk cfg n →
      Run (allocate cfg S.pool n) S.held (none, s') O' → Step cfg S ⟨s', O', S.live⟩
  | dealloc {S : Sys} {p n fuel s' O'} : (p, n) ∈ S.live →
      Run (deallocate cfg fuel S.pool p) S.held s' O' → Step cfg S ⟨s', O', drop p S.live⟩
  | release {S : Sys} {s' O'} : Run (QuickPool.release S.pool) S.held s' O' → Step cfg S ⟨s', O', S.live⟩
  | coalesce {S : Sys} {fuel s' O'} :
      Run (QuickPool.coalesce cfg fuel S.pool) S.held s' O' → Step cfg S ⟨s', O', S.live⟩

/-- Everything a user can bring about, from a freshly constructed pool. -/
inductive Reach (cfg : Cfg) : Sys → Prop where
  | init : Reach cfg ⟨init, [], []⟩
  | step {S T : Sys} : Reach cfg S → Step cfg S T → Reach cfg T

/-- Reachable states together with the largest amount of memory held at any
moment, also inside operations. -/
inductive ReachHeld (cfg : Cfg) : Sys → Nat → Prop where
  | init : ReachHeld cfg ⟨init, [], []⟩ 0
  | allocOk {S : Sys} {m n p s' t O'} : ReachHeld cfg S m → ReqOk cfg n →
      RunT (allocate cfg S.pool n) S.held t (some p, s') O' →
      ReachHeld cfg ⟨s', O', (p, n) :: S.live⟩ (max m (peak cfg.align S.held t))
  | allocErr {S : Sys} {m n s' t O'} : ReachHeld cfg S m → ReqOk cfg n →
      RunT (allocate cfg S.pool n) S.held t (none, s') O' →
      ReachHeld cfg ⟨s', O', S.live⟩ (max m (peak cfg.align S.held t))
  | dealloc {S : Sys} {m p n fuel s' t O'} : ReachHeld cfg S m → (p, n) ∈ S.live →
      RunT (deallocate cfg fuel S.pool p) S.held t s' O' →
      ReachHeld cfg ⟨s', O', drop p S.live⟩ (max m (peak cfg.align S.held t))
  | release {S : Sys} {m s' t O'} : ReachHeld cfg S m → RunT (QuickPool.release S.pool) S.held t s' O' →
      ReachHeld cfg ⟨s', O', S.live⟩ (max m (peak cfg.align S.held t))
  | coalesce {S : Sys} {m fuel s' t O'} : ReachHeld cfg S m →
      RunT (QuickPool.coalesce cfg fuel S.pool) S.held t s' O' →
      ReachHeld cfg ⟨s', O', S.live⟩ (max m (peak cfg.align S.held t))

/-- Reachable states together with the largest amount of memory in use between
operations. -/
inductive ReachLive (cfg : Cfg) : Sys → Nat → Prop where
  | init : ReachLive cfg ⟨init, [], []⟩ 0
  | step {S T : Sys} {m : Nat} : ReachLive cfg S m → Step cfg S T →
      ReachLive cfg T (max m (liveBytes cfg.align T.live))

/-! ## Scripted histories, for examples -/

/-- A user operation with the answers its parent gives. -/
inductive Op where
  | alloc (n : Nat) (script : List (Option Nat))
  | dealloc (p n fuel : Nat) (script : List (Option Nat))
  | release
  | coalesce (fuel : Nat) (script : List (Option Nat))

/-- Perform one scripted operation. -/
def Sys.apply (cfg : Cfg) (S : Sys) : Op → Option Sys
  | .alloc n sc =>
    if 0 < n ∧ n + 2 * cfg.align ≤ W then
      match (allocate cfg S.pool n).exec sc S.held with
      | .ok ((some p, s'), _, O') => some ⟨s', O', (p, n) :: S.live⟩
      | .ok ((none, s'), _, O') => some ⟨s', O', S.live⟩
      | .error _ => none
    else none
  | .dealloc p n fuel sc =>
    if (p, n) ∈ S.live then
      match (deallocate cfg fuel S.pool p).exec sc S.held with
      | .ok (s', _, O') => some ⟨s', O', drop p S.live⟩
      | .error _ => none
    else none
  | .release =>
    match (QuickPool.release S.pool).exec [] S.held with
    | .ok (s', _, O') => some ⟨s', O', S.live⟩
    | .error _ => none
  | .coalesce fuel sc =>
    match (QuickPool.coalesce cfg fuel S.pool).exec sc S.held with
    | .ok (s', _, O') => some ⟨s', O', S.live⟩
    | .error _ => none

/-- Perform a scripted history on a new pool. -/
def play (cfg : Cfg) (ops : List Op) : Option Sys := ops.foldlM (Sys.apply cfg) ⟨init, [], []⟩

theorem Sys.apply_step {cfg : Cfg} {S T : Sys} {op : Op} (h : S.apply cfg op = some T) : Step cfg S T := by
  cases op with
  | alloc n sc =>
    simp only [Sys.apply] at h
    split at h
    · rename_i hn
      split at h
      · injection h with h; subst h; exact .allocOk hn (exec_run ‹_›)
      · injection h with h; subst h; exact .allocErr hn (exec_run ‹_›)
      · simp at h
    · simp at h
  | dealloc p n fuel sc =>
    simp only [Sys.apply] at h
    split at h
    · split at h
      · injection h with h; subst h; exact .dealloc ‹_› (exec_run ‹_›)
      · simp at h
    · simp at h
  | release =>
    simp only [Sys.apply] at h
    split at h
    · injection h with h; subst h; exact .release (exec_run ‹_›)
    · simp at h
  | coalesce fuel sc =>
    simp only [Sys.apply] at h
    split at h
    · injection h with h; subst h; exact .coalesce (exec_run ‹_›)
    · simp at h

theorem foldlM_reach {cfg : Cfg} {ops : List Op} {S T : Sys} (hS : Reach cfg S)
    (h : ops.foldlM (Sys.apply cfg) S = some T) : Reach cfg T := by
  induction ops generalizing S with
  | nil => simp only [List.foldlM_nil] at h; injection h with h; subst h; exact hS
  | cons op ops ih =>
    simp only [List.foldlM_cons] at h
    cases ha : S.apply cfg op with
    | none => rw [ha] at h; simp at h
    | some U => rw [ha] at h; exact ih (.step hS (Sys.apply_step ha)) h

theorem play_reach {cfg : Cfg} {ops : List Op} {S : Sys} (h : play cfg ops = some S) : Reach cfg S :=
  foldlM_reach .init h

/-- As `play`, also computing the largest amount in use between operations. -/
def playLive (cfg : Cfg) (ops : List Op) : Option (Sys × Nat) :=
  ops.foldlM (fun S op => (Sys.apply cfg S.1 op).map fun T => (T, max S.2 (liveBytes cfg.align T.live)))
    (⟨init, [], []⟩, 0)

theorem foldlM_reachLive {cfg : Cfg} {ops : List Op} {S T : Sys × Nat} (hS : ReachLive cfg S.1 S.2)
    (h : ops.foldlM (fun S op => (Sys.apply cfg S.1 op).map fun T => (T, max S.2 (liveBytes cfg.align T.live))) S = some T) :
    ReachLive cfg T.1 T.2 := by
  induction ops generalizing S with
  | nil => simp only [List.foldlM_nil] at h; injection h with h; subst h; exact hS
  | cons op ops ih =>
    simp only [List.foldlM_cons] at h
    cases ha : S.1.apply cfg op with
    | none => rw [ha] at h; simp at h
    | some U => rw [ha] at h; exact ih (.step hS (Sys.apply_step ha)) h

theorem playLive_reach {cfg : Cfg} (ops : List Op) {S : Sys} {m : Nat} (h : playLive cfg ops = some (S, m)) :
    ReachLive cfg S m :=
  foldlM_reachLive (S := (⟨init, [], []⟩, 0)) .init h

end Umpire.QuickPool
