import Verif.DynPool.Model
import Verif.Base.PoolSpec
/-!
# A `DynamicPoolList` in use

Histories of user operations against any well-behaved parent, with any
coalescing heuristic (which may differ from call to call, as the built-in
`percent_releasable(100)` also depends on the allocation statistics kept outside
the pool).
-/
set_option autoImplicit false
namespace Umpire.DynPool
open Umpire.Prog

/-- A pool together with the ghost view of its two neighbours. -/
structure Sys where
  pool : State
  held : Held
  live : Held
deriving DecidableEq, Repr

/-- Requests for which the 64-bit size arithmetic does not overflow. -/
def ReqOk (cfg : Cfg) (n : Nat) : Prop := 0 < n ∧ n + 2 * cfg.align ≤ W

/-- Admissible constructor arguments: no overflow in `size + alignment`. -/
structure CfgOk (cfg : Cfg) : Prop where
  al : 0 < cfg.align
  first : cfg.first + cfg.align < W
  next : cfg.next + cfg.align < W

/-- A heuristic suggests sizes the pool has had (as all built-in ones do) or at
least sizes that do not overflow when rounded up. -/
def HeurOk (cfg : Cfg) (heur : State → Nat) : Prop := ∀ s,
  heur s + 2 * cfg.align ≤ W ∨
  (2 * cfg.align ≤ AMax ∧ (heur s ≤ getActualSize s ∨ heur s ≤ getAlignedHighwaterMark s))

/-- One user operation that completes.  The user deallocates only live
pointers.  `deallocate` may end with an exception (`b = false`). -/
inductive Step (cfg : Cfg) : Sys → Sys → Prop where
  | allocOk {S : Sys} {n p s' O'} : ReqOk cfg n →
      Run (allocate cfg S.pool n) S.held (some p, s') O' → Step cfg S ⟨s', O', (p, n) :: S.live⟩
  | allocErr {S : Sys} {n s' O'} : ReqOk cfg n →
      Run (allocate cfg S.pool n) S.held (none, s') O' → Step cfg S ⟨s', O', S.live⟩
  | dealloc {S : Sys} {p n heur b s' O'} : (p, n) ∈ S.live → HeurOk cfg heur →
      Run (deallocate cfg heur S.pool p) S.held (b, s') O' → Step cfg S ⟨s', O', drop p S.live⟩
  | release {S : Sys} {s' O'} : Run (DynPool.release S.pool) S.held s' O' → Step cfg S ⟨s', O', S.live⟩
  | coalesce {S : Sys} {heur s' O'} : HeurOk cfg heur →
      Run (DynPool.coalesce cfg heur S.pool) S.held s' O' → Step cfg S ⟨s', O', S.live⟩

/-- Everything a user can bring about, from a freshly constructed pool. -/
inductive Reach (cfg : Cfg) : Sys → Prop where
  | init : Reach cfg ⟨init, [], []⟩
  | step {S T : Sys} : Reach cfg S → Step cfg S T → Reach cfg T

/-! ## The built-in heuristics -/

/-- DynamicPoolList.cpp:139-144. -/
def blocksReleasable (nblocks : Nat) (s : State) : Nat :=
  if getReleasableBlocks s ≥ nblocks then getActualSize s else 0

/-- DynamicPoolList.cpp:146-151. -/
def blocksReleasableHwm (nblocks : Nat) (s : State) : Nat :=
  if getReleasableBlocks s ≥ nblocks then getAlignedHighwaterMark s else 0

/-- DynamicPoolList.cpp:153-172; `none` when the percentage is rejected.  `cur` is
`getCurrentSize()` at the time of the call, `thr` the threshold computed in single
precision. -/
def percentReleasable (thr : Nat → Nat) (cur : Nat) (percentage : Int) : Option (State → Nat) :=
  if percentage < 0 ∨ percentage > 100 then none
  else if percentage = 0 then some fun _ => 0
  else if percentage = 100 then some fun s => if cur = 0 then getActualSize s else 0
  else some fun s => if getReleasableSize s ≥ thr (getActualSize s) then getActualSize s else 0

/-- DynamicPoolList.cpp:174-195. -/
def percentReleasableHwm (thr : Nat → Nat) (cur : Nat) (percentage : Int) : Option (State → Nat) :=
  if percentage < 0 ∨ percentage > 100 then none
  else if percentage = 0 then some fun _ => 0
  else if percentage = 100 then some fun s => if cur = 0 then getAlignedHighwaterMark s else 0
  else some fun s => if getReleasableSize s ≥ thr (getActualSize s) then getAlignedHighwaterMark s else 0

/-- The heuristics the library provides. -/
inductive BuiltIn : (State → Nat) → Prop where
  | blocks (n : Nat) : BuiltIn (blocksReleasable n)
  | blocksHwm (n : Nat) : BuiltIn (blocksReleasableHwm n)
  | percent (thr : Nat → Nat) (cur : Nat) (p : Int) (f : State → Nat) : percentReleasable thr cur p = some f → BuiltIn f
  | percentHwm (thr : Nat → Nat) (cur : Nat) (p : Int) (f : State → Nat) : percentReleasableHwm thr cur p = some f → BuiltIn f

theorem builtIn_heurOk {cfg : Cfg} (ha : 2 * cfg.align ≤ AMax) {f : State → Nat} (h : BuiltIn f) : HeurOk cfg f := by
  intro s
  right
  refine ⟨ha, ?_⟩
  cases h with
  | blocks n => left; unfold blocksReleasable; split <;> omega
  | blocksHwm n => right; unfold blocksReleasableHwm; split <;> omega
  | percent thr cur p f hp =>
    left
    unfold percentReleasable at hp
    split at hp
    · cases hp
    split at hp
    · injection hp with hp; subst hp; exact Nat.zero_le _
    split at hp
    · injection hp with hp; subst hp; simp only; split <;> omega
    · injection hp with hp; subst hp; simp only; split <;> omega
  | percentHwm thr cur p f hp =>
    right
    unfold percentReleasableHwm at hp
    split at hp
    · cases hp
    split at hp
    · injection hp with hp; subst hp; exact Nat.zero_le _
    split at hp
    · injection hp with hp; subst hp; simp only; split <;> omega
    · injection hp with hp; subst hp; simp only; split <;> omega

/-! ## Scripted histories, for examples -/

/-- A user operation with the answers its parent gives; the heuristic is `heur`. -/
inductive Op where
  | alloc (n : Nat) (script : List (Option Nat))
  | dealloc (p n : Nat) (script : List (Option Nat))
  | release
  | coalesce (script : List (Option Nat))

/-- Perform one scripted operation. -/
def Sys.apply (cfg : Cfg) (heur : State → Nat) (S : Sys) : Op → Option Sys
  | .alloc n sc =>
    if 0 < n ∧ n + 2 * cfg.align ≤ W then
      match (allocate cfg S.pool n).exec sc S.held with
      | .ok ((some p, s'), _, O') => some ⟨s', O', (p, n) :: S.live⟩
      | .ok ((none, s'), _, O') => some ⟨s', O', S.live⟩
      | .error _ => none
    else none
  | .dealloc p n sc =>
    if (p, n) ∈ S.live then
      match (deallocate cfg heur S.pool p).exec sc S.held with
      | .ok ((_, s'), _, O') => some ⟨s', O', drop p S.live⟩
      | .error _ => none
    else none
  | .release =>
    match (DynPool.release S.pool).exec [] S.held with
    | .ok (s', _, O') => some ⟨s', O', S.live⟩
    | .error _ => none
  | .coalesce sc =>
    match (DynPool.coalesce cfg heur S.pool).exec sc S.held with
    | .ok (s', _, O') => some ⟨s', O', S.live⟩
    | .error _ => none

/-- Perform a scripted history on a new pool. -/
def play (cfg : Cfg) (heur : State → Nat) (ops : List Op) : Option Sys :=
  ops.foldlM (Sys.apply cfg heur) ⟨init, [], []⟩

theorem Sys.apply_step {cfg : Cfg} {heur : State → Nat} (hh : HeurOk cfg heur) {S T : Sys} {op : Op}
    (h : S.apply cfg heur op = some T) : Step cfg S T := by
  cases op with
  | alloc n sc =>
    simp only [Sys.apply] at h
    split at h
    · rename_i hn
      split at h
      · injection h with h; subst h; exact .allocOk hn (exec_run ‹_›)
      · injection h with h; subst h; exact .allocErr hn (exec_run ‹_›)
      · simp at h
    · simp at h
  | dealloc p n sc =>
    simp only [Sys.apply] at h
    split at h
    · split at h
      · injection h with h; subst h; exact .dealloc ‹_› hh (exec_run ‹_›)
      · simp at h
    · simp at h
  | release =>
    simp only [Sys.apply] at h
    split at h
    · injection h with h; subst h; exact .release (exec_run ‹_›)
    · simp at h
  | coalesce sc =>
    simp only [Sys.apply] at h
    split at h
    · injection h with h; subst h; exact .coalesce hh (exec_run ‹_›)
    · simp at h

theorem foldlM_reach {cfg : Cfg} {heur : State → Nat} (hh : HeurOk cfg heur) {ops : List Op} {S T : Sys}
    (hS : Reach cfg S) (h : ops.foldlM (Sys.apply cfg heur) S = some T) : Reach cfg T := by
  induction ops generalizing S with
  | nil => simp only [List.foldlM_nil] at h; injection h with h; subst h; exact hS
  | cons op ops ih =>
    simp only [List.foldlM_cons] at h
    cases ha : S.apply cfg heur op with
    | none => rw [ha] at h; simp at h
    | some U => rw [ha] at h; exact ih (.step hS (Sys.apply_step hh ha)) h

theorem play_reach {cfg : Cfg} {heur : State → Nat} (hh : HeurOk cfg heur) {ops : List Op} {S : Sys}
    (h : play cfg heur ops = some S) : Reach cfg S :=
  foldlM_reach hh .init h

end Umpire.DynPool
