import Verif.FixedPool.Inv
/-!
# A `FixedPool` in use

Histories of user operations against any well-behaved parent.  A live object is
the pointer with the object size; the pool ignores the number of bytes asked for.
-/
set_option autoImplicit false
namespace Umpire.FixedPool
open Umpire.Prog

/-- A pool together with the ghost view of its two neighbours. -/
structure Sys where
  pool : State
  held : Held
  live : Held
deriving DecidableEq, Repr

/-- One user operation that completes.  The user deallocates only live objects. -/
inductive Step (cfg : Cfg) : Sys → Sys → Prop where
  | allocOk {S : Sys} {fuel p s' O'} : Run (allocate cfg (fuel + 2) S.pool) S.held (some p, s') O' →
      Step cfg S ⟨s', O', (p, cfg.obj) :: S.live⟩
  | allocErr {S : Sys} {fuel s' O'} : Run (allocate cfg (fuel + 2) S.pool) S.held (none, s') O' →
      Step cfg S ⟨s', O', S.live⟩
  | dealloc {S : Sys} {p n b s' O'} : (p, n) ∈ S.live → Run (deallocate cfg S.pool p) S.held (b, s') O' →
      Step cfg S ⟨s', O', drop p S.live⟩
  | release {S : Sys} {s' O'} : Run (FixedPool.release cfg S.pool) S.held s' O' → Step cfg S ⟨s', O', S.live⟩

/-- Everything a user can bring about, from a freshly constructed pool.  The
number is the largest number of objects that were live at one time. -/
inductive Reach (cfg : Cfg) : Sys → Nat → Prop where
  | init {s O} : Run (create cfg) [] s O → Reach cfg ⟨s, O, []⟩ 0
  | step {S T : Sys} {m : Nat} : Reach cfg S m → Step cfg S T → Reach cfg T (max m T.live.length)

/-! ## Scripted histories, for examples -/

/-- A user operation with the answers its parent gives. -/
inductive Op where
  | alloc (script : List (Option Nat))
  | dealloc (p n : Nat)
  | release

/-- Perform one scripted operation. -/
def Sys.apply (cfg : Cfg) (S : Sys) : Op → Option Sys
  | .alloc sc =>
    match (allocate cfg 2 S.pool).exec sc S.held with
    | .ok ((some p, s'), _, O') => some ⟨s', O', (p, cfg.obj) :: S.live⟩
    | .ok ((none, s'), _, O') => some ⟨s', O', S.live⟩
    | .error _ => none
  | .dealloc p n =>
    if (p, n) ∈ S.live then
      match (deallocate cfg S.pool p).exec [] S.held with
      | .ok ((_, s'), _, O') => some ⟨s', O', drop p S.live⟩
      | .error _ => none
    else none
  | .release =>
    match (FixedPool.release cfg S.pool).exec [] S.held with
    | .ok (s', _, O') => some ⟨s', O', S.live⟩
    | .error _ => none

/-- Perform a scripted history on a new pool whose first block is at `d`. -/
def play (cfg : Cfg) (d : Nat) (ops : List Op) : Option (Sys × Nat) :=
  match (create cfg).exec [some d] [] with
  | .ok (s, _, O) => ops.foldlM (fun S op => (S.1.apply cfg op).map fun T => (T, max S.2 T.live.length)) (⟨s, O, []⟩, 0)
  | .error _ => none

theorem Sys.apply_step {cfg : Cfg} {S T : Sys} {op : Op} (h : S.apply cfg op = some T) : Step cfg S T := by
  cases op with
  | alloc sc =>
    simp only [Sys.apply] at h
    split at h
    · injection h with h; subst h; exact .allocOk (fuel := 0) (exec_run ‹_›)
    · injection h with h; subst h; exact .allocErr (fuel := 0) (exec_run ‹_›)
    · simp at h
  | dealloc p n =>
    simp only [Sys.apply] at h
    split at h
    · split at h
      · injection h with h; subst h; exact .dealloc ‹_› (exec_run ‹_›)
      · simp at h
    · simp at h
  | release =>
    simp only [Sys.apply] at h
    split at h
    · injection h with h; subst h; exact .release (exec_run ‹_›)
    · simp at h

theorem play_reach {cfg : Cfg} {d : Nat} {ops : List Op} {S : Sys} {m : Nat}
    (h : play cfg d ops = some (S, m)) : Reach cfg S m := by
  unfold play at h
  split at h
  · rename_i s sc O he
    have h0 : Reach cfg ⟨s, O, []⟩ 0 := .init (exec_run he)
    generalize (⟨s, O, []⟩ : Sys) = S0 at h0 h
    generalize 0 = m0 at h0 h
    clear he
    induction ops generalizing S0 m0 with
    | nil => simp only [List.foldlM_nil] at h; injection h with h; injection h with h1 h2; subst h1 h2; exact h0
    | cons op ops ih =>
      simp only [List.foldlM_cons] at h
      cases ha : S0.apply cfg op with
      | none => rw [ha] at h; simp at h
      | some U => rw [ha] at h; exact ih U _ (.step h0 (Sys.apply_step ha)) h
  · cases h

end Umpire.FixedPool
