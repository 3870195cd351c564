import Verif.Shm.Props
/-!
# Shared memory: concrete cases, and where the claims do not hold
-/
set_option autoImplicit false
set_option linter.unusedSimpArgs false
namespace Umpire.Shm
open Umpire.Prog

/-- The result and the state of a call. -/
def val {α : Type} : Except Err (α × Mem) → Option α
  | .ok (a, _) => some a
  | .error _ => none

def memOf {α : Type} : Except Err (α × Mem) → Mem
  | .ok (_, m) => m
  | .error _ => fun _ => 0

def isUb {α : Type} : Except Err (α × Mem) → Bool
  | .error .ub => true
  | _ => false

theorem eq_ok {α : Type} {e : Except Err (α × Mem)} {a : α} (h : val e = some a) : e = .ok (a, memOf e) := by
  match e, h with
  | .ok (b, m), h => simp only [val, Option.some.injEq] at h; subst h; rfl

def zero : Mem := fun _ => 0

/-- A segment of 512 bytes, names "a" and "b". -/
def s0 : Mem := memOf (create 4096 512 zero)
def s1 : Mem := memOf (allocateAt 4096 4096 [97] 100 s0)
def s2 : Mem := memOf (allocateAt 8192 4096 [98] 24 s1)
def s3 : Mem := memOf (allocateAt 8192 4096 [97] 100 s2)
def s4 : Mem := memOf (deallocateAt 4096 4096 (4096 + 128) s3)

theorem run4 : Run 512 4096 [.dealloc 4096 [97] (4096 + 128), .alloc 8192 [97] 100 (some 8320), .alloc 8192 [98] 24 (some (8192 + 304)),
    .alloc 4096 [97] 100 (some 4224)] s4 [⟨[98], 304, 24, 1⟩, ⟨[97], 128, 100, 1⟩] := by
  have hn : ∀ c, c = 97 ∨ c = 98 → NameOk [c] := fun c hc x hx => by rw [List.mem_singleton] at hx; omega
  have e0 : create 4096 512 zero = .ok ((), s0) := eq_ok (by decide +kernel)
  have e1 : allocateAt 4096 4096 [97] 100 s0 = .ok (some 4224, s1) := eq_ok (by decide +kernel)
  have e2 : allocateAt 8192 4096 [98] 24 s1 = .ok (some (8192 + 304), s2) := eq_ok (by decide +kernel)
  have e3 : allocateAt 8192 4096 [97] 100 s2 = .ok (some 8320, s3) := eq_ok (by decide +kernel)
  have e4 : deallocateAt 4096 4096 (4096 + 128) s3 = .ok ((), s4) := eq_ok (by decide +kernel)
  have r1 := (Run.init e0).step (.alloc (by decide) ⟨hn 97 (by decide), by decide⟩ (by decide) e1)
  have r2 := r1.step (.alloc (by decide) ⟨hn 98 (by decide), by decide⟩ (by decide) e2)
  have r3 := r2.step (.alloc (by decide) ⟨hn 97 (by decide), by decide⟩ (by decide) e3)
  exact r3.step (.dealloc (r := ⟨[97], 128, 100, 2⟩) (by decide) (by decide) e4)

/-- The hypotheses of `shm_layout_partial`, with two allocations by two processes. -/
example : ∃ ops m L, Run 512 4096 ops m L ∧ L.length = 2 ∧ 120 ≤ 512 ∧ 512 < AMax := ⟨_, _, _, run4, rfl, by decide, by decide⟩

example : (∀ r ∈ ([⟨[98], 304, 24, 1⟩, ⟨[97], 128, 100, 1⟩] : List Rec), 16 ∣ r.off ∧ 80 ≤ r.lo ∧ r.lo + 48 = r.off ∧
    r.off + r.n < r.hi ∧ r.hi ≤ 512) :=
  (shm_layout_partial (by decide) (by decide) (by decide) run4).1

/-- The hypotheses of `shm_contents_partial`: the memory of "a" through the release of "b". -/
example : ∃ m' L', Step 4096 (.dealloc 4096 [98] (4096 + 304)) s4 [⟨[98], 304, 24, 1⟩, ⟨[97], 128, 100, 1⟩] m' L' ∧
    L' = [⟨[97], 128, 100, 1⟩] ∧ ∀ x, 128 ≤ x → x < 228 → m' x = s4 x := by
  have e : deallocateAt 4096 4096 (4096 + 304) s4 = .ok ((), memOf (deallocateAt 4096 4096 (4096 + 304) s4)) :=
    eq_ok (by decide +kernel)
  have st := Step.dealloc (r := ⟨[98], 304, 24, 1⟩) (L := [⟨[98], 304, 24, 1⟩, ⟨[97], 128, 100, 1⟩]) (by decide) (by decide) e
  refine ⟨_, _, st, rfl, ?_⟩
  have := shm_contents_partial (by decide) (by decide) (by decide) run4 st (r := ⟨[97], 128, 100, 1⟩) (r' := ⟨[97], 128, 100, 1⟩)
    (by decide) (by decide) rfl (by intro s hs; cases hs)
  exact this.2.2

/-- The hypotheses of `shm_room_partial`: 400 bytes do not fit any more. -/
example : Legal [99] 400 ∧ ∃ m', allocateAt 4096 4096 [99] 400 s4 = .ok (none, m') :=
  ⟨⟨fun x hx => by rw [List.mem_singleton] at hx; omega, by decide⟩, _, eq_ok (by decide +kernel)⟩

/-- The free list of that state: one block behind "b". -/
example : val (walk 4096 4097 (s4.rd 64 8) s4) = some [(352, 160)] ∧ val (getActualSize 4096 s4) = some 352 := by decide +kernel

/-- The counts of `shm_refs_partial`. -/
example : allocs [97] [.dealloc 4096 [97] (4096 + 128), .alloc 8192 [97] 100 (some 8320), .alloc 8192 [98] 24 (some (8192 + 304)),
    .alloc 4096 [97] 100 (some 4224)] = 2 ∧ refsOf [⟨[98], 304, 24, 1⟩, ⟨[97], 128, 100, 1⟩] [97] = 1 := by decide

/-! ## Where the claims do not hold -/

/-- A segment of less than 80 bytes is smaller than its header.  The size of the first
block wraps, and memory is handed out behind the end of the segment; a larger request
makes the library write behind the mapping. -/
theorem shm_small_counterexample :
    val (allocateAt 4096 4096 [97] 100 (memOf (create 4096 64 zero))) = some (some (4096 + 128)) ∧ 128 + 100 > 64 ∧
    isUb (allocateAt 4096 4096 [97] 100000 (memOf (create 4096 64 zero))) = true := by decide +kernel

/-- The size given with a live name is ignored: of the 200 bytes asked for at address 128,
the last ones are those of "b". -/
theorem shm_size_counterexample :
    val (allocateAt 4096 4096 [97] 200 s4) = some (some (4096 + 128)) ∧
    (⟨[98], 304, 24, 1⟩ : Rec) ∈ [(⟨[98], 304, 24, 1⟩ : Rec), ⟨[97], 128, 100, 1⟩] ∧ 128 ≤ 304 ∧ 304 < 128 + 200 := by decide +kernel

/-- A name that contains a null byte is never found again: two allocations of it are two
blocks, and `find_pointer_from_name` finds neither. -/
theorem shm_nul_counterexample :
    val (allocateAt 4096 4096 [97, 0, 98] 16 s0) = some (some (4096 + 128)) ∧
    val (allocateAt 4096 4096 [97, 0, 98] 16 (memOf (allocateAt 4096 4096 [97, 0, 98] 16 s0))) = some (some (4096 + 224)) ∧
    val (findPointerAt 4096 4096 [97, 0, 98] (memOf (allocateAt 4096 4096 [97, 0, 98] 16 s0))) = some none := by decide +kernel

/-- A request of nearly 2^64 bytes wraps and succeeds in a segment of 512 bytes. -/
theorem shm_wrap_counterexample : val (allocateAt 4096 4096 [97] (2 ^ 64 - 16) s0) = some (some (4096 + 128)) := by decide +kernel

end Umpire.Shm
