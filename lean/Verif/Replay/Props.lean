import Verif.Replay.Compile
import Verif.Replay.Log2
/-!
# Properties of the replay tools (C46, C47, C48)
-/
set_option autoImplicit false
set_option linter.unusedSimpArgs false
namespace Umpire.Replay

/-! ## C46 -/

/-- C46 (for clean programs).  For every program, with every sequence of returned
addresses (reuse included), the trace it records compiles, and replaying makes
exactly the recorded calls in the same order, on the same allocators with the
same sizes, passing to each `deallocate`/`reallocate` the pointer the replay
itself got from the call that produced the block in the recorded program. -/
theorem replay_faithful_partial {xs : List Act} {d : Done} (hd : program .init xs = some d)
    (hcl : cleanRun .init xs = true) :
    ∃ c, build d.evs = some c ∧ ∀ ret, replay ret c.ops = some (d.calls.map (Call.withPtrs ret)) := by
  obtain ⟨c, h1, h2⟩ := steps rel_init hd hcl
  exact ⟨c, h1, fun ret => by have := h2.exec ret; rwa [List.nil_append] at this⟩

/-- A program that reuses an address across two allocators and a reallocation. -/
def demo : List Act :=
  [.make 0x100 "HOST".toList, .make 0x200 "pool".toList, .alloc 0 64 0x1000, .free 3, .alloc 1 32 0x1000,
   .alloc 0 8 0x1000, .stray 0 0, .realloc 1 5 128 0x2000 [.alloc 0x200 0x2000 128, .quiet, .dealloc 0x200 0x1000],
   .alloc 1 16 0x1000, .free 8, .coalesce 1, .free 6, .free 7]

example : ∃ d, program .init demo = some d ∧ cleanRun .init demo = true ∧
    d.calls = [.create 0, .create 1, .allocate 0 64, .deallocate 0 3, .allocate 1 32, .allocate 0 8,
      .reallocate 1 5 128, .allocate 1 16, .deallocate 1 8, .coalesce 1, .deallocate 0 6, .deallocate 1 7] := by
  refine ⟨_, rfl, ?_, ?_⟩ <;> decide +kernel

/-- Keys written as text do not collide: allocator and pointer are recovered. -/
theorem keys_distinct {r p r' p' : Nat} : key r p = key r' p' ↔ r = r' ∧ p = p' :=
  ⟨key_inj, fun h => by rw [h.1, h.2]⟩

/-- Every `deallocate` and non-null `reallocate` of a program names an earlier
call, so the replay has already made it: spec-level sanity of `perform`. -/
theorem freed_earlier {s : P} {c : C} {calls : List Call} (h : Rel s c calls) {id : Nat} {d : Done}
    (hd : perform s (.free id) = some d) : 1 ≤ id ∧ id < s.n := by
  simp only [perform] at hd
  cases hb : s.blk id with
  | none => rw [hb] at hd; simp at hd
  | some b =>
    obtain ⟨hm, he⟩ := blk_spec hb
    subst he
    exact h.idRange b hm

/-- A `reallocate` that throws leaves the interpreter skipping: the allocation
made after it is not replayed. -/
def failing : List Act :=
  [.make 0x100 "HOST".toList, .alloc 0 64 0x1000, .reallocFail 0 2 1000000 [], .alloc 0 32 0x2000]

/-- The interpreter's state after that trace: still skipping, the second
allocation missing. -/
def failingC : C :=
  ⟨[{ Op.zero with kind := .allocate }, { Op.zero with kind := .creation, line := 1 },
    { Op.zero with kind := .allocate, line := 2, size := 64 }],
   { Op.zero with kind := .reallocateEx, line := 3, size := 1000000, src1 := 2 },
   [], [(0x100, 0)], [("HOST".toList, 0)], 1, 4, true⟩

theorem replay_after_failed_reallocate_counterexample :
    ∃ d c, program .init failing = some d ∧ build d.evs = some c ∧
      d.calls = [.create 0, .allocate 0 64, .allocate 0 32] ∧
      ∀ ret, replay ret c.ops = some [.create 0, .allocate 0 64] := by
  refine ⟨_, failingC, rfl, ?_, ?_, fun ret => rfl⟩ <;> decide +kernel

/-- An allocation by another thread while a `reallocate` runs is not replayed. -/
def racing : List Act := [.make 0x100 "HOST".toList, .reallocRace 0 64 0x1000 32 0x2000]

theorem replay_race_counterexample :
    ∃ d c, program .init racing = some d ∧ build d.evs = some c ∧
      d.calls = [.create 0, .allocate 0 32, .reallocate 0 0 64] ∧
      ∀ ret, replay ret c.ops = some [.create 0, .reallocate 0 0 64] := by
  refine ⟨_, _, rfl, rfl, ?_, fun ret => rfl⟩
  decide +kernel

/-- A trace with a `memset` does not compile. -/
theorem replay_memset_counterexample {xs ys : List Act} {d : Done} (hd : program .init (xs ++ .memset :: ys) = some d) :
    build d.evs = none := by
  have key : ∀ (s : P) (c : C) (xs : List Act) (d : Done), program s (xs ++ .memset :: ys) = some d →
      compileAll c d.evs = none := by
    intro s c xs
    induction xs generalizing s c with
    | nil =>
      intro d hd
      simp only [List.nil_append, program, perform] at hd
      cases ht : program s ys with
      | none => rw [ht] at hd; simp at hd
      | some d' =>
        rw [ht] at hd
        simp only [Option.some.injEq] at hd; subst hd
        simp only [List.singleton_append, compileAll, compileEv]
    | cons x t ih =>
      intro d hd
      simp only [List.cons_append, program] at hd
      cases hp : perform s x with
      | none => rw [hp] at hd; simp at hd
      | some d1 =>
        rw [hp] at hd
        cases ht : program d1.next (t ++ .memset :: ys) with
        | none => simp only [ht] at hd; simp at hd
        | some d2 =>
          simp only [ht, Option.some.injEq] at hd; subst hd
          cases hc : compileAll c d1.evs with
          | some c1 => rw [compileAll_append hc]; exact ih _ _ _ ht
          | none =>
            show compileAll c (d1.evs ++ d2.evs) = none
            revert hc
            generalize d1.evs = es
            induction es generalizing c with
            | nil => intro hc; simp [compileAll] at hc
            | cons e es ihe =>
              intro hc
              simp only [List.cons_append, compileAll] at hc ⊢
              cases he : compileEv c e with
              | none => rfl
              | some c1 => rw [he] at hc; exact ihe c1 hc
  exact key _ _ _ _ hd

example : ∃ d, program .init ([.make 0x100 "HOST".toList] ++ .memset :: []) = some d := ⟨_, rfl⟩

/-- `coalesce` of a pool whose name ends in `_base` is replayed on the first
allocator instead. -/
def suffixed : List Act := [.make 0x100 "HOST".toList, .make 0x200 "my_base".toList, .coalesce 1]

theorem replay_base_name_counterexample :
    ∃ d c, program .init suffixed = some d ∧ build d.evs = some c ∧
      d.calls = [.create 0, .create 1, .coalesce 1] ∧
      ∀ ret, replay ret c.ops = some [.create 0, .create 1, .coalesce 0] := by
  refine ⟨_, _, rfl, rfl, ?_, fun ret => ?_⟩
  · decide +kernel
  · rfl

/-! ## C47 -/

/-- What two tables must share to be the same trace: version, allocators, and
operations up to line numbers. -/
def SameOp (x y : Op) : Prop := { x with line := 0 } = { y with line := 0 }

/-- Same trace. -/
def SameTrace (l r : Table) : Prop :=
  l.version = r.version ∧ l.allocs = r.allocs ∧ l.ops.length = r.ops.length ∧
  ∀ (i : Nat) (x y : Op), l.ops[i]? = some x → r.ops[i]? = some y → SameOp x y

theorem opEq_iff (x y : Op) : opEq x y = true ↔ SameOp x y := by
  cases x; cases y
  simp [opEq, SameOp, and_assoc]

theorem entryEq_iff (x y : Entry) : entryEq x y = true ↔ x = y := by
  cases x; cases y
  simp [entryEq, and_assoc]

theorem opAt_lt {t : Table} {i : Nat} (h : i < t.ops.length) : t.ops[i]? = some (t.opAt i) := by
  unfold Table.opAt
  rw [if_pos h, List.getD_eq_getElem?_getD, List.getElem?_eq_getElem h]
  rfl

theorem allocs_eq_of_all {xs ys : List Entry} (dflt : Entry) (hl : xs.length = ys.length)
    (h : ∀ i < ys.length, xs.getD i dflt = ys.getD i dflt) : xs = ys := by
  apply List.ext_getElem? 
  intro i
  by_cases hi : i < ys.length
  · have := h i hi
    rw [List.getD_eq_getElem?_getD, List.getD_eq_getElem?_getD, List.getElem?_eq_getElem hi,
      List.getElem?_eq_getElem (by omega : i < xs.length)] at this
    rw [List.getElem?_eq_getElem hi, List.getElem?_eq_getElem (by omega : i < xs.length)]
    simpa using this
  · rw [List.getElem?_eq_none (by omega), List.getElem?_eq_none (by omega)]

/-- Exactly what `compareOperations` decides: versions and allocators agree, and
the left table agrees with the right one as far as the right one goes. -/
theorem compare_decides (l r : Table) : compare l r = true ↔
    l.version = r.version ∧ l.allocs = r.allocs ∧ ∀ i < r.ops.length, SameOp (l.opAt i) (r.opAt i) := by
  unfold compare
  simp only [Bool.and_eq_true, decide_eq_true_eq, List.all_eq_true, List.mem_range, entryEq_iff, opEq_iff]
  constructor
  · rintro ⟨⟨⟨h1, h2⟩, h3⟩, h4⟩
    exact ⟨h1, allocs_eq_of_all _ h2 h3, h4⟩
  · rintro ⟨h1, h2, h3⟩
    exact ⟨⟨⟨h1, by rw [h2]⟩, fun i _ => by rw [h2]⟩, h3⟩

/-- C47 (where the numbers of operations agree): equality is reported exactly for
identical traces. -/
theorem compare_exact_partial {l r : Table} (hl : l.ops.length = r.ops.length) :
    compare l r = true ↔ SameTrace l r := by
  rw [compare_decides]
  unfold SameTrace
  constructor
  · rintro ⟨h1, h2, h3⟩
    refine ⟨h1, h2, hl, fun i x y hx hy => ?_⟩
    have hi : i < r.ops.length := by
      by_cases hi : i < r.ops.length
      · exact hi
      · rw [List.getElem?_eq_none (by omega)] at hy; simp at hy
    have := h3 i hi
    rw [opAt_lt (t := r) hi] at hy
    rw [opAt_lt (t := l) (by omega)] at hx
    simp only [Option.some.injEq] at hx hy
    rw [← hx, ← hy]; exact this
  · rintro ⟨h1, h2, _, h3⟩
    exact ⟨h1, h2, fun i hi => h3 i _ _ (opAt_lt (t := l) (by omega)) (opAt_lt (t := r) hi)⟩

/-- Identical traces compare equal. -/
theorem compare_complete {l r : Table} (h : SameTrace l r) : compare l r = true :=
  (compare_exact_partial h.2.2.1).mpr h

/-- A left trace that is shorter is reported, unless it stops inside a
`reallocate`. -/
theorem compare_shorter_left {l r : Table} (hl : l.ops.length < r.ops.length) (hs : l.slot.kind = .blank)
    (hr : ∀ o ∈ r.ops, o.kind ≠ .blank) : compare l r = false := by
  cases h : compare l r with
  | false => rfl
  | true =>
    have := ((compare_decides l r).mp h).2.2 _ hl
    have hm := List.mem_of_getElem? (opAt_lt (t := r) hl)
    have hk : (l.opAt l.ops.length).kind = (r.opAt l.ops.length).kind := by
      unfold SameOp at this
      injection this
    have h0 : l.opAt l.ops.length = l.slot := by
      unfold Table.opAt; rw [if_neg (by omega), if_pos rfl]
    rw [h0, hs] at hk
    exact absurd hk.symm (hr _ hm)

def tAlloc : Op := { Op.zero with kind := .allocate, size := 64 }
def tFree : Op := { Op.zero with kind := .deallocate, src0 := 1 }
def tFull : Table := ⟨17, [], [tAlloc, tAlloc, tFree], .zero⟩
def tPrefix : Table := ⟨17, [], [tAlloc, tAlloc], .zero⟩

example : compare tPrefix tFull = false ∧ compare tFull tFull = true := by decide

/-- Extra operations at the end of the left trace are not reported. -/
theorem compare_longer_left_counterexample : compare tFull tPrefix = true ∧ ¬ SameTrace tFull tPrefix := by
  refine ⟨by decide, fun h => ?_⟩
  exact absurd h.2.2.1 (by decide)

/-- And in general: a left trace that extends the right one always compares
equal, whatever it does afterwards. -/
theorem compare_misses_suffix (t : Table) (more : List Op) :
    compare { t with ops := t.ops ++ more } t = true := by
  rw [compare_decides]
  refine ⟨rfl, rfl, fun i hi => ?_⟩
  have : Table.opAt { t with ops := t.ops ++ more } i = t.opAt i := by
    have h1 := opAt_lt (t := { t with ops := t.ops ++ more }) (i := i) (by simp; omega)
    have h2 := opAt_lt (t := t) hi
    simp only [List.getElem?_append_left hi] at h1
    rw [h2] at h1; simpa using h1.symm
  rw [this]; rfl

/-! ## C48 -/

/-- C48.  For every non-zero 64-bit size the bucket is `k` exactly when
`2^k ≤ size < 2^(k+1)`. -/
theorem bucket_exact {size : Nat} (h0 : size ≠ 0) (h64 : size < 2 ^ 64) (k : Nat) :
    log2_64 size = k ↔ 2 ^ k ≤ size ∧ size < 2 ^ (k + 1) := by
  have hl := Nat.log2_self_le h0
  have hu := Nat.lt_log2_self (n := size)
  have h63 : size.log2 < 64 := (Nat.log2_lt h0).mpr h64
  have e := log2_of_range hl hu h63
  constructor
  · intro hk; rw [← hk, e]; exact ⟨hl, hu⟩
  · rintro ⟨h1, h2⟩
    have hk : k < 64 := by
      by_cases hk : k < 64
      · exact hk
      · have : 2 ^ 64 ≤ 2 ^ k := Nat.pow_le_pow_right (by omega) (by omega)
        omega
    exact log2_of_range h1 h2 hk

/-- The bucket index is within the 64 buckets. -/
theorem bucket_in_range {size : Nat} (h0 : size ≠ 0) (h64 : size < 2 ^ 64) : log2_64 size < 64 := by
  have := (bucket_exact h0 h64 _).mp rfl
  by_cases hk : log2_64 size < 64
  · exact hk
  · have : 2 ^ 64 ≤ 2 ^ log2_64 size := Nat.pow_le_pow_right (by omega) (by omega)
    omega

example : log2_64 1 = 0 ∧ log2_64 1023 = 9 ∧ log2_64 1024 = 10 ∧ log2_64 (2 ^ 64 - 1) = 63 := by decide +kernel

/-- A zero-byte allocation is counted as one of at least 2^63 bytes. -/
theorem bucket_zero_counterexample : log2_64 0 = 63 := by decide +kernel

/-- What is done to a histogram. -/
inductive HOp
  | alloc (size : Nat)
  | free (size : Nat)
deriving DecidableEq, Repr

/-- The histogram after a sequence. -/
def histRun (h : Hist) : List HOp → Hist
  | [] => h
  | .alloc n :: t => histRun (h.inc n) t
  | .free n :: t => histRun (h.dec n) t

/-- Live sizes that belong in bucket `k`. -/
def inBucket (k : Nat) (live : List Nat) : Nat :=
  live.countP (fun s => decide (2 ^ k ≤ s ∧ s < 2 ^ (k + 1)))

/-- Specification: the live sizes and the peak number of live allocations in
bucket `k`; `none` if something is freed that is not live. -/
def specRun (k : Nat) (live : List Nat) (peak : Nat) : List HOp → Option (List Nat × Nat)
  | [] => some (live, peak)
  | .alloc n :: t => specRun k (n :: live) (max peak (inBucket k (n :: live))) t
  | .free n :: t => if n ∈ live then specRun k (live.erase n) peak t else none

/-- Sizes the theorem is about. -/
def sized : HOp → Prop
  | .alloc n => n ≠ 0 ∧ n < 2 ^ 64
  | .free n => n ≠ 0 ∧ n < 2 ^ 64

theorem inBucket_cons (k n : Nat) (live : List Nat) :
    inBucket k (n :: live) = inBucket k live + (if 2 ^ k ≤ n ∧ n < 2 ^ (k + 1) then 1 else 0) := by
  unfold inBucket
  rw [List.countP_cons]
  by_cases h : 2 ^ k ≤ n ∧ n < 2 ^ (k + 1)
  · simp [h]
  · simp [h]

theorem inBucket_erase {k n : Nat} {live : List Nat} (h : n ∈ live) :
    inBucket k live = inBucket k (live.erase n) + (if 2 ^ k ≤ n ∧ n < 2 ^ (k + 1) then 1 else 0) := by
  rw [← inBucket_cons]
  exact (List.perm_cons_erase h).countP_eq _

/-- The histogram is exact: for every sequence of allocations and frees of live
allocations (non-zero sizes, fewer than 2^64 of them), bucket `k` holds the
number of live allocations of size in `[2^k, 2^(k+1))` and its high watermark is
the largest such number so far. -/
theorem histogram_exact_partial {ops : List HOp} {k : Nat} {live : List Nat} {peak : Nat}
    (hs : ∀ o ∈ ops, sized o) (hlen : ops.length < 2 ^ 64)
    (hspec : specRun k [] 0 ops = some (live, peak)) :
    (histRun .new ops).bucket k = ⟨inBucket k live, peak⟩ := by
  have gen : ∀ (ops : List HOp) (h : Hist) (l0 : List Nat) (p0 : Nat), (∀ o ∈ ops, sized o) →
      l0.length + ops.length < 2 ^ 64 → h.bucket k = ⟨inBucket k l0, p0⟩ →
      inBucket k l0 ≤ p0 → specRun k l0 p0 ops = some (live, peak) → (histRun h ops).bucket k = ⟨inBucket k live, peak⟩ := by
    intro ops
    induction ops with
    | nil =>
      intro h l0 p0 _ _ hb _ hsp
      simp only [specRun, Option.some.injEq, Prod.mk.injEq] at hsp
      simp only [histRun, hb, hsp.1, hsp.2]
    | cons o t ih =>
      intro h l0 p0 hsz hl hb hpk hsp
      have hso := hsz o (by simp)
      have hst : ∀ o ∈ t, sized o := fun o ho => hsz o (by simp [ho])
      have hle : inBucket k l0 ≤ l0.length := List.countP_le_length
      simp only [List.length_cons] at hl
      cases o with
      | alloc n =>
        simp only [specRun] at hsp
        simp only [histRun]
        refine ih _ _ _ hst (by simp only [List.length_cons]; omega) ?_ (Nat.le_max_right _ _) hsp
        simp only [Hist.inc]
        have hbe := bucket_exact hso.1 hso.2 k
        by_cases hk : k = log2_64 n
        · rw [if_pos hk, hb, inBucket_cons, if_pos (hbe.mp hk.symm)]
          simp only [Counter.inc]
          have : (inBucket k l0 + 1) % 2 ^ 64 = inBucket k l0 + 1 := Nat.mod_eq_of_lt (by omega)
          rw [this]
          congr 1
          simp only [Nat.max_def]
          split <;> split <;> omega
        · rw [if_neg hk, hb, inBucket_cons, if_neg (fun hh => hk (hbe.mpr hh).symm)]
          simp only [Nat.add_zero]
          congr 1
          simp only [Nat.max_def]
          split <;> omega
      | free n =>
        simp only [specRun] at hsp
        split at hsp
        · rename_i hm
          simp only [histRun]
          have hle2 : (l0.erase n).length ≤ l0.length := List.length_erase_le
          have he := inBucket_erase (k := k) hm
          refine ih _ _ _ hst (by omega) ?_ (by omega) hsp
          simp only [Hist.dec]
          have hbe := bucket_exact hso.1 hso.2 k
          by_cases hk : k = log2_64 n
          · rw [if_pos hk, hb]
            rw [if_pos (hbe.mp hk.symm)] at he
            have e2 : (inBucket k l0 + (2 ^ 64 - 1)) % 2 ^ 64 = inBucket k (l0.erase n) := by omega
            simp only [Counter.dec]
            rw [e2]
          · rw [if_neg hk, hb]
            rw [if_neg (fun hh => hk (hbe.mpr hh).symm)] at he
            congr 1
        · simp at hsp
  exact gen ops .new [] 0 hs (by simpa using hlen) rfl (Nat.zero_le _) hspec

example : specRun 6 [] 0 [.alloc 64, .alloc 100, .free 64, .alloc 7, .alloc 127] = some ([127, 7, 100], 2) ∧
    (histRun .new [.alloc 64, .alloc 100, .free 64, .alloc 7, .alloc 127]).bucket 6 = ⟨2, 2⟩ := by decide +kernel

/-- Reallocations are not counted when they allocate (runOperations,
ReplayOperationManager.cpp:189-191) but freeing what they returned is (198-203):
after freeing two reallocated blocks one allocation of 100 bytes makes the
printed high watermark 2^64 - 1. -/
theorem histogram_realloc_counterexample :
    ((((Hist.new.dec 100).dec 100).inc 100).bucket 6).hwm = 2 ^ 64 - 1 := by decide +kernel

end Umpire.Replay
