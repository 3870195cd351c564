import Verif.Conc.Pool
import Verif.Conc.Races
/-!
# Concurrency: what can go wrong, and that the theorems apply
-/
set_option autoImplicit false
set_option linter.unusedSimpArgs false
namespace Umpire.Conc
open Umpire Umpire.Prog

/-! ## Races (C38) -/

/-- The next step of thread `t`. -/
def RC.next (arr : Arr) (c : RC Bool) (t : Bool) : Option (RC Bool) :=
  match c.thr t with
  | .idle [] => none
  | .idle (j :: todo) =>
    if j.locks arr = true then
      if c.lock j.h = none then some ⟨upd c.lock j.h (some t), upd c.thr t (.busy j j.acc todo)⟩ else none
    else some ⟨c.lock, upd c.thr t (.busy j j.acc todo)⟩
  | .busy j (_ :: rest) todo => some ⟨c.lock, upd c.thr t (.busy j rest todo)⟩
  | .busy j [] todo =>
    if j.locks arr = true then some ⟨upd c.lock j.h none, upd c.thr t (.idle todo)⟩ else some ⟨c.lock, upd c.thr t (.idle todo)⟩

theorem RC.next_step {arr : Arr} {c c' : RC Bool} {t : Bool} (h : c.next arr t = some c') : RStep arr c c' := by
  unfold RC.next at h
  split at h
  · cases h
  · split at h
    · split at h
      · cases h; exact .lock ‹_› ‹_› ‹_›
      · cases h
    · cases h; exact .start ‹_› (Bool.eq_false_iff.mpr ‹_›)
  · cases h; exact .acc ‹_›
  · split at h
    · cases h; exact .unlock ‹_› ‹_›
    · cases h; exact .finish ‹_› (Bool.eq_false_iff.mpr ‹_›)

/-- Follow a schedule. -/
def RC.follow (arr : Arr) (c : RC Bool) (s : List Bool) : Option (RC Bool) := s.foldlM (RC.next arr) c

theorem follow_reach {arr : Arr} {P : Bool → List Job} {s : List Bool} {c c' : RC Bool} (hc : RReach arr P c) (h : c.follow arr s = some c') :
    RReach arr P c' := by
  unfold RC.follow at h
  induction s generalizing c with
  | nil => cases h; exact hc
  | cons t s ih =>
    rw [List.foldlM_cons] at h
    cases hn : c.next arr t with
    | none => rw [hn] at h; cases h
    | some c1 => rw [hn] at h; exact ih (.step hc (RC.next_step hn)) h

/-- Both threads are about to touch the same memory, one of them writing. -/
def raceB (c : RC Bool) : Bool :=
  match c.thr false, c.thr true with
  | .busy _ (a :: _) _, .busy _ (a' :: _) _ => decide (a.obj = a'.obj) && (a.write || a'.write)
  | _, _ => false

theorem raceB_race {c : RC Bool} (h : raceB c = true) : Race c := by
  unfold raceB at h
  split at h
  · rename_i j a r todo j' a' r' todo' h1 h2
    simp only [Bool.and_eq_true, decide_eq_true_eq, Bool.or_eq_true] at h
    exact ⟨false, true, _, _, _, _, _, _, _, _, by decide, h1, h2, h.1, h.2⟩
  · cases h

/-- A schedule after which two threads race. -/
theorem race_of {arr : Arr} {P : Bool → List Job} (s : List Bool)
    (h : ((RC.follow arr ⟨fun _ => none, fun t => .idle (P t)⟩ s).map raceB) = some true) : ∃ c, RReach arr P c ∧ Race c := by
  cases hf : RC.follow arr ⟨fun _ => none, fun t => .idle (P t)⟩ s with
  | none => rw [hf] at h; cases h
  | some c =>
    rw [hf] at h
    simp only [Option.map_some, Option.some.injEq] at h
    exact ⟨c, follow_reach .init hf, raceB_race h⟩

/-- Strategies: 0 and 1 are resources, 2 and 3 pools over them, 4 and 5 thread-safe
allocators over the pools. -/
def arrSep : Arr
  | 2 => .pool [0]
  | 3 => .pool [1]
  | 4 => .tsa 2
  | 5 => .tsa 3
  | _ => .resource

/-- Accesses of the allocation of a pool from memory it has. -/
def accPool (n : Nat) : List Acc := [⟨.own n, false⟩, ⟨.own n, true⟩]

theorem accPool_does {arr : Arr} {n : Nat} {ps : List Nat} (h : arr n = .pool ps) : Does arr n (accPool n) := .own h (.done h)

/-- Accesses of the allocation of a pool that asks its parent. -/
def accGrow (n p : Nat) : List Acc := ⟨.stat p, false⟩ :: ⟨.stat p, true⟩ :: ([] ++ [⟨.own n, true⟩])

theorem accGrow_does {arr : Arr} {n p : Nat} (h : arr n = .pool [p]) (hp : arr p = .resource) : Does arr n (accGrow n p) :=
  .call h (.head _) (.resource hp) (.done h)

/-- An allocation through handle `h` of a thread-safe allocator over pool `p`, with the
accesses `l` of the pool. -/
def allocVia (h p : Nat) (l : List Acc) : Job := ⟨h, .alloc, (⟨.stat p, false⟩ :: ⟨.stat p, true⟩ :: l) ++ statAcc h⟩

theorem allocVia_ok {arr : Arr} {h p : Nat} {l : List Acc} (ht : arr h = .tsa p) (hl : Does arr p l) : (allocVia h p l).Ok arr :=
  ⟨_, .alloc (.tsa ht hl), List.prefix_refl _⟩

/-- A deallocation likewise. -/
def deallocVia (h p : Nat) (l : List Acc) : Job := ⟨h, .dealloc, statAcc h ++ ⟨.zero, false⟩ :: (⟨.stat p, false⟩ :: ⟨.stat p, true⟩ :: l)⟩

theorem deallocVia_ok {arr : Arr} {h p : Nat} {l : List Acc} (ht : arr h = .tsa p) (hl : Does arr p l) : (deallocVia h p l).Ok arr :=
  ⟨_, .dealloc (.tsa ht hl), List.prefix_refl _⟩

/-- A zero-byte allocation. -/
def zeroVia (h : Nat) : Job := ⟨h, .allocZero, [⟨.zero, false⟩, ⟨.zero, true⟩] ++ statAcc h⟩

theorem zeroVia_ok {arr : Arr} {h : Nat} : (zeroVia h).Ok arr := ⟨_, .allocZero, List.prefix_refl _⟩

theorem below_sep4 {m : Nat} (h : Below arrSep 4 m) : m = 4 ∨ m = 2 ∨ m = 0 := by
  cases h with
  | refl => exact .inl rfl
  | tsa h hm =>
    cases h
    cases hm with
    | refl => exact .inr (.inl rfl)
    | tsa h _ => cases h
    | pool h hq hm =>
      cases h
      rw [List.mem_singleton] at hq
      subst hq
      cases hm with
      | refl => exact .inr (.inr rfl)
      | tsa h _ => cases h
      | pool h _ _ => cases h
  | pool h _ _ => cases h

theorem below_sep5 {m : Nat} (h : Below arrSep 5 m) : m = 5 ∨ m = 3 ∨ m = 1 := by
  cases h with
  | refl => exact .inl rfl
  | tsa h hm =>
    cases h
    cases hm with
    | refl => exact .inr (.inl rfl)
    | tsa h _ => cases h
    | pool h hq hm =>
      cases h
      rw [List.mem_singleton] at hq
      subst hq
      cases hm with
      | refl => exact .inr (.inr rfl)
      | tsa h _ => cases h
      | pool h _ _ => cases h
  | pool h _ _ => cases h

/-- Two threads that use both thread-safe allocators of `arrSep` all the time. -/
def progSep : Bool → List Job
  | false => [allocVia 4 2 (accGrow 2 0), allocVia 5 3 (accPool 3), deallocVia 4 2 (accPool 2)]
  | true => [allocVia 5 3 (accGrow 3 1), allocVia 4 2 (accPool 2), deallocVia 5 3 (accPool 3)]

/-- `lock_coverage_partial` applies to them. -/
example {c : RC Bool} (h : RReach arrSep progSep c) : ¬ Race c := by
  have jobs : ∀ t, ∀ j ∈ progSep t, j.Ok arrSep ∧ (j.h = 4 ∨ j.h = 5) ∧ (j.kind = .alloc ∨ j.kind = .dealloc) := by
    intro t j hj
    cases t
    · rcases List.mem_cons.mp hj with rfl | hj
      · exact ⟨allocVia_ok rfl (accGrow_does rfl rfl), .inl rfl, .inl rfl⟩
      rcases List.mem_cons.mp hj with rfl | hj
      · exact ⟨allocVia_ok rfl (accPool_does rfl), .inr rfl, .inl rfl⟩
      rcases List.mem_cons.mp hj with rfl | hj
      · exact ⟨deallocVia_ok rfl (accPool_does rfl), .inl rfl, .inr rfl⟩
      · cases hj
    · rcases List.mem_cons.mp hj with rfl | hj
      · exact ⟨allocVia_ok rfl (accGrow_does rfl rfl), .inr rfl, .inl rfl⟩
      rcases List.mem_cons.mp hj with rfl | hj
      · exact ⟨allocVia_ok rfl (accPool_does rfl), .inl rfl, .inl rfl⟩
      rcases List.mem_cons.mp hj with rfl | hj
      · exact ⟨deallocVia_ok rfl (accPool_does rfl), .inr rfl, .inr rfl⟩
      · cases hj
  refine lock_coverage_partial (fun t j hj => (jobs t j hj).1) (fun t j hj => ?_) (fun t t' j j' hj hj' hne => ?_) h
  · obtain ⟨_, h1, h2⟩ := jobs t j hj
    unfold Job.locks
    rcases h1 with h1 | h1 <;> rcases h2 with h2 | h2 <;> rw [h1, h2] <;> rfl
  · obtain ⟨_, h1, h2⟩ := jobs t j hj
    obtain ⟨_, h1', _⟩ := jobs t' j' hj'
    refine ⟨fun m hm hm' => ?_, ?_, ?_⟩
    · rcases h1 with h1 | h1 <;> rcases h1' with h1' | h1'
      · rw [h1, h1'] at hne; exact hne rfl
      · rw [h1] at hm; rw [h1'] at hm'
        have := below_sep4 hm
        have := below_sep5 hm'
        omega
      · rw [h1] at hm; rw [h1'] at hm'
        have := below_sep5 hm
        have := below_sep4 hm'
        omega
      · rw [h1, h1'] at hne; exact hne rfl
    · rcases h2 with h2 | h2 <;> rw [h2] <;> decide
    · rcases h2 with h2 | h2 <;> rw [h2] <;> decide

/-- C38 fails for zero-byte requests: two threads that use thread-safe allocators over
separate pools and separate resources write the one pool for zero-byte requests at the
same time. -/
theorem zero_race_counterexample :
    ∃ P : Bool → List Job, (∀ t, ∀ j ∈ P t, j.Ok arrSep ∧ j.locks arrSep = true) ∧ (∀ m, Below arrSep 4 m → ¬ Below arrSep 5 m) ∧
      P false = [zeroVia 4] ∧ P true = [zeroVia 5] ∧ ∃ c, RReach arrSep P c ∧ Race c := by
  refine ⟨fun | false => [zeroVia 4] | true => [zeroVia 5], fun t j hj => ?_, fun m hm hm' => ?_, rfl, rfl, race_of [false, true, false] (by decide)⟩
  · cases t <;> rw [List.mem_singleton] at hj <;> subst hj <;> exact ⟨zeroVia_ok, rfl⟩
  · have := below_sep4 hm
    have := below_sep5 hm'
    omega

/-- A zero-byte request through one thread-safe allocator also races with the ordinary
deallocations of all others, which look into that pool. -/
theorem zero_dealloc_race_counterexample :
    ∃ P : Bool → List Job, (∀ t, ∀ j ∈ P t, j.Ok arrSep ∧ j.locks arrSep = true) ∧
      P false = [zeroVia 4] ∧ P true = [deallocVia 5 3 (accPool 3)] ∧ ∃ c, RReach arrSep P c ∧ Race c := by
  refine ⟨fun | false => [zeroVia 4] | true => [deallocVia 5 3 (accPool 3)], fun t j hj => ?_, rfl, rfl,
    race_of [false, true, false, true, true] (by decide)⟩
  cases t <;> rw [List.mem_singleton] at hj <;> subst hj
  · exact ⟨zeroVia_ok, rfl⟩
  · exact ⟨deallocVia_ok rfl (accPool_does rfl), rfl⟩

/-- Two pools over the same resource, each with its own thread-safe allocator. -/
def arrHost : Arr
  | 2 => .pool [0]
  | 3 => .pool [0]
  | 4 => .tsa 2
  | 5 => .tsa 3
  | _ => .resource

/-- C38 fails for separate pools over the same resource: when both pools grow, both
threads write the statistics of the resource at the same time. -/
theorem resource_race_counterexample :
    ∃ P : Bool → List Job, (∀ t, ∀ j ∈ P t, j.Ok arrHost ∧ j.locks arrHost = true) ∧
      P false = [allocVia 4 2 (accGrow 2 0)] ∧ P true = [allocVia 5 3 (accGrow 3 0)] ∧ ∃ c, RReach arrHost P c ∧ Race c := by
  refine ⟨fun | false => [allocVia 4 2 (accGrow 2 0)] | true => [allocVia 5 3 (accGrow 3 0)], fun t j hj => ?_, rfl, rfl,
    race_of [false, true, false, false, false, true, true] (by decide)⟩
  cases t <;> rw [List.mem_singleton] at hj <;> subst hj <;> exact ⟨allocVia_ok rfl (accGrow_does rfl rfl), rfl⟩

/-- Two thread-safe allocators over the same pool. -/
def arrShare : Arr
  | 2 => .pool [0]
  | 4 => .tsa 2
  | 5 => .tsa 2
  | _ => .resource

/-- C38 fails for two thread-safe allocators over the same pool: each has its own mutex, and
both threads write the pool at the same time. -/
theorem shared_pool_race_counterexample :
    ∃ P : Bool → List Job, (∀ t, ∀ j ∈ P t, j.Ok arrShare ∧ j.locks arrShare = true) ∧
      P false = [allocVia 4 2 (accPool 2)] ∧ P true = [allocVia 5 2 (accPool 2)] ∧
      ∃ c, RReach arrShare P c ∧ Race c ∧ ∃ j r todo, c.thr false = .busy j (⟨.own 2, true⟩ :: r) todo := by
  refine ⟨fun | false => [allocVia 4 2 (accPool 2)] | true => [allocVia 5 2 (accPool 2)], fun t j hj => ?_, rfl, rfl, ?_⟩
  · cases t <;> rw [List.mem_singleton] at hj <;> subst hj <;> exact ⟨allocVia_ok rfl (accPool_does rfl), rfl⟩
  · refine ⟨_, follow_reach .init (s := [false, true, false, false, false, true, true]) rfl, raceB_race rfl, _, _, _, rfl⟩

/-- A thread-safe allocator beneath another strategy. -/
def arrUnder : Arr
  | 2 => .pool [0]
  | 4 => .tsa 2
  | 6 => .pool [4]
  | 7 => .tsa 6
  | _ => .resource

/-- C38 fails for a thread-safe allocator beneath another strategy, even if that one is
used through a thread-safe allocator too: a pool over thread-safe allocator 4 asks it for
memory without taking its lock, while another thread uses 4 directly; both write the pool
beneath. -/
theorem beneath_race_counterexample :
    ∃ P : Bool → List Job, (∀ t, ∀ j ∈ P t, j.Ok arrUnder ∧ j.locks arrUnder = true) ∧
      P false = [allocVia 4 2 (accPool 2)] ∧ (∀ j ∈ P true, j.h = 7) ∧
      ∃ c, RReach arrUnder P c ∧ Race c ∧ ∃ j r todo, c.thr true = .busy j (⟨.own 2, true⟩ :: r) todo := by
  have hl : Does arrUnder 6 (⟨.stat 4, false⟩ :: ⟨.stat 4, true⟩ :: ((⟨.stat 2, false⟩ :: ⟨.stat 2, true⟩ :: accPool 2) ++ [⟨.own 6, true⟩])) :=
    .call rfl (.head _) (.tsa rfl (accPool_does rfl)) (.done rfl)
  refine ⟨fun
    | false => [allocVia 4 2 (accPool 2)]
    | true => [allocVia 7 6 (⟨.stat 4, false⟩ :: ⟨.stat 4, true⟩ :: ((⟨.stat 2, false⟩ :: ⟨.stat 2, true⟩ :: accPool 2) ++ [⟨.own 6, true⟩]))],
    fun t j hj => ?_, rfl, fun j hj => ?_, ?_⟩
  · cases t <;> rw [List.mem_singleton] at hj <;> subst hj
    · exact ⟨allocVia_ok rfl (accPool_does rfl), rfl⟩
    · exact ⟨allocVia_ok rfl hl, rfl⟩
  · rw [List.mem_singleton] at hj; subst hj; rfl
  · refine ⟨_, follow_reach .init (s := [false, true, false, false, true, true, true, true, true, true, true]) rfl, raceB_race rfl, _, _, _, rfl⟩

/-- The getters do not lock: reading the current size of a thread-safe allocator races
with its own allocations. -/
theorem getter_race_counterexample :
    ∃ P : Bool → List Job, (∀ t, ∀ j ∈ P t, j.Ok arrSep ∧ j.h = 4) ∧ P true = [⟨4, .getter, [⟨.stat 4, false⟩]⟩] ∧
      ∃ c, RReach arrSep P c ∧ Race c := by
  refine ⟨fun | false => [allocVia 4 2 (accPool 2)] | true => [⟨4, .getter, [⟨.stat 4, false⟩]⟩], fun t j hj => ?_, rfl,
    race_of [false, true, false, false, false, false, false] (by decide)⟩
  cases t <;> rw [List.mem_singleton] at hj <;> subst hj
  · exact ⟨allocVia_ok rfl (accPool_does rfl), rfl⟩
  · exact ⟨⟨_, .getter, List.prefix_refl _⟩, rfl⟩

end Umpire.Conc
