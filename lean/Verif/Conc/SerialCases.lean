import Verif.Conc.Pool
/-!
# Concurrent use: cases that are not sequential, and that the theorems apply
-/
set_option autoImplicit false
set_option linter.unusedSimpArgs false
namespace Umpire.Conc
open Umpire Umpire.Prog Umpire.QuickPool

/-! ## Two thread-safe allocators over the same resource -/

/-- AllocationStrategy.cpp:20-30: `m_current_size += bytes` of the resource, as each of the
pools does it when it grows: read, then write. -/
def addBody (n : Nat) : Body Nat Nat Unit :=
  .act (fun g a g' => a = g ∧ g' = g) fun c => .act (fun _ a g' => a = 0 ∧ g' = c + n) fun _ => .ret ()

def addProg : Bool → Thr Nat Nat Unit Bool
  | false => .call false (addBody 5) fun _ => .stop
  | true => .call true (addBody 7) fun _ => .stop

theorem addBody_run {n g g' : Nat} {v : Unit} (h : Part (fun x : Nat => x) (addBody n) g (.ret v) g') : g' = g + n := by
  replace h := h.act_inv
  obtain ⟨a, g1, hR, h⟩ := h
  obtain ⟨h1, h2⟩ := hR.same
  subst h1; subst h2
  replace h := h.act_inv
  obtain ⟨a, g2, hR, h⟩ := h
  obtain ⟨_, h2⟩ := hR.same
  subst h2
  exact h.ret_inv.2

/-- C37 fails for the statistics of a resource that two thread-safe allocators share: both
calls complete, one addition is lost, and no order of the two calls gives the final
state. -/
theorem two_locks_lost_update_counterexample :
    ∃ c : Config Nat Nat Unit Bool Bool, Reach 0 addProg c ∧ (∀ t, c.thr t = .idle .stop) ∧ c.log.length = 2 ∧
      ∀ v v', ¬ Seq (fun x : Nat => x) 0 [(addBody 5, v), (addBody 7, v')] c.g ∧ ¬ Seq (fun x : Nat => x) 0 [(addBody 7, v), (addBody 5, v')] c.g := by
  have r1 := Reach.step (Reach.init (g0 := 0) (P := addProg)) (Step.lock (t := false) rfl rfl)
  have r2 := Reach.step r1 (Step.lock (t := true) rfl rfl)
  have r3 := Reach.step r2 (Step.act (t := false) (a := 0) (g' := 0) rfl ⟨rfl, rfl⟩)
  have r4 := Reach.step r3 (Step.act (t := true) (a := 0) (g' := 0) rfl ⟨rfl, rfl⟩)
  have r5 := Reach.step r4 (Step.act (t := false) (a := 0) (g' := 5) rfl ⟨rfl, rfl⟩)
  have r6 := Reach.step r5 (Step.act (t := true) (a := 0) (g' := 7) rfl ⟨rfl, rfl⟩)
  have r7 := Reach.step r6 (Step.unlock (t := false) rfl)
  have r8 := Reach.step r7 (Step.unlock (t := true) rfl)
  refine ⟨_, r8, fun t => by cases t <;> rfl, rfl, fun v v' => ⟨fun h => ?_, fun h => ?_⟩⟩
  · have h : Seq (fun x : Nat => x) 0 [(addBody 5, v), (addBody 7, v')] 7 := h
    cases h with
    | cons h1 h2 =>
      cases h2 with
      | cons h2 h3 =>
        have e1 := addBody_run h1
        have e2 := addBody_run h2
        generalize hx : (7 : Nat) = x at h3
        cases h3
        omega
  · have h : Seq (fun x : Nat => x) 0 [(addBody 7, v), (addBody 5, v')] 7 := h
    cases h with
    | cons h1 h2 =>
      cases h2 with
      | cons h2 h3 =>
        have e1 := addBody_run h1
        have e2 := addBody_run h2
        generalize hx : (7 : Nat) = x at h3
        cases h3
        omega

/-- What a pool does to the heap when it coalesces (QuickPool.cpp:274-287): give a block
back, then ask for one.  The state is the free blocks of the heap. -/
def moveBody (p : Nat) : Body (List Nat) Nat Nat :=
  .act (fun g a g' => a = 0 ∧ g' = p :: g) fun _ => .act (fun g a g' => a ∈ g ∧ g' = g.erase a) fun a => .ret a

def moveProg : Bool → Thr (List Nat) Nat Nat Bool
  | false => .call false (moveBody 1) fun _ => .stop
  | true => .call true (moveBody 2) fun _ => .stop

theorem moveBody_run {p v : Nat} {g g' : List Nat} (h : Part (fun x : List Nat => x) (moveBody p) g (.ret v) g') : v ∈ p :: g ∧ g' = (p :: g).erase v := by
  replace h := h.act_inv
  obtain ⟨a, g1, hR, h⟩ := h
  obtain ⟨_, h2⟩ := hR.same
  subst h2
  replace h := h.act_inv
  obtain ⟨a, g2, hR, h⟩ := h
  obtain ⟨h1, h2⟩ := hR.same
  subst h2
  obtain ⟨e1, e2⟩ := h.ret_inv
  subst e1
  exact ⟨h1, e2⟩

/-- C37 fails for the exact addresses when two thread-safe allocators share a heap: each
of two pools gets the block the other gave back in the same call; in a sequential order
the first call cannot get a block that the second one has not given back yet. -/
theorem two_locks_addresses_counterexample :
    ∃ c : Config (List Nat) Nat Nat Bool Bool, Reach [] moveProg c ∧ (∀ t, c.thr t = .idle .stop) ∧
      (c.log.map fun d => (d.t, d.v)) = [(false, 2), (true, 1)] ∧
      ∀ s, ¬ Seq (fun x : List Nat => x) [] [(moveBody 1, 2), (moveBody 2, 1)] s ∧ ¬ Seq (fun x : List Nat => x) [] [(moveBody 2, 1), (moveBody 1, 2)] s := by
  have r1 := Reach.step (Reach.init (g0 := []) (P := moveProg)) (Step.lock (t := false) rfl rfl)
  have r2 := Reach.step r1 (Step.lock (t := true) rfl rfl)
  have r3 := Reach.step r2 (Step.act (t := false) (a := 0) (g' := [1]) rfl ⟨rfl, rfl⟩)
  have r4 := Reach.step r3 (Step.act (t := true) (a := 0) (g' := [2, 1]) rfl ⟨rfl, rfl⟩)
  have r5 := Reach.step r4 (Step.act (t := false) (a := 2) (g' := [1]) rfl ⟨by decide, rfl⟩)
  have r6 := Reach.step r5 (Step.act (t := true) (a := 1) (g' := []) rfl ⟨by decide, rfl⟩)
  have r7 := Reach.step r6 (Step.unlock (t := false) rfl)
  have r8 := Reach.step r7 (Step.unlock (t := true) rfl)
  refine ⟨_, r8, fun t => by cases t <;> rfl, rfl, fun s => ⟨fun h => ?_, fun h => ?_⟩⟩
  · cases h with
    | cons h1 h2 =>
      obtain ⟨e1, _⟩ := moveBody_run h1
      exact absurd e1 (by decide)
  · cases h with
    | cons h1 h2 =>
      obtain ⟨e1, _⟩ := moveBody_run h1
      exact absurd e1 (by decide)

/-! ## Two thread-safe allocators over the same pool -/

/-- The pool `sysX` (two allocations and a free block of 64 bytes) after an allocation of
64 bytes. -/
def poolT : State := match QuickPool.allocate cfgX sysX.pool 64 with
  | .ret r => r.2
  | _ => sysX.pool

theorem allocate_poolT : QuickPool.allocate cfgX sysX.pool 64 = .ret (some 3200, poolT) := rfl

/-- Both threads allocate 64 bytes, each through its own thread-safe allocator. -/
def bothProg : Bool → Thr PG Ans (Option Nat) Bool
  | false => .call false (callAlloc cfgX 64) fun _ => .stop
  | true => .call true (callAlloc cfgX 64) fun _ => .stop

/-- Two thread-safe allocators over the same pool do not protect it: two threads get the
same memory.  The pool starts in a reachable state. -/
theorem two_locks_same_pointer_counterexample :
    QuickPool.Reach cfgX sysX ∧ ∃ c : Config PG Ans (Option Nat) Bool Bool, Reach ⟨sysX, 56, 2⟩ bothProg c ∧ (∀ t, c.thr t = .idle .stop) ∧
      (c.log.map fun d => (d.t, d.v)) = [(false, some 3200), (true, some 3200)] := by
  refine ⟨sysX_reach, ?_⟩
  have r1 := Reach.step (Reach.init (g0 := (⟨sysX, 56, 2⟩ : PG)) (P := bothProg)) (Step.lock (t := false) rfl rfl)
  have r2 := Reach.step r1 (Step.lock (t := true) rfl rfl)
  have r3 := Reach.step r2 (Step.act (t := false) (a := .st sysX.pool) (g' := ⟨sysX, 56, 2⟩) rfl ⟨rfl, rfl⟩)
  have r4 := Reach.step r3 (Step.act (t := true) (a := .st sysX.pool) (g' := ⟨sysX, 56, 2⟩) rfl ⟨rfl, rfl⟩)
  have r5 := Reach.step r4 (Step.act (t := false) (a := .unit) rfl ⟨rfl, rfl⟩)
  have r6 := Reach.step r5 (Step.act (t := true) (a := .unit) rfl ⟨rfl, rfl⟩)
  have r7 := Reach.step r6 (Step.act (t := false) (a := .num 56) rfl ⟨rfl, rfl⟩)
  have r8 := Reach.step r7 (Step.act (t := false) (a := .unit) rfl ⟨rfl, rfl⟩)
  have r9 := Reach.step r8 (Step.act (t := false) (a := .num 2) rfl ⟨rfl, rfl⟩)
  have r10 := Reach.step r9 (Step.act (t := false) (a := .unit) rfl ⟨rfl, rfl⟩)
  have r11 := Reach.step r10 (Step.act (t := true) (a := .num 120) rfl ⟨rfl, rfl⟩)
  have r12 := Reach.step r11 (Step.act (t := true) (a := .unit) rfl ⟨rfl, rfl⟩)
  have r13 := Reach.step r12 (Step.act (t := true) (a := .num 3) rfl ⟨rfl, rfl⟩)
  have r14 := Reach.step r13 (Step.act (t := true) (a := .unit) rfl ⟨rfl, rfl⟩)
  have r15 := Reach.step r14 (Step.unlock (t := false) rfl)
  have r16 := Reach.step r15 (Step.unlock (t := true) rfl)
  exact ⟨_, r16, fun t => by cases t <;> rfl, rfl⟩

/-! ## The theorems apply -/

/-- Two threads sharing a pool: one gives back what it got, the other keeps it. -/
def shareProg : Bool → Thr PG Ans (Option Nat) Unit
  | false => .call () (callAlloc cfgX 64) fun
      | some p => .call () (callDealloc cfgX 5 p 64) fun _ => .stop
      | none => .stop
  | true => .call () (callAlloc cfgX 40) fun _ => .stop

theorem shareProg_ok (t : Bool) : PoolThr cfgX (shareProg t) := by
  cases t
  · refine .alloc ⟨by decide, by decide⟩ fun v => ?_
    cases v with
    | none => exact .stop
    | some p => exact .dealloc fun _ => .stop
  · exact .alloc ⟨by decide, by decide⟩ fun _ => .stop

set_option smartUnfolding false in
/-- `threadsafe_pool` and `threadsafe_serial` apply: both threads have allocated, the second
one waited for the first while it was in the middle of its call. -/
example : ∃ c : Config PG Ans (Option Nat) Unit Bool, Reach pg0 shareProg c ∧ (∀ t, ∃ p, c.thr t = .idle p) ∧
    c.g.sys.live = [(3200, 40), (1600, 64)] ∧ c.g.cur = 104 ∧ c.g.cnt = 2 := by
  have r1 := Reach.step (Reach.init (g0 := pg0) (P := shareProg)) (Step.lock (t := false) rfl rfl)
  have r2 := Reach.step r1 (Step.act (t := false) (a := .st QuickPool.init) rfl ⟨rfl, rfl⟩)
  have r3 := Reach.step r2 (Step.act (t := false) (a := .ptr (some 1600)) rfl (.inl ⟨1600, rfl, by decide, rfl⟩))
  have r4 := Reach.step r3 (Step.act (t := false) (a := .unit) rfl ⟨rfl, rfl⟩)
  have r5 := Reach.step r4 (Step.act (t := false) (a := .num 0) rfl ⟨rfl, rfl⟩)
  have r6 := Reach.step r5 (Step.act (t := false) (a := .unit) rfl ⟨rfl, rfl⟩)
  have r7 := Reach.step r6 (Step.act (t := false) (a := .num 0) rfl ⟨rfl, rfl⟩)
  have r8 := Reach.step r7 (Step.act (t := false) (a := .unit) rfl ⟨rfl, rfl⟩)
  have r9 := Reach.step r8 (Step.unlock (t := false) rfl)
  have r10 := Reach.step r9 (Step.lock (t := true) rfl rfl)
  have r11 := Reach.step r10 (Step.act (t := true) rfl ⟨rfl, rfl⟩)
  have r12 := Reach.step r11 (Step.act (t := true) (a := .ptr (some 3190)) rfl (.inl ⟨3190, rfl, by decide, rfl⟩))
  have r13 := Reach.step r12 (Step.act (t := true) (a := .unit) rfl ⟨rfl, rfl⟩)
  have r14 := Reach.step r13 (Step.act (t := true) (a := .num 64) rfl ⟨rfl, rfl⟩)
  have r15 := Reach.step r14 (Step.act (t := true) (a := .unit) rfl ⟨rfl, rfl⟩)
  have r16 := Reach.step r15 (Step.act (t := true) (a := .num 1) rfl ⟨rfl, rfl⟩)
  have r17 := Reach.step r16 (Step.act (t := true) (a := .unit) rfl ⟨rfl, rfl⟩)
  have r18 := Reach.step r17 (Step.unlock (t := true) rfl)
  exact ⟨_, r18, fun t => by cases t <;> exact ⟨_, rfl⟩, rfl, rfl, rfl⟩

/-- Two counters, each beneath its own thread-safe allocator. -/
def part : Bool → Nat × Nat → Nat
  | false, g => g.1
  | true, g => g.2

def setPart : Bool → Nat → Nat × Nat → Nat × Nat
  | false, n, g => (n, g.2)
  | true, n, g => (g.1, n)

/-- Add to the counter of `k`: read, then write. -/
def incBody (k : Bool) (n : Nat) : Body (Nat × Nat) Nat Nat :=
  .act (fun g a g' => a = part k g ∧ g' = g) fun c => .act (fun g a g' => a = 0 ∧ g' = setPart k (c + n) g) fun _ => .ret c

theorem incBody_local (k : Bool) (n : Nat) : (incBody k n).Local part k := by
  refine .act (fun g a g' h j hj => by rw [h.2]) (fun g a g' h hR he => ⟨h, ⟨by rw [hR.1, he], rfl⟩, by rw [he, hR.2]⟩) fun c =>
    .act (fun g a g' h j hj => ?_) (fun g a g' h hR he => ⟨setPart k (c + n) h, ⟨hR.1, rfl⟩, ?_⟩) fun _ => .ret
  · rw [h.2]
    cases k <;> cases j <;> first | rfl | exact absurd rfl hj
  · rw [hR.2]; cases k <;> rfl

def incProg : Bool → Thr (Nat × Nat) Nat Nat Bool
  | false => .call false (incBody false 5) fun c => .call true (incBody true c) fun _ => .stop
  | true => .call true (incBody true 7) fun c => .call false (incBody false c) fun _ => .stop

theorem incProg_local (t : Bool) : (incProg t).Local part := by
  cases t <;> exact .call (incBody_local _ _) fun _ => .call (incBody_local _ _) fun _ => .stop

/-- `threadsafe_serial_all` applies to them. -/
example {c : Config (Nat × Nat) Nat Nat Bool Bool} (h : Reach (0, 0) incProg c) (hq : ∀ t, ∃ p, c.thr t = .idle p) :
    Seq (fun g : Nat × Nat => g) (0, 0) (c.log.map fun d => (d.b, d.v)) c.g :=
  (threadsafe_serial_all (π := part) (fun _ _ hk => Prod.ext (hk false) (hk true)) incProg_local h hq).1

/-- A schedule in which the calls overlap. -/
example : ∃ c : Config (Nat × Nat) Nat Nat Bool Bool, Reach (0, 0) incProg c ∧ (∀ t, ∃ p, c.thr t = .idle p) ∧ c.g = (5, 7) ∧
    (c.log.map fun d => (d.t, d.v)) = [(true, 0), (false, 0)] := by
  have r1 := Reach.step (Reach.init (g0 := (0, 0)) (P := incProg)) (Step.lock (t := false) rfl rfl)
  have r2 := Reach.step r1 (Step.lock (t := true) rfl rfl)
  have r3 := Reach.step r2 (Step.act (t := false) (a := 0) (g' := (0, 0)) rfl ⟨rfl, rfl⟩)
  have r4 := Reach.step r3 (Step.act (t := true) (a := 0) (g' := (0, 0)) rfl ⟨rfl, rfl⟩)
  have r5 := Reach.step r4 (Step.act (t := false) (a := 0) (g' := (5, 0)) rfl ⟨rfl, rfl⟩)
  have r6 := Reach.step r5 (Step.act (t := true) (a := 0) (g' := (5, 7)) rfl ⟨rfl, rfl⟩)
  have r7 := Reach.step r6 (Step.unlock (t := true) rfl)
  have r8 := Reach.step r7 (Step.unlock (t := false) rfl)
  exact ⟨_, r8, fun t => by cases t <;> exact ⟨_, rfl⟩, rfl, rfl⟩

theorem incProg_live (t : Bool) : (incProg t).Live := by
  have hb : ∀ k n, (incBody k n).Live := fun k n => .act (fun g => ⟨_, _, rfl, rfl⟩) fun _ => .act (fun g => ⟨_, _, rfl, rfl⟩) fun _ => .ret
  cases t <;> exact .call (hb _ _) fun _ => .call (hb _ _) fun _ => .stop

/-- `threadsafe_no_deadlock` applies to them. -/
example {c : Config (Nat × Nat) Nat Nat Bool Bool} (h : Reach (0, 0) incProg c) (hw : c.thr false ≠ .idle .stop) : ∃ c', Step c c' :=
  threadsafe_no_deadlock incProg_live h ⟨false, hw⟩

end Umpire.Conc
