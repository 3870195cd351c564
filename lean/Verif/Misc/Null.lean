import Verif.MallocPool.Props
/-!
# Model of `NullMemoryResource` (src/umpire/resource/NullMemoryResource.cpp)

The sizes are kept in the cells of `m_size_map`, which come from a
`FixedMallocPool` (`Verif/MallocPool`), so that what is read from a cell after it
has been given back is determined by the model of that pool.  The tree that maps
pointers to cells is a map (`Verif/Judy`).
-/
set_option autoImplicit false
set_option linter.unusedSimpArgs false
namespace Umpire.NullRes
open Umpire.Prog
open Umpire.QuickPool (drop_perm)

/-- The pool of cells: `sizeof(std::size_t)` and the default number of objects
(MemoryMap.inl:31, FixedMallocPool.hpp:29). -/
def cells : MallocPool.Cfg := { obj := 8, per := 1024 * 1024 }

theorem cells_ok : MallocPool.CfgOk cells := ⟨by decide, by decide, by decide, by decide⟩

structure State where
  pool : MallocPool.State
  /-- `m_size_map`: pointer and cell -/
  map : List (Nat × Nat)

/-- `MAP_FAILED`. -/
def mapFailed : Nat := 2 ^ 64 - 1

/-- `allocate` (lines 31-44), `mm` is what `mmap` returns. -/
def allocate (s : State) (bytes mm : Nat) : Prog (Nat × State) :=
  if s.map.any (fun e => e.1 = mm) then .ret (mm, s)
  else (MallocPool.allocate cells 2 s.pool).bind fun r =>
    .ret (mm, ⟨⟨r.2.mem.wr r.1 8 bytes, r.2.pools⟩, (mm, r.1) :: s.map⟩)

/-- `deallocate` (lines 46-60): the cell is given back (51) before the size is read
from it (54).  The result is the length passed to `munmap`. -/
def deallocate (s : State) (ptr : Nat) : Prog (Nat × State) :=
  match s.map.find? fun e => decide (e.1 = ptr) with
  | none => .fail .ub
  | some (_, c) => (MallocPool.deallocate cells s.pool c).bind fun r =>
    .ret (r.2.mem.rd c 8, ⟨r.2, s.map.filter fun e => e.1 ≠ ptr⟩)

/-- `held` is the memory obtained from `malloc` for cells, `live` the reservations
not given back. -/
structure Sys where
  st : State
  held : Held
  live : Held

/-- One call that returns; `mmap` succeeds and returns memory not in use. -/
inductive Step : Sys → Sys → Prop where
  | alloc {S : Sys} {n mm p s' O'} : n < W → (∀ l ∈ S.live, l.1 ≠ mm) →
      Run (allocate S.st n mm) S.held (p, s') O' → Step S ⟨s', O', (p, n) :: S.live⟩
  | dealloc {S : Sys} {p n len s' O'} : (p, n) ∈ S.live →
      Run (deallocate S.st p) S.held (len, s') O' → Step S ⟨s', O', drop p S.live⟩

inductive Reach : Sys → Prop where
  | init {m s O} : Run (MallocPool.create cells m) [] s O → O ≠ [] → Reach ⟨⟨s, []⟩, O, []⟩
  | step {S T : Sys} : Reach S → Step S T → Reach T

structure Inv (S : Sys) : Prop where
  pool : MallocPool.SInv cells ⟨S.st.pool, S.held, S.st.map.map fun e => (e.2, 8)⟩
  keys : S.st.map.map (·.1) = S.live.map (·.1)
  nodup : (S.live.map (·.1)).Nodup
  sizes : S.st.map.map (fun e => S.st.pool.mem.rd e.2 8) = S.live.map (·.2)

theorem rd8 {m : Mem} {a : Nat} : m.rd a 8 = m.rd a 4 + 2 ^ 32 * m.rd (a + 4) 4 := by
  simp only [Mem.rd, Nat.add_assoc, Nat.reduceAdd]
  omega

/-- What a cell contains after it has been given back: an index of the free list in
its lower half, or the number of objects in a pool. -/
theorem freed_cell {S : MallocPool.Sys} (h : MallocPool.SInv cells S) {p n : Nat} (hl : (p, n) ∈ S.live) :
    ∃ s', MallocPool.deallocate cells S.st p = .ret (true, s') ∧
      MallocPool.SInv cells ⟨s', S.held, drop p S.live⟩ ∧ MallocPool.Same (drop p S.live) S.st.mem s'.mem ∧
      s'.mem.rd p 4 ≤ 2 ^ 20 ∧ (s'.mem.rd (p + 4) 4 = S.st.mem.rd (p + 4) 4 ∨ s'.mem.rd (p + 4) 4 = 0) := by
  obtain ⟨s', h1, h2, h3⟩ := MallocPool.deallocate_run cells_ok h hl
  refine ⟨s', h1, h2, h3, ?_⟩
  obtain ⟨G, hG, hi⟩ := h
  obtain ⟨a, q, F, b, i, rfl, hi1, hiF, he⟩ := hi.slot hl
  injection he with he1 he2
  subst he1
  have hpo := hi.pools (q, F) (by simp)
  unfold MallocPool.deallocate at h1
  have key : ∀ (ps : List MallocPool.Pool) (m' : Mem) (ps' : List MallocPool.Pool),
      (∀ x ∈ ps, ∃ F, MallocPool.POk cells S.st.mem x F) →
      MallocPool.deallocLoop cells S.st.mem (q.data + i * cells.obj) ps = some (some (m', ps')) →
      ∃ k, k ≤ 2 ^ 20 ∧ (m' = S.st.mem.wr (q.data + i * cells.obj) 4 k ∨ m' = S.st.mem.wr (q.data + i * cells.obj) 8 k) := by
    intro ps
    induction ps with
    | nil => intro _ _ _ h; cases h
    | cons x xs ih =>
      intro m' ps' hok h
      unfold MallocPool.deallocLoop at h
      split at h
      · simp only [Option.some.injEq] at h
        unfold MallocPool.freeIn at h
        split at h
        · split at h
          · simp only [Option.map_some, Option.some.injEq] at h
            refine ⟨_, ?_, Or.inl (congrArg Prod.fst h).symm⟩
            obtain ⟨F, hF⟩ := hok x (by simp)
            have hn := hF.next
            cases F with
            | nil => rename_i hne _; exact absurd hn hne
            | cons j F =>
              have hj := hF.lt (i := j) (by simp)
              rw [hn]
              simp only [MallocPool.headOf, Nat.add_sub_cancel_left]
              rw [Nat.mul_div_cancel _ (show 0 < cells.obj by decide)]
              have : cells.per = 2 ^ 20 := rfl
              omega
          · cases h
        · split at h
          · simp only [Option.map_some, Option.some.injEq] at h
            exact ⟨_, by decide, Or.inr (congrArg Prod.fst h).symm⟩
          · cases h
      · cases hr : MallocPool.deallocLoop cells S.st.mem (q.data + i * cells.obj) xs with
        | none => rw [hr] at h; cases h
        | some o =>
          rw [hr] at h
          cases o with
          | none => cases h
          | some r =>
            simp only [Option.map_some, Option.some.injEq] at h
            obtain ⟨k, hk, hm⟩ := ih r.1 r.2 (fun y hy => hok y (by simp [hy])) hr
            refine ⟨k, hk, ?_⟩
            have h1 : r.1 = m' := congrArg Prod.fst h
            rw [← h1]
            exact hm
  split at h1
  · injection h1 with h1; injection h1 with h1; cases h1
  · cases h1
  · rename_i m' ps' hd
    injection h1 with h1
    injection h1 with _ h1
    subst h1
    obtain ⟨k, hk, hm⟩ := key _ _ _ (by
      intro x hx
      rw [hG] at hx
      obtain ⟨g, hg, rfl⟩ := List.mem_map.1 hx
      exact ⟨g.2, hi.pools g hg⟩) hd
    rcases hm with rfl | rfl
    · simp only
      refine ⟨?_, Or.inl (Mem.rd_wr_out (by omega))⟩
      rw [Mem.rd_wr]
      exact Nat.le_trans (Nat.mod_le _ _) hk
    · simp only
      have h4 := Mem.rd_wr_aux (m := S.st.mem) (a := q.data + i * cells.obj) (n := 8) (v := k) (i := 4) (k := 4) rfl
      have h8 := Mem.rd_wr (m := S.st.mem) (a := q.data + i * cells.obj) (n := 8) (v := k)
      have h5 : k / 256 ^ 4 % 256 ^ 4 = 0 := by
        rw [Nat.div_eq_of_lt (Nat.lt_of_le_of_lt hk (by decide))]
      rw [h5] at h4
      rw [rd8, h4, Nat.mul_zero, Nat.add_zero] at h8
      rw [h8]
      exact ⟨Nat.le_trans (Nat.mod_le _ _) hk, Or.inr h4⟩

theorem find_key {m : List (Nat × Nat)} {p c : Nat} (hn : (m.map (·.1)).Nodup) (h : (p, c) ∈ m) :
    m.find? (fun e => decide (e.1 = p)) = some (p, c) := by
  cases hf : m.find? fun e => decide (e.1 = p) with
  | none => rw [List.find?_eq_none] at hf; exact absurd (by simp) (hf _ h)
  | some x =>
    have h1 := List.mem_of_find?_eq_some hf
    have h2 := List.find?_some hf
    simp only [decide_eq_true_eq] at h2
    rw [nodup_map_inj hn h1 h h2]

theorem drop_cells {p c : Nat} : ∀ {m : List (Nat × Nat)}, (m.map (·.2)).Nodup → (m.map (·.1)).Nodup → (p, c) ∈ m →
    drop c (m.map fun e => (e.2, 8)) = (m.filter fun e => e.1 ≠ p).map fun e => (e.2, 8) := by
  intro m h1 h2 hm
  unfold drop
  rw [List.filter_map]
  congr 1
  apply List.filter_congr
  intro e he
  simp only [Function.comp, ne_eq, decide_not, Bool.not_eq_eq_eq_not, Bool.not_not, decide_eq_decide]
  constructor
  · intro hc; have := nodup_map_inj h1 he hm hc; rw [this]
  · intro hc; have := nodup_map_inj h2 he hm hc; rw [this]

theorem filter_zip {α : Type} {p : Nat} {f : Nat × Nat → α} {g : Nat × Nat → α} : ∀ {m L : List (Nat × Nat)},
    m.map (·.1) = L.map (·.1) → m.map f = L.map g →
    (m.filter fun e => e.1 ≠ p).map (·.1) = (drop p L).map (·.1) ∧ (m.filter fun e => e.1 ≠ p).map f = (drop p L).map g
  | [], [], _, _ => ⟨rfl, rfl⟩
  | [], _ :: _, h, _ => by simp at h
  | _ :: _, [], h, _ => by simp at h
  | e :: m, l :: L, h, h2 => by
    simp only [List.map_cons, List.cons.injEq] at h h2
    obtain ⟨i1, i2⟩ := filter_zip (p := p) h.2 h2.2
    unfold drop at i1 i2 ⊢
    rw [List.filter_cons, List.filter_cons]
    by_cases hp : l.1 = p
    · rw [if_neg (by simp [h.1, hp]), if_neg (by simp [hp])]; exact ⟨i1, i2⟩
    · rw [if_pos (by simp [h.1, hp]), if_pos (by simp [hp])]
      simp only [List.map_cons, i1, i2, h.1, h2.1, and_self]

theorem cells_nodup {S : MallocPool.Sys} (h : MallocPool.SInv cells S) : (S.live.map (·.1)).Nodup := by
  obtain ⟨G, _, hi⟩ := h
  exact hi.live_keys cells_ok

/-- `deallocate` of a live reservation. -/
theorem deallocate_live {S : Sys} (h : Inv S) {p n : Nat} (hl : (p, n) ∈ S.live) :
    ∃ len s', deallocate S.st p = .ret (len, s') ∧ Inv ⟨s', S.held, drop p S.live⟩ ∧
      len % 2 ^ 32 ≤ 2 ^ 20 ∧ len / 2 ^ 32 ≤ n / 2 ^ 32 ∧ (∀ c, (p, c) ∉ s'.map) := by
  obtain ⟨c, hc, hn⟩ : ∃ c, (p, c) ∈ S.st.map ∧ S.st.pool.mem.rd c 8 = n := by
    have : ∀ {m L : List (Nat × Nat)}, m.map (·.1) = L.map (·.1) →
        m.map (fun e => S.st.pool.mem.rd e.2 8) = L.map (·.2) → (p, n) ∈ L →
        ∃ c, (p, c) ∈ m ∧ S.st.pool.mem.rd c 8 = n := by
      intro m
      induction m with
      | nil => intro L h1 _ h3; cases L with
        | nil => cases h3
        | cons _ _ => simp at h1
      | cons e m ih =>
        intro L h1 h2 h3
        cases L with
        | nil => cases h3
        | cons l L =>
          simp only [List.map_cons, List.cons.injEq] at h1 h2
          rcases List.mem_cons.1 h3 with rfl | h3
          · have h4 : e.1 = p := h1.1
            exact ⟨e.2, by rw [← h4]; simp, h2.1⟩
          · obtain ⟨c, h4, h5⟩ := ih h1.2 h2.2 h3
            exact ⟨c, List.mem_cons_of_mem _ h4, h5⟩
    exact this h.keys h.sizes hl
  have hkn : (S.st.map.map (·.1)).Nodup := by rw [h.keys]; exact h.nodup
  have hcn := cells_nodup h.pool
  rw [List.map_map] at hcn
  have hcn : (S.st.map.map (·.2)).Nodup := hcn
  obtain ⟨s', h1, h2, h3, h4, h5⟩ := freed_cell h.pool (p := c) (n := 8) (List.mem_map.2 ⟨(p, c), hc, rfl⟩)
  simp only at h1 h2 h3 h5
  rw [drop_cells hcn hkn hc] at h2 h3
  refine ⟨s'.mem.rd c 8, ⟨s', S.st.map.filter fun e => e.1 ≠ p⟩, ?_, ?_, ?_, ?_, ?_⟩
  · unfold deallocate
    rw [find_key hkn hc]
    simp only
    rw [h1]
    rfl
  · have hsz : (S.st.map.filter fun e => e.1 ≠ p).map (fun e => s'.mem.rd e.2 8) = (S.st.map.filter fun e => e.1 ≠ p).map fun e => S.st.pool.mem.rd e.2 8 := by
      apply List.map_congr_left
      intro e he
      apply Mem.rd_congr
      intro x hx1 hx2
      exact h3 (e.2, 8) (List.mem_map.2 ⟨e, he, rfl⟩) x hx1 hx2
    obtain ⟨f1, f2⟩ := filter_zip (p := p) h.keys h.sizes
    exact ⟨h2, f1, List.Sublist.nodup (List.Sublist.map _ List.filter_sublist) h.nodup, hsz.trans f2⟩
  · rw [rd8, Nat.add_mul_mod_self_left]
    exact Nat.le_trans (Nat.mod_le _ _) h4
  · rw [← hn, rd8 (m := S.st.pool.mem), rd8 (m := s'.mem), Nat.add_mul_div_left _ _ (by decide), Nat.add_mul_div_left _ _ (by decide)]
    have : s'.mem.rd c 4 / 2 ^ 32 = 0 := Nat.div_eq_of_lt (Nat.lt_of_le_of_lt h4 (by decide))
    rw [this]
    rcases h5 with h5 | h5 <;> rw [h5] <;> omega
  · intro c hm
    simp [List.mem_filter] at hm

theorem allocate_run {S : Sys} (h : Inv S) {n mm p : Nat} {s' : State} {O' : Held} (hn : n < W)
    (hf : ∀ l ∈ S.live, l.1 ≠ mm) (hr : Run (allocate S.st n mm) S.held (p, s') O') :
    p = mm ∧ Inv ⟨s', O', (p, n) :: S.live⟩ := by
  unfold allocate at hr
  have : (S.st.map.any fun e => decide (e.1 = mm)) = false := by
    rw [List.any_eq_false]
    intro e he
    have : e.1 ∈ S.live.map (·.1) := by rw [← h.keys]; exact List.mem_map_of_mem he
    obtain ⟨l, hl, he2⟩ := List.mem_map.1 this
    simp only [decide_eq_true_eq]
    intro hx
    exact hf l hl (by rw [he2, hx])
  rw [this, if_neg (by simp)] at hr
  obtain ⟨r, O1, hr1, hr2⟩ := Run.of_bind hr
  obtain ⟨h1, h2, h3⟩ := MallocPool.allocate_run cells_ok (fuel := 0) h.pool hr1
  cases hr2
  refine ⟨rfl, ?_⟩
  have hpw : ∀ e ∈ S.st.map, Disj r.1 8 e.2 8 := by
    obtain ⟨G, _, hi⟩ := h1
    have := List.pairwise_cons.1 (hi.live_pw cells_ok)
    intro e he
    exact this.1 (e.2, 8) (List.mem_map.2 ⟨e, he, rfl⟩)
  refine ⟨?_, ?_, ?_, ?_⟩
  · obtain ⟨G, hG, hi⟩ := h1
    refine ⟨G, hG, ?_⟩
    refine hi.write cells_ok (m' := r.2.mem.wr r.1 8 n) ?_
    intro x hx
    have := hx (r.1, 8) (by exact List.mem_cons_self)
    exact Mem.wr_out this
  · simp only [List.map_cons, h.keys]
  · simp only [List.map_cons, List.nodup_cons, List.mem_map, not_exists, not_and]
    exact ⟨fun l hl => hf l hl, h.nodup⟩
  · simp only [List.map_cons, List.cons.injEq]
    refine ⟨by rw [Mem.rd_wr]; exact Nat.mod_eq_of_lt (by have : W = 256 ^ 8 := by decide
                                                          omega), ?_⟩
    rw [← h.sizes]
    apply List.map_congr_left
    intro e he
    have hd := hpw e he
    rw [Mem.rd_wr_out (by unfold Disj at hd; omega)]
    apply Mem.rd_congr
    intro x hx1 hx2
    exact h2 (e.2, 8) (List.mem_map.2 ⟨e, he, rfl⟩) x hx1 hx2

theorem reach_inv {S : Sys} (h : Reach S) : Inv S := by
  induction h with
  | init hr hO => exact ⟨MallocPool.reach_inv cells_ok (.init hr hO), rfl, List.nodup_nil, rfl⟩
  | step _ hs ih =>
    cases hs with
    | alloc hn hf hr => exact (allocate_run ih hn hf hr).2
    | dealloc hl hr =>
      obtain ⟨len, s', h1, h2, _⟩ := deallocate_live ih hl
      rw [h1] at hr
      cases hr
      exact h2

/-! ## C58 -/

/-- The bookkeeping: exactly the live reservations are known, each with the size it
was requested with; `deallocate` of a live reservation returns normally and forgets
it.  Partial: the length given to `munmap` is another matter, see
`null_unmap_counterexample`. -/
theorem null_bookkeeping_partial {S : Sys} (h : Reach S) :
    S.st.map.map (fun e => (e.1, S.st.pool.mem.rd e.2 8)) = S.live ∧
    ∀ p n, (p, n) ∈ S.live → ∃ len s', deallocate S.st p = .ret (len, s') ∧ Reach ⟨s', S.held, drop p S.live⟩ := by
  have hi := reach_inv h
  constructor
  · have : ∀ {m L : List (Nat × Nat)}, m.map (·.1) = L.map (·.1) →
        m.map (fun e => S.st.pool.mem.rd e.2 8) = L.map (·.2) → m.map (fun e => (e.1, S.st.pool.mem.rd e.2 8)) = L := by
      intro m
      induction m with
      | nil => intro L h1 _; cases L with
        | nil => rfl
        | cons _ _ => simp at h1
      | cons e m ih =>
        intro L h1 h2
        cases L with
        | nil => simp at h1
        | cons l L =>
          simp only [List.map_cons, List.cons.injEq] at h1 h2 ⊢
          exact ⟨by rw [h1.1, h2.1], ih h1.2 h2.2⟩
    exact this hi.keys hi.sizes
  · intro p n hl
    obtain ⟨len, s', h1, _⟩ := deallocate_live hi hl
    exact ⟨len, s', h1, .step h (.dealloc hl (by rw [h1]; exact .ret))⟩

/-- Negation of the rest of C58, in all executions: the size is read from the cell
after the cell has been given back, when its lower half has been overwritten by the
free list.  A reservation whose size modulo 4 GB is above 1 MB is never unmapped
completely. -/
theorem null_unmap_counterexample {S : Sys} (h : Reach S) {p n : Nat} (hl : (p, n) ∈ S.live) (hn : 2 ^ 20 < n % 2 ^ 32) :
    ∃ len s', deallocate S.st p = .ret (len, s') ∧ len < n := by
  obtain ⟨len, s', h1, _, h3, h4, _⟩ := deallocate_live (reach_inv h) hl
  refine ⟨len, s', h1, ?_⟩
  have := Nat.div_add_mod len (2 ^ 32)
  have := Nat.div_add_mod n (2 ^ 32)
  omega

/-- A failed reservation is stored and returned like any other. -/
theorem null_failure_unnoticed {S : Sys} (h : Reach S) {n p : Nat} {s' : State} {O' : Held} (hn : n < W)
    (hf : ∀ l ∈ S.live, l.1 ≠ mapFailed) (hr : Run (allocate S.st n mapFailed) S.held (p, s') O') :
    p = mapFailed ∧ ∃ c, (mapFailed, c) ∈ s'.map := by
  obtain ⟨rfl, h2⟩ := allocate_run (reach_inv h) hn hf hr
  refine ⟨rfl, ?_⟩
  have : mapFailed ∈ s'.map.map (·.1) := by rw [h2.keys]; simp
  obtain ⟨e, he, h3⟩ := List.mem_map.1 this
  exact ⟨e.2, by rw [← h3]; exact he⟩

/-! ### Non-vacuity -/

/-- A reservation of 3 MB. -/
theorem sysX_exists : ∃ S, Reach S ∧ S.live = [(40960, 3145728)] := by
  have h0 : Reach ⟨⟨⟨fun _ => 0, [MallocPool.mkPool cells 1600]⟩, []⟩, [(1600, cells.data)], []⟩ :=
    .init (m := fun _ => 0) (.allocOk (p := 1600) ⟨by decide, by decide, by simp⟩ .ret) (by simp)
  obtain ⟨ptr, m', G', he, _⟩ := MallocPool.allocate_some cells_ok
    (G := [(MallocPool.mkPool cells 1600, List.range' 0 cells.per)])
    (show MallocPool.Inv cells (fun _ => 0) [(MallocPool.mkPool cells 1600, List.range' 0 cells.per)] [(1600, cells.data)] [] from
      MallocPool.Inv.add (G := []) (O := []) cells_ok ⟨by simp, by simp, List.Pairwise.nil, by simp⟩
        ⟨by decide, by decide, by simp⟩)
    ⟨_, List.mem_singleton.2 rfl, by
      intro hnil
      have := congrArg List.length hnil
      simp only [List.length_range', List.length_nil] at this
      exact absurd this (by decide)⟩ 1
  have hr : Run (allocate ⟨⟨fun _ => 0, [MallocPool.mkPool cells 1600]⟩, []⟩ 3145728 40960) [(1600, cells.data)]
      (40960, ⟨⟨m'.wr ptr 8 3145728, G'.map (·.1)⟩, [(40960, ptr)]⟩) [(1600, cells.data)] := by
    unfold allocate
    simp only [List.any_nil, Bool.false_eq_true, if_false]
    have he' : MallocPool.allocate cells 2 ⟨fun _ => 0, [MallocPool.mkPool cells 1600]⟩ = .ret (ptr, ⟨m', G'.map (·.1)⟩) := he
    rw [he']
    exact .ret
  exact ⟨_, .step h0 (.alloc (n := 3145728) (mm := 40960) (p := 40960) (by decide) (by simp) hr), rfl⟩

example : ∃ S len s', Reach S ∧ (40960, 3145728) ∈ S.live ∧ deallocate S.st 40960 = .ret (len, s') ∧ len < 3145728 := by
  obtain ⟨S, h1, h2⟩ := sysX_exists
  obtain ⟨len, s', h3, h4⟩ := null_unmap_counterexample h1 (p := 40960) (n := 3145728) (by rw [h2]; simp) (by decide)
  exact ⟨S, len, s', h1, by rw [h2]; simp, h3, h4⟩

end Umpire.NullRes
