import Verif.Conc.Serial
import Verif.QuickPool.Props
/-!
# Threads sharing a `QuickPool` through a `ThreadSafeAllocator` (C37)

The body of `Allocator::do_allocate` and `do_deallocate` (Allocator.inl:17-48 and
Allocator.cpp) for a handle of a `ThreadSafeAllocator` over a `QuickPool`, as a tree of
actions: reading the pool, every call into the resource beneath (any answer a
well-behaved resource can give), writing the pool, and reading and writing each
statistic of the handle's strategy separately (Inspector.cpp: `registerAllocation`
and `deregisterAllocation` are not atomic).  Zero-byte requests and the map of
allocations, which has its own lock, are left out.

The pool is read when the call into it begins and written when it ends, as the pool
programs of `Verif/QuickPool/Model.lean` are functions of the state; under the lock
this cannot be observed (`threadsafe_serial` holds for any way of cutting the body).
-/
set_option autoImplicit false
set_option linter.unusedSimpArgs false
namespace Umpire.Conc
open Umpire Umpire.Prog Umpire.QuickPool

/-- Pool with its neighbours, `m_current_size` and `m_allocation_count` of the strategy. -/
structure PG where
  sys : Sys
  cur : Nat
  cnt : Nat
deriving DecidableEq, Repr

/-- What an action answers. -/
inductive Ans where
  | st (s : State)
  | ptr (r : Option Nat)
  | num (n : Nat)
  | unit

/-- Bodies over a pool: the result is the pointer, or `none` for an exception or
nothing. -/
abbrev PBody := Body PG Ans (Option Nat)

/-- No action is possible: undefined behaviour has been reached. -/
def stuck : PBody := .act (fun _ _ _ => False) fun _ => .ret none

def getPool (k : State → PBody) : PBody :=
  .act (fun g a g' => a = .st g.sys.pool ∧ g' = g) fun
    | .st s => k s
    | _ => stuck

def setPool (s' : State) (lv : Held → Held) (k : PBody) : PBody :=
  .act (fun g a g' => a = .unit ∧ g' = { g with sys := { g.sys with pool := s', live := lv g.sys.live } }) fun _ => k

def getNum (f : PG → Nat) (k : Nat → PBody) : PBody :=
  .act (fun g a g' => a = .num (f g) ∧ g' = g) fun
    | .num n => k n
    | _ => stuck

def setNum (f : PG → PG) (k : PBody) : PBody := .act (fun g a g' => a = .unit ∧ g' = f g) fun _ => k

/-- The calls a strategy makes to its parent, each an action. -/
def conv {α : Type} (k : α → PBody) : Prog α → PBody
  | .ret a => k a
  | .fail _ => stuck
  | .alloc n f => .act (fun g a g' =>
      (∃ p, a = .ptr (some p) ∧ Fresh p n g.sys.held ∧ g' = { g with sys := { g.sys with held := (p, n) :: g.sys.held } }) ∨
      (a = .ptr none ∧ g' = g)) fun
    | .ptr r => conv k (f r)
    | _ => stuck
  | .dealloc p _ f => .act (fun g a g' => a = .unit ∧ g' = { g with sys := { g.sys with held := drop p g.sys.held } }) fun _ => conv k f

/-- Allocator.inl:17-33 with Inspector.cpp:16-29: allocate, then update the statistics. -/
def callAlloc (cfg : Cfg) (n : Nat) : PBody :=
  getPool fun s => conv (fun r => match r.1 with
    | none => setPool r.2 id (.ret none)
    | some p => setPool r.2 (fun l => (p, n) :: l) (
        getNum (·.cur) fun c => setNum (fun g => { g with cur := c + n }) (
        getNum (·.cnt) fun m => setNum (fun g => { g with cnt := m + 1 }) (.ret (some p))))) (QuickPool.allocate cfg s n)

/-- Allocator.inl:68-91 with Inspector.cpp:31-50: update the statistics, then give back.
The user gives back only what is allocated. -/
def callDealloc (cfg : Cfg) (fuel p n : Nat) : PBody :=
  .act (fun g a g' => a = .unit ∧ (p, n) ∈ g.sys.live ∧ g' = g) fun _ =>
    getNum (·.cur) fun c => setNum (fun g => { g with cur := c - n }) (
    getNum (·.cnt) fun m => setNum (fun g => { g with cnt := m - 1 }) (
    getPool fun s => conv (fun s' => setPool s' (drop p) (.ret none)) (QuickPool.deallocate cfg fuel s p)))

/-- Programs that allocate and deallocate. -/
inductive PoolThr (cfg : Cfg) : Thr PG Ans (Option Nat) Unit → Prop where
  | stop : PoolThr cfg .stop
  | alloc {n : Nat} {next : Option Nat → Thr PG Ans (Option Nat) Unit} (hn : ReqOk cfg n) (h : ∀ v, PoolThr cfg (next v)) :
      PoolThr cfg (.call () (callAlloc cfg n) next)
  | dealloc {fuel p n : Nat} {next : Option Nat → Thr PG Ans (Option Nat) Unit} (h : ∀ v, PoolThr cfg (next v)) :
      PoolThr cfg (.call () (callDealloc cfg fuel p n) next)

/-- The calls of such programs. -/
def PoolCall (cfg : Cfg) (b : PBody) : Prop :=
  (∃ n, ReqOk cfg n ∧ b = callAlloc cfg n) ∨ ∃ fuel p n, b = callDealloc cfg fuel p n

/-- The state of a pool and its statistics between calls. -/
structure Good (cfg : Cfg) (g : PG) : Prop where
  reach : QuickPool.Reach cfg g.sys
  cur : g.cur = (g.sys.live.map (·.2)).sum
  cnt : g.cnt = g.sys.live.length
  pos : ∀ l ∈ g.sys.live, 0 < l.2

abbrev Run1 (b : PBody) (g : PG) (v : Option Nat) (g' : PG) : Prop := Part (fun x : PG => x) b g (.ret v) g'

theorem stuck_run {g : PG} {v : Option Nat} {g' : PG} (h : Run1 stuck g v g') : False := by
  obtain ⟨a, s', hR, _⟩ := h.act_inv
  exact hR.same

theorem getPool_run {k : State → PBody} {g : PG} {v : Option Nat} {g' : PG} (h : Run1 (getPool k) g v g') : Run1 (k g.sys.pool) g v g' := by
  obtain ⟨a, s', hR, h⟩ := h.act_inv
  obtain ⟨ha, hs⟩ := hR.same
  subst ha; subst hs; exact h

theorem getNum_run {f : PG → Nat} {k : Nat → PBody} {g : PG} {v : Option Nat} {g' : PG} (h : Run1 (getNum f k) g v g') : Run1 (k (f g)) g v g' := by
  obtain ⟨a, s', hR, h⟩ := h.act_inv
  obtain ⟨ha, hs⟩ := hR.same
  subst ha; subst hs; exact h

theorem setPool_run {s' : State} {lv : Held → Held} {k : PBody} {g : PG} {v : Option Nat} {g' : PG} (h : Run1 (setPool s' lv k) g v g') :
    Run1 k { g with sys := { g.sys with pool := s', live := lv g.sys.live } } v g' := by
  obtain ⟨a, s', hR, h⟩ := h.act_inv
  obtain ⟨ha, hs⟩ := hR.same
  subst hs; exact h

theorem setNum_run {f : PG → PG} {k : PBody} {g : PG} {v : Option Nat} {g' : PG} (h : Run1 (setNum f k) g v g') : Run1 k (f g) v g' := by
  obtain ⟨a, s', hR, h⟩ := h.act_inv
  obtain ⟨ha, hs⟩ := hR.same
  subst hs; exact h

theorem conv_run {α : Type} {k : α → PBody} {p : Prog α} {g : PG} {v : Option Nat} {g' : PG} (h : Run1 (conv k p) g v g') :
    ∃ a O', Run p g.sys.held a O' ∧ Run1 (k a) { g with sys := { g.sys with held := O' } } v g' := by
  induction p generalizing g with
  | ret a => exact ⟨a, g.sys.held, .ret, h⟩
  | fail b => exact (stuck_run h).elim
  | alloc n f ih =>
    unfold conv at h
    replace h := h.act_inv
    obtain ⟨a, s', hR, h⟩ := h
    rcases hR.same with ⟨p, ha, hf, hs⟩ | ⟨ha, hs⟩
    · subst ha; subst hs
      obtain ⟨a, O', hr, h⟩ := ih (some p) h
      exact ⟨a, O', .allocOk hf hr, h⟩
    · subst ha; subst hs
      obtain ⟨a, O', hr, h⟩ := ih none h
      exact ⟨a, O', .allocFail hr, h⟩
  | dealloc q m f ih =>
    unfold conv at h
    replace h := h.act_inv
    obtain ⟨a, s', hR, h⟩ := h
    obtain ⟨ha, hs⟩ := hR.same
    subst hs
    obtain ⟨a, O', hr, h⟩ := ih h
    exact ⟨a, O', .dealloc hr, h⟩

/-- Removing the one range that starts at `p`. -/
theorem drop_counts {L : Held} (hd : L.Pairwise fun x y => Disj x.1 x.2 y.1 y.2) (hpos : ∀ l ∈ L, 0 < l.2) {p n : Nat} (h : (p, n) ∈ L) :
    (drop p L).length = L.length - 1 ∧ ((drop p L).map (·.2)).sum = (L.map (·.2)).sum - n := by
  induction L with
  | nil => cases h
  | cons l L ih =>
    rw [List.pairwise_cons] at hd
    have hpos' : ∀ l ∈ L, 0 < l.2 := fun x hx => hpos x (.tail _ hx)
    have hl := hpos l (.head _)
    by_cases hp : l.1 = p
    · have hno : drop p L = L := by
        refine List.filter_eq_self.mpr fun x hx => ?_
        have h1 := hd.1 x hx
        have h2 := hpos' x hx
        unfold Disj at h1
        simp only [decide_eq_true_eq, ne_eq]
        omega
      have hn : l.2 = n := by
        rcases List.mem_cons.mp h with h | h
        · rw [← h]
        · have h1 := hd.1 _ h
          have h2 := hpos' _ h
          unfold Disj at h1
          simp only at h1 h2
          omega
      have : drop p (l :: L) = L := by
        unfold drop at hno ⊢
        rw [List.filter_cons_of_neg (by simp [hp]), hno]
      rw [this, List.length_cons, List.map_cons, List.sum_cons, hn]
      omega
    · have hm : (p, n) ∈ L := by
        rcases List.mem_cons.mp h with h | h
        · rw [← h] at hp; exact absurd rfl hp
        · exact h
      obtain ⟨h1, h2⟩ := ih hd.2 hpos' hm
      have hc : drop p (l :: L) = l :: drop p L := by
        unfold drop
        rw [List.filter_cons_of_pos (by simp [hp])]
      have hlen : 0 < L.length := List.length_pos_of_mem hm
      have hsum : n ≤ (L.map (·.2)).sum := by
        clear h1 h2 hc ih hd hpos hpos' h hlen
        induction L with
        | nil => cases hm
        | cons x L ih =>
          rw [List.map_cons, List.sum_cons]
          rcases List.mem_cons.mp hm with hm | hm
          · rw [← hm]; omega
          · have := ih hm; omega
      rw [hc, List.length_cons, List.length_cons, List.map_cons, List.map_cons, List.sum_cons, List.sum_cons, h1, h2]
      omega

theorem Good.call {cfg : Cfg} (hc : CfgOk cfg) (hh : HeurOk cfg) {g g' : PG} (hg : Good cfg g) {b : PBody} (hb : PoolCall cfg b) {v : Option Nat}
    (h : Run1 b g v g') : Good cfg g' := by
  rcases hb with ⟨n, hn, rfl⟩ | ⟨fuel, p, n, rfl⟩
  · obtain ⟨⟨r, s'⟩, O', hr, h⟩ := conv_run (getPool_run h)
    cases r with
    | none =>
      obtain ⟨_, hs⟩ := (setPool_run h).ret_inv
      subst hs
      exact ⟨.step hg.reach (.allocErr hn hr), hg.cur, hg.cnt, hg.pos⟩
    | some p =>
      obtain ⟨_, hs⟩ := (setNum_run (getNum_run (setNum_run (getNum_run (setPool_run h))))).ret_inv
      subst hs
      refine ⟨.step hg.reach (.allocOk hn hr), ?_, ?_, ?_⟩
      · show g.cur + n = (((p, n) :: g.sys.live).map (·.2)).sum
        rw [List.map_cons, List.sum_cons, hg.cur, Nat.add_comm]
      · show g.cnt + 1 = ((p, n) :: g.sys.live).length
        rw [hg.cnt]; rfl
      · intro l hl
        rcases List.mem_cons.mp hl with hl | hl
        · subst hl; exact hn.1
        · exact hg.pos l hl
  · replace h := h.act_inv
    obtain ⟨a, g1, hR, h⟩ := h
    obtain ⟨_, hm, hs⟩ := hR.same
    subst hs
    obtain ⟨s', O', hr, h⟩ := conv_run (getPool_run (setNum_run (getNum_run (setNum_run (getNum_run h)))))
    obtain ⟨_, hs⟩ := (setPool_run h).ret_inv
    subst hs
    have hd := (quickpool_live_disjoint hc hh hg.reach).1
    obtain ⟨h1, h2⟩ := drop_counts hd hg.pos hm
    refine ⟨.step hg.reach (.dealloc hm hr), ?_, ?_, ?_⟩
    · show g1.cur - n = ((drop p g1.sys.live).map (·.2)).sum
      rw [h2, hg.cur]
    · show g1.cnt - 1 = (drop p g1.sys.live).length
      rw [h1, hg.cnt]
    · intro l hl
      have hl : l ∈ drop p g1.sys.live := hl
      exact hg.pos l (List.mem_filter.mp hl).1

theorem path_calls {cfg : Cfg} {p p' : Thr PG Ans (Option Nat) Unit} {l : List (Unit × PBody × Option Nat)} (h : Path p l p') (hp : PoolThr cfg p) :
    ∀ e ∈ l, PoolCall cfg e.2.1 := by
  induction h with
  | nil => intro e he; cases he
  | cons h ih =>
    intro e he
    cases hp with
    | alloc hn hp =>
      rcases List.mem_cons.mp he with he | he
      · subst he; exact .inl ⟨_, hn, rfl⟩
      · exact ih (hp _) e he
    | dealloc hp =>
      rcases List.mem_cons.mp he with he | he
      · subst he; exact .inr ⟨_, _, _, rfl⟩
      · exact ih (hp _) e he

theorem seq_good {cfg : Cfg} (hc : CfgOk cfg) (hh : HeurOk cfg) {g g' : PG} {l : List (PBody × Option Nat)}
    (h : Seq (fun x : PG => x) g l g') (hl : ∀ e ∈ l, PoolCall cfg e.1) (hg : Good cfg g) : Good cfg g' := by
  induction h with
  | nil => exact hg
  | cons h _ ih => exact ih (fun e he => hl e (.tail _ he)) (hg.call hc hh (hl _ (.head _)) h)

/-- A new pool. -/
def pg0 : PG := ⟨⟨QuickPool.init, [], []⟩, 0, 0⟩

/-- C37 for a pool: any number of threads allocate and deallocate through a
`ThreadSafeAllocator` over a `QuickPool`, in any schedule, over any well-behaved
resource.  Whenever no call is in progress the allocations that are not given back are
pairwise disjoint and inside memory obtained from the resource, and the current size
and the number of allocations reported are exact. -/
theorem threadsafe_pool {T : Type} [DecidableEq T] {cfg : Cfg} (hc : CfgOk cfg) (hh : HeurOk cfg) {P : T → Thr PG Ans (Option Nat) Unit}
    (hP : ∀ t, PoolThr cfg (P t)) {c : Config PG Ans (Option Nat) Unit T} (h : Reach pg0 P c) (hq : ∀ t, ∃ p, c.thr t = .idle p) :
    (c.g.sys.live.Pairwise fun x y => Disj x.1 x.2 y.1 y.2) ∧ (∀ l ∈ c.g.sys.live, ∃ o ∈ c.g.sys.held, Within l.1 l.2 o.1 o.2) ∧
    c.g.cur = (c.g.sys.live.map (·.2)).sum ∧ c.g.cnt = c.g.sys.live.length := by
  obtain ⟨hs, hp⟩ := threadsafe_serial h hq
  have hg : Good cfg c.g := by
    refine seq_good hc hh hs (fun e he => ?_) ⟨.init, rfl, rfl, fun l hl => by cases hl⟩
    obtain ⟨d, hd, hde⟩ := List.mem_map.mp he
    have := path_calls (hp d.t) (hP d.t) (d.k, d.b, d.v) (List.mem_map.mpr ⟨d, List.mem_filter.mpr ⟨hd, by simp⟩, rfl⟩)
    rw [← hde]; exact this
  obtain ⟨h1, h2⟩ := quickpool_live_disjoint hc hh hg.reach
  exact ⟨h1, h2, hg.cur, hg.cnt⟩

end Umpire.Conc
