import Verif.Nest.Strat
import Verif.QuickPool.Heur
import Verif.DynPool.Ops
import Verif.MixedPool.Inv
import Verif.FixedPool.Props
import Verif.SlotPool.Props
import Verif.Small.Monotonic
import Verif.Small.SizeLimiter
import Verif.Small.Aligned
import Verif.Small.Forward
/-!
# The strategies as `Strat`

Each strategy of the library, given by its model, as something that can be put on
top of another one.
-/
set_option autoImplicit false
set_option linter.unusedSimpArgs false
namespace Umpire.Nest
open Umpire.Prog

/-- Operations of a strategy besides allocate and deallocate: `release` and
`coalesce` (no effect where a strategy does not have them). -/
inductive PoolOp where
  | release
  | coalesce
deriving DecidableEq, Repr

/-- `QuickPool` (QuickPool.cpp:19-34: the constructor allocates nothing). -/
def quickS (cfg : QuickPool.Cfg) (fuel : Nat) : Strat where
  σ := QuickPool.State
  Op := PoolOp
  make := .ret (some QuickPool.init)
  alloc := QuickPool.allocate cfg
  dealloc := fun s p _ => (QuickPool.deallocate cfg fuel s p).bind fun s => .ret (true, s)
  op := fun o s => match o with
    | .release => QuickPool.release s
    | .coalesce => QuickPool.coalesce cfg fuel s

/-- `DynamicPoolList` (DynamicPoolList.cpp:17-26). -/
def dynS (cfg : DynPool.Cfg) (heur : DynPool.State → Nat) : Strat where
  σ := DynPool.State
  Op := PoolOp
  make := .ret (some DynPool.init)
  alloc := DynPool.allocate cfg
  dealloc := fun s p _ => DynPool.deallocate cfg heur s p
  op := fun o s => match o with
    | .release => DynPool.release s
    | .coalesce => DynPool.coalesce cfg heur s

/-- `FixedPool`; `allocate` does not look at the size requested (FixedPool.cpp:124). -/
def fixedS (cfg : FixedPool.Cfg) : Strat where
  σ := FixedPool.State
  Op := PoolOp
  make := (FixedPool.create cfg).bind fun s => .ret (some s)
  alloc := fun s _ => FixedPool.allocate cfg 2 s
  dealloc := fun s p _ => FixedPool.deallocate cfg s p
  op := fun o s => match o with
    | .release => FixedPool.release cfg s
    | .coalesce => .ret s

/-- `MixedPool`. -/
def mixedS (cfg : MixedPool.Cfg) (fuel : Nat) : Strat where
  σ := MixedPool.State
  Op := PoolOp
  make := (MixedPool.create cfg fuel).bind fun s => .ret (some s)
  alloc := MixedPool.allocate cfg (fuel + 2)
  dealloc := fun s p _ => MixedPool.deallocate cfg fuel s p
  op := fun o s => match o with
    | .release => .ret (MixedPool.release s)
    | .coalesce => .ret s

/-- `MonotonicAllocationStrategy`.  Executions in which the sum of all requests
reaches 2^64 are cut off (`diverge`): then it gives out memory twice, see
`Monotonic.monotonic_wraparound_counterexample`. -/
def monoS (cap : Nat) : Strat where
  σ := Monotonic.State
  Op := PoolOp
  make := Monotonic.create cap
  alloc := fun s n => if s.size + n < W then .ret (Monotonic.allocate s n) else .fail .diverge
  dealloc := fun s _ _ => .ret (true, Monotonic.deallocate s)
  op := fun _ s => .ret s

/-- `SizeLimiter`. -/
def limiterS (limit : Nat) : Strat where
  σ := SizeLimiter.State
  Op := PoolOp
  make := .ret (some (SizeLimiter.create limit))
  alloc := fun s n => (SizeLimiter.allocate s n).bind fun r => match r.1 with
    | .ok p => .ret (some p, r.2)
    | _ => .ret (none, r.2)
  dealloc := fun s p n => (SizeLimiter.deallocate s p n).bind fun s => .ret (true, s)
  op := fun _ s => .ret s

/-- `AlignedAllocator` (AlignedAllocator.cpp:18-54).  The memory with the headers in
front of the allocations is part of the state; what users write there is the
subject of `Verif/Small/Aligned.lean`. -/
def alignedS (a : Nat) : Strat where
  σ := Mem
  Op := PoolOp
  make := match Aligned.create a with
    | some _ => .ret (some fun _ => 0)
    | none => .ret none
  alloc := Aligned.allocate a
  dealloc := fun m p n => (Aligned.deallocate a m p n).bind fun _ => .ret (true, m)
  op := fun _ s => .ret s

/-- `SlotPool`. -/
def slotsS (k : Nat) : Strat where
  σ := SlotPool.State
  Op := PoolOp
  make := .ret (some (SlotPool.create k))
  alloc := SlotPool.allocate
  dealloc := fun s p _ => .ret (true, SlotPool.deallocate p s)
  op := fun _ s => .ret s

/-- The strategies that only forward: `NamedAllocationStrategy`,
`ThreadSafeAllocator`, `AllocationAdvisor`, `AllocationPrefetcher`, `NumaPolicy`.
Also a user of a resource directly. -/
def forwardS (k : Forward.Kind) : Strat where
  σ := Unit
  Op := PoolOp
  make := .ret (some ())
  alloc := fun s n => (Forward.allocate k n).bind fun r => match r with
    | .ok p => .ret (some p, s)
    | _ => .ret (none, s)
  dealloc := fun s p n => (Forward.deallocate k p n).bind fun _ => .ret (true, s)
  op := fun _ s => .ret s

/-! ## General lemmas -/

/-- Sizes up to `B`. -/
def Upto (B : Nat) (m : Nat) : Prop := 0 < m ∧ m ≤ B

theorem asks_bind' {α β : Type} {P : Nat → Prop} {p : Prog α} {f : α → Prog β} {O : Held}
    (h : p.asks P O) (hf : ∀ a O, (f a).asks P O) : (p.bind f).asks P O := by
  induction p generalizing O with
  | ret a => exact hf _ _
  | fail b => trivial
  | alloc n k ih => exact ⟨h.1, fun p hp => ih _ (h.2.1 p hp), ih _ h.2.2⟩
  | dealloc p n k ih => exact ih h

theorem asks_sub {α : Type} {P : Nat → Prop} {p : Prog α} {O T : Held} (h : p.asks P O) (hs : ∀ o ∈ O, o ∈ T) : p.asks P T := by
  induction p generalizing O T with
  | ret a => trivial
  | fail b => trivial
  | alloc n k ih =>
    refine ⟨h.1, fun p hp => ih _ (h.2.1 p ⟨hp.1, hp.2.1, fun r hr => hp.2.2 r (hs r hr)⟩) fun o ho => ?_, ih _ h.2.2 hs⟩
    rcases List.mem_cons.1 ho with rfl | ho
    · simp
    · exact List.mem_cons_of_mem _ (hs o ho)
  | dealloc p n k ih =>
    exact ih h fun o ho => mem_drop.2 ⟨hs o (mem_drop.1 ho).1, (mem_drop.1 ho).2⟩

/-- Every result satisfies `R`. -/
def rets {α : Type} (R : α → Prop) : Prog α → Prop
  | .ret a => R a
  | .fail _ => True
  | .alloc _ k => ∀ r, rets R (k r)
  | .dealloc _ _ k => rets R k

theorem wp_rets {α : Type} {E : Mode} {p : Prog α} {O : Held} {Q : α → Held → Prop} {R : α → Prop} (h : p.wp E O Q)
    (hr : rets R p) : p.wp E O fun a O' => Q a O' ∧ R a := by
  induction p generalizing O with
  | ret a => exact ⟨h, hr⟩
  | fail b => exact h
  | alloc n k ih => exact ⟨fun p hp => ih _ (h.1 p hp) (hr _), ih _ h.2 (hr _)⟩
  | dealloc p n k ih => exact ⟨h.1, ih h.2 hr⟩

theorem rets_bind {α β : Type} {p : Prog α} {f : α → Prog β} {R : α → Prop} {R' : β → Prop} (h : rets R p)
    (hf : ∀ a, R a → rets R' (f a)) : rets R' (p.bind f) := by
  induction p with
  | ret a => exact hf _ h
  | fail b => trivial
  | alloc n k ih => exact fun r => ih _ (h r)
  | dealloc p n k ih => exact ih h

theorem rets_true {α : Type} (p : Prog α) : rets (fun _ => True) p := by
  induction p with
  | ret a => trivial
  | fail b => trivial
  | alloc n k ih => exact fun r => ih r
  | dealloc p n k ih => exact ih

theorem keep_keepUB {α : Type} {p : Prog α} {L O : Held} {Q : α → Held → Prop} (h : p.wp (Keep L) O Q) : p.wp (KeepUB L) O Q :=
  wp_weaken h (fun _ h => h.elim) fun _ _ h => h

/-! ## QuickPool -/

/-- What the heuristic of a pool may suggest. -/
def QHeur (heur : QuickPool.State → Nat) (hb : Nat) : Prop :=
  AMax ≤ hb ∧ ∀ s, heur s ≤ hb ∨ heur s ≤ QuickPool.getActualSize s ∨ heur s ≤ QuickPool.getAlignedHighwaterMark s

theorem QHeur.le {heur : QuickPool.State → Nat} {hb : Nat} (h : QHeur heur hb) {a : Nat} {s : QuickPool.State} {O L : Held}
    (hi : QuickPool.Inv a s O L) : heur s ≤ hb := by
  have h1 := hi.actual_le
  have h2 := hi.ahwmle
  have h3 := h.1
  rcases h.2 s with h | h | h
  · exact h
  · unfold QuickPool.getActualSize at h; omega
  · unfold QuickPool.getAlignedHighwaterMark at h; omega

/-- Sizes up to `cap` asked of the pool lead to sizes up to `B` asked of its parent. -/
structure QuickFits (cfg : QuickPool.Cfg) (cap B : Nat) : Prop where
  al : 0 < cfg.align
  cap : cap + 2 * cfg.align ≤ B
  first : cfg.first + cfg.align ≤ B
  next : cfg.next + cfg.align ≤ B
  top : B < W
  heur : ∃ hb, QHeur cfg.heur hb ∧ hb + 2 * cfg.align ≤ B

theorem QuickFits.ok {cfg : QuickPool.Cfg} {cap B : Nat} (h : QuickFits cfg cap B) : QuickPool.CfgOk cfg :=
  ⟨h.al, Nat.lt_of_le_of_lt h.first h.top, Nat.lt_of_le_of_lt h.next h.top⟩

theorem QuickFits.heurOk {cfg : QuickPool.Cfg} {cap B : Nat} (h : QuickFits cfg cap B) : QuickPool.HeurOk cfg := by
  intro s O L hi
  obtain ⟨hb, h1, h2⟩ := h.heur
  have := h1.le hi
  have := h.top
  omega

theorem quick_release_asks {P : Nat → Prop} {s : QuickPool.State} {O : Held} : (QuickPool.release s).asks P O := by
  unfold QuickPool.release
  have : ∀ (es : List (Nat × Nat)) (s : QuickPool.State) (O : Held), (QuickPool.releaseLoop es s).asks P O := by
    intro es
    induction es with
    | nil => intro s O; trivial
    | cons e es ih =>
      intro s O
      unfold QuickPool.releaseLoop
      split
      · trivial
      · split
        · unfold QuickPool.alignedDealloc
          simp only
          split
          · trivial
          · exact ih _ _
        · exact ih _ _
  exact this _ _ _

theorem quick_alloc_asks {cfg : QuickPool.Cfg} {cap B : Nat} (h : QuickFits cfg cap B) {s : QuickPool.State} {O : Held} {n : Nat}
    (hn : 0 < n) (hb : n + 2 * cfg.align ≤ B) : (QuickPool.allocate cfg s n).asks (Upto B) O := by
  have htop := h.top
  have hal := h.al
  have hf := h.first
  have hx := h.next
  have hr := roundUp64_bounds hal hn (by omega)
  have hg : Upto B (w64 (QuickPool.growSize cfg s (roundUp64 cfg.align n) + cfg.align)) := by
    have : QuickPool.growSize cfg s (roundUp64 cfg.align n) + cfg.align ≤ B ∧
        0 < QuickPool.growSize cfg s (roundUp64 cfg.align n) := by
      unfold QuickPool.growSize
      simp only
      split <;> split <;> omega
    unfold w64
    rw [Nat.mod_eq_of_lt (by omega)]
    exact ⟨by omega, this.1⟩
  unfold QuickPool.allocate
  simp only
  split
  · exact ⟨hg, fun _ _ => trivial, asks_bind' quick_release_asks fun a O => ⟨hg, fun _ _ => trivial, trivial⟩⟩
  · split <;> trivial

theorem quick_deallocWith_asks {cfg : QuickPool.Cfg} {P : Nat → Prop} {co : QuickPool.State → Nat → Prog QuickPool.State}
    {s : QuickPool.State} {O L : Held} {p n : Nat} (h : QuickPool.Inv cfg.align s O L) (hL : (p, n) ∈ L)
    (hco : ∀ s O L, QuickPool.Inv cfg.align s O L → (co s (cfg.heur s)).asks P O) :
    (QuickPool.deallocWith cfg co s p).asks P O := by
  obtain ⟨s', hs, hi⟩ := QuickPool.deallocCore_inv h hL
  unfold QuickPool.deallocWith
  rw [hs]
  simp only
  split
  · exact hco _ _ _ hi
  · trivial

theorem quick_coalesce_asks {cfg : QuickPool.Cfg} {cap B : Nat} (hF : QuickFits cfg cap B) {fuel : Nat} {s : QuickPool.State}
    {O L : Held} {sug : Nat} (h : QuickPool.Inv cfg.align s O L) (hs : sug + 2 * cfg.align ≤ B) :
    (QuickPool.doCoalesce cfg fuel s sug).asks (Upto B) O := by
  have htop := hF.top
  obtain ⟨hb, hq, hle⟩ := hF.heur
  induction fuel generalizing s O L sug with
  | zero => trivial
  | succ fuel ih =>
    unfold QuickPool.doCoalesce
    split
    · refine asks_bind (E := Keep L) quick_release_asks (wp_mono (QuickPool.release_wp h) ?_)
      rintro s1 O1 ⟨h1, -⟩
      split
      · refine asks_bind (E := Keep L) (quick_alloc_asks hF (by omega) (by omega))
          (wp_mono (QuickPool.allocate_wp h1 hF.ok ⟨by omega, by omega⟩) ?_)
        rintro ⟨r, s2⟩ O2 h2
        cases r with
        | none => trivial
        | some p =>
          have h3 : QuickPool.Inv cfg.align s2 O2 ((p, sug - s1.actualBytes) :: L) := h2.1
          refine quick_deallocWith_asks h3 (List.mem_cons_self ..) ?_
          intro s3 O3 L3 h4
          exact ih h4 (by have := hq.le h4; omega)
      · trivial
    · trivial

theorem quick_dealloc_asks {cfg : QuickPool.Cfg} {cap B : Nat} (hF : QuickFits cfg cap B) {fuel : Nat} {s : QuickPool.State}
    {O L : Held} {p n : Nat} (h : QuickPool.Inv cfg.align s O L) (hl : (p, n) ∈ L) :
    (QuickPool.deallocate cfg fuel s p).asks (Upto B) O := by
  obtain ⟨hb, hq, hle⟩ := hF.heur
  exact quick_deallocWith_asks h hl fun s O L hi => quick_coalesce_asks hF hi (by have := hq.le hi; omega)

theorem record_some {p n : Nat} {U : Held} (h : p ≠ 0) : record (some p) n U = (p, n) :: U := if_neg h

theorem quick_nz {cfg : QuickPool.Cfg} (hc : QuickPool.CfgOk cfg) {s : QuickPool.State} {O L : Held} {p n : Nat}
    (h : QuickPool.Inv cfg.align s O ((p, n) :: L)) : p ≠ 0 := by
  obtain ⟨o, ho, hw⟩ := (MixedPool.quick_good hc h).cov (p, n) (by simp)
  have := h.range o ho
  unfold Within at hw
  simp only at hw
  omega

theorem quick_ok {cfg : QuickPool.Cfg} {fuel cap B : Nat} (hF : QuickFits cfg cap B) :
    (quickS cfg fuel).Ok (Upto cap) (Upto B) True fun s O U => QuickPool.Inv cfg.align s O U where
  good := fun h => MixedPool.quick_good hF.ok h
  make := QuickPool.init_inv _
  alloc := by
    rintro s O U n h ⟨hn, hle⟩
    have hcap := hF.cap
    have htop := hF.top
    refine wpa_of (wp_mono (keep_keepUB (QuickPool.allocate_wp h hF.ok ⟨hn, by omega⟩)) ?_) (quick_alloc_asks hF hn (by omega))
    rintro ⟨r, s'⟩ O' h1
    cases r with
    | none => exact ⟨h1.1, by simp⟩
    | some p =>
      have hp := quick_nz hF.ok h1.1
      refine ⟨?_, by simp [hp]⟩
      simp only [record_some hp]
      exact h1.1
  dealloc := by
    intro s O U p n h hl
    exact wpa_bind (wpa_mono (wpa_of (QuickPool.deallocate_wp hF.ok hF.heurOk h hl) (quick_dealloc_asks hF h hl)) fun _ _ h => h)
  op := by
    intro s O U o h
    cases o with
    | release => exact wpa_mono (wpa_of (keep_keepUB (QuickPool.release_wp h)) quick_release_asks) fun _ _ h => h.1
    | coalesce =>
      refine wpa_of (QuickPool.coalesce_wp hF.ok hF.heurOk h) ?_
      obtain ⟨hb, hq, hle⟩ := hF.heur
      show (QuickPool.coalesce cfg fuel s).asks _ _
      unfold QuickPool.coalesce
      split
      · exact quick_coalesce_asks hF h (by have := hq.le h; omega)
      · trivial

/-! ## DynamicPoolList -/

/-- What the heuristic of a pool may suggest. -/
def DHeur (heur : DynPool.State → Nat) (hb : Nat) : Prop :=
  AMax ≤ hb ∧ ∀ s, heur s ≤ hb ∨ heur s ≤ DynPool.getActualSize s ∨ heur s ≤ DynPool.getAlignedHighwaterMark s

/-- Sizes up to `cap` asked of the pool lead to sizes up to `B` asked of its parent. -/
structure DynFits (cfg : DynPool.Cfg) (heur : DynPool.State → Nat) (cap B : Nat) : Prop where
  al : 0 < cfg.align
  cap : cap + 2 * cfg.align ≤ B
  first : cfg.first + cfg.align ≤ B
  next : cfg.next + cfg.align ≤ B
  top : B < W
  heur : ∃ hb, DHeur heur hb ∧ hb + 2 * cfg.align ≤ B

section
variable {cfg : DynPool.Cfg} {heur : DynPool.State → Nat} {cap B : Nat}

theorem DynFits.ok (h : DynFits cfg heur cap B) : DynPool.CfgOk cfg :=
  ⟨h.al, Nat.lt_of_le_of_lt h.first h.top, Nat.lt_of_le_of_lt h.next h.top⟩

theorem DynFits.heurOk (h : DynFits cfg heur cap B) : DynPool.HeurOk cfg heur := by
  intro s
  obtain ⟨hb, ⟨h1, h2⟩, h3⟩ := h.heur
  have := h.top
  have := AMax_add_AMax
  rcases h2 s with h4 | h4
  · left; omega
  · right; exact ⟨by omega, h4⟩

theorem dyn_le (h : DynFits cfg heur cap B) {s : DynPool.State} {O L : Held} (hi : DynPool.DInv cfg.align s O L) :
    heur s + 2 * cfg.align ≤ B := by
  obtain ⟨hb, ⟨h1, h2⟩, h3⟩ := h.heur
  obtain ⟨q, hq, hr⟩ := hi
  have ha := hq.actual_le
  have hw := hq.ahwmle
  have e1 := hr.actual
  have e2 := hr.ahwm
  rcases h2 s with h4 | h4 | h4
  · omega
  · unfold DynPool.getActualSize at h4; omega
  · unfold DynPool.getAlignedHighwaterMark at h4; omega

theorem dyn_release_asks {P : Nat → Prop} {s : DynPool.State} {O : Held} : (DynPool.freeReleased s).asks P O := by
  unfold DynPool.freeReleased
  have : ∀ (l kept : List DynPool.Blk) (s : DynPool.State) (O : Held), (DynPool.freeLoop kept l s).asks P O := by
    intro l
    induction l with
    | nil => intro k s O; unfold DynPool.freeLoop; trivial
    | cons e es ih =>
      intro k s O
      unfold DynPool.freeLoop
      split
      · unfold DynPool.alignedDealloc
        simp only
        split
        · trivial
        · exact ih _ _ _
      · exact ih _ _ _
  exact this _ _ _ _

theorem dyn_alloc_asks (h : DynFits cfg heur cap B) {s : DynPool.State} {O : Held} {n : Nat}
    (hn : 0 < n) (hb : n + 2 * cfg.align ≤ B) : (DynPool.allocate cfg s n).asks (Upto B) O := by
  have htop := h.top
  have hal := h.al
  have hf := h.first
  have hx := h.next
  have hr := roundUp64_bounds hal hn (by omega)
  have hg : Upto B (w64 (DynPool.growSize cfg s (roundUp64 cfg.align n) + cfg.align)) := by
    have : DynPool.growSize cfg s (roundUp64 cfg.align n) + cfg.align ≤ B ∧
        0 < DynPool.growSize cfg s (roundUp64 cfg.align n) := by
      unfold DynPool.growSize
      split <;> omega
    unfold w64
    rw [Nat.mod_eq_of_lt (by omega)]
    exact ⟨by omega, this.1⟩
  unfold DynPool.allocate
  simp only
  split
  · trivial
  · exact ⟨hg, fun _ _ => trivial, asks_bind' dyn_release_asks fun a O => ⟨hg, fun _ _ => trivial, trivial⟩⟩

theorem dyn_coalesceTo_asks (h : DynFits cfg heur cap B) {s : DynPool.State} {O : Held} {sug : Nat}
    (hs : sug + 2 * cfg.align ≤ B) : (DynPool.coalesceTo cfg s sug).asks (Upto B) O := by
  unfold DynPool.coalesceTo
  split
  · refine asks_bind' dyn_release_asks fun s1 O1 => ?_
    split
    · refine asks_bind' dyn_release_asks fun s2 O2 => ?_
      refine asks_bind' (dyn_alloc_asks h (by omega) (by omega)) fun r O3 => ?_
      obtain ⟨r, s3⟩ := r
      cases r <;> trivial
    · trivial
  · trivial

theorem dyn_good (hc : DynPool.CfgOk cfg) {s : DynPool.State} {O L : Held} (h : DynPool.DInv cfg.align s O L) :
    Client.Good ⟨O, L⟩ := by
  obtain ⟨q, hq, -⟩ := h
  exact MixedPool.quick_good (cfg := ⟨cfg.align, cfg.first, cfg.next, fun _ => 0⟩) ⟨hc.al, hc.first, hc.next⟩ hq

theorem dyn_ok (hF : DynFits cfg heur cap B) :
    (dynS cfg heur).Ok (Upto cap) (Upto B) True fun s O U => DynPool.DInv cfg.align s O U where
  good := fun h => dyn_good hF.ok h
  make := DynPool.init_inv _
  alloc := by
    rintro s O U n h ⟨hn, hle⟩
    have hcap := hF.cap
    have htop := hF.top
    refine wpa_of (wp_mono (keep_keepUB (DynPool.allocate_wp h hF.ok ⟨hn, by omega⟩)) ?_) (dyn_alloc_asks hF hn (by omega))
    rintro ⟨r, s'⟩ O' h1
    cases r with
    | none => exact ⟨h1.1, by simp⟩
    | some p =>
      have hp : p ≠ 0 := by
        obtain ⟨q, hq, -⟩ := h1
        exact quick_nz (cfg := ⟨cfg.align, cfg.first, cfg.next, fun _ => 0⟩) ⟨hF.ok.al, hF.ok.first, hF.ok.next⟩ hq
      refine ⟨?_, by simp [hp]⟩
      simp only [record_some hp]
      exact h1
  dealloc := by
    intro s O U p n h hl
    refine wpa_of (keep_keepUB (DynPool.deallocate_wp h hF.ok hF.heurOk hl)) ?_
    show (DynPool.deallocate cfg heur s p).asks _ _
    unfold DynPool.deallocate
    simp only
    split
    · exact dyn_coalesceTo_asks hF (dyn_le hF (DynPool.deallocCore_inv h hl))
    · trivial
  op := by
    intro s O U o h
    cases o with
    | release => exact wpa_mono (wpa_of (keep_keepUB (DynPool.freeReleased_wp h)) dyn_release_asks) fun _ _ h => h.1
    | coalesce =>
      refine wpa_of (wp_weaken (DynPool.coalesce_wp h hF.ok hF.heurOk) ?_ fun _ _ h => h) ?_
      · intro b hb
        have : b = .abort := hb
        subst this
        simp [KeepUB]
      · show (DynPool.coalesce cfg heur s).asks _ _
        unfold DynPool.coalesce
        split
        · refine asks_bind' (dyn_coalesceTo_asks hF (dyn_le hF h)) fun r O => ?_
          obtain ⟨b, s⟩ := r
          cases b <;> trivial
        · trivial
end

end Umpire.Nest
