import Verif.Nest.Stats
import Verif.Nest.Props
/-!
# C81: the statistics of every allocator
-/
set_option autoImplicit false
set_option linter.unusedSimpArgs false
set_option synthInstance.maxSize 4000
namespace Umpire.Nest
open Umpire.Prog

/-- `getCurrentSize()`, `getHighWatermark()`, `getActualSize()`, `getAllocationCount()` of the
allocator at a place. -/
def Arr.getCurrentSize (a : Arr) (q : a.Pos) (t : a.csys.σ) : Nat :=
  match a.own q t.1 with
  | Option.none => 0
  | some s => (a.kindAt q).getCurrentSize s (a.acct q t.2)

def Arr.getHighWatermark (a : Arr) (q : a.Pos) (t : a.csys.σ) : Nat :=
  match a.own q t.1 with
  | Option.none => 0
  | some s => (a.kindAt q).getHighWatermark s (a.acct q t.2)

def Arr.getActualSize (a : Arr) (q : a.Pos) (t : a.csys.σ) : Nat :=
  match a.own q t.1 with
  | Option.none => 0
  | some s => (a.kindAt q).getActualSize s (a.acct q t.2)

def Arr.getAllocationCount (a : Arr) (q : a.Pos) (t : a.csys.σ) : Nat := (a.acct q t.2).count

/-- What happened to its account. -/
def Arr.history (a : Arr) (q : a.Pos) (t : a.csys.σ) : List Entry := (a.acct q t.2).log

theorem Kind.plain_size {k : Kind} (hk : k.Plain) (s : k.strat.σ) (a : Acct) :
    k.getCurrentSize s a = a.cur ∧ k.getHighWatermark s a = a.hwm := by
  cases k with
  | fixed _ => exact hk.elim
  | mono _ => exact hk.elim
  | _ => exact ⟨rfl, rfl⟩

theorem Kind.extra_perm {k : Kind} {s : k.strat.σ} {U V : Held} (h : U.Perm V) (hk : k.Extra s U) : k.Extra s V := by
  cases k with
  | quick c f => exact Nat.le_trans (Nat.le_of_eq (bytes_perm h).symm) hk
  | dyn c f => exact Nat.le_trans (Nat.le_of_eq (bytes_perm h).symm) hk
  | fixed c => exact Eq.trans hk (by rw [h.length_eq])
  | mono c => exact hk
  | _ => trivial

theorem lost_zero {l : List Entry} (h : lostCount l = 0) : lostBytes l = 0 := by
  induction l with
  | nil => rfl
  | cons e l ih =>
    cases e with
    | given n => exact ih h
    | lost n => exact absurd h (Nat.succ_ne_zero _)
    | back n => exact ih h

section
variable {arr : Nat → Arr} {f : ∀ r, (arr r).csys.σ} {H : Nat → Held}

theorem stat_ok (hF : ∀ r, (arr r).Fits (W - 1)) (h : Reach (fun r => (arr r).csys) f H) (r : Nat) :
    ∃ I, (arr r).StatOk (W - 1) I ∧ I (f r) (H r) := by
  have hT := fun r => Classical.choose_spec ((arr r).okStat (hF r))
  exact ⟨_, hT r, (h.inv fun r => (hT r).ok).1 r⟩

/-- C81.  In every reachable state, for every allocator that exists: `getAllocationCount` is
the number of live allocations of its users and of blocks held by the allocators built
directly on it, and `getCurrentSize` the sum of their sizes; both are too large by
what was charged to the account without memory being given (`lostCount`, `lostBytes`).
`getHighWatermark` is the largest value that `getCurrentSize` ever had.

Partial: the allocators directly on it are such that their getters tell what they hold
(`Arr.Keeps`: no `AlignedAllocator`, no operation on new allocations that fails); not
for the sizes of `FixedPool` and `MonotonicAllocationStrategy`, which have getters of
their own (`fixed_size`, `mono_hwm`); sizes fit together (`Arr.Fits`). -/
theorem stats_partial (hF : ∀ r, (arr r).Fits (W - 1)) (h : Reach (fun r => (arr r).csys) f H) {r : Nat} {q : (arr r).Pos}
    (hb : (arr r).built q (f r).1 = true) :
    (((arr r).kidsAt q).Keeps →
      (arr r).getAllocationCount q (f r) = ((arr r).user q (f r).1).length + ((arr r).above q (f r).1 (f r).2).2 +
        lostCount ((arr r).history q (f r)) ∧
      (((arr r).kindAt q).Plain →
        (arr r).getCurrentSize q (f r) = bytes ((arr r).user q (f r).1) + ((arr r).above q (f r).1 (f r).2).1 +
          lostBytes ((arr r).history q (f r)))) ∧
    (((arr r).kindAt q).Plain →
      (arr r).getCurrentSize q (f r) = level ((arr r).history q (f r)) ∧
      (arr r).getHighWatermark q (f r) = peak ((arr r).history q (f r))) := by
  obtain ⟨I, hI, hi⟩ := stat_ok hF h r
  obtain ⟨Ot, s, h1, h2, -, -, h5⟩ := hI.stats (t := (f r).1) (ac := (f r).2) hi q hb
  have hg : ((arr r).kindAt q).Plain → (arr r).getCurrentSize q (f r) = ((arr r).acct q (f r).2).cur ∧
      (arr r).getHighWatermark q (f r) = ((arr r).acct q (f r).2).hwm := by
    intro hp
    unfold Arr.getCurrentSize Arr.getHighWatermark
    rw [h2]
    exact Kind.plain_size hp _ _
  refine ⟨fun hk => ⟨?_, fun hp => ?_⟩, fun hp => ⟨(hg hp).1.trans h1.lvl, (hg hp).2.trans h1.hwm⟩⟩
  · have := h1.count
    rw [List.length_append, (h5 hk).2] at this
    exact this
  · have := h1.cur
    rw [bytes_append, (h5 hk).1] at this
    rw [(hg hp).1]
    exact this

/-- As long as nothing was charged in vain the numbers are exact. -/
theorem stats_clean_partial (hF : ∀ r, (arr r).Fits (W - 1)) (h : Reach (fun r => (arr r).csys) f H) {r : Nat} {q : (arr r).Pos}
    (hb : (arr r).built q (f r).1 = true) (hk : ((arr r).kidsAt q).Keeps) (hl : lostCount ((arr r).history q (f r)) = 0) :
    (arr r).getAllocationCount q (f r) = ((arr r).user q (f r).1).length + ((arr r).above q (f r).1 (f r).2).2 ∧
    (((arr r).kindAt q).Plain →
      (arr r).getCurrentSize q (f r) = bytes ((arr r).user q (f r).1) + ((arr r).above q (f r).1 (f r).2).1) := by
  obtain ⟨h1, h2⟩ := (stats_partial hF h hb).1 hk
  have := lost_zero hl
  exact ⟨by omega, fun hp => by have := h2 hp; omega⟩

/-- An allocator with nothing built on it: always.  (Not a `SlotPool`.) -/
theorem stats_leaf_partial (hF : ∀ r, (arr r).Fits (W - 1)) (h : Reach (fun r => (arr r).csys) f H) {r : Nat} {q : (arr r).Pos}
    (hb : (arr r).built q (f r).1 = true) (hs : ((arr r).kindAt q).Solid) (hn : (arr r).kidsAt q = .none) :
    (arr r).getAllocationCount q (f r) = ((arr r).user q (f r).1).length ∧
    (((arr r).kindAt q).Plain → (arr r).getCurrentSize q (f r) = bytes ((arr r).user q (f r).1)) := by
  obtain ⟨I, hI, hi⟩ := stat_ok hF h r
  obtain ⟨Ot, s, h1, h2, -, h4, h5⟩ := hI.stats (t := (f r).1) (ac := (f r).2) hi q hb
  have hk : ((arr r).kidsAt q).Keeps := by rw [hn]; trivial
  have hl := h4 hs hn
  obtain ⟨h6, h7⟩ := stats_clean_partial hF h hb hk hl
  have h0 : (arr r).above q (f r).1 (f r).2 = (0, 0) := by
    generalize (f r).1 = t at *
    generalize (f r).2 = ac at *
    have : ∀ (a : Arr) (q : a.Pos) (t : a.sys.σ) (ac : a.Accts), a.kidsAt q = .none → a.above q t ac = (0, 0) := by
      intro a
      induction a with
      | none => intro q; cases q
      | node k cap kids ih =>
        intro q t ac hn
        cases q with
        | none =>
          have hn : kids = .none := hn
          subst hn
          rfl
        | some q => exact ih q _ _ hn
      | par a b iha ihb =>
        intro q t ac hn
        cases q with
        | inl q => exact iha q _ _ hn
        | inr q => exact ihb q _ _ hn
    exact this _ _ _ _ hn
  rw [h0] at h6 h7
  exact ⟨h6, h7⟩

/-- `FixedPool::getCurrentSize` is the number of objects given out to users and to allocators on
it, times the size of an object, also after requests that failed. -/
theorem fixed_size (hF : ∀ r, (arr r).Fits (W - 1)) (h : Reach (fun r => (arr r).csys) f H) {r : Nat} {q : (arr r).Pos}
    (hb : (arr r).built q (f r).1 = true) (hk : ((arr r).kidsAt q).Keeps) {cfg : FixedPool.Cfg}
    (hq : (arr r).kindAt q = .fixed cfg) :
    (arr r).getCurrentSize q (f r) =
      cfg.obj * (((arr r).user q (f r).1).length + ((arr r).above q (f r).1 (f r).2).2) := by
  obtain ⟨I, hI, hi⟩ := stat_ok hF h r
  obtain ⟨Ot, s, h1, h2, ⟨U, hU, h3⟩, -, h5⟩ := hI.stats (t := (f r).1) (ac := (f r).2) hi q hb
  have h6 := Kind.extra_perm hU h3
  unfold Arr.getCurrentSize
  rw [h2]
  rw [← (h5 hk).2, ← List.length_append]
  generalize (arr r).user q (f r).1 ++ Ot = V at *
  generalize (arr r).acct q (f r).2 = a at *
  dsimp only
  clear h2 h3
  revert s
  rw [hq]
  intro s h6
  exact h6

/-- `MonotonicAllocationStrategy::getHighWatermark` is the capacity, whatever was used. -/
theorem mono_hwm (hF : ∀ r, (arr r).Fits (W - 1)) (h : Reach (fun r => (arr r).csys) f H) {r : Nat} {q : (arr r).Pos}
    (hb : (arr r).built q (f r).1 = true) {c : Nat} (hq : (arr r).kindAt q = .mono c) : (arr r).getHighWatermark q (f r) = c := by
  obtain ⟨I, hI, hi⟩ := stat_ok hF h r
  obtain ⟨Ot, s, h1, h2, ⟨U, hU, h3⟩, -, h5⟩ := hI.stats (t := (f r).1) (ac := (f r).2) hi q hb
  unfold Arr.getHighWatermark
  rw [h2]
  generalize (arr r).acct q (f r).2 = a at *
  dsimp only
  clear h2
  revert s
  rw [hq]
  intro s h6
  exact h6

/-- The pools that keep their blocks in lists. -/
def Kind.Lists : Kind → Prop
  | .quick _ _ => True
  | .dyn _ _ => True
  | _ => False

/-- What a `QuickPool` or `DynamicPoolList` has given out is not more than its
`getActualSize`; without requests charged in vain the same goes for `getCurrentSize`. -/
theorem pool_actual_partial (hF : ∀ r, (arr r).Fits (W - 1)) (h : Reach (fun r => (arr r).csys) f H) {r : Nat} {q : (arr r).Pos}
    (hb : (arr r).built q (f r).1 = true) (hk : ((arr r).kidsAt q).Keeps) (hq : ((arr r).kindAt q).Lists) :
    bytes ((arr r).user q (f r).1) + ((arr r).above q (f r).1 (f r).2).1 ≤ (arr r).getActualSize q (f r) ∧
    (lostCount ((arr r).history q (f r)) = 0 → (arr r).getCurrentSize q (f r) ≤ (arr r).getActualSize q (f r)) := by
  have hA : bytes ((arr r).user q (f r).1) + ((arr r).above q (f r).1 (f r).2).1 ≤ (arr r).getActualSize q (f r) := by
    obtain ⟨I, hI, hi⟩ := stat_ok hF h r
    obtain ⟨Ot, s, h1, h2, ⟨U, hU, h3⟩, -, h5⟩ := hI.stats (t := (f r).1) (ac := (f r).2) hi q hb
    have h6 := Kind.extra_perm hU h3
    unfold Arr.getActualSize
    rw [h2, ← (h5 hk).1, ← bytes_append]
    generalize (arr r).user q (f r).1 ++ Ot = V at *
    generalize (arr r).acct q (f r).2 = a at *
    clear h2 h3
    dsimp only
    generalize (arr r).kindAt q = k at *
    cases k with
    | quick c n => exact h6
    | dyn c n => exact h6
    | _ => exact hq.elim
  refine ⟨hA, fun hl => ?_⟩
  have hp : ((arr r).kindAt q).Plain := by
    generalize (arr r).kindAt q = k at *
    cases k with
    | fixed _ => exact hq.elim
    | mono _ => exact hq.elim
    | _ => trivial
  rw [(stats_clean_partial hF h hb hk hl).2 hp]
  exact hA

/-- The memory held from a resource, as the getters of the allocators directly on it tell. -/
theorem resource_total_partial (hF : ∀ r, (arr r).Fits (W - 1)) (h : Reach (fun r => (arr r).csys) f H) {r : Nat}
    (hk : (arr r).Keeps) :
    bytes (H r) = ((arr r).holds (f r).1 (f r).2).1 ∧ (H r).length = ((arr r).holds (f r).1 (f r).2).2 := by
  obtain ⟨I, hI, hi⟩ := stat_ok hF h r
  exact hI.holds hi hk

end

/-! ## Histories -/

theorem rets_log {S : Strat} {α : Type} (p : Prog α) (s : S.σ) (x : Acct) :
    rets (fun r => x.log <:+ r.2.2.log) (through (countS S) p (s, x)) := by
  have hinner : ∀ (x : Acct) (r : Option Nat) (n : Nat), x.log <:+ (x.inner r n).log := by
    intro x r n
    cases r with
    | none => exact List.suffix_cons _ _
    | some p => exact List.suffix_cons _ _
  induction p generalizing s x with
  | ret a => exact List.suffix_refl _
  | fail b => trivial
  | alloc n k ih =>
    refine rets_bind (R := fun r : Option Nat × (countS S).σ => x.log <:+ r.2.2.log) ?_ fun r hr => ?_
    · exact rets_bind (rets_true _) fun r _ => hinner _ _ _
    · exact rets_mono (ih _ _ _) fun a ha => hr.trans ha
  | dealloc q m k ih =>
    refine rets_bind (R := fun r : Bool × (countS S).σ => x.log <:+ r.2.2.log) ?_ fun r hr => ?_
    · exact rets_bind (rets_true _) fun r _ => List.suffix_cons _ _
    · obtain ⟨b, s', x'⟩ := r
      cases b
      · trivial
      · exact rets_mono (ih _ _) fun a ha => List.IsSuffix.trans hr ha

/-- Nothing is ever removed from a history. -/
theorem Arr.crun_log (a : Arr) (c : a.sys.Cmd) (t : a.sys.σ) (ac : a.Accts) (q : a.Pos) :
    rets (fun r => (a.acct q ac).log <:+ (a.acct q r.2.2).log) (a.crun c (t, ac)) := by
  induction a with
  | none => cases c
  | node k cap kids ih =>
    obtain ⟨own, user, ks⟩ := t
    obtain ⟨x, ka⟩ := ac
    have huser : ∀ (x : Acct) (r : Option Nat) (n : Nat), x.log <:+ (x.user r n).log := by
      intro x r n
      cases r with
      | none => exact List.suffix_refl _
      | some p => exact List.suffix_cons _ _
    cases own with
    | none =>
      cases c with
      | make => exact rets_bind (rets_true _) fun r _ => List.suffix_refl _
      | _ => exact List.suffix_refl _
    | some s =>
      cases c with
      | make => exact List.suffix_refl _
      | alloc n =>
        refine rets_bind (rets_true _) fun r _ => ?_
        cases q with
        | none => exact huser x r.1 n
        | some q => exact List.suffix_refl _
      | dealloc p =>
        show rets _ (match user.find? (fun u => u.1 = p) with
          | Option.none => .fail .ub
          | some u => (k.strat.dealloc s p u.2).bind fun r =>
            .ret (Option.none, ((⟨some r.2, Umpire.drop p user, ks⟩ : NodeSt k.strat.σ kids.sys.σ), (x.refund u.2, ka))))
        split
        · trivial
        · refine rets_bind (rets_true _) fun r _ => ?_
          cases q with
          | none => exact List.suffix_cons _ _
          | some q => exact List.suffix_refl _
      | op o => exact rets_bind (rets_true _) fun r _ => List.suffix_refl _
      | down c =>
        cases q with
        | none => exact rets_bind (rets_log _ s x) fun r hr => hr
        | some q => exact rets_bind (rets_through (S := countS k.strat) (ih c ks ka q)) fun r hr => hr
  | par a b iha ihb =>
    obtain ⟨t1, t2⟩ := t
    obtain ⟨x1, x2⟩ := ac
    cases c with
    | inl c =>
      cases q with
      | inl q => exact rets_bind (iha c t1 x1 q) fun r hr => hr
      | inr q => exact rets_bind (rets_true _) fun r _ => List.suffix_refl _
    | inr c =>
      cases q with
      | inr q => exact rets_bind (ihb c t2 x2 q) fun r hr => hr
      | inl q => exact rets_bind (rets_true _) fun r _ => List.suffix_refl _

/-- Later. -/
inductive Later (arr : Nat → Arr) : (∀ r, (arr r).csys.σ) → (Nat → Held) → (∀ r, (arr r).csys.σ) → (Nat → Held) → Prop where
  | refl {f H} : Later arr f H f H
  | step {f H f' H' r c x t H''} : Later arr f H f' H' → (arr r).csys.can c (f' r) →
      SRun r ((arr r).csys.run c (f' r)) H' (x, t) H'' → Later arr f H (upd (T := fun r => (arr r).csys) f' r t) H''

theorem Later.reach {arr : Nat → Arr} {f f' : ∀ r, (arr r).csys.σ} {H H' : Nat → Held} (h : Later arr f H f' H')
    (h0 : Reach (fun r => (arr r).csys) f H) : Reach (fun r => (arr r).csys) f' H' := by
  induction h with
  | refl => exact h0
  | step _ hc hr ih => exact .step ih hc hr

theorem Later.log {arr : Nat → Arr} {f f' : ∀ r, (arr r).csys.σ} {H H' : Nat → Held} (h : Later arr f H f' H') (r : Nat)
    (q : (arr r).Pos) : (arr r).history q (f r) <:+ (arr r).history q (f' r) := by
  induction h with
  | refl => exact List.suffix_refl _
  | @step f' H' k c x t H'' _ hc hr ih =>
    by_cases e : r = k
    · subst e
      rw [upd_same (T := fun r => (arr r).csys)]
      refine ih.trans ?_
      exact rets_run (R := fun y : Option Nat × ((arr r).sys.σ × (arr r).Accts) =>
        ((arr r).acct q (f' r).2).log <:+ ((arr r).acct q y.2.2).log) ((arr r).crun_log c (f' r).1 (f' r).2 q) hr
    · rw [upd_ne (T := fun r => (arr r).csys) e]
      exact ih

theorem lost_suffix {l m : List Entry} (h : l <:+ m) : lostCount l ≤ lostCount m ∧ lostBytes l ≤ lostBytes m ∧ peak l ≤ peak m := by
  obtain ⟨k, rfl⟩ := h
  induction k with
  | nil => exact ⟨Nat.le_refl _, Nat.le_refl _, Nat.le_refl _⟩
  | cons e k ih =>
    rw [List.cons_append]
    obtain ⟨h1, h2, h3⟩ := ih
    refine ⟨?_, ?_, Nat.le_trans h3 (Nat.le_max_right _ _)⟩
    · cases e <;> simp only [lostCount] <;> omega
    · cases e <;> simp only [lostBytes] <;> omega

/-- What was charged in vain is never taken back: `getCurrentSize` and `getAllocationCount` of
an allocator stay too large for as long as it exists, whatever is done. -/
theorem stats_drift_forever {arr : Nat → Arr} (hF : ∀ r, (arr r).Fits (W - 1)) {f f' : ∀ r, (arr r).csys.σ} {H H' : Nat → Held}
    (h : Reach (fun r => (arr r).csys) f H) (hl : Later arr f H f' H') {r : Nat} {q : (arr r).Pos}
    (hb : (arr r).built q (f' r).1 = true) (hk : ((arr r).kidsAt q).Keeps) :
    ((arr r).user q (f' r).1).length + ((arr r).above q (f' r).1 (f' r).2).2 + lostCount ((arr r).history q (f r)) ≤
      (arr r).getAllocationCount q (f' r) ∧
    (((arr r).kindAt q).Plain →
      bytes ((arr r).user q (f' r).1) + ((arr r).above q (f' r).1 (f' r).2).1 + lostBytes ((arr r).history q (f r)) ≤
        (arr r).getCurrentSize q (f' r)) := by
  obtain ⟨h1, h2⟩ := (stats_partial hF (hl.reach h) hb).1 hk
  obtain ⟨h3, h4, -⟩ := lost_suffix (hl.log r q)
  exact ⟨by omega, fun hp => by have := h2 hp; omega⟩

theorem level_le_peak (l : List Entry) : level l ≤ peak l := by
  cases l with
  | nil => exact Nat.le_refl _
  | cons e l => exact Nat.le_max_left _ _

/-- `getHighWatermark` is at least what `getCurrentSize` was at any time before. -/
theorem stats_hwm (arr : Nat → Arr) (hF : ∀ r, (arr r).Fits (W - 1)) {f f' : ∀ r, (arr r).csys.σ} {H H' : Nat → Held}
    (h : Reach (fun r => (arr r).csys) f H) (hl : Later arr f H f' H') {r : Nat} {q : (arr r).Pos}
    (hb : (arr r).built q (f r).1 = true) (hb' : (arr r).built q (f' r).1 = true) (hp : ((arr r).kindAt q).Plain) :
    (arr r).getCurrentSize q (f r) ≤ (arr r).getHighWatermark q (f' r) := by
  rw [((stats_partial hF h hb).2 hp).1, ((stats_partial hF (hl.reach h) hb').2 hp).2]
  exact Nat.le_trans (level_le_peak _) (lost_suffix (hl.log r q)).2.2

/-! ## The accounts do not matter to anything else -/

theorem srun_map {α β : Type} {r : Nat} {p : Prog α} {g : α → β} {H H' : Nat → Held} {a : α} (h : SRun r p H a H') :
    SRun r (p.bind fun a => .ret (g a)) H (g a) H' := by
  induction h with
  | ret => exact .ret
  | allocOk hf _ ih => exact .allocOk hf ih
  | allocFail _ ih => exact .allocFail ih
  | dealloc _ ih => exact .dealloc ih

theorem srun_map_inv {α β : Type} {r : Nat} {p : Prog α} {g : α → β} {H H' : Nat → Held} {b : β}
    (h : SRun r (p.bind fun a => .ret (g a)) H b H') : ∃ a, b = g a ∧ SRun r p H a H' := by
  induction p generalizing H with
  | ret a => cases h; exact ⟨a, rfl, .ret⟩
  | fail b => cases h
  | alloc n k ih =>
    cases h with
    | allocOk hf hr =>
      obtain ⟨a, h1, h2⟩ := ih _ hr
      exact ⟨a, h1, .allocOk hf h2⟩
    | allocFail hr =>
      obtain ⟨a, h1, h2⟩ := ih _ hr
      exact ⟨a, h1, .allocFail h2⟩
  | dealloc q m k ih =>
    cases h with
    | dealloc hr =>
      obtain ⟨a, h1, h2⟩ := ih hr
      exact ⟨a, h1, .dealloc h2⟩

/-- With the accounts left out the executions are those of C36, and every one of those is
an execution with accounts. -/
theorem stats_erase {arr : Nat → Arr} {g : ∀ r, (arr r).sys.σ} {H : Nat → Held} :
    Reach (fun r => (arr r).sys) g H ↔ ∃ f, Reach (fun r => (arr r).csys) f H ∧ ∀ r, (f r).1 = g r := by
  constructor
  · intro h
    induction h with
    | init => exact ⟨_, .init, fun _ => rfl⟩
    | @step g H r c x t H' _ hc hr ih =>
      obtain ⟨f, h1, h2⟩ := ih
      have hr' : SRun r ((arr r).sys.run c (g r)) H (x, t) H' := hr
      rw [← h2 r, ← (arr r).crun_erase c (f r).1 (f r).2] at hr'
      obtain ⟨y, h3, h4⟩ := srun_map_inv hr'
      obtain ⟨y1, y2⟩ := y
      simp only [Prod.mk.injEq] at h3
      refine ⟨_, .step h1 (show (arr r).sys.can c (f r).1 by rw [h2 r]; exact hc) h4, fun k => ?_⟩
      by_cases e : k = r
      · subst e
        have e1 : upd (T := fun r => (arr r).csys) f k y2 k = y2 := upd_same
        have e2 : upd (T := fun r => (arr r).sys) g k t k = t := upd_same
        exact (congrArg Prod.fst e1).trans (h3.2.symm.trans e2.symm)
      · have e1 : upd (T := fun r => (arr r).csys) f r y2 k = f k := upd_ne e
        have e2 : upd (T := fun r => (arr r).sys) g r t k = g k := upd_ne e
        exact (congrArg Prod.fst e1).trans ((h2 k).trans e2.symm)
  · rintro ⟨f, h, hg⟩
    have : g = fun r => (f r).1 := funext fun r => (hg r).symm
    subst this
    clear hg
    induction h with
    | init => exact .init
    | @step f H r c x t H' _ hc hr ih =>
      have h3 := srun_map (g := fun y : Option Nat × ((arr r).sys.σ × (arr r).Accts) => (y.1, y.2.1)) hr
      have h4 : SRun r ((arr r).sys.run c (f r).1) H (x, t.1) H' := by
        rw [← (arr r).crun_erase c (f r).1 (f r).2]
        exact h3
      have h5 := Reach.step (T := fun r => (arr r).sys) ih hc h4
      have : (upd (T := fun r => (arr r).sys) (fun r => (f r).1) r t.1) = fun k => (upd (T := fun r => (arr r).csys) f r t k).1 := by
        funext k
        by_cases e : k = r
        · subst e
          rw [upd_same (T := fun r => (arr r).csys), upd_same (T := fun r => (arr r).sys)]
        · rw [upd_ne (T := fun r => (arr r).csys) e, upd_ne (T := fun r => (arr r).sys) e]
      rw [← this]
      exact h5

/-! ## Concrete cases -/

/-- Carry out commands on one resource. -/
def Arr.driveS (a : Arr) : List (a.sys.Cmd × List (Option Nat)) → a.csys.σ → Held → Option (a.csys.σ × Held)
  | [], t, O => .some (t, O)
  | (c, sc) :: cs, t, O =>
    if a.canB c t.1 then
      match (a.crun c t).execOk sc O with
      | .some ((_, t'), O') => a.driveS cs t' O'
      | .none => .none
    else .none

theorem driveS_later {a : Arr} {cs : List (a.sys.Cmd × List (Option Nat))} {f₀ f : ∀ _ : Nat, a.csys.σ} {H₀ H : Nat → Held}
    {t' : a.csys.σ} {O' : Held} (he : Later (fun _ => a) f₀ H₀ f H) (hH : ∀ k, k ≠ 0 → H k = [])
    (h : a.driveS cs (f 0) (H 0) = some (t', O')) :
    ∃ f' H', Later (fun _ => a) f₀ H₀ f' H' ∧ f' 0 = t' ∧ H' 0 = O' ∧ ∀ k, k ≠ 0 → H' k = [] := by
  induction cs generalizing f H with
  | nil =>
    simp only [Arr.driveS, Option.some.injEq, Prod.mk.injEq] at h
    exact ⟨f, H, he, h.1, h.2, hH⟩
  | cons c cs ih =>
    obtain ⟨c, sc⟩ := c
    unfold Arr.driveS at h
    by_cases hc : a.canB c (f 0).1 = true
    · rw [if_pos hc] at h
      split at h
      · rename_i x t1 O1 hx
        obtain ⟨H1, h1, h2, h3⟩ := run_srun (execOk_run sc hx) H rfl hH
        have he' := Later.step (arr := fun _ => a) he (a.canB_can hc) h1
        refine ih he' h3 ?_
        have : upd (T := fun _ => Arr.csys a) f 0 t1 0 = t1 := upd_same (T := fun _ => Arr.csys a)
        rw [h2, this]
        exact h
      · cases h
    · rw [if_neg hc] at h
      cases h

/-- From the start, in two parts, looking at the states after both. -/
theorem driveS_start {a : Arr} {β : Type} (cs ds : List (a.sys.Cmd × List (Option Nat))) (g : a.csys.σ → β) {x y : β} {O O' : Held}
    (h : ((a.driveS cs a.csys.init []).bind fun r => (a.driveS ds r.1 r.2).map fun e => (g r.1, r.2, g e.1, e.2)) = some (x, O, y, O')) :
    ∃ f H f' H', Reach (fun _ => a.csys) f H ∧ Later (fun _ => a) f H f' H' ∧ g (f 0) = x ∧ H 0 = O ∧ g (f' 0) = y ∧ H' 0 = O' := by
  cases hd : a.driveS cs a.csys.init [] with
  | none => rw [hd] at h; cases h
  | some r =>
    obtain ⟨t, O1⟩ := r
    rw [hd] at h
    simp only [Option.bind_some, Option.map_eq_some_iff, Prod.mk.injEq] at h
    obtain ⟨e, h1, rfl, rfl, rfl, rfl⟩ := h
    obtain ⟨f, H, h2, rfl, rfl, h3⟩ := driveS_later (a := a) (f := fun _ => a.csys.init) (H := fun _ => []) .refl (fun _ _ => rfl) hd
    obtain ⟨f', H', h5, h6, h7, -⟩ := driveS_later (a := a) (f := f) (H := H) .refl h3 h1
    exact ⟨f, H, f', H', h2.reach .init, h5, rfl, rfl, by rw [h6], h7⟩

/-- A memory resource, a `QuickPool` on it, a `FixedPool` and a `DynamicPoolList` on that. -/
def statArr : Arr :=
  .node (.forward Forward.named) (W - 1) (.node (.quick exQuick 5) (W - 50) (.par (.node (.fixed ⟨16, 4⟩) 16 .none)
    (.node (.dyn exDyn fun _ => 0) (W - 100) .none)))

theorem statArr_fits : statArr.Fits (W - 1) := by
  have hq : QHeur exQuick.heur AMax := ⟨Nat.le_refl _, fun s => .inl (Nat.zero_le _)⟩
  have hd : DHeur (fun _ => 0) AMax := ⟨Nat.le_refl _, fun s => .inl (Nat.zero_le _)⟩
  exact ⟨Nat.le_refl _, ⟨⟨by decide, by decide, by decide, by decide, by decide, AMax, hq, by decide⟩,
      ⟨⟨⟨⟨by decide, by decide, by decide⟩, by decide, by decide⟩, trivial, .inl trivial⟩,
      ⟨⟨by decide, by decide, by decide, by decide, by decide, AMax, hd, by decide⟩, trivial, .inl trivial⟩⟩,
      .inl trivial⟩, .inl trivial⟩

/-- The four allocators. -/
def pRes : statArr.Pos := (Option.none : Option _)
def pQuick : statArr.Pos := (some (Option.none : Option _) : Option _)
def pFixed : statArr.Pos := (some (some (.inl (Option.none : Option _)) : Option _) : Option _)
def pDyn : statArr.Pos := (some (some (.inr (Option.none : Option _)) : Option _) : Option _)

/-- All numbers of an allocator. -/
def Arr.numbers (a : Arr) (q : a.Pos) (t : a.csys.σ) : Bool × Nat × Nat × Nat × Nat × Nat :=
  (a.built q t.1, a.getCurrentSize q t, a.getAllocationCount q t, a.getHighWatermark q t, a.getActualSize q t, lostCount (a.history q t))

def statRun : List (statArr.sys.Cmd × List (Option Nat)) :=
  [(.make, []), (.down .make, []), (.down (.alloc 40), [some 4096]), (.down (.down (.inl .make)), []),
   (.down (.down (.inl (.alloc 16))), []), (.down (.down (.inr .make)), []), (.down (.down (.inr (.alloc 10))), []),
   (.down (.down (.inr (.alloc 20))), []), (.down (.dealloc 4096), [])]

/-- The numbers of all four. -/
def statAll (t : statArr.csys.σ) : List (Bool × Nat × Nat × Nat × Nat × Nat) :=
  [statArr.numbers pRes t, statArr.numbers pQuick t, statArr.numbers pFixed t, statArr.numbers pDyn t]

theorem statArr_keeps (q : statArr.Pos) : (statArr.kidsAt q).Keeps := by
  have h : ∀ q : statArr.Pos, q = pRes ∨ q = pQuick ∨ q = pFixed ∨ q = pDyn := by
    intro q
    match q with
    | Option.none => exact .inl rfl
    | some Option.none => exact .inr (.inl rfl)
    | some (some (.inl Option.none)) => exact .inr (.inr (.inl rfl))
    | some (some (.inr Option.none)) => exact .inr (.inr (.inr rfl))
  rcases h q with rfl | rfl | rfl | rfl
  · exact trivial
  · exact ⟨trivial, trivial⟩
  · exact trivial
  · exact trivial

/-- Users of three allocators have memory; nothing was refused so far. -/
theorem statRun_reach : ∃ f H f' H', Reach (fun _ => statArr.csys) f H ∧ Later (fun _ => statArr) f H f' H' ∧
    statAll (f 0) = [(true, 528, 1, 528, 528, 0), (true, 208, 2, 248, 512, 0), (true, 16, 1, 16, 65, 0), (true, 30, 2, 30, 128, 0)] ∧
    H 0 = [(4096, 528)] ∧
    statAll (f' 0) = [(true, 4688, 5, 4688, 4688, 4), (true, 2256, 4, 2256, 512, 2), (true, 16, 1, 16, 65, 0), (true, 30, 2, 30, 128, 0)] ∧
    H' 0 = [(4096, 528)] :=
  driveS_start (a := statArr) statRun [(.down (.down (.inr (.alloc 1000))), [none, none])] statAll (by decide +kernel)

/-- `stats_partial`, `stats_clean_partial`, `stats_drift_forever`, `stats_hwm`: the hypotheses hold for the `QuickPool`. -/
example : ∃ f H f' H', Reach (fun _ => statArr.csys) f H ∧ Later (fun _ => statArr) f H f' H' ∧ (∀ _ : Nat, statArr.Fits (W - 1)) ∧
    statArr.built pQuick (f 0).1 = true ∧ statArr.built pQuick (f' 0).1 = true ∧ (statArr.kidsAt pQuick).Keeps ∧ (statArr.kindAt pQuick).Plain ∧
    (statArr.kindAt pQuick).Lists ∧ lostCount (statArr.history pQuick (f 0)) = 0 ∧ lostCount (statArr.history pQuick (f' 0)) = 2 ∧
    statArr.getCurrentSize pQuick (f 0) = 208 := by
  obtain ⟨f, H, f', H', h1, h2, h3, -, h4, -⟩ := statRun_reach
  simp only [statAll, Arr.numbers, List.cons.injEq, Prod.mk.injEq] at h3 h4
  exact ⟨f, H, f', H', h1, h2, fun _ => statArr_fits, h3.2.1.1, h4.2.1.1, statArr_keeps _, trivial, trivial, h3.2.1.2.2.2.2.2,
    h4.2.1.2.2.2.2.2, h3.2.1.2.1⟩

/-- `fixed_size`, `stats_leaf_partial`. -/
example : ∃ f H, Reach (fun _ => statArr.csys) f H ∧ statArr.built pFixed (f 0).1 = true ∧ (statArr.kindAt pFixed).Solid ∧
    statArr.kidsAt pFixed = .none ∧ statArr.kindAt pFixed = .fixed ⟨16, 4⟩ ∧ (statArr.user pFixed (f 0).1).length = 1 := by
  obtain ⟨f, H, f', H', h1, h2, h3, -, h4, -⟩ := statRun_reach
  simp only [statAll, Arr.numbers, List.cons.injEq, Prod.mk.injEq] at h3
  have h5 := (stats_leaf_partial (arr := fun _ => statArr) (fun _ => statArr_fits) h1 (r := 0) (q := pFixed) h3.2.2.1.1 trivial rfl).1
  exact ⟨f, H, h1, h3.2.2.1.1, trivial, rfl, rfl, by rw [← h5]; exact h3.2.2.1.2.2.1⟩

/-- `resource_total_partial`. -/
example : ∃ f H, Reach (fun _ => statArr.csys) f H ∧ statArr.Keeps ∧ bytes (H 0) = 528 ∧ (statArr.holds (f 0).1 (f 0).2).1 = 528 := by
  obtain ⟨f, H, f', H', h1, h2, h3, h4, -⟩ := statRun_reach
  have hk : statArr.Keeps := fun _ _ => rfl
  have h5 := (resource_total_partial (arr := fun _ => statArr) (fun _ => statArr_fits) h1 (r := 0) hk).1
  have h6 : bytes (H 0) = 528 := by rw [h4]; rfl
  exact ⟨f, H, h1, hk, h6, by rw [← h5]; exact h6⟩

/-- A request of 1000 bytes to the `DynamicPoolList` that the resource refuses: the `QuickPool` is
asked twice and asks the resource four times.  Every time the bytes are added and not
subtracted again.  The resource says 4688 bytes in five allocations and holds one of
528 bytes; the `QuickPool` has a `getCurrentSize` larger than its `getActualSize`. -/
theorem stats_refused_counterexample : ∃ f H, Reach (fun _ => statArr.csys) f H ∧ H 0 = [(4096, 528)] ∧
    statArr.getCurrentSize pRes (f 0) = 4688 ∧ statArr.getAllocationCount pRes (f 0) = 5 ∧
    statArr.getActualSize pQuick (f 0) < statArr.getCurrentSize pQuick (f 0) := by
  obtain ⟨f, H, f', H', h1, h2, -, -, h4, h5⟩ := statRun_reach
  simp only [statAll, Arr.numbers, List.cons.injEq, Prod.mk.injEq] at h4
  exact ⟨f', H', h2.reach h1, h5, h4.1.2.1, h4.1.2.2.1, by rw [h4.2.1.2.1, h4.2.1.2.2.2.2.1]; decide⟩

/-- A `SlotPool` with one slot. -/
def oneSlot : Arr := .node (.slots 1) 1000 .none
def pSlot : oneSlot.Pos := (Option.none : Option _)

/-- A full `SlotPool` returns null; the user gets an exception, the account is charged. -/
theorem stats_null_counterexample : ∃ f H, Reach (fun _ => oneSlot.csys) f H ∧ oneSlot.Fits (W - 1) ∧
    oneSlot.user pSlot (f 0).1 = [(4096, 10)] ∧ oneSlot.getCurrentSize pSlot (f 0) = 30 ∧ oneSlot.getAllocationCount pSlot (f 0) = 2 := by
  obtain ⟨f, H, -, -, h1, -, h2, -⟩ := driveS_start (a := oneSlot) [(.make, []), (.alloc 10, [some 4096]), (.alloc 20, [])] []
    (fun t => (oneSlot.user pSlot t.1, oneSlot.getCurrentSize pSlot t, oneSlot.getAllocationCount pSlot t))
    (x := ([(4096, 10)], 30, 2)) (y := ([(4096, 10)], 30, 2)) (O := [(4096, 10)]) (O' := [(4096, 10)]) (by decide +kernel)
  simp only [Prod.mk.injEq] at h2
  exact ⟨f, H, h1, ⟨show (1000 : Nat) ≤ W - 1 by decide, trivial, .inr rfl⟩, h2⟩

/-- A `MonotonicAllocationStrategy`. -/
def monoAlone : Arr := .node (.mono 1000) 64 .none
def pMono : monoAlone.Pos := (Option.none : Option _)

/-- Its `getCurrentSize` does not go down, its `getHighWatermark` is the capacity from the
start. -/
theorem stats_mono_counterexample : ∃ f H, Reach (fun _ => monoAlone.csys) f H ∧ monoAlone.Fits (W - 1) ∧ monoAlone.user pMono (f 0).1 = [] ∧
    monoAlone.getCurrentSize pMono (f 0) = 20 ∧ monoAlone.getAllocationCount pMono (f 0) = 0 ∧ monoAlone.getHighWatermark pMono (f 0) = 1000 := by
  obtain ⟨f, H, -, -, h1, -, h2, -⟩ := driveS_start (a := monoAlone) [(.make, [some 4096]), (.alloc 20, []), (.dealloc 4096, [])] []
    (fun t => (monoAlone.user pMono t.1, monoAlone.getCurrentSize pMono t, monoAlone.getAllocationCount pMono t, monoAlone.getHighWatermark pMono t))
    (x := ([], 20, 0, 1000)) (y := ([], 20, 0, 1000)) (O := [(4096, 1000)]) (O' := [(4096, 1000)]) (by decide +kernel)
  simp only [Prod.mk.injEq] at h2
  exact ⟨f, H, h1, ⟨⟨by decide, by decide⟩, trivial, .inl trivial⟩, h2⟩

/-- An `AlignedAllocator` on a `QuickPool`. -/
def padArr : Arr := .node (.quick exQuick 5) (W - 50) (.node (.aligned 32) 1000 .none)
def pBelow : padArr.Pos := (Option.none : Option _)
def pPad : padArr.Pos := (some (Option.none : Option _) : Option _)

/-- An `AlignedAllocator` holds more than it says: `getActualSize` is `getCurrentSize`. -/
theorem stats_aligned_counterexample : ∃ f H, Reach (fun _ => padArr.csys) f H ∧ padArr.user pBelow (f 0).1 = [] ∧
    padArr.getActualSize pPad (f 0) = 5 ∧ padArr.getCurrentSize pBelow (f 0) = 44 := by
  obtain ⟨f, H, -, -, h1, -, h2, -⟩ := driveS_start (a := padArr) [(.make, []), (.down .make, []), (.down (.alloc 5), [some 4096])] []
    (fun t => (padArr.user pBelow t.1, padArr.getActualSize pPad t, padArr.getCurrentSize pBelow t))
    (x := ([], 5, 44)) (y := ([], 5, 44)) (O := [(4096, 528)]) (O' := [(4096, 528)]) (by decide +kernel)
  simp only [Prod.mk.injEq] at h2
  exact ⟨f, H, h1, h2⟩

end Umpire.Nest
