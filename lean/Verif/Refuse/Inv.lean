import Verif.Refuse.Model
import Verif.Manager.Can
/-!
# What the calls do when strategies may refuse
-/
set_option autoImplicit false
set_option linter.unusedSimpArgs false
namespace Umpire.Refuse
open Umpire.Mgr Umpire.Judy

/-- Whatever the strategies do, there is no undefined behaviour and the outcome satisfies
`Q`. -/
def Sure {β : Type} (Pl : Nat → Nat → Prop) (m : R β) (rm : RM) (w : World) (Q : Option β → RM → World → Prop) : Prop :=
  ¬(m rm).goes Pl w ∧ ∀ o rm' w', (m rm).run Pl w (o, rm') w' → Q o rm' w'

section
variable {Pl : Nat → Nat → Prop} {B : Nat → Prop} {c : Cfg} {rm : RM} {w : World} {g : Ghost} {β γ : Type}

theorem sure_up {m : M β} {Q : Option β → RM → World → Prop} (h : wpM Pl m rm w Q) : Sure Pl (R.up m) rm w Q :=
  ⟨MP.wp_goes h, fun _ _ _ hr => wpM_run h hr⟩

theorem sure_bind {m : R β} {f : β → R γ} {Q : Option γ → RM → World → Prop}
    (h : Sure Pl m rm w fun o rm' w' => (o = none → Q none rm' w') ∧ ∀ b, o = some b → Sure Pl (f b) rm' w' Q) : Sure Pl (m >>= f) rm w Q := by
  constructor
  · rintro (hg | ⟨⟨o, rm'⟩, w', hr, hg⟩)
    · exact h.1 hg
    · have := h.2 o rm' w' hr
      cases o with
      | none => cases hg
      | some b => exact (this.2 b rfl).1 hg
  · rintro o rm2 w2 ⟨⟨o1, rm1⟩, w1, hr, hf⟩
    have := h.2 o1 rm1 w1 hr
    cases o1 with
    | none => cases hf; exact this.1 rfl
    | some b => exact (this.2 b rfl).2 o rm2 w2 hf

theorem sure_mono {m : R β} {Q Q' : Option β → RM → World → Prop} (h : Sure Pl m rm w Q) (hq : ∀ o rm' w', Q o rm' w' → Q' o rm' w') : Sure Pl m rm w Q' :=
  ⟨h.1, fun o rm' w' hr => hq _ _ _ (h.2 o rm' w' hr)⟩

theorem sure_pure {b : β} {Q : Option β → RM → World → Prop} (h : Q (some b) rm w) : Sure Pl (pure b) rm w Q := sure_up (m := M.ret b) h
theorem sure_throw {Q : Option β → RM → World → Prop} (h : Q none rm w) : Sure Pl (R.throw : R β) rm w Q := sure_up (m := M.throw) h

/-- First an operation that hands nothing back. -/
theorem sure_first {m : M β} {f : β → R γ} {Q : Option γ → RM → World → Prop}
    (h : wpM Pl m rm w fun o rm' w' => (o = none → Q none rm' w') ∧ ∀ b, o = some b → Sure Pl (f b) rm' w' Q) : Sure Pl (R.up m >>= f) rm w Q :=
  sure_bind (sure_up h)

theorem stratDealloc_spec {s p : Nat} {n : Option Nat} {Q : Option Unit → RM → World → Prop} (hg : MP.Gives w.held s p n)
    (hok : ∀ m o, Agree (dropB p w.held) w.mem m → Q o rm ⟨dropB p w.held, m⟩)
    (hkeep : ∀ m, Agree w.held w.mem m → Q none rm ⟨w.held, m⟩) : Sure Pl (stratDealloc s p n) rm w Q := by
  constructor
  · rintro (h | ⟨ok, w', _, h⟩)
    · exact h hg
    · cases h
  · rintro o rm' w' ⟨ok, ⟨H, m⟩, ⟨_, h⟩, hr⟩
    cases hr
    rcases h with ⟨h1, h2⟩ | ⟨h0, h1, h2⟩
    · dsimp only at h1 h2
      subst h1
      exact hok m _ h2
    · dsimp only at h1 h2
      subst h1; subst h0
      exact hkeep m h2

/-- Handing back a block that is held and not registered. -/
theorem giveBack_spec {s : Nat} {b : Blk} {un : List Blk} {n : Option Nat} (h : Ok Pl B c rm w g) (hu : g.un.Perm (b :: un)) (ho : b.own = zero ∨ b.own = s)
    (hn : ∀ m, n = some m → b.own = s → b.own ≠ zero → b.size = m) {Q : Option Unit → RM → World → Prop}
    (hok : ∀ m o, (b.own = zero → o = some ()) → Agree (dropB b.ptr w.held) w.mem m → Ok Pl B c rm ⟨dropB b.ptr w.held, m⟩ { g with un := un } →
      Q o rm ⟨dropB b.ptr w.held, m⟩)
    (hkeep : ∀ m, b.own ≠ zero → Agree w.held w.mem m → Ok Pl B c rm ⟨w.held, m⟩ g → Q none rm ⟨w.held, m⟩) : Sure Pl (giveBack s b.ptr n) rm w Q := by
  have hm := h.mem.permute (List.Perm.refl _) hu
  have hb := h.mem.un_held (hu.mem_iff.2 List.mem_cons_self)
  have hbk := h.mem.blk b hb
  apply sure_first
  intro x h1 h2
  refine ⟨fun he => (by cases he), fun y he => ?_⟩
  injection he with he
  subst he
  have fin : ∀ m o, (b.own = zero → o = some ()) → Agree (dropB b.ptr w.held) w.mem m → Q o rm ⟨dropB b.ptr w.held, m⟩ :=
    fun m o hz hag => hok m o hz hag ⟨hm.give m, h.stat, h.kids⟩
  by_cases hz : b.own = zero
  · have hx := h1 ⟨b, hb, hz, Nat.le_refl _, by omega⟩
    subst hx
    exact sure_up (m := Mgr.stratDealloc zero b.ptr (some 1)) ⟨⟨b, hb, hz, rfl, fun m hm => by injection hm with hm; rw [← hm]; exact hbk.2.2.2 hz⟩, fun m hag => fin m _ (fun _ => rfl) hag⟩
  · have hx := h2 ⟨b, hb, hz, Nat.le_refl _, by omega⟩
    subst hx
    have ho' : b.own = s := ho.resolve_left hz
    exact stratDealloc_spec ⟨b, hb, ho', rfl, fun m hm => hn m hm ho' hz⟩ (fun m o hag => fin m o (fun he => absurd he hz) hag)
      fun m hag => hkeep m hz hag (h.memw m)

theorem blkOf_zero {r : Rec} (ht : r.tag ≠ zero) : (blkOf r).own = zero ↔ r.size = 0 := by
  unfold blkOf
  split
  · rename_i h; exact ⟨fun _ => h, fun _ => rfl⟩
  · rename_i h; exact ⟨fun e => absurd e ht, fun e => absurd e h⟩

/-- Deallocating a registered allocation: whatever the strategy answers, the record is gone
and the statistics are reduced. -/
theorem deallocate_hit {r : Rec} (h : Ok Pl B c rm w g) (hr : r ∈ g.live) {Q : Option Unit → RM → World → Prop}
    (hok : ∀ m rm' o, (r.size = 0 → o = some ()) → Agree (dropB r.ptr w.held) w.mem m → Ok Pl B c rm' ⟨dropB r.ptr w.held, m⟩ (g.free r.ptr) →
      rm'.st = bump rm.st r.tag (·.sub r.size) → Q o rm' ⟨dropB r.ptr w.held, m⟩)
    (hkeep : ∀ m rm', r.size ≠ 0 → Agree w.held w.mem m → Ok Pl B c rm' ⟨w.held, m⟩ ((g.free r.ptr).hold (blkOf r)) →
      rm'.st = bump rm.st r.tag (·.sub r.size) → Q none rm' ⟨w.held, m⟩) : Sure Pl (deallocate c r.tag r.ptr) rm w Q := by
  have htag := h.mem.tag r hr
  unfold deallocate
  rw [if_neg (h.mem.rec_lt hr).1, if_pos htag.2]
  apply sure_first
  apply inspDereg_hit h hr
  intro rm' h' hst
  refine ⟨fun he => (by cases he), fun y he => ?_⟩
  injection he with he
  subst he
  have := giveBack_spec (Pl := Pl) (s := r.tag) (b := blkOf r) (n := some r.size) (Q := Q) h' (List.Perm.refl _) ?_ ?_ ?_ ?_
  · rw [blkOf_ptr] at this; exact this
  · unfold blkOf; split
    · left; rfl
    · right; rfl
  · intro m hm ho hz
    injection hm with hm
    rw [← hm]
    unfold blkOf at hz ⊢
    split
    · rename_i h0; rw [if_pos h0] at hz; exact absurd rfl hz
    · rfl
  · rw [blkOf_ptr]
    intro m o hz hag h2
    exact hok m rm' o (fun he => hz ((blkOf_zero htag.1).2 he)) hag h2 hst
  · intro m hz hag h2
    exact hkeep m rm' (fun he => hz ((blkOf_zero htag.1).2 he)) hag h2 hst

theorem deallocate_miss {s p : Nat} (h : Ok Pl B c rm w g) (ht : c.tracked s = true) (h0 : p ≠ 0) (hp : p < 2 ^ 64)
    (hn : ∀ r ∈ g.live, ¬(r.ptr = p ∧ r.tag = s)) {Q : Option Unit → RM → World → Prop}
    (hok : ∀ rm', Ok Pl B c rm' w g → rm'.st = rm.st → Q none rm' w) : Sure Pl (deallocate c s p) rm w Q := by
  unfold deallocate
  rw [if_neg h0, if_pos ht]
  apply sure_first
  apply inspDereg_miss h hp hn
  intro rm' h1 hst
  exact ⟨fun _ => hok rm' h1 hst, fun _ he => (by cases he)⟩

theorem deallocate_untracked {s : Nat} {b : Blk} {un : List Blk} (h : Ok Pl B c rm w g) (ht : c.tracked s = false) (hu : g.un.Perm (b :: un))
    (ho : b.own = zero ∨ b.own = s) {Q : Option Unit → RM → World → Prop}
    (hok : ∀ m o, Agree (dropB b.ptr w.held) w.mem m → Ok Pl B c rm ⟨dropB b.ptr w.held, m⟩ { g with un := un } → Q o rm ⟨dropB b.ptr w.held, m⟩)
    (hkeep : ∀ m, b.own ≠ zero → Agree w.held w.mem m → Ok Pl B c rm ⟨w.held, m⟩ g → Q none rm ⟨w.held, m⟩) : Sure Pl (deallocate c s b.ptr) rm w Q := by
  have hb := h.mem.blk b (h.mem.un_held (hu.mem_iff.2 List.mem_cons_self))
  unfold deallocate
  rw [if_neg hb.1, if_neg (by rw [ht]; decide)]
  exact giveBack_spec h hu ho (fun m hm => by cases hm) (fun m o _ => hok m o) hkeep

/-- `D` deallocates `r`. -/
def Frees (Pl : Nat → Nat → Prop) (B : Nat → Prop) (c : Cfg) (r : Rec) (D : R Unit) : Prop :=
  ∀ rm w g (Q : Option Unit → RM → World → Prop), Ok Pl B c rm w g → r ∈ g.live →
    (∀ m rm' o, (r.size = 0 → o = some ()) → Agree (dropB r.ptr w.held) w.mem m → Ok Pl B c rm' ⟨dropB r.ptr w.held, m⟩ (g.free r.ptr) →
      rm'.st = bump rm.st r.tag (·.sub r.size) → Q o rm' ⟨dropB r.ptr w.held, m⟩) →
    (∀ m rm', r.size ≠ 0 → Agree w.held w.mem m → Ok Pl B c rm' ⟨w.held, m⟩ ((g.free r.ptr).hold (blkOf r)) →
      rm'.st = bump rm.st r.tag (·.sub r.size) → Q none rm' ⟨w.held, m⟩) →
    Sure Pl D rm w Q

theorem frees_deallocate (r : Rec) : Frees Pl B c r (deallocate c r.tag r.ptr) :=
  fun _ _ _ _ h hr hok hkeep => deallocate_hit h hr hok hkeep

theorem frees_any (r : Rec) : Frees Pl B c r (deallocateAny c r.ptr) := by
  intro rm w g Q h hr hok hkeep
  unfold deallocateAny getOwner
  apply sure_first
  apply wpM_bind
  apply find_base h hr
  intro rm' h' hst
  show (_ → _) ∧ _
  refine ⟨fun he => (by cases he), fun y he => ?_⟩
  injection he with he
  subst he
  rw [← hst] at hok hkeep
  exact deallocate_hit h' hr hok hkeep

/-- Allocate somewhere else, copy, free the old allocation.  The result is the new pointer
unless the old memory is refused: then the new allocation stays, and the old memory may be
held still. -/
theorem relocate_spec {r : Rec} {s n sz : Nat} {D : R Unit} (h : Ok Pl B c rm w g) (ha : Aligned Pl B) (hs : s ≠ zero) (ht : c.tracked s = true)
    (hr : r ∈ g.live) (hsz : (if sz = 0 then r.size else sz) = min r.size n) (hD : Frees Pl B c r D) {Q : Option Nat → RM → World → Prop}
    (hok : ∀ q m rm' o, (o = some q ∨ o = none ∧ r.size ≠ 0) → Fresh q (cap n) (ranges w.held) → Carried w r q n m →
      Ok Pl B c rm' ⟨blkOf ⟨q, n, s⟩ :: dropB r.ptr w.held, m⟩ { g with live := ⟨q, n, s⟩ :: dropR r.ptr g.live } →
      rm'.st = bump (bump rm.st s (·.add n)) r.tag (·.sub r.size) → Q o rm' ⟨blkOf ⟨q, n, s⟩ :: dropB r.ptr w.held, m⟩)
    (hkeep : ∀ q m rm', r.size ≠ 0 → Fresh q (cap n) (ranges w.held) → Carried w r q n m →
      Ok Pl B c rm' ⟨blkOf ⟨q, n, s⟩ :: w.held, m⟩ { g with live := ⟨q, n, s⟩ :: dropR r.ptr g.live, un := blkOf r :: g.un } →
      rm'.st = bump (bump rm.st s (·.add n)) r.tag (·.sub r.size) → Q none rm' ⟨blkOf ⟨q, n, s⟩ :: w.held, m⟩)
    (hfail : ∀ m, Agree w.held w.mem m → Ok Pl B c rm ⟨w.held, m⟩ g → Q none rm ⟨w.held, m⟩) :
    Sure Pl (do let q ← R.up (allocate c s n); R.up (copy q r.ptr sz); D; return q : R Nat) rm w Q := by
  apply sure_first
  apply allocate_spec h ha hs
  · intro q m1 rm1 hf hpl hag h1 hst1
    refine ⟨fun he => (by cases he), fun y he => ?_⟩
    injection he with he
    subst he
    rw [if_pos ht] at hst1
    have hg1 : g.alloc c s n q = g.reg ⟨q, n, s⟩ := by unfold Ghost.alloc; rw [if_pos ht]
    rw [hg1] at h1
    have hrb := h.mem.mem_held hr
    have hrs := h.mem.blk _ hrb
    have hq : q < 2 ^ 64 := by
      have := hf.2.1
      have h2 : AMax < 2 ^ 64 := by decide
      omega
    have hpr := h.mem.rec_lt hr
    have hne : q ≠ r.ptr := by
      have := fresh_ne hf (cap_pos n) hrb hrs.2.1
      rwa [blkOf_ptr] at this
    have hr1 : r ∈ (g.reg ⟨q, n, s⟩).live := List.mem_cons_of_mem _ hr
    have hq1 : (⟨q, n, s⟩ : Rec) ∈ (g.reg ⟨q, n, s⟩).live := List.mem_cons_self
    apply sure_first
    apply copy_spec h1 hq (by omega : r.ptr < 2 ^ 64)
    · intro rs rd rm2 hrs' hcs hrd hcd h2 hst2
      have e1 : rs = r := apart_eq h1.mem.apart hrs' hr1 hcs (contains_base r)
      have e2 : rd = ⟨q, n, s⟩ := apart_eq h1.mem.apart hrd hq1 hcd (contains_base (⟨q, n, s⟩ : Rec))
      subst e1; subst e2
      dsimp only
      rw [Nat.sub_self, Nat.sub_self, Nat.sub_zero, Nat.sub_zero, hsz]
      have ed : dropB rs.ptr (blkOf ⟨q, n, s⟩ :: w.held) = blkOf ⟨q, n, s⟩ :: dropB rs.ptr w.held := by
        apply dropB_fresh (q := q) _ (blkOf_ptr _)
        rw [blkOf_ptr]; exact hne
      have eg : (g.reg ⟨q, n, s⟩).free rs.ptr = { g with live := ⟨q, n, s⟩ :: dropR rs.ptr g.live } := by
        unfold Ghost.reg Ghost.free dropR
        dsimp only
        rw [List.filter_cons, if_pos (decide_eq_true hne)]
      have carried : ∀ m3, Agree (blkOf ⟨q, n, s⟩ :: dropB rs.ptr w.held) (copied m1 q rs.ptr (min rs.size n)) m3 → Carried w rs q n m3 := by
        intro m3 hag3
        refine ⟨?_, ?_⟩
        · intro i hi1 hi2
          have hb := blkOf_eq q n s
          have hc := le_cap n
          rw [hag3 _ List.mem_cons_self (q + i) (by rw [hb]; dsimp only; omega) (by rw [hb]; dsimp only; omega)]
          unfold copied
          rw [if_pos (by omega), show rs.ptr + (q + i - q) = rs.ptr + i by omega]
          have h5 := blkOf_ptr rs
          have h6 := (blkOf_size rs).1
          exact hag _ hrb _ (by omega) (by omega)
        · intro b hb x hx1 hx2
          have hb' := (List.mem_filter.1 hb).1
          rw [hag3 b (List.mem_cons_of_mem _ hb) x hx1 hx2]
          unfold copied
          rw [if_neg ?_]
          · exact hag b hb' x hx1 hx2
          · have := hf.2.2 (b.ptr, b.size) (List.mem_map_of_mem (f := fun b : Blk => (b.ptr, b.size)) hb')
            have h4 := le_cap n
            unfold Disj at this
            dsimp only at this
            omega
      refine ⟨fun _ => ⟨by omega, ?_, fun he => (by cases he), fun _ _ => ?_⟩, fun hlt => by omega⟩
      · by_cases hz : min rs.size n = 0
        · exact Or.inl hz
        · right
          have := hf.2.2 (rs.ptr, (blkOf rs).size) (by
            have := List.mem_map_of_mem (f := fun b : Blk => (b.ptr, b.size)) hrb
            rwa [blkOf_ptr] at this)
          have h3 := (blkOf_size rs).1
          have h4 := le_cap n
          unfold Disj at this ⊢
          dsimp only at this
          omega
      · apply sure_bind
        apply hD _ _ _ _ (h2.memw _) hr1
        · intro m3 rm3 o hz hag3 h3 hst3
          dsimp only at hag3 h3
          rw [ed] at hag3 h3
          rw [eg] at h3
          have hst' : rm3.st = bump (bump rm.st s (·.add n)) rs.tag (·.sub rs.size) := by rw [hst3, hst2, hst1]
          dsimp only
          rw [ed]
          refine ⟨fun he => ?_, fun _ _ => ?_⟩
          · exact hok q m3 rm3 none (Or.inr ⟨rfl, fun hz0 => by have := hz hz0; rw [he] at this; cases this⟩) hf (carried m3 hag3) h3 hst'
          · exact sure_pure (hok q m3 rm3 (some q) (Or.inl rfl) hf (carried m3 hag3) h3 hst')
        · intro m3 rm3 hz hag3 h3 hst3
          dsimp only at hag3 h3
          refine ⟨fun _ => ?_, fun _ he => (by cases he)⟩
          have hst' : rm3.st = bump (bump rm.st s (·.add n)) rs.tag (·.sub rs.size) := by rw [hst3, hst2, hst1]
          rw [eg] at h3
          refine hkeep q m3 rm3 hz hf (carried m3 ?_) h3 hst'
          intro b hb
          rcases List.mem_cons.1 hb with rfl | hb
          · exact hag3 _ List.mem_cons_self
          · exact hag3 _ (List.mem_cons_of_mem _ (List.mem_filter.1 hb).1)
    · intro rm2 _ _ hno
      rcases hno with hno | hno
      · exact absurd rfl (hno.1 r hr1)
      · exact absurd rfl (hno.1 _ hq1)
  · intro m hag h1
    exact ⟨fun _ => hfail m hag h1, fun _ he => (by cases he)⟩

end
end Umpire.Refuse
