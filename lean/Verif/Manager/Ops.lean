import Verif.Manager.Inv
/-!
# What each operation of the facade layer does
-/
set_option autoImplicit false
set_option linter.unusedSimpArgs false
namespace Umpire.Mgr
open Umpire.Judy

def wpM {β : Type} (Pl : Nat → Nat → Prop) (m : M β) (rm : RM) (w : World) (Q : Option β → RM → World → Prop) : Prop :=
  MP.wp Pl (m rm) w fun x w' => Q x.1 x.2 w'

section
variable {Pl : Nat → Nat → Prop} {rm : RM} {w : World} {β γ : Type}

theorem wpM_bind {m : M β} {f : β → M γ} {Q : Option γ → RM → World → Prop}
    (h : wpM Pl m rm w fun o rm' w' => match o with
      | none => Q none rm' w'
      | some b => wpM Pl (f b) rm' w' Q) : wpM Pl (m >>= f) rm w Q := by
  apply MP.wp_bind
  refine MP.wp_mono h ?_
  rintro ⟨o, rm'⟩ w' hq
  cases o with
  | none => exact hq
  | some b => exact hq

theorem wpM_run {m : M β} {Q : Option β → RM → World → Prop} {o : Option β} {rm' : RM} {w' : World} (h : wpM Pl m rm w Q)
    (hr : MP.Run Pl (m rm) w (o, rm') w') : Q o rm' w' := MP.wp_run h hr

theorem wpM_pure {b : β} {Q : Option β → RM → World → Prop} (h : Q (some b) rm w) : wpM Pl (pure b) rm w Q := h

theorem wpM_throw {Q : Option β → RM → World → Prop} (h : Q none rm w) : wpM Pl (M.throw : M β) rm w Q := h

theorem wpM_mono {m : M β} {Q Q' : Option β → RM → World → Prop} (h : wpM Pl m rm w Q) (hq : ∀ o rm' w', Q o rm' w' → Q' o rm' w') :
    wpM Pl m rm w Q' := MP.wp_mono h fun _ _ h => hq _ _ _ h
end

def cap (n : Nat) : Nat := if n = 0 then 1 else n

theorem cap_pos (n : Nat) : 1 ≤ cap n := by unfold cap; split <;> omega
theorem le_cap (n : Nat) : n ≤ cap n := by unfold cap; split <;> omega

theorem blkOf_eq (p n s : Nat) : blkOf ⟨p, n, s⟩ = ⟨if n = 0 then zero else s, p, cap n⟩ := by
  unfold blkOf cap; dsimp only; split <;> rfl

def Ghost.reg (g : Ghost) (r : Rec) : Ghost := { g with live := r :: g.live }
def Ghost.hold (g : Ghost) (b : Blk) : Ghost := { g with un := b :: g.un }
def Ghost.free (g : Ghost) (p : Nat) : Ghost := { g with live := dropR p g.live }

/-- A successful `allocate(n)` through `s`. -/
def Ghost.alloc (c : Cfg) (g : Ghost) (s n p : Nat) : Ghost :=
  if c.tracked s then g.reg ⟨p, n, s⟩ else g.hold (blkOf ⟨p, n, s⟩)

section
variable {Pl : Nat → Nat → Prop} {B : Nat → Prop} {c : Cfg} {rm : RM} {w : World} {g : Ghost}

/-- Where strategies place blocks: with `B` one can exclude parts of the address space
from the alignment assumption. -/
def Aligned (Pl : Nat → Nat → Prop) (B : Nat → Prop) : Prop := ∀ s p, Pl s p → B (p / 256) → 8 ∣ p

theorem Ok.memw (h : Ok Pl B c rm w g) (m : Nat → Nat) : Ok Pl B c rm ⟨w.held, m⟩ g := ⟨h.mem.mem m, h.stat, h.kids⟩

theorem Ok.seek (h : Ok Pl B c rm w g) (p : Nat) : Ok Pl B c { rm with amap := (rm.amap.findRecord p).1 } w g :=
  ⟨h.mem.bytes w.mem (find_same _ p).1 (find_same _ p).2.1 (find_same _ p).2.2, h.stat, h.kids⟩

theorem find_spec {p : Nat} (h : Ok Pl B c rm w g) (hp : p < 2 ^ 64) {Q : Option Rec → RM → World → Prop}
    (hsome : ∀ r rm', r ∈ g.live → Contains r p → Ok Pl B c rm' w g → rm'.st = rm.st → Q (some r) rm' w)
    (hnone : ∀ rm', (∀ r ∈ g.live, r.ptr ≠ p) → (∀ r ∈ g.live, B (r.ptr / 256) → ¬Contains r p) → Ok Pl B c rm' w g → rm'.st = rm.st → Q none rm' w) :
    wpM Pl (find p) rm w Q := by
  show Q (rm.amap.findRecord p).2 { rm with amap := (rm.amap.findRecord p).1 } w
  have hs := h.mem.find_sound hp
  cases hf : (rm.amap.findRecord p).2 with
  | some r => exact hsome r _ (hs.1 r hf).1 (hs.1 r hf).2 (h.seek p) rfl
  | none =>
    refine hnone _ (fun r hr he => ?_) (fun r hr hb hc => ?_) (h.seek p) rfl
    · have := hs.2.1 r hr he; rw [hf] at this; cases this
    · have := hs.2.2 r hr hb hc; rw [hf] at this; cases this

/-- At the base of an allocation the lookup succeeds. -/
theorem find_base {r : Rec} (h : Ok Pl B c rm w g) (hr : r ∈ g.live) {Q : Option Rec → RM → World → Prop}
    (hsome : ∀ rm', Ok Pl B c rm' w g → rm'.st = rm.st → Q (some r) rm' w) : wpM Pl (find r.ptr) rm w Q := by
  have hp : r.ptr < 2 ^ 64 := by have := h.mem.rec_lt hr; omega
  have hs := (h.mem.find_sound hp).2.1 r hr rfl
  show Q (rm.amap.findRecord r.ptr).2 { rm with amap := (rm.amap.findRecord r.ptr).1 } w
  rw [hs]
  exact hsome _ (h.seek r.ptr) rfl

theorem Ok.alloc (h : Ok Pl B c rm w g) (ha : Aligned Pl B) {s n p : Nat} (hs : s ≠ zero) (hf : Fresh p (cap n) (ranges w.held))
    (hpl : Pl (if n = 0 then zero else s) p) (m : Nat → Nat) :
    (c.tracked s = true → Ok Pl B c { amap := rm.amap.insert p ⟨p, n, s⟩, st := bump rm.st s (·.add n) } ⟨blkOf ⟨p, n, s⟩ :: w.held, m⟩ (g.reg ⟨p, n, s⟩)) ∧
    Ok Pl B c rm ⟨blkOf ⟨p, n, s⟩ :: w.held, m⟩ (g.hold (blkOf ⟨p, n, s⟩)) := by
  have ht : MemOk Pl B c rm.amap ⟨blkOf ⟨p, n, s⟩ :: w.held, m⟩ g.live (blkOf ⟨p, n, s⟩ :: g.un) := by
    rw [blkOf_eq]
    refine h.mem.take hf (cap_pos n) ?_ hpl m
    intro hz
    by_cases hn : n = 0
    · simp [cap, hn]
    · rw [if_neg hn] at hz; exact absurd hz hs
  refine ⟨fun htr => ⟨ht.reg ⟨hs, htr⟩ fun hb => ha _ _ hpl hb, h.stat.alloc ⟨p, n, s⟩, h.kids⟩, ⟨ht, h.stat, h.kids⟩⟩

theorem allocate_spec {s n : Nat} (h : Ok Pl B c rm w g) (ha : Aligned Pl B) (hs : s ≠ zero) {Q : Option Nat → RM → World → Prop}
    (hok : ∀ p m rm', Fresh p (cap n) (ranges w.held) → Pl (if n = 0 then zero else s) p → Agree w.held w.mem m →
      Ok Pl B c rm' ⟨blkOf ⟨p, n, s⟩ :: w.held, m⟩ (g.alloc c s n p) → rm'.st = (if c.tracked s then bump rm.st s (·.add n) else rm.st) → Q (some p) rm' ⟨blkOf ⟨p, n, s⟩ :: w.held, m⟩)
    (hfail : ∀ m, Agree w.held w.mem m → Ok Pl B c rm ⟨w.held, m⟩ g → Q none rm ⟨w.held, m⟩) : wpM Pl (allocate c s n) rm w Q := by
  have key : ∀ p m, Fresh p (cap n) (ranges w.held) → Pl (if n = 0 then zero else s) p → Agree w.held w.mem m →
      wpM Pl (if c.tracked s then do inspReg p n s; return p else return p : M Nat) rm ⟨blkOf ⟨p, n, s⟩ :: w.held, m⟩ Q := by
    intro p m hf hpl hag
    have hA := h.alloc ha hs hf hpl m
    by_cases ht : c.tracked s = true
    · rw [if_pos ht]
      have hr : inspReg p n s rm = .ret (some (), { amap := rm.amap.insert p ⟨p, n, s⟩, st := bump rm.st s (·.add n) }) := by
        show (if p = 0 then _ else _) = _
        rw [if_neg hf.1]; rfl
      apply wpM_bind
      show MP.wp Pl (inspReg p n s rm) _ _
      rw [hr]
      exact hok p m _ hf hpl hag (by unfold Ghost.alloc; rw [if_pos ht]; exact hA.1 ht) (by rw [if_pos ht])
    · rw [if_neg ht]
      exact hok p m _ hf hpl hag (by unfold Ghost.alloc; rw [if_neg ht]; exact hA.2) (by rw [if_neg ht])
  unfold allocate
  apply wpM_bind
  unfold getBlock
  by_cases hn : n = 0
  · rw [if_pos hn]
    refine ⟨fun p m hf hpl hag => ?_, fun m hag => hfail m hag (h.memw m)⟩
    have := key p m (by rw [cap, if_pos hn]; exact hf) (by rw [if_pos hn]; exact hpl) hag
    rw [blkOf_eq, if_pos hn, cap, if_pos hn] at this
    exact this
  · rw [if_neg hn]
    refine ⟨fun p m hf hpl hag => ?_, fun m hag => hfail m hag (h.memw m)⟩
    have := key p m (by rw [cap, if_neg hn]; exact hf) (by rw [if_neg hn]; exact hpl) hag
    rw [blkOf_eq, if_neg hn, cap, if_neg hn] at this
    exact this

/-- Handing a held block that is not registered back. -/
theorem giveBack_spec {s : Nat} {b : Blk} {un : List Blk} {n : Option Nat} (h : Ok Pl B c rm w g) (hu : g.un.Perm (b :: un)) (ho : b.own = zero ∨ b.own = s)
    (hn : ∀ m, n = some m → b.own = s → b.own ≠ zero → b.size = m) {Q : Option Unit → RM → World → Prop}
    (hok : ∀ m, Agree (dropB b.ptr w.held) w.mem m → Ok Pl B c rm ⟨dropB b.ptr w.held, m⟩ { g with un := un } →
      Q (some ()) rm ⟨dropB b.ptr w.held, m⟩) : wpM Pl (giveBack s b.ptr n) rm w Q := by
  have hm := h.mem.permute (List.Perm.refl _) hu
  have hb := h.mem.un_held (hu.mem_iff.2 List.mem_cons_self)
  have hbk := h.mem.blk b hb
  apply wpM_bind
  intro x h1 h2
  have fin : ∀ m, Agree (dropB b.ptr w.held) w.mem m → Q (some ()) rm ⟨dropB b.ptr w.held, m⟩ :=
    fun m hag => hok m hag ⟨hm.give m, h.stat, h.kids⟩
  by_cases hz : b.own = zero
  · have hx := h1 ⟨b, hb, hz, Nat.le_refl _, by omega⟩
    subst hx
    exact ⟨⟨b, hb, hz, rfl, fun m hm => by injection hm with hm; rw [← hm]; exact hbk.2.2.2 hz⟩, fin⟩
  · have hx := h2 ⟨b, hb, hz, Nat.le_refl _, by omega⟩
    subst hx
    have ho' : b.own = s := ho.resolve_left hz
    exact ⟨⟨b, hb, ho', rfl, fun m hm => hn m hm ho' hz⟩, fin⟩

theorem inspDereg_hit {r : Rec} (h : Ok Pl B c rm w g) (hr : r ∈ g.live) {Q : Option Rec → RM → World → Prop}
    (hok : ∀ rm', Ok Pl B c rm' w ((g.free r.ptr).hold (blkOf r)) → rm'.st = bump rm.st r.tag (·.sub r.size) → Q (some r) rm' w) :
    wpM Pl (inspDereg r.ptr r.tag) rm w Q := by
  obtain ⟨a', h1, h2⟩ := h.mem.dereg hr
  apply wpM_bind
  show MP.wp Pl (match rm.amap.remove r.ptr with
    | .ok a r => MP.ret (some r, { rm with amap := a })
    | .throws a => .ret (none, { rm with amap := a })
    | .ub => .fail) _ _
  rw [h1]
  show wpM Pl (if r.tag = r.tag then _ else _) _ _ Q
  rw [if_pos rfl]
  exact hok _ ⟨h2, h.stat.free h.mem.liveNodup hr (h.bound r.tag), h.kids⟩ rfl

theorem inspDereg_miss {p s : Nat} (h : Ok Pl B c rm w g) (hp : p < 2 ^ 64) (hn : ∀ r ∈ g.live, ¬(r.ptr = p ∧ r.tag = s)) {Q : Option Rec → RM → World → Prop}
    (hok : ∀ rm', Ok Pl B c rm' w g → rm'.st = rm.st → Q none rm' w) : wpM Pl (inspDereg p s) rm w Q := by
  apply wpM_bind
  show MP.wp Pl (match rm.amap.remove p with
    | .ok a r => MP.ret (some r, { rm with amap := a })
    | .throws a => .ret (none, { rm with amap := a })
    | .ub => .fail) _ _
  by_cases hex : ∃ r ∈ g.live, r.ptr = p
  · obtain ⟨r, hr, rfl⟩ := hex
    obtain ⟨a', h1, h2⟩ := h.mem.dereg hr
    rw [h1]
    show wpM Pl (if r.tag = s then _ else _) _ _ Q
    have hne : r.tag ≠ s := fun he => hn r hr ⟨rfl, he⟩
    rw [if_neg hne]
    apply wpM_bind
    show MP.wp Pl (if r.ptr = 0 then _ else _) _ _
    rw [if_neg (h.mem.rec_lt hr).1]
    refine hok _ ⟨?_, h.stat, h.kids⟩ rfl
    exact (h2.reg (h.mem.tag r hr) (h.mem.al r hr)).permute (dropR_perm h.mem.liveNodup hr) (List.Perm.refl _)
  · have hex' : ∀ r ∈ g.live, r.ptr ≠ p := fun r hr he => hex ⟨r, hr, he⟩
    obtain ⟨a', h1, h2⟩ := h.mem.dereg_none hp hex'
    rw [h1]
    exact hok _ ⟨h2, h.stat, h.kids⟩ rfl

theorem deallocate_null {s : Nat} {Q : Option Unit → RM → World → Prop} (h : Q (some ()) rm w) : wpM Pl (deallocate c s 0) rm w Q := h

theorem deallocate_hit {r : Rec} (h : Ok Pl B c rm w g) (hr : r ∈ g.live) {Q : Option Unit → RM → World → Prop}
    (hok : ∀ m rm', Agree (dropB r.ptr w.held) w.mem m → Ok Pl B c rm' ⟨dropB r.ptr w.held, m⟩ (g.free r.ptr) →
      rm'.st = bump rm.st r.tag (·.sub r.size) → Q (some ()) rm' ⟨dropB r.ptr w.held, m⟩) : wpM Pl (deallocate c r.tag r.ptr) rm w Q := by
  unfold deallocate
  rw [if_neg (h.mem.rec_lt hr).1, if_pos (h.mem.tag r hr).2]
  apply wpM_bind
  apply inspDereg_hit h hr
  intro rm' h' hst
  dsimp only
  have := giveBack_spec (Pl := Pl) (s := r.tag) (b := blkOf r) (n := some r.size) (Q := Q) h' (List.Perm.refl _) ?_ ?_ ?_
  · rw [blkOf_ptr] at this; exact this
  · unfold blkOf; split
    · left; rfl
    · right; rfl
  · intro m hm ho hz
    injection hm with hm
    rw [← hm]
    unfold blkOf at hz ⊢
    split
    · rename_i h0; rw [if_pos h0] at hz; exact absurd rfl hz
    · rfl
  · rw [blkOf_ptr]
    intro m hag h2
    exact hok m rm' hag h2 hst

theorem deallocate_miss {s p : Nat} (h : Ok Pl B c rm w g) (ht : c.tracked s = true) (h0 : p ≠ 0) (hp : p < 2 ^ 64)
    (hn : ∀ r ∈ g.live, ¬(r.ptr = p ∧ r.tag = s)) {Q : Option Unit → RM → World → Prop}
    (hok : ∀ rm', Ok Pl B c rm' w g → rm'.st = rm.st → Q none rm' w) : wpM Pl (deallocate c s p) rm w Q := by
  unfold deallocate
  rw [if_neg h0, if_pos ht]
  apply wpM_bind
  exact inspDereg_miss h hp hn hok

/-- Untracked strategies trust the caller. -/
theorem deallocate_untracked {s : Nat} {b : Blk} {un : List Blk} (h : Ok Pl B c rm w g) (ht : c.tracked s = false) (hu : g.un.Perm (b :: un))
    (ho : b.own = zero ∨ b.own = s) {Q : Option Unit → RM → World → Prop}
    (hok : ∀ m, Agree (dropB b.ptr w.held) w.mem m → Ok Pl B c rm ⟨dropB b.ptr w.held, m⟩ { g with un := un } →
      Q (some ()) rm ⟨dropB b.ptr w.held, m⟩) : wpM Pl (deallocate c s b.ptr) rm w Q := by
  have hb := h.mem.blk b (h.mem.un_held (hu.mem_iff.2 List.mem_cons_self))
  unfold deallocate
  rw [if_neg hb.1, if_neg (by rw [ht]; decide)]
  exact giveBack_spec h hu ho (fun m hm => by cases hm) hok

/-- `Usable` for a part of a registered allocation. -/
theorem Ok.usable (h : Ok Pl B c rm w g) {r : Rec} (hr : r ∈ g.live) {p n : Nat} (hp : r.ptr ≤ p) (hn : p + n ≤ r.ptr + r.size) : Usable w.held p n := by
  by_cases h0 : n = 0
  · exact Or.inl h0
  · refine Or.inr ⟨blkOf r, h.mem.mem_held hr, ?_, ?_⟩
    · unfold blkOf; rw [if_neg (by omega)]; exact (h.mem.tag r hr).1
    · have := (blkOf_size r).1
      unfold Within; rw [blkOf_ptr]; omega

theorem memset_spec {p length : Nat} {v : Int} (h : Ok Pl B c rm w g) (hp : p < 2 ^ 64) {Q : Option Unit → RM → World → Prop}
    (hok : ∀ r rm', r ∈ g.live → Contains r p → Ok Pl B c rm' w g → rm'.st = rm.st →
      let size := r.size - (p - r.ptr)
      let len := if length = 0 then size else length
      (len ≤ size → Q (some ()) rm' ⟨w.held, filled w.mem p (byteOf v) len⟩) ∧ (size < len → Q none rm' w))
    (hnone : ∀ rm', (∀ r ∈ g.live, r.ptr ≠ p) → (∀ r ∈ g.live, B (r.ptr / 256) → ¬Contains r p) → Ok Pl B c rm' w g → rm'.st = rm.st → Q none rm' w) :
    wpM Pl (memset p v length) rm w Q := by
  apply wpM_bind
  apply find_spec h hp
  · intro r rm' hr hc hO hst
    have hk := hok r rm' hr hc hO hst
    dsimp only at hk ⊢
    generalize (if length = 0 then r.size - (p - r.ptr) else length) = len at hk ⊢
    split
    · rename_i hgt; exact hk.2 hgt
    · rename_i hle
      refine ⟨?_, hk.1 (by omega)⟩
      refine h.usable hr hc.1 ?_
      have h1 := hc.1
      have h2 := hc.2
      omega
  · exact hnone

theorem copy_spec {d s n : Nat} (h : Ok Pl B c rm w g) (hd : d < 2 ^ 64) (hs : s < 2 ^ 64) {Q : Option Unit → RM → World → Prop}
    (hok : ∀ rs rd rm', rs ∈ g.live → Contains rs s → rd ∈ g.live → Contains rd d → Ok Pl B c rm' w g → rm'.st = rm.st →
      let len := if n = 0 then rs.size - (s - rs.ptr) else n
      (len ≤ rd.size - (d - rd.ptr) → s + len ≤ rs.ptr + rs.size ∧ (len = 0 ∨ Disj d len s len) ∧
        Q (some ()) rm' ⟨w.held, copied w.mem d s len⟩) ∧
      (rd.size - (d - rd.ptr) < len → Q none rm' w))
    (hnone : ∀ rm', Ok Pl B c rm' w g → rm'.st = rm.st → 
      ((∀ r ∈ g.live, r.ptr ≠ s) ∧ (∀ r ∈ g.live, B (r.ptr / 256) → ¬Contains r s) ∨ (∀ r ∈ g.live, r.ptr ≠ d) ∧ (∀ r ∈ g.live, B (r.ptr / 256) → ¬Contains r d)) →
      Q none rm' w) :
    wpM Pl (copy d s n) rm w Q := by
  apply wpM_bind
  apply find_spec h hs
  · intro rs rm1 hrs hcs hO1 hst1
    apply wpM_bind
    apply find_spec hO1 hd
    · intro rd rm2 hrd hcd hO2 hst2
      have hk := hok rs rd rm2 hrs hcs hrd hcd hO2 (hst2.trans hst1)
      dsimp only at hk ⊢
      generalize (if n = 0 then rs.size - (s - rs.ptr) else n) = len at hk ⊢
      split
      · rename_i hgt; exact hk.2 hgt
      · rename_i hle
        have hk1 := hk.1 (by omega)
        refine ⟨⟨?_, ?_, hk1.2.1⟩, hk1.2.2⟩
        · refine h.usable hrd hcd.1 ?_
          have h1 := hcd.1
          have h2 := hcd.2
          omega
        · exact h.usable hrs hcs.1 hk1.1
    · intro rm2 hn1 hn2 hO2 hst2
      exact hnone rm2 hO2 (hst2.trans hst1) (Or.inr ⟨hn1, hn2⟩)
  · intro rm1 hn1 hn2 hO1 hst1
    exact hnone rm1 hO1 hst1 (Or.inl ⟨hn1, hn2⟩)
end
end Umpire.Mgr
