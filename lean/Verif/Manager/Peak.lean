import Verif.Manager.Hist
/-!
# The high watermark
-/
set_option autoImplicit false
set_option linter.unusedSimpArgs false
namespace Umpire.Mgr
open Umpire.Judy

/-- The bytes of strategy `x` that are in use after the calls `t`: those of its live
allocations and those of the blocks that strategies on top of it hold. -/
def inUse (c : Cfg) (x : Nat) (t : List Ev) : Nat :=
  (((ghost c t).live.filter fun r => decide (r.tag = x)).map (·.size)).sum + ((ghost c t).acct.kids x).sum

/-- Bytes of `x` in use at some time during a reallocation of the allocation at `p` of `s`
to `n` bytes: when it succeeds, the new allocation has existed besides the old one. -/
def twice (c : Cfg) (x : Nat) (t : List Ev) (s p n : Nat) (o : Option Nat) : Nat :=
  if p ≠ 0 ∧ n ≠ 0 ∧ o ≠ none ∧ s = x ∧ ∃ r ∈ (ghost c t).live, r.ptr = p ∧ r.tag = s then inUse c x t + n else 0

/-- Bytes of `x` in use at some time during the call `e` made after `t`. -/
def during (c : Cfg) (x : Nat) (t : List Ev) : Ev → Nat
  | .realloc s p n o => twice c x t s p n o
  | .reallocAny _ p n o => twice c x t x p n o
  | _ => 0

/-- The largest number of bytes of `x` that have been in use. -/
def peakOf (c : Cfg) (x : Nat) : List Ev → Nat
  | [] => 0
  | e :: t => max (peakOf c x t) (max (inUse c x (e :: t)) (during c x t e))

/-- How a high watermark changes when at most `d` bytes are in use meanwhile. -/
def Lift (a a' : Stat) (d : Nat) : Prop := a'.hwm = max a.hwm d ∨ d = 0 ∧ a'.hwm = max a.hwm a'.cur

theorem Lift.same {a a' : Stat} (h : a' = a) : Lift a a' 0 := Or.inl (by rw [h]; omega)

theorem Lift.eq {a a' : Stat} {d : Nat} (h : Lift a a' d) (hc : a'.cur ≤ a'.hwm) : a'.hwm = max a.hwm (max a'.cur d) := by
  rcases h with h | ⟨h1, h2⟩ <;> omega

theorem Lift.bump_add (st : Nat → Stat) (s n x : Nat) : Lift (st x) (bump st s (·.add n) x) 0 := by
  by_cases hx : x = s
  · subst hx
    rw [bump_same]
    refine Or.inr ⟨rfl, ?_⟩
    unfold Stat.add
    dsimp only
    split <;> omega
  · rw [bump_ne hx]; exact Lift.same rfl

theorem Lift.bump_sub (st : Nat → Stat) (s n x : Nat) : Lift (st x) (bump st s (·.sub n) x) 0 := by
  by_cases hx : x = s
  · subst hx
    rw [bump_same]
    exact Or.inl (by show (st x).hwm = _; omega)
  · rw [bump_ne hx]; exact Lift.same rfl

theorem Lift.sub_add (st : Nat → Stat) (s n m x : Nat) : Lift (st x) (bump (bump st s (·.sub n)) s (·.add m) x) 0 := by
  by_cases hx : x = s
  · subst hx
    rw [bump_same, bump_same]
    refine Or.inr ⟨rfl, ?_⟩
    show (if (((st x).sub n).add m).cur > (st x).hwm then (((st x).sub n).add m).cur else (st x).hwm) = max (st x).hwm (((st x).sub n).add m).cur
    split <;> omega
  · rw [bump_ne hx, bump_ne hx]; exact Lift.same rfl

section
variable {Pl : Nat → Nat → Prop} {B : Nat → Prop} {c : Cfg} {rm : RM} {w : World} {t : List Ev}

theorem allocate_lift {s n x : Nat} (h : Ok Pl B c rm w (ghost c t)) (ha : Aligned Pl B) (hs : s ≠ zero) :
    wpM Pl (allocate c s n) rm w fun _ rm' _ => Lift (rm.st x) (rm'.st x) 0 := by
  apply allocate_spec h ha hs
  · intro p m rm' _ _ _ _ hst
    rw [hst]
    split
    · exact Lift.bump_add ..
    · exact Lift.same rfl
  · intro m _ _; exact Lift.same rfl

theorem deallocate_lift {s p x : Nat} (h : Ok Pl B c rm w (ghost c t)) (ht : c.tracked s = true) (hp : p < 2 ^ 64) :
    wpM Pl (deallocate c s p) rm w fun _ rm' _ => Lift (rm.st x) (rm'.st x) 0 := by
  by_cases h0 : p = 0
  · subst h0
    exact deallocate_null (Lift.same rfl)
  · by_cases hit : ∃ r ∈ (ghost c t).live, r.ptr = p ∧ r.tag = s
    · obtain ⟨r, hr, rfl, rfl⟩ := hit
      apply deallocate_hit h hr
      intro m rm' _ _ hst
      rw [hst]; exact Lift.bump_sub ..
    · refine deallocate_miss h ht h0 hp (fun r hr he => hit ⟨r, hr, he⟩) fun rm' _ hst => ?_
      rw [hst]; exact Lift.same rfl

theorem twice_none {x s p n : Nat} (o : Option Nat) (h : ¬∃ r ∈ (ghost c t).live, r.ptr = p ∧ r.tag = s) : twice c x t s p n o = 0 := by
  unfold twice; rw [if_neg fun hh => h hh.2.2.2.2]

theorem twice_null {x s p n : Nat} : twice c x t s p n none = 0 := by
  unfold twice; rw [if_neg fun hh => hh.2.2.1 rfl]

theorem reallocImpl_lift {s p n x : Nat} (h : Ok Pl B c rm w (ghost c t)) (ha : Aligned Pl B) (hs : s ≠ zero) (hp : p < 2 ^ 64) (hx : x ≠ c.host)
    (hcur : (rm.st x).cur = inUse c x t) :
    wpM Pl (reallocImpl c p n s) rm w fun o rm' _ => Lift (rm.st x) (rm'.st x) (twice c x t s p n o) := by
  have z0 : p = 0 → ∀ o, twice c x t s p n o = 0 := fun h0 o => by unfold twice; rw [if_neg fun hh => hh.1 h0]
  have zn : n = 0 → ∀ o, twice c x t s p n o = 0 := fun h0 o => by unfold twice; rw [if_neg fun hh => hh.2.1 h0]
  unfold reallocImpl
  by_cases h0 : p = 0
  · rw [if_pos h0]
    simp only [z0 h0]
    exact allocate_lift h ha hs
  · rw [if_neg h0]
    apply wpM_bind
    apply find_spec h hp
    · intro r rm1 hr hc h1 hst1
      dsimp only
      by_cases hts : r.tag = s
      · rw [if_neg (by simpa using hts)]
        by_cases hn : n = 0
        · rw [if_pos hn]
          simp only [zn hn]
          subst hts
          apply wpM_bind
          by_cases he : p = r.ptr
          · subst he
            apply deallocate_hit h1 hr
            intro m rm2 _ h2 hst2
            dsimp only
            have : (ghost c t).free r.ptr = ghost c (.freeAny r.ptr true :: t) := rfl
            rw [this] at h2
            apply allocate_spec h2 ha hs
            · intro q m3 rm3 _ _ _ _ hst3
              rw [hst3, hst2, hst1]
              split
              · exact Lift.sub_add ..
              · exact Lift.bump_sub ..
            · intro m3 _ _
              rw [hst2, hst1]; exact Lift.bump_sub ..
          · have hno := h.interior hr hc he
            refine deallocate_miss h1 (h.mem.tag r hr).2 h0 hp (fun x hx hxp => hno x hx hxp.1) fun rm2 _ hst2 => ?_
            rw [hst2, hst1]; exact Lift.same rfl
        · rw [if_neg hn]
          by_cases he : p = r.ptr
          · rw [if_neg (by simpa using he)]
            subst he
            subst hts
            apply realloc_spec h1 ha hr hn
            · intro q m rm' _ _ _ hst
              rcases hst with ⟨hh, hst⟩ | ⟨hst, hb⟩
              · rw [hst x hx, hst1]
                unfold twice
                rw [if_neg fun hh' => hx (by rw [← hh'.2.2.2.1]; exact hh)]
                exact Lift.same rfl
              · rw [hst, hst1]
                by_cases hxr : x = r.tag
                · have hb := hb x
                  subst hxr
                  unfold twice
                  rw [if_pos ⟨h0, hn, by simp, rfl, r, hr, rfl, rfl⟩, bump_same, bump_same, ← hcur]
                  have hcur' : (rm.st r.tag).cur = lsum r.tag (ghost c t).live + ((ghost c t).acct.kids r.tag).sum := hcur
                  rw [lsum_cons, if_pos rfl] at hb
                  dsimp only at hb
                  left
                  show (if w64 ((rm.st r.tag).cur + n) > _ then w64 ((rm.st r.tag).cur + n) else _) = _
                  have : w64 ((rm.st r.tag).cur + n) = (rm.st r.tag).cur + n := by unfold w64 W; omega
                  rw [this]
                  split <;> omega
                · unfold twice
                  rw [if_neg fun hh' => hxr hh'.2.2.2.1.symm, bump_ne hxr, bump_ne hxr]
                  exact Lift.same rfl
            · intro m rm' _ hst _
              rw [hst, hst1, twice_null]
              exact Lift.same rfl
          · rw [if_pos he]
            have hno := h.interior hr hc he
            show Lift _ (rm1.st x) (twice c x t s p n none)
            rw [hst1, twice_null]
            exact Lift.same rfl
      · rw [if_pos hts]
        show Lift _ (rm1.st x) (twice c x t s p n none)
        rw [hst1, twice_null]
        exact Lift.same rfl
    · intro rm1 _ _ _ hst1
      rw [hst1, twice_null]
      exact Lift.same rfl

theorem reallocate_lift {d p n x : Nat} (h : Ok Pl B c rm w (ghost c t)) (ha : Aligned Pl B) (hs : d ≠ zero) (hp : p < 2 ^ 64) (hx : x ≠ c.host)
    (hcur : (rm.st x).cur = inUse c x t) :
    wpM Pl (reallocate c d p n) rm w fun o rm' _ => Lift (rm.st x) (rm'.st x) (twice c x t x p n o) := by
  unfold reallocate
  by_cases h0 : p = 0
  · rw [if_pos h0]
    refine wpM_mono (reallocImpl_lift h ha hs hp hx hcur) fun o rm' w' hl => ?_
    have z0 : ∀ s, twice c x t s p n o = 0 := fun s => by unfold twice; rw [if_neg fun hh => hh.1 h0]
    rw [z0] at hl ⊢
    exact hl
  · rw [if_neg h0]
    apply wpM_bind
    apply find_spec h hp
    · intro r rm1 hr hc h1 hst1
      dsimp only
      refine wpM_mono (reallocImpl_lift h1 ha (h.mem.tag r hr).1 hp hx (by rw [hst1]; exact hcur)) fun o rm' w' hl => ?_
      rw [hst1] at hl
      by_cases hrx : r.tag = x
      · rw [← hrx] at hl ⊢; exact hl
      · have e1 : twice c x t r.tag p n o = 0 := by unfold twice; rw [if_neg fun hh => hrx hh.2.2.2.1]
        have e2 : twice c x t x p n o = 0 := by
          apply twice_none
          rintro ⟨y, hy, rfl, hyt⟩
          have : y = r := apart_eq h.mem.apart hy hr (contains_base y) hc
          subst this
          exact hrx hyt
        rw [e1] at hl
        rw [e2]
        exact hl
    · intro rm1 _ _ _ hst1
      rw [hst1, twice_null]
      exact Lift.same rfl

theorem move_lift {p s x : Nat} (h : Ok Pl B c rm w (ghost c t)) (ha : Aligned Pl B) (hs : s ≠ zero) (ht : c.tracked s = true) (hp : p < 2 ^ 64) :
    wpM Pl (move c p s) rm w fun _ rm' _ => Lift (rm.st x) (rm'.st x) 0 := by
  by_cases hb : ∃ r ∈ (ghost c t).live, r.ptr = p ∧ r.tag ≠ s
  · obtain ⟨r, hr, rfl, hne⟩ := hb
    apply move_spec h ha hs ht hr hne
    · intro q m rm' _ _ _ hst
      rw [hst]
      by_cases hx : x = r.tag
      · have : bump (bump rm.st s (·.add r.size)) r.tag (·.sub r.size) x = bump rm.st r.tag (·.sub r.size) x := by
          subst hx
          rw [bump_same, bump_same, bump_ne hne]
        rw [this]; exact Lift.bump_sub ..
      · rw [bump_ne hx]; exact Lift.bump_add ..
    · intro m rm' hst _ _
      rw [hst]; exact Lift.same rfl
  · unfold move
    apply wpM_bind
    apply find_spec h hp
    · intro r rm1 hr hc h1 hst
      dsimp only
      by_cases hrs : r.tag = s
      · rw [if_pos hrs]
        show Lift _ (rm1.st x) 0
        rw [hst]; exact Lift.same rfl
      · rw [if_neg hrs]
        by_cases he : p = r.ptr
        · exact absurd ⟨r, hr, he.symm, hrs⟩ hb
        · rw [if_pos he]
          show Lift _ (rm1.st x) 0
          rw [hst]; exact Lift.same rfl
    · intro rm1 _ _ _ hst
      rw [hst]; exact Lift.same rfl

theorem deallocateAny_lift {p x : Nat} (h : Ok Pl B c rm w (ghost c t)) (hp : p < 2 ^ 64) :
    wpM Pl (deallocateAny c p) rm w fun _ rm' _ => Lift (rm.st x) (rm'.st x) 0 := by
  unfold deallocateAny getOwner
  apply wpM_bind
  apply wpM_bind
  apply find_spec h hp
  · intro r rm1 hr _ h1 hst
    dsimp only
    apply wpM_pure
    dsimp only
    rw [← hst]
    exact deallocate_lift h1 (h.mem.tag r hr).2 hp
  · intro rm1 _ _ _ hst
    rw [hst]; exact Lift.same rfl

theorem copy_st {d s n : Nat} {o : Option Unit} {rm' : RM} {w' : World} (hr : MP.Run Pl (copy d s n rm) w (o, rm') w') : rm'.st = rm.st := by
  unfold copy at hr
  simp only [bind, M.bind, find, MP.bind] at hr
  cases hf : (rm.amap.findRecord s).2 with
  | none => rw [hf] at hr; cases hr; rfl
  | some rs =>
    rw [hf] at hr
    dsimp only [MP.bind] at hr
    cases hf' : ((rm.amap.findRecord s).1.findRecord d).2 with
    | none => rw [hf'] at hr; cases hr; rfl
    | some rd =>
      rw [hf'] at hr
      dsimp only at hr
      by_cases hgt : (if n = 0 then rs.size - (s - rs.ptr) else n) > rd.size - (d - rd.ptr)
      · rw [if_pos hgt] at hr; cases hr; rfl
      · rw [if_neg hgt] at hr
        cases hr with
        | memcpy hr => cases hr; rfl

theorem inUse_le_peak (x : Nat) : inUse c x t ≤ peakOf c x t := by
  cases t with
  | nil => exact Nat.zero_le _
  | cons e t => unfold peakOf; omega

end
end Umpire.Mgr
