import Verif.Manager.Hist
/-!
# Calls that succeed when the strategy does
-/
set_option autoImplicit false
set_option linter.unusedSimpArgs false
namespace Umpire.Mgr
open Umpire.Judy

section
variable {Pl : Nat → Nat → Prop} {B : Nat → Prop} {c : Cfg} {rm : RM} {w : World} {g : Ghost}

theorem MP.Run.bindP {α β : Type} {p : MP α} {f : α → MP β} {w w1 w2 : World} {a : α} {b : β} (h1 : MP.Run Pl p w a w1) (h2 : MP.Run Pl (f a) w1 b w2) :
    MP.Run Pl (p.bind f) w b w2 := by
  induction h1 with
  | ret => exact h2
  | allocOk e1 e2 e3 _ ih => exact .allocOk e1 e2 e3 (ih h2)
  | allocFail e1 _ ih => exact .allocFail e1 (ih h2)
  | dealloc e1 e2 _ ih => exact .dealloc e1 e2 (ih h2)
  | reallocOk e1 e2 e3 e4 e5 _ ih => exact .reallocOk e1 e2 e3 e4 e5 (ih h2)
  | reallocFail e1 _ ih => exact .reallocFail e1 (ih h2)
  | fromZero e1 e2 _ ih => exact .fromZero e1 e2 (ih h2)
  | memcpy _ ih => exact .memcpy (ih h2)
  | memset _ ih => exact .memset (ih h2)

theorem run_bind {β γ : Type} {m : M β} {f : β → M γ} {b : β} {rm1 : RM} {w1 w2 : World} {r : Option γ × RM}
    (h1 : MP.Run Pl (m rm) w (some b, rm1) w1) (h2 : MP.Run Pl (f b rm1) w1 r w2) : MP.Run Pl ((m >>= f) rm) w r w2 :=
  MP.Run.bindP h1 h2

theorem agree_refl (H : List Blk) (m : Nat → Nat) : Agree H m m := fun _ _ _ _ _ => rfl

/-- When the strategy (or the zero-byte pool) gives `p`, the call returns `p`. -/
theorem allocate_can {s n p : Nat} (hf : Fresh p (cap n) (ranges w.held)) (hpl : Pl (if n = 0 then zero else s) p) :
    ∃ rm', MP.Run Pl (allocate c s n rm) w (some p, rm') ⟨blkOf ⟨p, n, s⟩ :: w.held, w.mem⟩ := by
  have hb : ∀ f : Nat → M Nat, ∀ r w', MP.Run Pl (f p rm) ⟨blkOf ⟨p, n, s⟩ :: w.held, w.mem⟩ r w' → MP.Run Pl ((getBlock s n >>= f) rm) w r w' := by
    intro f r w' h
    refine run_bind (b := p) (rm1 := rm) ?_ h
    unfold getBlock
    by_cases hn : n = 0
    · subst hn
      exact .allocOk (p := p) (m := w.mem) hf hpl (agree_refl _ _) .ret
    · rw [if_neg hn] at hpl ⊢
      have hc : cap n = n := by unfold cap; rw [if_neg hn]
      rw [hc] at hf
      rw [blkOf_eq, if_neg hn, hc]
      exact .allocOk (p := p) (m := w.mem) hf hpl (agree_refl _ _) .ret
  unfold allocate
  by_cases ht : c.tracked s = true
  · refine ⟨{ amap := rm.amap.insert p ⟨p, n, s⟩, st := bump rm.st s (·.add n) }, hb _ _ _ ?_⟩
    rw [if_pos ht]
    have hr : inspReg p n s rm = .ret (some (), { amap := rm.amap.insert p ⟨p, n, s⟩, st := bump rm.st s (·.add n) }) := by
      show (if p = 0 then _ else _) = _
      rw [if_neg hf.1]; rfl
    exact run_bind (b := ()) (rm1 := { amap := rm.amap.insert p ⟨p, n, s⟩, st := bump rm.st s (·.add n) }) (by rw [hr]; exact .ret) .ret
  · refine ⟨rm, hb _ _ _ ?_⟩
    rw [if_neg ht]
    exact .ret

theorem find_can {r : Rec} (h : Ok Pl B c rm w g) (hr : r ∈ g.live) :
    MP.Run Pl (find r.ptr rm) w (some r, { rm with amap := (rm.amap.findRecord r.ptr).1 }) w := by
  have hp : r.ptr < 2 ^ 64 := by have := h.mem.rec_lt hr; omega
  have hs := (h.mem.find_sound hp).2.1 r hr rfl
  show MP.Run Pl (.ret ((rm.amap.findRecord r.ptr).2, _)) w _ w
  rw [hs]
  exact .ret

theorem deallocate_can {r : Rec} (h : Ok Pl B c rm w g) (hr : r ∈ g.live) :
    ∃ rm', MP.Run Pl (deallocate c r.tag r.ptr rm) w (some (), rm') ⟨dropB r.ptr w.held, w.mem⟩ := by
  obtain ⟨a', h1, h2⟩ := h.mem.dereg hr
  have hbk := h.mem.mem_held hr
  have hb := h.mem.blk _ hbk
  refine ⟨{ amap := a', st := bump rm.st r.tag (·.sub r.size) }, ?_⟩
  unfold deallocate
  rw [if_neg (h.mem.rec_lt hr).1, if_pos (h.mem.tag r hr).2]
  refine run_bind (b := r) (rm1 := { amap := a', st := bump rm.st r.tag (·.sub r.size) }) (w1 := w) ?_ ?_
  · refine run_bind (b := r) (rm1 := { rm with amap := a' }) (w1 := w) ?_ ?_
    · show MP.Run Pl (match rm.amap.remove r.ptr with
        | .ok a r => MP.ret (some r, { rm with amap := a })
        | .throws a => .ret (none, { rm with amap := a })
        | .ub => .fail) _ _ _
      rw [h1]
      exact .ret
    · rw [if_pos rfl]
      exact .ret
  · unfold giveBack
    have hin : ∀ x ∈ w.held, x.ptr ≤ r.ptr → r.ptr < x.ptr + x.size → x = blkOf r := by
      intro x hx e1 e2
      by_cases he : x = blkOf r
      · exact he
      · have hd := pairwise_mem h.mem.disj (fun x y h => by unfold BDisj Disj at *; omega) hx hbk he
        have := blkOf_ptr r
        unfold BDisj Disj at hd
        omega
    by_cases hz : r.size = 0
    · refine run_bind (b := true) (rm1 := _) (w1 := w) (.fromZero (b := true) (fun _ => rfl) ?_ .ret) ?_
      · rintro ⟨x, hx, e0, e1, e2⟩
        have := hin x hx e1 e2
        subst this
        exact absurd (by unfold blkOf; rw [if_pos hz]) e0
      · exact .dealloc ⟨_, hbk, by unfold blkOf; rw [if_pos hz], by rw [blkOf_ptr], fun m hm => by injection hm with hm; rw [← hm]; unfold blkOf; rw [if_pos hz]⟩ (agree_refl _ _) .ret
    · have hown : (blkOf r) = ⟨r.tag, r.ptr, r.size⟩ := by unfold blkOf; rw [if_neg hz]
      refine run_bind (b := false) (rm1 := _) (w1 := w) (.fromZero (b := false) ?_ (fun _ => rfl) .ret) ?_
      · rintro ⟨x, hx, e0, e1, e2⟩
        have := hin x hx e1 e2
        subst this
        rw [hown] at e0
        exact absurd e0 (h.mem.tag r hr).1
      · exact .dealloc ⟨_, hbk, by rw [hown], by rw [hown], fun m hm => by injection hm with hm; rw [← hm, hown]⟩ (agree_refl _ _) .ret

theorem deallocateAny_can {r : Rec} (h : Ok Pl B c rm w g) (hr : r ∈ g.live) :
    ∃ rm', MP.Run Pl (deallocateAny c r.ptr rm) w (some (), rm') ⟨dropB r.ptr w.held, w.mem⟩ := by
  obtain ⟨rm', h1⟩ := deallocate_can (h.seek r.ptr) hr
  exact ⟨rm', run_bind (b := r.tag) (run_bind (b := r) (find_can h hr) .ret) h1⟩

/-- Copying at most the size of either allocation, from its beginning. -/
theorem copy_can {rs rd : Rec} {n : Nat} (h : Ok Pl B c rm w g) (hs : rs ∈ g.live) (hd : rd ∈ g.live) (hn : (if n = 0 then rs.size else n) ≤ rd.size) :
    ∃ rm' w', MP.Run Pl (copy rd.ptr rs.ptr n rm) w (some (), rm') w' ∧ w'.held = w.held ∧ Ok Pl B c rm' w' g := by
  have h1 := h.seek rs.ptr
  have h2 := h1.seek rd.ptr
  refine ⟨_, ⟨w.held, copied w.mem rd.ptr rs.ptr (if n = 0 then rs.size else n)⟩, run_bind (b := rs) (find_can h hs) (run_bind (b := rd) (find_can h1 hd) ?_), rfl, h2.memw (copied w.mem rd.ptr rs.ptr (if n = 0 then rs.size else n))⟩
  dsimp only
  rw [Nat.sub_self, Nat.sub_self, Nat.sub_zero, Nat.sub_zero, if_neg (by omega)]
  exact .memcpy .ret

/-- Allocate, copy, free. -/
theorem relocate_can {r : Rec} {s n sz q : Nat} {D : M Unit} (h : Ok Pl B c rm w g) (ha : Aligned Pl B) (hs : s ≠ zero) (ht : c.tracked s = true) (hr : r ∈ g.live)
    (hsz : (if sz = 0 then r.size else sz) ≤ n) (hf : Fresh q (cap n) (ranges w.held)) (hpl : Pl (if n = 0 then zero else s) q)
    (hD : ∀ rm w g, Ok Pl B c rm w g → r ∈ g.live → ∃ rm' w', MP.Run Pl (D rm) w (some (), rm') w') :
    ∃ rm' w', MP.Run Pl ((do let q ← allocate c s n; copy q r.ptr sz; D; return q : M Nat) rm) w (some q, rm') w' := by
  obtain ⟨rm1, h1⟩ := allocate_can (c := c) (rm := rm) hf hpl
  have hg1 : g.alloc c s n q = g.reg ⟨q, n, s⟩ := by unfold Ghost.alloc; rw [if_pos ht]
  have hO := wpM_run (Q := fun o rm' w' => o = some q → Ok Pl B c rm' w' (g.reg ⟨q, n, s⟩))
    (allocate_spec (n := n) h ha hs (fun p m rm' _ _ _ hk _ he => by injection he with he; subst he; rw [hg1] at hk; exact hk) (fun _ _ _ he => by cases he)) h1 rfl
  have hr1 : r ∈ (g.reg ⟨q, n, s⟩).live := List.mem_cons_of_mem _ hr
  have hq1 : (⟨q, n, s⟩ : Rec) ∈ (g.reg ⟨q, n, s⟩).live := List.mem_cons_self
  obtain ⟨rm2, w2, h2, _, hO2⟩ := copy_can hO hr1 hq1 hsz
  obtain ⟨rm3, w3, h3⟩ := hD rm2 w2 _ hO2 hr1
  exact ⟨rm3, w3, run_bind h1 (run_bind h2 (run_bind h3 .ret))⟩

theorem realloc_can {r : Rec} {n q : Nat} (h : Ok Pl B c rm w g) (ha : Aligned Pl B) (hr : r ∈ g.live) (hn : n ≠ 0)
    (hf : Fresh q n (ranges w.held)) (hpl : Pl r.tag q) :
    ∃ rm' w', MP.Run Pl ((if r.tag = c.host then hostRealloc c r.ptr r n else genericRealloc c r.ptr r n) rm) w (some q, rm') w' := by
  have htag := h.mem.tag r hr
  have hcap : cap n = n := by unfold cap; rw [if_neg hn]
  have rel : ∃ rm' w', MP.Run Pl ((do let q ← allocate c r.tag n; copy q r.ptr (if r.size > n then n else r.size); deallocate c r.tag r.ptr; return q : M Nat) rm) w (some q, rm') w' := by
    refine relocate_can h ha htag.1 htag.2 hr ?_ (by rw [hcap]; exact hf) (by rw [if_neg hn]; exact hpl) ?_
    · by_cases h1 : r.size > n
      · rw [if_pos h1, if_neg hn]; omega
      · rw [if_neg h1]; split <;> omega
    · intro rm w g hO hr
      obtain ⟨rm', h1⟩ := deallocate_can hO hr
      exact ⟨rm', _, h1⟩
  by_cases hh : r.tag = c.host
  · rw [if_pos hh]
    unfold hostRealloc
    by_cases hz : r.size = 0
    · rw [if_pos hz]; exact rel
    · rw [if_neg hz]
      have hbk : blkOf r = ⟨r.tag, r.ptr, r.size⟩ := by unfold blkOf; rw [if_neg hz]
      have hrb := h.mem.mem_held hr
      obtain ⟨a', h1, h2⟩ := h.mem.dereg hr
      refine ⟨{ amap := a'.insert q ⟨q, n, r.tag⟩, st := rm.st },
        ⟨⟨r.tag, q, n⟩ :: dropB r.ptr w.held, fun x => if q ≤ x ∧ x < q + n then w.mem (r.ptr + (x - q)) else w.mem x⟩,
        run_bind (b := r) (rm1 := { rm with amap := a' }) (w1 := w) ?_ ?_⟩
      · show MP.Run Pl (match rm.amap.remove r.ptr with
          | .ok a r => MP.ret (some r, { rm with amap := a })
          | .throws a => .ret (none, { rm with amap := a })
          | .ub => .fail) _ _ _
        rw [h1]
        exact .ret
      · refine run_bind (b := some q) (rm1 := { rm with amap := a' }) (w1 := ⟨⟨r.tag, q, n⟩ :: dropB r.ptr w.held, fun x => if q ≤ x ∧ x < q + n then w.mem (r.ptr + (x - q)) else w.mem x⟩) ?_ ?_
        · refine .reallocOk (q := q) ⟨blkOf r, hrb, by rw [hbk], by rw [hbk], fun m hm => by cases hm⟩ (fresh_drop hf) hpl ?_ ?_ .ret
          · intro b hb x e1 e2
            have := hf.2.2 (b.ptr, b.size) (List.mem_map_of_mem (f := fun b : Blk => (b.ptr, b.size)) (List.mem_filter.1 hb).1)
            unfold Disj at this
            dsimp only at this ⊢
            rw [if_neg (by omega)]
          · intro b _ hbp i hi _
            dsimp only
            rw [if_pos (by omega), Nat.add_sub_cancel_left]
        · dsimp only
          refine run_bind (b := ()) (rm1 := { amap := a'.insert q ⟨q, n, r.tag⟩, st := rm.st }) ?_ .ret
          show MP.Run Pl (if q = 0 then _ else _) _ _ _
          rw [if_neg hf.1]
          exact .ret
  · rw [if_neg hh]
    exact rel

end
end Umpire.Mgr
