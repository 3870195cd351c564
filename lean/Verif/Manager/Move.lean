import Verif.Manager.Ops
/-!
# Reallocation and moves
-/
set_option autoImplicit false
set_option linter.unusedSimpArgs false
namespace Umpire.Mgr
open Umpire.Judy

section
variable {Pl : Nat → Nat → Prop} {B : Nat → Prop} {c : Cfg} {rm : RM} {w : World} {g : Ghost}

/-- `q` is where the contents of the allocation `r` are now, `n` bytes long. -/
def Carried (w : World) (r : Rec) (q n : Nat) (m : Nat → Nat) : Prop :=
  (∀ i, i < n → i < r.size → m (q + i) = w.mem (r.ptr + i)) ∧ Agree (dropB r.ptr w.held) w.mem m

/-- `D` deallocates `r`. -/
def Frees (Pl : Nat → Nat → Prop) (B : Nat → Prop) (c : Cfg) (r : Rec) (D : M Unit) : Prop :=
  ∀ rm w g (Q : Option Unit → RM → World → Prop), Ok Pl B c rm w g → r ∈ g.live →
    (∀ m rm', Agree (dropB r.ptr w.held) w.mem m → Ok Pl B c rm' ⟨dropB r.ptr w.held, m⟩ (g.free r.ptr) → rm'.st = bump rm.st r.tag (·.sub r.size) →
      Q (some ()) rm' ⟨dropB r.ptr w.held, m⟩) →
    wpM Pl D rm w Q

theorem frees_deallocate (r : Rec) : Frees Pl B c r (deallocate c r.tag r.ptr) :=
  fun _ _ _ _ h hr hok => deallocate_hit h hr hok

theorem frees_any (r : Rec) : Frees Pl B c r (deallocateAny c r.ptr) := by
  intro rm w g Q h hr hok
  unfold deallocateAny getOwner
  apply wpM_bind
  apply wpM_bind
  apply find_base h hr
  intro rm' h' hst
  show wpM Pl (deallocate c r.tag r.ptr) rm' w Q
  rw [← hst] at hok
  exact deallocate_hit h' hr hok

theorem fresh_ne {p n : Nat} {b : Blk} {H : List Blk} (hf : Fresh p n (ranges H)) (hn : 1 ≤ n) (hb : b ∈ H) (hs : 1 ≤ b.size) : p ≠ b.ptr := by
  have := hf.2.2 (b.ptr, b.size) (List.mem_map_of_mem (f := fun b : Blk => (b.ptr, b.size)) hb)
  unfold Disj at this
  dsimp only at this
  omega

theorem dropB_fresh {p q : Nat} {b : Blk} {H : List Blk} (hne : b.ptr ≠ p) (_ : b.ptr = q) : dropB p (b :: H) = b :: dropB p H := by
  unfold dropB
  rw [List.filter_cons, if_pos (decide_eq_true hne)]

/-- Allocate somewhere else, copy, free the old allocation. -/
theorem relocate_spec {r : Rec} {s n sz : Nat} {D : M Unit} (h : Ok Pl B c rm w g) (ha : Aligned Pl B) (hs : s ≠ zero) (ht : c.tracked s = true)
    (hr : r ∈ g.live) (hsz : (if sz = 0 then r.size else sz) = min r.size n) (hD : Frees Pl B c r D) {Q : Option Nat → RM → World → Prop}
    (hok : ∀ q m rm', Fresh q (cap n) (ranges w.held) → Carried w r q n m →
      Ok Pl B c rm' ⟨blkOf ⟨q, n, s⟩ :: dropB r.ptr w.held, m⟩ { g with live := ⟨q, n, s⟩ :: dropR r.ptr g.live } →
      rm'.st = bump (bump rm.st s (·.add n)) r.tag (·.sub r.size) → (∀ x, lsum x (⟨q, n, s⟩ :: g.live) + (g.acct.kids x).sum < 18446744073709551616) → Q (some q) rm' ⟨blkOf ⟨q, n, s⟩ :: dropB r.ptr w.held, m⟩)
    (hfail : ∀ m, Agree w.held w.mem m → Ok Pl B c rm ⟨w.held, m⟩ g → Q none rm ⟨w.held, m⟩) :
    wpM Pl (do let q ← allocate c s n; copy q r.ptr sz; D; return q : M Nat) rm w Q := by
  apply wpM_bind
  apply allocate_spec h ha hs
  · intro q m1 rm1 hf hpl hag h1 hst1
    rw [if_pos ht] at hst1
    have hg1 : g.alloc c s n q = g.reg ⟨q, n, s⟩ := by unfold Ghost.alloc; rw [if_pos ht]
    rw [hg1] at h1
    have hrb := h.mem.mem_held hr
    have hrs := h.mem.blk _ hrb
    have hq : q < 2 ^ 64 := by
      have := hf.2.1
      have h2 : AMax < 2 ^ 64 := by decide
      omega
    have hpr := h.mem.rec_lt hr
    have hne : q ≠ r.ptr := by
      have := fresh_ne hf (cap_pos n) hrb hrs.2.1
      rwa [blkOf_ptr] at this
    have hr1 : r ∈ (g.reg ⟨q, n, s⟩).live := List.mem_cons_of_mem _ hr
    have hq1 : (⟨q, n, s⟩ : Rec) ∈ (g.reg ⟨q, n, s⟩).live := List.mem_cons_self
    apply wpM_bind
    apply copy_spec h1 hq (by omega : r.ptr < 2 ^ 64)
    · intro rs rd rm2 hrs' hcs hrd hcd h2 hst2
      have e1 : rs = r := apart_eq h1.mem.apart hrs' hr1 hcs (contains_base r)
      have e2 : rd = ⟨q, n, s⟩ := apart_eq h1.mem.apart hrd hq1 hcd (contains_base (⟨q, n, s⟩ : Rec))
      subst e1; subst e2
      dsimp only
      rw [Nat.sub_self, Nat.sub_self, Nat.sub_zero, Nat.sub_zero, hsz]
      refine ⟨fun _ => ⟨by omega, ?_, ?_⟩, fun hlt => by omega⟩
      · by_cases hz : min rs.size n = 0
        · exact Or.inl hz
        · right
          have := hf.2.2 (rs.ptr, (blkOf rs).size) (by
            have := List.mem_map_of_mem (f := fun b : Blk => (b.ptr, b.size)) hrb
            rwa [blkOf_ptr] at this)
          have h3 := (blkOf_size rs).1
          have h4 := le_cap n
          unfold Disj at this ⊢
          dsimp only at this
          omega
      · apply wpM_bind
        apply hD _ _ _ _ (h2.memw _) hr1
        intro m3 rm3 hag3 h3 hst3
        apply wpM_pure
        dsimp only at hag3 h3 ⊢
        have ed : dropB rs.ptr (blkOf ⟨q, n, s⟩ :: w.held) = blkOf ⟨q, n, s⟩ :: dropB rs.ptr w.held := by
          apply dropB_fresh (q := q) _ (blkOf_ptr _)
          rw [blkOf_ptr]; exact hne
        have eg : (g.reg ⟨q, n, s⟩).free rs.ptr = { g with live := ⟨q, n, s⟩ :: dropR rs.ptr g.live } := by
          unfold Ghost.reg Ghost.free dropR
          dsimp only
          rw [List.filter_cons, if_pos (decide_eq_true hne)]
        rw [ed] at hag3 h3 ⊢
        rw [eg] at h3
        refine hok q m3 rm3 hf ⟨?_, ?_⟩ h3 (by rw [hst3, hst2, hst1]) h1.bound
        · intro i hi1 hi2
          have hb := blkOf_eq q n s
          have hc := le_cap n
          rw [hag3 _ List.mem_cons_self (q + i) (by rw [hb]; dsimp only; omega) (by rw [hb]; dsimp only; omega)]
          unfold copied
          rw [if_pos (by omega), show rs.ptr + (q + i - q) = rs.ptr + i by omega]
          have h5 := blkOf_ptr rs
          have h6 := (blkOf_size rs).1
          exact hag _ hrb _ (by omega) (by omega)
        · intro b hb x hx1 hx2
          have hb' := (List.mem_filter.1 hb).1
          rw [hag3 b (List.mem_cons_of_mem _ hb) x hx1 hx2]
          unfold copied
          rw [if_neg ?_]
          · exact hag b hb' x hx1 hx2
          · have := hf.2.2 (b.ptr, b.size) (List.mem_map_of_mem (f := fun b : Blk => (b.ptr, b.size)) hb')
            have h4 := le_cap n
            unfold Disj at this
            dsimp only at this
            omega
    · intro rm2 _ _ hno
      rcases hno with hno | hno
      · exact absurd rfl (hno.1 r hr1)
      · exact absurd rfl (hno.1 _ hq1)
  · exact hfail

/-- A successful reallocation of `r` to `n` bytes, giving `q`. -/
def Ghost.resized (c : Cfg) (g : Ghost) (r : Rec) (n q : Nat) : Ghost :=
  { g with live := ⟨q, n, r.tag⟩ :: dropR r.ptr g.live, acct := if r.tag = c.host ∧ r.size ≠ 0 then g.acct.resize r.tag r.size n else g.acct }

/-- A failed one: with `::realloc` the record is lost. -/
def Ghost.unresized (c : Cfg) (g : Ghost) (r : Rec) : Ghost :=
  if r.tag = c.host ∧ r.size ≠ 0 then { live := dropR r.ptr g.live, un := blkOf r :: g.un, acct := g.acct.lose r.tag r.size } else g

theorem fresh_drop {p n q : Nat} {H : List Blk} (hf : Fresh p n (ranges H)) : Fresh p n (ranges (dropB q H)) := by
  refine ⟨hf.1, hf.2.1, fun x hx => hf.2.2 x ?_⟩
  obtain ⟨b, hb, rfl⟩ := List.mem_map.1 hx
  exact List.mem_map_of_mem (f := fun b : Blk => (b.ptr, b.size)) (List.mem_filter.1 hb).1

theorem hostRealloc_big {r : Rec} {n : Nat} (h : Ok Pl B c rm w g) (ha : Aligned Pl B) (hr : r ∈ g.live) (hn : n ≠ 0) (hz : r.size ≠ 0) (hh : r.tag = c.host)
    {Q : Option Nat → RM → World → Prop}
    (hok : ∀ q m rm', Fresh q n (ranges (dropB r.ptr w.held)) → Carried w r q n m → rm'.st = rm.st →
      Ok Pl B c rm' ⟨blkOf ⟨q, n, r.tag⟩ :: dropB r.ptr w.held, m⟩ (g.resized c r n q) → Q (some q) rm' ⟨blkOf ⟨q, n, r.tag⟩ :: dropB r.ptr w.held, m⟩)
    (hfail : ∀ rm', rm'.st = rm.st → Ok Pl B c rm' w (g.unresized c r) → Q none rm' w) : wpM Pl (hostRealloc c r.ptr r n) rm w Q := by
  have htag := h.mem.tag r hr
  have hbk : blkOf r = ⟨r.tag, r.ptr, r.size⟩ := by unfold blkOf; rw [if_neg hz]
  have hrb := h.mem.mem_held hr
  obtain ⟨a', h1, h2⟩ := h.mem.dereg hr
  have hst := h.stat.permute (dropR_perm h.mem.liveNodup hr).symm
  unfold hostRealloc
  rw [if_neg hz]
  apply wpM_bind
  show MP.wp Pl (match rm.amap.remove r.ptr with
    | .ok a r => MP.ret (some r, { rm with amap := a })
    | .throws a => .ret (none, { rm with amap := a })
    | .ub => .fail) _ _
  rw [h1]
  show wpM Pl (cRealloc r.tag r.ptr n >>= _) _ _ Q
  apply wpM_bind
  refine ⟨⟨blkOf r, hrb, by rw [hbk], by rw [hbk], fun m hm => by cases hm⟩, ?_, ?_⟩
  · intro q m hf hpl hag hmv
    have hbq : blkOf ⟨q, n, r.tag⟩ = ⟨r.tag, q, n⟩ := by unfold blkOf; rw [if_neg hn]
    have h3 := h2.give w.mem
    rw [blkOf_ptr] at h3
    have h4 := h3.take (s := r.tag) hf (by omega) (fun hz => absurd hz htag.1) hpl m
    rw [← hbq] at h4
    have h5 := h4.reg htag (fun hb => ha _ _ hpl hb)
    show wpM Pl (register q ⟨q, n, r.tag⟩ >>= fun _ => pure q) _ _ Q
    apply wpM_bind
    show MP.wp Pl (if q = 0 then _ else _) _ _
    rw [if_neg hf.1, ← hbq]
    refine hok q m _ hf ⟨?_, hag⟩ rfl ⟨h5, ?_, fun s => ?_⟩
    · intro i hi1 hi2
      exact hmv _ hrb (blkOf_ptr r) i hi1 (by rw [hbk]; exact hi2)
    · unfold Ghost.resized
      rw [if_pos ⟨hh, hz⟩]
      exact hst.resize q n
    · unfold Ghost.resized
      rw [if_pos ⟨hh, hz⟩]
      exact h.kids s
  · refine hfail _ rfl ?_
    unfold Ghost.unresized
    rw [if_pos ⟨hh, hz⟩]
    exact ⟨h2, hst.lose, h.kids⟩

/-- `reallocate` of a registered allocation to a size other than zero. -/
theorem realloc_spec {r : Rec} {n : Nat} (h : Ok Pl B c rm w g) (ha : Aligned Pl B) (hr : r ∈ g.live) (hn : n ≠ 0)
    {Q : Option Nat → RM → World → Prop}
    (hok : ∀ q m rm', Fresh q n (ranges (dropB r.ptr w.held)) → Carried w r q n m →
      Ok Pl B c rm' ⟨blkOf ⟨q, n, r.tag⟩ :: dropB r.ptr w.held, m⟩ (g.resized c r n q) →
      (r.tag = c.host ∧ (∀ x, x ≠ c.host → rm'.st x = rm.st x) ∨
        rm'.st = bump (bump rm.st r.tag (·.add n)) r.tag (·.sub r.size) ∧ ∀ x, lsum x (⟨q, n, r.tag⟩ :: g.live) + (g.acct.kids x).sum < 18446744073709551616) →
      Q (some q) rm' ⟨blkOf ⟨q, n, r.tag⟩ :: dropB r.ptr w.held, m⟩)
    (hfail : ∀ m rm', Agree w.held w.mem m → rm'.st = rm.st → Ok Pl B c rm' ⟨w.held, m⟩ (g.unresized c r) → Q none rm' ⟨w.held, m⟩) :
    wpM Pl (if r.tag = c.host then hostRealloc c r.ptr r n else genericRealloc c r.ptr r n) rm w Q := by
  have htag := h.mem.tag r hr
  have hcap : cap n = n := by unfold cap; rw [if_neg hn]
  have rel : ¬(r.tag = c.host ∧ r.size ≠ 0) →
      wpM Pl (do let q ← allocate c r.tag n; copy q r.ptr (if r.size > n then n else r.size); deallocate c r.tag r.ptr; return q : M Nat) rm w Q := by
    intro hno
    apply relocate_spec h ha htag.1 htag.2 hr ?_ (frees_deallocate r)
    · intro q m rm' hf hc h' hst hb
      rw [hcap] at hf
      refine hok q m rm' (fresh_drop hf) hc ?_ (Or.inr ⟨hst, hb⟩)
      unfold Ghost.resized
      rw [if_neg hno]
      exact h'
    · intro m hag h'
      refine hfail m rm hag rfl ?_
      unfold Ghost.unresized
      rw [if_neg hno]
      exact h'
    · by_cases h1 : r.size > n
      · rw [if_pos h1, if_neg hn]; omega
      · rw [if_neg h1]
        split <;> omega
  by_cases hh : r.tag = c.host
  · rw [if_pos hh]
    by_cases hz : r.size = 0
    · unfold hostRealloc
      rw [if_pos hz]
      exact rel fun h => h.2 hz
    · apply hostRealloc_big h ha hr hn hz hh
      · intro q m rm' hf hc hst h'
        exact hok q m rm' hf hc h' (Or.inl ⟨hh, fun x _ => by rw [hst]⟩)
      · intro rm' hst h'
        exact hfail w.mem rm' (fun _ _ _ _ _ => rfl) hst h'
  · rw [if_neg hh]
    unfold genericRealloc
    exact rel fun h => hh h.1

end
end Umpire.Mgr
