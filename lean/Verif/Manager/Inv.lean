import Verif.Manager.Model
import Verif.Judy.Props
/-!
# Invariants of the facade layer
-/
set_option autoImplicit false
set_option linter.unusedSimpArgs false
namespace Umpire.Mgr
open Umpire.Judy

/-- The block a record stands for: a zero-byte allocation is one byte of the zero-byte pool. -/
def blkOf (r : Rec) : Blk := if r.size = 0 then ⟨zero, r.ptr, 1⟩ else ⟨r.tag, r.ptr, r.size⟩

def dropR (p : Nat) (L : List Rec) : List Rec := L.filter fun r => decide (r.ptr ≠ p)

def BDisj (a b : Blk) : Prop := Disj a.ptr a.size b.ptr b.size

theorem blkOf_ptr (r : Rec) : (blkOf r).ptr = r.ptr := by unfold blkOf; split <;> rfl
theorem blkOf_size (r : Rec) : r.size ≤ (blkOf r).size ∧ 1 ≤ (blkOf r).size := by
  unfold blkOf; split <;> dsimp only <;> omega

theorem key_perm {α : Type} (k : α → Nat) : ∀ {L : List α} {a : α}, (L.map k).Nodup → a ∈ L →
    (a :: L.filter fun x => decide (k x ≠ k a)).Perm L
  | x :: L, a, nd, h => by
    have nd' := List.nodup_cons.1 nd
    rcases List.mem_cons.1 h with rfl | h
    · rw [List.filter_cons, if_neg (by simp)]
      have : L.filter (fun x => decide (k x ≠ k a)) = L := by
        rw [List.filter_eq_self]
        intro y hy
        apply decide_eq_true
        intro he
        exact nd'.1 (he ▸ List.mem_map_of_mem hy)
      rw [this]
    · have hne : k x ≠ k a := fun he => nd'.1 (he ▸ List.mem_map_of_mem h)
      rw [List.filter_cons, if_pos (decide_eq_true hne)]
      exact (List.Perm.swap _ _ _).trans ((key_perm k nd'.2 h).cons x)

theorem dropR_perm {L : List Rec} {r : Rec} (nd : (L.map (·.ptr)).Nodup) (h : r ∈ L) : (r :: dropR r.ptr L).Perm L :=
  key_perm (fun r : Rec => r.ptr) nd h

theorem byPtr_perm {L L' : List Rec} (h : L.Perm L') (nd : (L.map (·.ptr)).Nodup) : byPtr L = byPtr L' := by
  funext p
  unfold byPtr
  have hp := h.filter (fun r : Rec => decide (r.ptr = p))
  have h1 : ∀ (M : List Rec), (M.map (·.ptr)).Nodup → (∀ x ∈ M, x.ptr = p) → M.length ≤ 1 := by
    intro M hM hx
    match M, hM, hx with
    | [], _, _ => simp
    | [x], _, _ => simp
    | x :: y :: M, hM, hx =>
      have := (List.nodup_cons.1 hM).1
      exact absurd (List.mem_map.2 ⟨y, List.mem_cons_self, (hx y (by simp)).trans (hx x (by simp)).symm⟩) this
  have l1 := h1 (L.filter fun r => decide (r.ptr = p)) (List.Sublist.nodup (List.Sublist.map _ List.filter_sublist) nd)
    (fun x hx => of_decide_eq_true (List.mem_filter.1 hx).2)
  cases hf : L.filter (fun r => decide (r.ptr = p)) with
  | nil => rw [hf] at hp; exact hp.symm.eq_nil.symm
  | cons x M =>
    rw [hf] at l1 hp
    have : M = [] := by
      simp only [List.length_cons] at l1
      exact List.length_eq_zero_iff.1 (by omega)
    subst this
    exact (List.perm_singleton.1 hp.symm).symm

theorem dropR_byPtr (p : Nat) (L : List Rec) (q : Nat) : byPtr (dropR p L) q = if q = p then [] else byPtr L q := by
  unfold byPtr dropR
  rw [List.filter_filter]
  by_cases h : q = p
  · rw [if_pos h, List.filter_eq_nil_iff]
    intro a _; simp; omega
  · rw [if_neg h]
    apply List.filter_congr
    intro a _
    simp only [Bool.and_eq_left_iff_imp, decide_eq_true_eq]
    intro he; omega

/-- The allocation map, the memory and the registered allocations belong together; `un`
are the blocks held without being registered. -/
structure MemOk (Pl : Nat → Nat → Prop) (B : Nat → Prop) (c : Cfg) (a : AMap) (w : World) (live : List Rec) (un : List Blk) : Prop where
  tab : AInv a (byPtr live) live.length
  leaf : NoLeafRadix B 8 a.map.root
  perm : w.held.Perm (live.map blkOf ++ un)
  disj : w.held.Pairwise BDisj
  blk : ∀ b ∈ w.held, b.ptr ≠ 0 ∧ 1 ≤ b.size ∧ b.ptr + b.size ≤ AMax ∧ (b.own = zero → b.size = 1)
  tag : ∀ r ∈ live, r.tag ≠ zero ∧ c.tracked r.tag = true
  al : ∀ r ∈ live, B (r.ptr / 256) → 8 ∣ r.ptr
  pl : ∀ b ∈ w.held, Pl b.own b.ptr

theorem ranges_disj {H : List Blk} (h : H.Pairwise BDisj) : (ranges H).Disjoint := by
  unfold ranges Held.Disjoint
  rw [List.pairwise_map]; exact h

theorem held_nodup {H : List Blk} (h : H.Pairwise BDisj) (hs : ∀ b ∈ H, 1 ≤ b.size) : (H.map (·.ptr)).Nodup := by
  rw [List.Nodup, List.pairwise_map]
  refine List.Pairwise.imp_of_mem ?_ h
  intro a b ha hb hd he
  have := hs a ha
  have := hs b hb
  unfold BDisj Disj at hd
  omega

section
variable {Pl : Nat → Nat → Prop} {B : Nat → Prop} {c : Cfg} {a : AMap} {w : World} {live : List Rec} {un : List Blk}

theorem MemOk.heldNodup (h : MemOk Pl B c a w live un) : (w.held.map (·.ptr)).Nodup :=
  held_nodup h.disj fun b hb => (h.blk b hb).2.1

theorem MemOk.allNodup (h : MemOk Pl B c a w live un) : ((live.map blkOf ++ un).map (·.ptr)).Nodup :=
  (h.perm.map _).nodup_iff.1 h.heldNodup

theorem MemOk.liveNodup (h : MemOk Pl B c a w live un) : (live.map (·.ptr)).Nodup := by
  have h1 := h.allNodup
  rw [List.map_append, List.map_map] at h1
  have h2 := (List.nodup_append.1 h1).1
  have e : (live.map ((fun b : Blk => b.ptr) ∘ blkOf)) = live.map (·.ptr) := by
    apply List.map_congr_left; intro r _; exact blkOf_ptr r
  rwa [e] at h2

theorem MemOk.mem_held (h : MemOk Pl B c a w live un) {r : Rec} (hr : r ∈ live) : blkOf r ∈ w.held :=
  h.perm.mem_iff.2 (List.mem_append_left _ (List.mem_map_of_mem hr))

theorem MemOk.un_held (h : MemOk Pl B c a w live un) {b : Blk} (hb : b ∈ un) : b ∈ w.held :=
  h.perm.mem_iff.2 (List.mem_append_right _ hb)

theorem MemOk.bdisj (h : MemOk Pl B c a w live un) {x y : Blk} (hx : x ∈ w.held) (hy : y ∈ w.held) (hne : x ≠ y) : BDisj x y :=
  pairwise_mem h.disj (fun _ _ => Disj.symm) hx hy hne

theorem contains_blk {r : Rec} {q : Nat} (h : Contains r q) : (blkOf r).ptr ≤ q ∧ q < (blkOf r).ptr + (blkOf r).size := by
  have := blkOf_size r
  have := h.1
  have := h.2
  rw [blkOf_ptr]
  omega

theorem MemOk.apart (h : MemOk Pl B c a w live un) : Apart live := by
  have hp : (live.map blkOf).Pairwise BDisj := by
    have := (h.perm.pairwise_iff (fun {x y} (h : BDisj x y) => (Disj.symm h : BDisj y x))).1 h.disj
    exact (List.pairwise_append.1 this).1
  rw [List.pairwise_map] at hp
  refine List.Pairwise.imp ?_ hp
  intro x y hd q hq
  have h1 := contains_blk hq.1
  have h2 := contains_blk hq.2
  unfold BDisj Disj at hd
  omega

theorem MemOk.rec_lt (h : MemOk Pl B c a w live un) {r : Rec} (hr : r ∈ live) : r.ptr ≠ 0 ∧ r.ptr + r.size < 2 ^ 64 := by
  have h1 := h.blk _ (h.mem_held hr)
  have h2 := blkOf_size r
  rw [blkOf_ptr] at h1
  have : AMax < 2 ^ 64 := by decide
  exact ⟨h1.1, by omega⟩

theorem MemOk.permute (h : MemOk Pl B c a w live un) {live' : List Rec} {un' : List Blk} (hl : live.Perm live') (hu : un.Perm un') :
    MemOk Pl B c a w live' un' := by
  refine ⟨?_, h.leaf, h.perm.trans ((hl.map _).append hu), h.disj, h.blk, fun r hr => h.tag r (hl.mem_iff.2 hr), fun r hr => h.al r (hl.mem_iff.2 hr), h.pl⟩
  have := h.tab
  rwa [byPtr_perm hl h.liveNodup, hl.length_eq] at this

/-- The cursor may move and the bytes may change. -/
theorem MemOk.bytes (h : MemOk Pl B c a w live un) {a' : AMap} (m : Nat → Nat) (h1 : a'.map.root = a.map.root)
    (h2 : a'.map.size = a.map.size) (h3 : a'.size = a.size) : MemOk Pl B c a' ⟨w.held, m⟩ live un :=
  ⟨ainv_same h.tab h1 h2 h3, by rw [h1]; exact h.leaf, h.perm, h.disj, h.blk, h.tag, h.al, h.pl⟩

theorem MemOk.mem (h : MemOk Pl B c a w live un) (m : Nat → Nat) : MemOk Pl B c a ⟨w.held, m⟩ live un := h.bytes m rfl rfl rfl

/-- A strategy has given out a block. -/
theorem MemOk.take (h : MemOk Pl B c a w live un) {s p n : Nat} (hf : Fresh p n (ranges w.held)) (hn : 1 ≤ n) (hz : s = zero → n = 1) (hp : Pl s p)
    (m : Nat → Nat) : MemOk Pl B c a ⟨⟨s, p, n⟩ :: w.held, m⟩ live (⟨s, p, n⟩ :: un) := by
  refine ⟨h.tab, h.leaf, ?_, ?_, ?_, h.tag, h.al, ?_⟩
  · exact (h.perm.cons _).trans List.perm_middle.symm
  · refine List.pairwise_cons.2 ⟨fun b hb => ?_, h.disj⟩
    exact hf.2.2 (b.ptr, b.size) (List.mem_map_of_mem (f := fun b : Blk => (b.ptr, b.size)) hb)
  · intro b hb
    rcases List.mem_cons.1 hb with rfl | hb
    · exact ⟨hf.1, hn, hf.2.1, hz⟩
    · exact h.blk b hb
  · intro b hb
    rcases List.mem_cons.1 hb with rfl | hb
    · exact hp
    · exact h.pl b hb

/-- The bytes a filter of eight-aligned addresses can have in a block. -/
theorem aligned_sparse {L : List Rec} (h : ∀ r ∈ L, B (r.ptr / 256) → 8 ∣ r.ptr) : SparseF B (byPtr L) := by
  intro b hb
  have : ((List.range 256).filter fun i => decide (byPtr L (256 * b + i) ≠ [])).length ≤ ((List.range 32).map (8 * ·)).length := by
    apply nodup_length_le
    · exact List.Sublist.nodup List.filter_sublist List.nodup_range
    · intro i hi
      obtain ⟨h1, h2⟩ := List.mem_filter.1 hi
      have h1 := List.mem_range.1 h1
      obtain ⟨r, hr⟩ := List.exists_mem_of_ne_nil _ (of_decide_eq_true h2)
      obtain ⟨r1, r2⟩ := List.mem_filter.1 hr
      have r2 := of_decide_eq_true r2
      have e : r.ptr / 256 = b := by rw [r2]; omega
      obtain ⟨k, hk⟩ := h r r1 (by rw [e]; exact hb)
      exact List.mem_map.2 ⟨i / 8, List.mem_range.2 (by omega), by omega⟩
  simp only [List.length_map, List.length_range] at this
  omega

/-- A held block is registered. -/
theorem MemOk.reg {r : Rec} (h : MemOk Pl B c a w live (blkOf r :: un)) (ht : r.tag ≠ zero ∧ c.tracked r.tag = true)
    (ha : B (r.ptr / 256) → 8 ∣ r.ptr) : MemOk Pl B c (a.insert r.ptr r) w (r :: live) un := by
  have hb := h.blk _ (h.un_held List.mem_cons_self)
  rw [blkOf_ptr] at hb
  have hlt : r.ptr < 2 ^ 64 := by
    have : AMax < 2 ^ 64 := by decide
    omega
  have hal : ∀ x ∈ r :: live, B (x.ptr / 256) → 8 ∣ x.ptr := by
    intro x hx
    rcases List.mem_cons.1 hx with rfl | hx
    · exact ha
    · exact h.al x hx
  have hi := ainv_insert h.tab hlt r
  rw [push_byPtr] at hi
  refine ⟨hi.1, hi.2 B h.leaf (aligned_sparse hal), h.perm.trans List.perm_middle, h.disj, h.blk, ?_, hal, h.pl⟩
  intro x hx
  rcases List.mem_cons.1 hx with rfl | hx
  · exact ht
  · exact h.tag x hx

/-- A registered block is deregistered. -/
theorem MemOk.dereg (h : MemOk Pl B c a w live un) {r : Rec} (hr : r ∈ live) :
    ∃ a', a.remove r.ptr = .ok a' r ∧ MemOk Pl B c a' w (dropR r.ptr live) (blkOf r :: un) := by
  have hlt : r.ptr < 2 ^ 64 := by have := h.rec_lt hr; omega
  have hp := dropR_perm h.liveNodup hr
  have hb : byPtr live r.ptr = [r] := by
    rw [← byPtr_perm hp ((hp.map _).nodup_iff.2 h.liveNodup)]
    have := dropR_byPtr r.ptr live r.ptr
    rw [if_pos rfl] at this
    unfold byPtr at this ⊢
    rw [List.filter_cons, if_pos (by simp), this]
  obtain ⟨a', h1, h2, _, h4⟩ := ainv_remove h.tab hb
  have hpop : pop (byPtr live) r.ptr = byPtr (dropR r.ptr live) := by
    funext q
    rw [dropR_byPtr]
    unfold pop
    rw [hb]; rfl
  have hlen : live.length - 1 = (dropR r.ptr live).length := by
    have := hp.length_eq
    simp only [List.length_cons] at this; omega
  refine ⟨a', h1, ⟨?_, h4 B h.leaf, ?_, h.disj, h.blk, ?_, ?_, h.pl⟩⟩
  · rw [hpop, hlen] at h2; exact h2
  · refine h.perm.trans (((hp.map blkOf).symm.append_right un).trans ?_)
    rw [List.map_cons, List.cons_append]
    exact List.perm_middle.symm
  · intro x hx; exact h.tag x (List.mem_filter.1 hx).1
  · intro x hx; exact h.al x (List.mem_filter.1 hx).1

theorem byPtr_nil {L : List Rec} {p : Nat} (h : ∀ r ∈ L, r.ptr ≠ p) : byPtr L p = [] := by
  unfold byPtr
  rw [List.filter_eq_nil_iff]
  intro r hr
  simpa using h r hr

theorem MemOk.dereg_none (h : MemOk Pl B c a w live un) {p : Nat} (hp : p < 2 ^ 64) (hn : ∀ r ∈ live, r.ptr ≠ p) :
    ∃ a', a.remove p = .throws a' ∧ MemOk Pl B c a' w live un := by
  obtain ⟨a', h1, h2, h3, h4⟩ := ainv_throws h.tab hp (byPtr_nil hn)
  exact ⟨a', h1, h.bytes w.mem h2 h3 h4⟩

theorem dropB_cons {b : Blk} {H : List Blk} (nd : (H.map (·.ptr)).Nodup) (h : b ∈ H) : (b :: dropB b.ptr H).Perm H :=
  key_perm (fun b : Blk => b.ptr) nd h

/-- A block that is not registered goes back to its strategy. -/
theorem MemOk.give {b : Blk} (h : MemOk Pl B c a w live (b :: un)) (m : Nat → Nat) : MemOk Pl B c a ⟨dropB b.ptr w.held, m⟩ live un := by
  have hp := dropB_cons h.heldNodup (h.un_held List.mem_cons_self)
  refine ⟨h.tab, h.leaf, ?_, List.Pairwise.filter _ h.disj, fun x hx => h.blk x (List.mem_filter.1 hx).1, h.tag, h.al, fun x hx => h.pl x (List.mem_filter.1 hx).1⟩
  have := hp.trans (h.perm.trans List.perm_middle)
  exact List.Perm.cons_inv this

/-- Looking up an address: a registered record that contains it; always for bases. -/
theorem MemOk.find_sound (h : MemOk Pl B c a w live un) {q : Nat} (hq : q < 2 ^ 64) :
    (∀ r, (a.findRecord q).2 = some r → r ∈ live ∧ Contains r q) ∧
    (∀ r ∈ live, r.ptr = q → (a.findRecord q).2 = some r) ∧
    (∀ r ∈ live, B (r.ptr / 256) → Contains r q → (a.findRecord q).2 = some r) :=
  ⟨(find_sound_of h.tab h.apart hq).1, (find_sound_of h.tab h.apart hq).2, find_of h.tab h.leaf h.apart hq⟩
end

/-! ## Statistics -/

def lsum (s : Nat) (L : List Rec) : Nat := ((L.filter fun r => decide (r.tag = s)).map (·.size)).sum
def lcount (s : Nat) (L : List Rec) : Nat := (L.filter fun r => decide (r.tag = s)).length

theorem lsum_perm {L L' : List Rec} (h : L.Perm L') (s : Nat) : lsum s L = lsum s L' := ((h.filter _).map _).sum_nat
theorem lcount_perm {L L' : List Rec} (h : L.Perm L') (s : Nat) : lcount s L = lcount s L' := (h.filter _).length_eq

theorem lsum_cons (s : Nat) (r : Rec) (L : List Rec) : lsum s (r :: L) = (if r.tag = s then r.size else 0) + lsum s L := by
  unfold lsum
  rw [List.filter_cons]
  by_cases h : r.tag = s <;> simp [h]

theorem lcount_cons (s : Nat) (r : Rec) (L : List Rec) : lcount s (r :: L) = (if r.tag = s then 1 else 0) + lcount s L := by
  unfold lcount
  rw [List.filter_cons]
  by_cases h : r.tag = s <;> simp [h, Nat.add_comm]

def upd {α : Type} (f : Nat → α) (s : Nat) (v : α) : Nat → α := fun t => if t = s then v else f t

/-- What the statistics of a strategy should account for besides its registered
allocations: the sizes of the blocks that child strategies hold (`kids`), and the
deviation caused by failed requests of children and by reallocation with `::realloc`
(`drift` in bytes, `cdrift` in allocations).  `exact s` says that the deviation of `s`
has always been zero. -/
structure Acct where
  kids : Nat → List Nat
  drift : Nat → Int
  cdrift : Nat → Nat
  exact : Nat → Bool

def Acct.new : Acct := ⟨fun _ => [], fun _ => 0, fun _ => 0, fun _ => true⟩

/-- A child obtains `n` bytes from `s`. -/
def Acct.kid (g : Acct) (s n : Nat) : Acct := { g with kids := upd g.kids s (n :: g.kids s) }

/-- A child asks `s` for `n` bytes in vain. -/
def Acct.kidFail (g : Acct) (s n : Nat) : Acct :=
  { g with drift := upd g.drift s (g.drift s + n), cdrift := upd g.cdrift s (g.cdrift s + 1), exact := upd g.exact s false }

/-- A child hands `n` bytes back, saying that they are `m` bytes. -/
def Acct.kidFree (g : Acct) (s n m : Nat) : Acct :=
  { g with kids := upd g.kids s ((g.kids s).erase n), drift := upd g.drift s (g.drift s + n - m), exact := upd g.exact s (g.exact s && decide (n = m)) }

/-- An allocation of `n` bytes becomes one of `m` bytes unnoticed. -/
def Acct.resize (g : Acct) (s n m : Nat) : Acct :=
  { g with drift := upd g.drift s (g.drift s + n - m), exact := upd g.exact s (g.exact s && decide (n = m)) }

/-- An allocation of `n` bytes disappears unnoticed. -/
def Acct.lose (g : Acct) (s n : Nat) : Acct :=
  { g with drift := upd g.drift s (g.drift s + n), cdrift := upd g.cdrift s (g.cdrift s + 1), exact := upd g.exact s false }

structure StatOk (st : Nat → Stat) (live : List Rec) (g : Acct) : Prop where
  cur : ∀ s, ((st s).cur : Int) = ((lsum s live : Int) + ((g.kids s).sum : Int) + g.drift s) % 18446744073709551616
  count : ∀ s, (st s).count = lcount s live + (g.kids s).length + g.cdrift s
  hwm : ∀ s, g.exact s = true → g.drift s = 0 ∧ g.cdrift s = 0 ∧ (st s).cur ≤ (st s).hwm

theorem Stat.add_hwm (t : Stat) (n : Nat) : (t.add n).cur ≤ (t.add n).hwm := by
  unfold Stat.add
  dsimp only
  split <;> omega

def bump (st : Nat → Stat) (s : Nat) (f : Stat → Stat) : Nat → Stat := fun t => if t = s then f (st t) else st t

theorem bump_same (st : Nat → Stat) (s : Nat) (f : Stat → Stat) : bump st s f s = f (st s) := if_pos rfl
theorem bump_ne {st : Nat → Stat} {s t : Nat} {f : Stat → Stat} (h : t ≠ s) : bump st s f t = st t := if_neg h
theorem upd_same {α : Type} (f : Nat → α) (s : Nat) (v : α) : upd f s v s = v := if_pos rfl
theorem upd_ne {α : Type} {f : Nat → α} {s t : Nat} {v : α} (h : t ≠ s) : upd f s v t = f t := if_neg h

theorem add_cur (t : Stat) (n : Nat) : ((t.add n).cur : Int) = ((t.cur : Int) + n) % 18446744073709551616 := by
  show ((w64 (t.cur + n) : Nat) : Int) = _
  unfold w64 W; omega

theorem sub_cur (t : Stat) (n : Nat) : ((t.sub n).cur : Int) = ((t.cur : Int) - n) % 18446744073709551616 := by
  show ((w64 (t.cur + (W - w64 n)) : Nat) : Int) = _
  unfold w64 W; omega

theorem StatOk.new : StatOk (fun _ => Stat.new) [] Acct.new :=
  ⟨fun _ => rfl, fun _ => rfl, fun _ _ => ⟨rfl, rfl, by decide⟩⟩

section
variable {st : Nat → Stat} {live : List Rec} {g : Acct}

theorem StatOk.permute (h : StatOk st live g) {live' : List Rec} (hp : live.Perm live') : StatOk st live' g :=
  ⟨fun s => by rw [← lsum_perm hp]; exact h.cur s, fun s => by rw [← lcount_perm hp]; exact h.count s, h.hwm⟩

theorem StatOk.alloc (h : StatOk st live g) (r : Rec) : StatOk (bump st r.tag (·.add r.size)) (r :: live) g := by
  refine ⟨fun s => ?_, fun s => ?_, fun s he => ?_⟩ <;> by_cases hs : s = r.tag
  · subst hs
    rw [bump_same, lsum_cons, if_pos rfl, add_cur, h.cur]
    omega
  · rw [bump_ne hs, lsum_cons, if_neg (Ne.symm hs), h.cur, Nat.zero_add]
  · subst hs
    rw [bump_same, lcount_cons, if_pos rfl]
    show (st r.tag).count + 1 = _
    rw [h.count]; omega
  · rw [bump_ne hs, lcount_cons, if_neg (Ne.symm hs), h.count, Nat.zero_add]
  · subst hs
    have h1 := h.hwm r.tag he
    rw [bump_same]
    exact ⟨h1.1, h1.2.1, Stat.add_hwm _ _⟩
  · rw [bump_ne hs]; exact h.hwm s he

theorem StatOk.free (h : StatOk st live g) {r : Rec} (nd : (live.map (·.ptr)).Nodup) (hr : r ∈ live)
    (hb : lsum r.tag live + (g.kids r.tag).sum < 18446744073709551616) : StatOk (bump st r.tag (·.sub r.size)) (dropR r.ptr live) g := by
  have h' := h.permute (dropR_perm nd hr).symm
  rw [lsum_perm (dropR_perm nd hr).symm] at hb
  generalize dropR r.ptr live = rest at *
  refine ⟨fun s => ?_, fun s => ?_, fun s he => ?_⟩ <;> by_cases hs : s = r.tag
  · subst hs
    have := h'.cur r.tag
    rw [lsum_cons, if_pos rfl] at this
    rw [bump_same, sub_cur, this]
    omega
  · have := h'.cur s
    rw [lsum_cons, if_neg (Ne.symm hs), Nat.zero_add] at this
    rw [bump_ne hs, this]
  · subst hs
    have := h'.count r.tag
    rw [lcount_cons, if_pos rfl] at this
    rw [bump_same]
    show (st r.tag).count - 1 = _
    omega
  · have := h'.count s
    rw [lcount_cons, if_neg (Ne.symm hs), Nat.zero_add] at this
    rw [bump_ne hs, this]
  · subst hs
    have h1 := h.hwm r.tag he
    rw [bump_same]
    refine ⟨h1.1, h1.2.1, ?_⟩
    show ((st r.tag).sub r.size).cur ≤ (st r.tag).hwm
    have h2 := h'.cur r.tag
    have h3 := h1.2.2
    have h4 := sub_cur (st r.tag) r.size
    rw [lsum_cons, if_pos rfl] at h2 hb
    rw [h1.1] at h2
    omega
  · rw [bump_ne hs]; exact h.hwm s he

theorem StatOk.kid (h : StatOk st live g) (s n : Nat) : StatOk (bump st s (·.add n)) live (g.kid s n) := by
  unfold Acct.kid
  refine ⟨fun t => ?_, fun t => ?_, fun t he => ?_⟩ <;> (try dsimp only) <;> by_cases hs : t = s
  · subst hs
    rw [bump_same, upd_same, add_cur, h.cur, List.sum_cons]
    omega
  · rw [bump_ne hs, upd_ne hs, h.cur]
  · subst hs
    rw [bump_same, upd_same]
    show (st t).count + 1 = _
    rw [h.count, List.length_cons]; omega
  · rw [bump_ne hs, upd_ne hs, h.count]
  · subst hs
    have h1 := h.hwm t he
    rw [bump_same]
    exact ⟨h1.1, h1.2.1, Stat.add_hwm _ _⟩
  · rw [bump_ne hs]; exact h.hwm t he

theorem StatOk.kidFail (h : StatOk st live g) (s n : Nat) : StatOk (bump st s (·.add n)) live (g.kidFail s n) := by
  unfold Acct.kidFail
  refine ⟨fun t => ?_, fun t => ?_, fun t he => ?_⟩ <;> (try dsimp only at *) <;> by_cases hs : t = s
  · subst hs
    rw [bump_same, upd_same, add_cur, h.cur]
    omega
  · rw [bump_ne hs, upd_ne hs, h.cur]
  · subst hs
    rw [bump_same, upd_same]
    show (st t).count + 1 = _
    rw [h.count]; omega
  · rw [bump_ne hs, upd_ne hs, h.count]
  · subst hs; rw [upd_same] at he; cases he
  · rw [upd_ne hs] at he
    rw [bump_ne hs, upd_ne hs, upd_ne hs]; exact h.hwm t he

theorem sum_erase {n : Nat} : ∀ {L : List Nat}, n ∈ L → (L.erase n).sum + n = L.sum := by
  intro L h
  have := (List.perm_cons_erase h).sum_nat
  rw [List.sum_cons] at this
  omega

theorem StatOk.kidFree (h : StatOk st live g) {s n m : Nat} (hn : n ∈ g.kids s)
    (hb : lsum s live + (g.kids s).sum < 18446744073709551616) : StatOk (bump st s (·.sub m)) live (g.kidFree s n m) := by
  unfold Acct.kidFree
  have hse := sum_erase hn
  refine ⟨fun t => ?_, fun t => ?_, fun t he => ?_⟩ <;> (try dsimp only at *) <;> by_cases hs : t = s
  · subst hs
    rw [bump_same, upd_same, upd_same, sub_cur, h.cur]
    omega
  · rw [bump_ne hs, upd_ne hs, upd_ne hs, h.cur]
  · subst hs
    rw [bump_same, upd_same, List.length_erase_of_mem hn]
    show (st t).count - 1 = _
    have := List.length_pos_of_mem hn
    rw [h.count]; omega
  · rw [bump_ne hs, upd_ne hs, h.count]
  · subst hs
    rw [upd_same, Bool.and_eq_true, decide_eq_true_eq] at he
    obtain ⟨he, rfl⟩ := he
    have h1 := h.hwm t he
    rw [bump_same, upd_same, h1.1]
    refine ⟨by omega, h1.2.1, ?_⟩
    show ((st t).sub n).cur ≤ (st t).hwm
    have h2 := h.cur t
    have h3 := h1.2.2
    have h4 := sub_cur (st t) n
    rw [h1.1] at h2
    omega
  · rw [upd_ne hs] at he
    rw [bump_ne hs, upd_ne hs]; exact h.hwm t he

theorem StatOk.resize {r : Rec} (h : StatOk st (r :: live) g) (q m : Nat) : StatOk st (⟨q, m, r.tag⟩ :: live) (g.resize r.tag r.size m) := by
  unfold Acct.resize
  refine ⟨fun t => ?_, fun t => ?_, fun t he => ?_⟩ <;> (try dsimp only at *) <;> by_cases hs : t = r.tag
  · subst hs
    have := h.cur r.tag
    rw [lsum_cons, if_pos rfl] at this
    rw [upd_same, lsum_cons, if_pos rfl]
    dsimp only
    omega
  · have := h.cur t
    rw [lsum_cons, if_neg (Ne.symm hs)] at this
    rw [upd_ne hs, lsum_cons, if_neg (Ne.symm hs), this]
  · have := h.count t
    rw [lcount_cons] at this ⊢
    exact this
  · have := h.count t
    rw [lcount_cons] at this ⊢
    exact this
  · subst hs
    rw [upd_same, Bool.and_eq_true, decide_eq_true_eq] at he
    have h1 := h.hwm r.tag he.1
    rw [upd_same, h1.1]
    exact ⟨by omega, h1.2⟩
  · rw [upd_ne hs] at he
    rw [upd_ne hs]; exact h.hwm t he

theorem StatOk.lose {r : Rec} (h : StatOk st (r :: live) g) : StatOk st live (g.lose r.tag r.size) := by
  unfold Acct.lose
  refine ⟨fun t => ?_, fun t => ?_, fun t he => ?_⟩ <;> (try dsimp only at *) <;> by_cases hs : t = r.tag
  · subst hs
    have := h.cur r.tag
    rw [lsum_cons, if_pos rfl] at this
    rw [upd_same]
    omega
  · have := h.cur t
    rw [lsum_cons, if_neg (Ne.symm hs), Nat.zero_add] at this
    rw [upd_ne hs, this]
  · subst hs
    have := h.count r.tag
    rw [lcount_cons, if_pos rfl] at this
    rw [upd_same, this]; omega
  · have := h.count t
    rw [lcount_cons, if_neg (Ne.symm hs), Nat.zero_add] at this
    rw [upd_ne hs, this]
  · subst hs; rw [upd_same] at he; cases he
  · rw [upd_ne hs] at he
    rw [upd_ne hs, upd_ne hs]; exact h.hwm t he
end

/-! ## Both together -/

/-- What the history says about the state: the registered allocations, the blocks held
without being registered, and the accounts. -/
structure Ghost where
  live : List Rec
  un : List Blk
  acct : Acct

def Ghost.new : Ghost := ⟨[], [], Acct.new⟩

structure Ok (Pl : Nat → Nat → Prop) (B : Nat → Prop) (c : Cfg) (rm : RM) (w : World) (g : Ghost) : Prop where
  mem : MemOk Pl B c rm.amap w g.live g.un
  stat : StatOk rm.st g.live g.acct
  kids : ∀ s, (g.acct.kids s).sum < AMax

theorem lsum_le (s : Nat) : ∀ L : List Rec, lsum s L ≤ ((L.map blkOf).map (·.size)).sum
  | [] => by simp [lsum]
  | r :: L => by
    rw [lsum_cons, List.map_cons, List.map_cons, List.sum_cons]
    have := lsum_le s L
    have := (blkOf_size r).1
    split <;> omega

theorem MemOk.lsum_le {Pl : Nat → Nat → Prop} {B : Nat → Prop} {c : Cfg} {a : AMap} {w : World} {live : List Rec} {un : List Blk} (h : MemOk Pl B c a w live un) (s : Nat) :
    lsum s live ≤ AMax := by
  have h1 := Mgr.lsum_le s live
  have h2 := (h.perm.map (·.size)).sum_nat
  rw [List.map_append, List.sum_append] at h2
  have h3 : ((ranges w.held).map (·.2)).sum ≤ AMax := by
    apply Held.sum_le (ranges_disj h.disj)
    intro r hr
    obtain ⟨b, hb, rfl⟩ := List.mem_map.1 hr
    have := h.blk b hb
    exact ⟨by show 0 < b.size; omega, this.2.2.1⟩
  have e : (ranges w.held).map (·.2) = w.held.map (·.size) := by
    unfold ranges; rw [List.map_map]; rfl
  rw [e] at h3
  omega

theorem Ok.bound {Pl : Nat → Nat → Prop} {B : Nat → Prop} {c : Cfg} {rm : RM} {w : World} {g : Ghost} (h : Ok Pl B c rm w g) (s : Nat) :
    lsum s g.live + (g.acct.kids s).sum < 18446744073709551616 := by
  have h1 := h.mem.lsum_le s
  have h2 := h.kids s
  unfold AMax at h1 h2
  omega

theorem Ok.new (Pl : Nat → Nat → Prop) (B : Nat → Prop) (c : Cfg) (m : Nat → Nat) : Ok Pl B c RM.new ⟨[], m⟩ Ghost.new := by
  refine ⟨⟨?_, ?_, ?_, ?_, ?_, ?_, ?_, ?_⟩, StatOk.new, fun _ => (by decide : 0 < AMax)⟩
  · exact ainv_new
  · trivial
  · exact List.Perm.refl _
  · exact List.Pairwise.nil
  · intro b hb; cases hb
  · intro r hr; cases hr
  · intro r hr; cases hr
  · intro r hr; cases hr

end Umpire.Mgr
