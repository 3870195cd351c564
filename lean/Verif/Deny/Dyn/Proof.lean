import Verif.Deny.Dyn.Model
import Verif.Deny.Alloc
import Verif.DynPool.Ops
/-! # A `DynamicPoolList` whose parent refuses memory keeps its books of the memory (proofs) -/
set_option autoImplicit false
set_option linter.unusedSimpArgs false
namespace Umpire.Deny.Dyn
open Umpire DynPool Prog2
open Umpire.QuickPool (Chunk Inv Inv0 bsize start freeL usedL whole)

attribute [local irreducible] sub64 add64

/-! ## The invariant of `DynamicPoolList` and the base pointers -/

theorem own {a : Nat} {d : State} {O L : Held} (h : DInv a d O L) : O = d.baseMap.map (·.2) := by
  obtain ⟨q, hq, hr⟩ := h
  rw [hr.base]; exact hq.own

theorem keys {a : Nat} {d : State} {O L : Held} (h : DInv a d O L) : (d.baseMap.map (·.1)).Nodup := by
  obtain ⟨q, hq, hr⟩ := h
  rw [hr.base]; exact hq.keys

/-- The order of the base pointers does not matter. -/
theorem reorder {a : Nat} {d : State} {O L : Held} (h : DInv a d O L) {bm : List (Nat × Nat × Nat)} (hm : bm.Perm d.baseMap) :
    DInv a { d with baseMap := bm } (bm.map (·.2)) L := by
  have ho := own h
  obtain ⟨q, h, hr⟩ := h
  have hm : bm.Perm q.baseMap := by rw [← hr.base]; exact hm
  have hO : (bm.map (·.2)).Perm O := by rw [h.own]; exact hm.map _
  refine ⟨{ q with baseMap := bm }, ?_, ⟨hr.free, hr.used, hr.sorted, rfl, hr.aligned, hr.ahwm, hr.actual, hr.thwm, hr.rel, hr.total⟩⟩
  exact
    { blk := h.blk, ids := h.ids, idlt := h.idlt, sm := h.sm, sorted := h.sorted, pm := h.pm, own := rfl,
      keys := ((hm.map (·.1)).nodup_iff).2 h.keys, akey := fun e he => h.akey e (hm.mem_iff.1 he),
      bases := (hm.map (·.1)).trans h.bases, inside := fun b hb' e he hk => h.inside b hb' e (hm.mem_iff.1 he) hk,
      disj := (hO.pairwise_iff (fun hxy => Disj.symm hxy)).2 h.disj, range := fun r hr => h.range r (hO.mem_iff.1 hr),
      total := h.total, relBlocks := h.relBlocks, relBytes := h.relBytes, actual := h.actual, aligned := h.aligned,
      ahwm := h.ahwm, ahwmle := h.ahwmle, thwm := h.thwm, live := h.live, req := h.req }

/-- A whole free block (DynamicSizePool.hpp:225) without it. -/
def without (d : State) (kept bs : List Blk) (b : Blk) : State :=
  { d with
    actualBytes := d.actualBytes - b.size
    releasableBlocks := d.releasableBlocks - 1
    totalBlocks := d.totalBlocks - 1
    baseMap := d.baseMap.filter fun e => e.1 ≠ b.data
    free := kept ++ bs }

theorem free_whole {a : Nat} {d : State} {O L : Held} (h : DInv a d O L) {kept bs : List Blk} {b : Blk}
    (hd : d.free = kept ++ b :: bs) (hb : b.size = b.blockSize) :
    (∃ e ∈ d.baseMap, e.1 = b.data ∧ e.2.2 = b.size + a ∧ ∀ l ∈ L, Disj l.1 l.2 e.2.1 e.2.2) ∧ 0 < b.size ∧
      b.size ≤ d.actualBytes ∧ d.actualBytes ≤ AMax ∧ 1 ≤ d.releasableBlocks ∧ 1 ≤ d.totalBlocks ∧
      DInv a (without d kept bs b) ((without d kept bs b).baseMap.map (·.2)) L := by
  obtain ⟨q, hq, hrel⟩ := h
  obtain ⟨c, hc, hf, hcb⟩ := hrel.chunk_of_free (b := b) (by rw [hd]; simp)
  have hwi := whole_iff hq hc
  rw [hcb] at hwi
  have hw := hwi.1 hb
  obtain ⟨B1, B2, hbs⟩ := QuickPool.whole_decomp hq hc hw
  have hbm : [c] ∈ q.blocks := by rw [hbs]; simp
  obtain ⟨e, he, hk, hO, hbf⟩ := hq.base_find hbm
  have hk : e.1 = c.data := hk
  have hin := hq.inside [c] hbm e he hk
  have hbd : b.data = c.data := by rw [← hcb]; rfl
  have hbsz : b.size = c.size := by rw [← hcb]; rfl
  have hm : c ∈ q.blocks.flatten.filter whole := List.mem_filter.2 ⟨hc, by simp [whole, hw, hf]⟩
  refine ⟨⟨e, by rw [hrel.base]; exact he, hk.trans hbd.symm, ?_, fun l hl => hq.live_disj_block hc hf hw he hk hl⟩, ?_, ?_, ?_, ?_, ?_, ?_⟩
  · have := hin.2
    simp only [QuickPool.bsize_cons, QuickPool.bsize_nil] at this
    omega
  · rw [hbsz]; exact hq.pos_of hc
  · rw [hrel.actual, hq.actual, hbs]; simp; omega
  · rw [hrel.actual]; exact QuickPool.Inv.actual_le hq
  · rw [hrel.rel, hq.relBlocks]; exact List.length_pos_of_mem hm
  · rw [hrel.total, hq.total, hbs]; simp; omega
  · have hinv := QuickPool.dropBlock_inv hq hc hw hf he hk
    have hr2 := drop_sim hq hrel hc hw hf (kept := kept) (bs := bs) (by rw [hcb]; exact hd)
    rw [← hbsz, ← hbd] at hr2
    have hI : DInv a (without d kept bs b) (drop e.2.1 O) L := ⟨_, hinv, hr2⟩
    have := own hI
    rwa [this] at hI

/-! ## The invariant -/

/-- What the counters would be if nothing had been refused. -/
structure Cnt where
  act : Nat
  hwm : Nat
  rel : Nat
  tot : Nat

/-- The pool as it would be if the blocks whose base pointer was forgotten (`lost`) were still known and the counters were right. -/
def fix (d : State) (lost : List (Nat × Nat × Nat)) (k : Cnt) : State :=
  { d with baseMap := d.baseMap ++ lost, actualBytes := k.act, actualHwm := k.hwm, releasableBlocks := k.rel, totalBlocks := k.tot }

/-- The memory of a pool: `lost` are the blocks it still uses but can no longer give back, `leaked` those it forgot. -/
structure InvM (a : Nat) (d : State) (M : Mem) (L : Held) (lost : List (Nat × Nat × Nat)) (leaked : Held) (k : Cnt) : Prop where
  core : DInv a (fix d lost k) ((d.baseMap ++ lost).map (·.2)) L
  held : M.held.Perm ((d.baseMap ++ lost).map (·.2) ++ leaked)
  disj : M.held.Disjoint
  range : ∀ r ∈ M.held, r.1 ≠ 0 ∧ 0 < r.2 ∧ r.1 + r.2 ≤ AMax
  ref : M.refused.Perm (lost.map (·.2) ++ leaked)
  big : ∀ r ∈ leaked, a < r.2

/-- How far the counters of a pool are off. -/
structure Off (d : State) (k : Cnt) (db dn : Nat) : Prop where
  act : w64 (d.actualBytes + db) = w64 k.act
  tot : w64 (d.totalBlocks + dn) = w64 k.tot
  rel : w64 (d.releasableBlocks + dn) = w64 k.rel
  lt : d.actualBytes < W

/-- They are off by what was refused, if the parent takes `nullptr`. -/
def Drift (a : Nat) (d : State) (M : Mem) (k : Cnt) : Prop :=
  ∃ db dn, Off d k db dn ∧ (M.nulls = false → db = (M.refused.map fun r => r.2 - a).sum ∧ dn = M.refused.length)

theorem InvM.keys {a : Nat} {d : State} {M : Mem} {L : Held} {lost : List (Nat × Nat × Nat)} {leaked : Held} {k : Cnt}
    (h : InvM a d M L lost leaked k) : ((d.baseMap ++ lost).map (·.1)).Nodup := Dyn.keys h.core

/-- Nothing that was refused is among the known base pointers. -/
theorem InvM.not_ref {a : Nat} {d : State} {M : Mem} {L : Held} {lost : List (Nat × Nat × Nat)} {leaked : Held} {k : Cnt}
    (h : InvM a d M L lost leaked k) {e : Nat × Nat × Nat} (he : e ∈ d.baseMap) : e.2 ∉ M.refused := by
  intro hr
  have hd : Held.Disjoint ((d.baseMap.map (·.2)) ++ (lost.map (·.2) ++ leaked)) := by
    have := (h.held.pairwise_iff (fun hxy => Disj.symm hxy)).1 h.disj
    simpa [Held.Disjoint] using this
  have h1 : e.2 ∈ d.baseMap.map (·.2) := List.mem_map_of_mem he
  have h2 : e.2 ∈ lost.map (·.2) ++ leaked := h.ref.mem_iff.1 hr
  have h3 := (List.pairwise_append.1 hd).2.2 _ h1 _ h2
  have h4 := h.range e.2 (h.held.mem_iff.2 (by simp; exact Or.inl ⟨e.1, he⟩))
  unfold Disj at h3
  omega

/-- What was refused is still held. -/
theorem InvM.ref_held {a : Nat} {d : State} {M : Mem} {L : Held} {lost : List (Nat × Nat × Nat)} {leaked : Held} {k : Cnt}
    (h : InvM a d M L lost leaked k) {r : Nat × Nat} (hr : r ∈ M.refused) : r ∈ M.held := by
  refine h.held.mem_iff.2 ?_
  rcases List.mem_append.1 (h.ref.mem_iff.1 hr) with hr | hr
  · rw [List.map_append]; exact List.mem_append_left _ (List.mem_append_right _ hr)
  · exact List.mem_append_right _ hr

/-! ## The steps of `freeReleasedBlocks` -/

/-- The counters after a whole block was given back. -/
def Cnt.less (k : Cnt) (n : Nat) : Cnt := ⟨k.act - n, k.hwm, k.rel - 1, k.tot - 1⟩

/-- The counters before the parent is called (DynamicSizePool.hpp:228-230). -/
def less (d : State) (n : Nat) : State :=
  { d with
    actualBytes := sub64 d.actualBytes n
    releasableBlocks := sub64 d.releasableBlocks 1
    totalBlocks := sub64 d.totalBlocks 1 }

/-- A whole block leaves the pool and its base pointer is forgotten. -/
def gone (d : State) (kept bs : List Blk) (b : Blk) : State :=
  { less d b.size with baseMap := d.baseMap.filter fun e => e.1 ≠ b.data, free := kept ++ bs }

section Step
variable {a : Nat} {d : State} {M : Mem} {L : Held} {lost : List (Nat × Nat × Nat)} {leaked : Held} {k : Cnt}
variable {kept bs : List Blk} {b : Blk}

theorem gone_core (h : InvM a d M L lost leaked k) (hd : d.free = kept ++ b :: bs) (hb : b.size = b.blockSize) :
    DInv a (fix (gone d kept bs b) (lost.filter fun x => decide (x.1 ≠ b.data)) (k.less b.size))
      (((gone d kept bs b).baseMap ++ (lost.filter fun x => decide (x.1 ≠ b.data))).map (·.2)) L := by
  have h1 := (free_whole h.core (kept := kept) (bs := bs) hd hb).2.2.2.2.2.2
  have h2 : without (fix d lost k) kept bs b = fix (gone d kept bs b) (lost.filter fun x => decide (x.1 ≠ b.data)) (k.less b.size) := by
    simp only [without, fix, gone, less, Cnt.less, List.filter_append]
  rw [h2] at h1
  exact h1

theorem base_perm (h : InvM a d M L lost leaked k) {e : Nat × Nat × Nat} (he : e ∈ d.baseMap ++ lost) (hk : e.1 = b.data) :
    ((d.baseMap ++ lost).map (·.2)).Perm
      (e.2 :: ((gone d kept bs b).baseMap ++ (lost.filter fun x => decide (x.1 ≠ b.data))).map (·.2)) := by
  have := (perm_key h.keys he hk).map (·.2)
  rwa [List.filter_append] at this

theorem lost_same (h : InvM a d M L lost leaked k) {e : Nat × Nat × Nat} (he : e ∈ d.baseMap) (hk : e.1 = b.data) :
    (lost.filter fun x => decide (x.1 ≠ b.data)) = lost := by
  rw [List.filter_eq_self]
  intro x hx
  simp only [ne_eq, decide_not, Bool.not_eq_eq_eq_not, Bool.not_true, decide_eq_false_iff_not]
  intro hxc
  have hn := h.keys
  rw [List.map_append, List.nodup_append] at hn
  exact hn.2.2 e.1 (List.mem_map_of_mem he) x.1 (List.mem_map_of_mem hx) (hk.trans hxc.symm)

/-- The parent took the block back. -/
theorem step_ok (h : InvM a d M L lost leaked k) (hd : d.free = kept ++ b :: bs) (hb : b.size = b.blockSize)
    {e : Nat × Nat × Nat} (he : e ∈ d.baseMap) (hk : e.1 = b.data) :
    InvM a (gone d kept bs b) (M.back e.2.1 e.2.2 true) L lost leaked (k.less b.size) := by
  have he' : e ∈ d.baseMap ++ lost := List.mem_append_left _ he
  have h1 := gone_core h hd hb
  have h2 := base_perm (kept := kept) (bs := bs) (b := b) h he' hk
  rw [lost_same h he hk] at h1 h2
  have hp : ∀ r ∈ M.held, 0 < r.2 := fun r hr => (h.range r hr).2.1
  refine ⟨h1, ?_, h.disj.drop _, fun r hr => h.range r (drop_sub r hr), h.ref, h.big⟩
  exact perm_drop (h.held.trans ((h2.append_right leaked).trans (.of_eq rfl))) h.disj hp

/-- The parent refused the block, and the exception leaves `freeReleasedBlocks`. -/
theorem step_refused (h : InvM a d M L lost leaked k) (hd : d.free = kept ++ b :: bs) {e : Nat × Nat × Nat} (he : e ∈ d.baseMap) (hk : e.1 = b.data) :
    InvM a { less d b.size with baseMap := d.baseMap.filter fun x => x.1 ≠ b.data, free := kept ++ b :: bs }
      (M.back e.2.1 e.2.2 false) L (e :: lost) leaked k := by
  have hn := h.keys
  rw [List.map_append, List.nodup_append] at hn
  have hp : ((d.baseMap.filter fun x => decide (x.1 ≠ b.data)) ++ e :: lost).Perm (d.baseMap ++ lost) :=
    (List.perm_middle.trans ((perm_key hn.1 he hk).symm.append_right lost))
  have hne : e.2.1 ≠ 0 := by
    refine (h.range e.2 (h.held.mem_iff.2 ?_)).1
    simp; exact Or.inl ⟨e.1, he⟩
  refine ⟨?_, h.held.trans (((hp.map (·.2)).append_right leaked).symm), h.disj, h.range, ?_, h.big⟩
  · have := reorder h.core hp
    simp only [fix, less, ← hd] at this ⊢
    exact this
  · simp only [Mem.back, if_neg hne, List.map_cons]
    exact h.ref.cons _

theorem big_cons (h : InvM a d M L lost leaked k) (hd : d.free = kept ++ b :: bs) (hb : b.size = b.blockSize)
    {e : Nat × Nat × Nat} (he : e ∈ d.baseMap ++ lost) (hk : e.1 = b.data) : ∀ r ∈ e.2 :: leaked, a < r.2 := by
  intro r hr
  rcases List.mem_cons.1 hr with rfl | hr
  · obtain ⟨⟨e', he', hk', hs, _⟩, hp, _⟩ := free_whole h.core (kept := kept) (bs := bs) hd hb
    have : e' = e := nodup_map_inj h.keys he' he (hk'.trans hk.symm)
    subst this
    omega
  · exact h.big r hr

/-- The parent refused the block, and the destructor goes on. -/
theorem step_destroyed (h : InvM a d M L lost leaked k) (hd : d.free = kept ++ b :: bs) (hb : b.size = b.blockSize)
    {e : Nat × Nat × Nat} (he : e ∈ d.baseMap) (hk : e.1 = b.data) :
    InvM a (gone d kept bs b) (M.back e.2.1 e.2.2 false) L lost (e.2 :: leaked) (k.less b.size) := by
  have h0 := step_ok h hd hb he hk
  have hne : e.2.1 ≠ 0 := by
    refine (h.range e.2 (h.held.mem_iff.2 ?_)).1
    simp; exact Or.inl ⟨e.1, he⟩
  have he' : e ∈ d.baseMap ++ lost := List.mem_append_left _ he
  have h2 := base_perm (kept := kept) (bs := bs) (b := b) h he' hk
  rw [lost_same h he hk] at h2
  refine ⟨h0.core, ?_, h.disj, h.range, ?_, big_cons h hd hb he' hk⟩
  · exact h.held.trans ((h2.append_right leaked).trans List.perm_middle.symm)
  · simp only [Mem.back, if_neg hne]
    exact (h.ref.cons _).trans List.perm_middle.symm

theorem back_zero (h : InvM a d M L lost leaked k) (ok : Bool) :
    (M.back 0 0 ok).held = M.held ∧ (M.back 0 0 ok).refused = M.refused ∧ (M.back 0 0 true).nulls = M.nulls ∧ (M.back 0 0 false).nulls = true := by
  cases ok with
  | true => exact ⟨drop_zero fun r hr => (h.range r hr).1, rfl, rfl, by simp [Mem.back]⟩
  | false => exact ⟨rfl, by simp [Mem.back], rfl, by simp [Mem.back]⟩

/-- The base pointer had been forgotten: the block is dropped and nothing is given back. -/
theorem step_lost (h : InvM a d M L lost leaked k) (hd : d.free = kept ++ b :: bs) (hb : b.size = b.blockSize)
    {e : Nat × Nat × Nat} (he : e ∈ lost) (hk : e.1 = b.data) (ok : Bool) :
    InvM a (gone d kept bs b) (M.back 0 0 ok) L (lost.filter fun x => decide (x.1 ≠ b.data)) (e.2 :: leaked) (k.less b.size) := by
  have he' : e ∈ d.baseMap ++ lost := List.mem_append_right _ he
  have h1 := gone_core h hd hb
  have h2 := base_perm (kept := kept) (bs := bs) (b := b) h he' hk
  obtain ⟨z1, z2, _⟩ := back_zero h ok
  refine ⟨h1, ?_, ?_, ?_, ?_, big_cons h hd hb he' hk⟩
  · rw [z1]
    exact h.held.trans ((h2.append_right leaked).trans List.perm_middle.symm)
  · rw [z1]; exact h.disj
  · rw [z1]; exact h.range
  · rw [z2]
    have hn := h.keys
    rw [List.map_append, List.nodup_append] at hn
    have hp := (perm_key hn.2.1 he hk).map (·.2)
    exact h.ref.trans ((hp.append_right leaked).trans List.perm_middle.symm)

theorem Off.gone {db dn : Nat} (ho : Off d k db dn) (h : InvM a d M L lost leaked k) (hd : d.free = kept ++ b :: bs) (hb : b.size = b.blockSize) :
    Off (gone d kept bs b) (k.less b.size) db dn := by
  obtain ⟨_, _, h1, h2, h3, h4, _⟩ := free_whole h.core (kept := kept) (bs := bs) hd hb
  have h1 : b.size ≤ k.act := h1
  have h2 : k.act ≤ AMax := h2
  have h3 : 1 ≤ k.rel := h3
  have h4 : 1 ≤ k.tot := h4
  have hA := AMax_add_AMax
  exact ⟨sub_off ho.act h1 (by omega), sub_off ho.tot h4 (by decide), sub_off ho.rel h3 (by decide), sub64_lt _ ho.lt⟩

theorem Off.refused {db dn : Nat} (ho : Off d k db dn) {n : Nat} (hn : n ≤ W) (bm : List (Nat × Nat × Nat)) (f : List Blk) :
    Off { less d n with baseMap := bm, free := f } k (db + n) (dn + 1) :=
  ⟨sub_off' ho.act hn, sub_off' ho.tot (by decide), sub_off' ho.rel (by decide), sub64_lt _ ho.lt⟩

end Step

/-- What `freeReleasedBlocks` leaves behind. -/
structure RelPost (a : Nat) (dd : Bool) (s : State) (M : Mem) (L : Held) (k : Cnt) (kept rest : List Blk) (r : Bool × State) (M' : Mem) : Prop where
  inv : ∃ lost leaked k', InvM a r.2 M' L lost leaked k' ∧ (dd = false → ∀ x ∈ leaked, x ∈ M.refused) ∧
    (dd = false → Drift a s M k → Drift a r.2 M' k') ∧
    (r.1 = true → ∃ w, w + k'.act = k.act ∧ w64 (r.2.actualBytes + w) = w64 s.actualBytes)
  dtor : dd = true → r.1 = true
  keep : dd = false → r.1 = true → M'.refused = M.refused ∧ M'.nulls = M.nulls
  threw : r.1 = false → M'.nulls = true ∨ ∃ x, M'.refused = x :: M.refused
  free : r.1 = true → r.2.free = kept ++ rest.filter fun b => decide (b.size ≠ b.blockSize)
  used : r.2.used = s.used
  aligned : r.2.alignedBytes = s.alignedBytes ∧ r.2.alignedHwm = s.alignedHwm

theorem gone_step {a : Nat} {dd : Bool} {s : State} {M M1 M' : Mem} {L : Held} {lost : List (Nat × Nat × Nat)} {leaked : Held} {k : Cnt}
    {kept bs : List Blk} {b : Blk} {r : Bool × State} (h : InvM a s M L lost leaked k) (hd : s.free = kept ++ b :: bs) (hb : b.size = b.blockSize)
    (hM : dd = false → M1.refused = M.refused ∧ M1.nulls = M.nulls) (hT : dd = true ∨ (M1.refused = M.refused ∧ M1.nulls = M.nulls))
    (hr : RelPost a dd (gone s kept bs b) M1 L (k.less b.size) kept bs r M') : RelPost a dd s M L k kept (b :: bs) r M' := by
  refine ⟨?_, hr.dtor, ?_, ?_, ?_, hr.used, hr.aligned⟩
  · obtain ⟨l1, l2, k', h1, h2, h3, h4⟩ := hr.inv
    refine ⟨l1, l2, k', h1, fun hdd => ?_, ?_, ?_⟩
    · have := h2 hdd
      rwa [(hM hdd).1] at this
    · rintro hdd ⟨db, dn, ho, hn⟩
      obtain ⟨m1, m2⟩ := hM hdd
      refine h3 hdd ⟨db, dn, ho.gone h hd hb, ?_⟩
      rw [m1, m2]; exact hn
    · intro ht
      obtain ⟨w, w1, w2⟩ := h4 ht
      obtain ⟨_, _, g1, g2, _⟩ := free_whole h.core (kept := kept) (bs := bs) hd hb
      have g1 : b.size ≤ k.act := g1
      have g2 : k.act ≤ AMax := g2
      have w1 : w + k'.act = k.act - b.size := w1
      have hA := AMax_add_AMax
      refine ⟨w + b.size, by omega, ?_⟩
      have h5 := sub64_back s.actualBytes (show b.size ≤ W by omega)
      have w2 : w64 (r.2.actualBytes + w) = w64 (sub64 s.actualBytes b.size) := w2
      clear g2 hA
      unfold w64 W at *
      omega
  · intro hdd ht
    obtain ⟨m1, m2⟩ := hM hdd
    have := hr.keep hdd ht
    rwa [m1, m2] at this
  · intro ht
    rcases hT with hT | ⟨m1, m2⟩
    · rw [hr.dtor hT] at ht; exact nomatch ht
    · have := hr.threw ht
      rwa [m1] at this
  · intro ht
    rw [hr.free ht, List.filter_cons]
    simp [hb]

theorem freeLoop2_wp {a : Nat} {dd : Bool} {kept rest : List Blk} {s : State} {M : Mem} {L : Held} {lost : List (Nat × Nat × Nat)}
    {leaked : Held} {k : Cnt} (h : InvM a s M L lost leaked k) (hd : s.free = kept ++ rest) :
    (freeLoop2 dd kept rest s).wp (Prog.Keep L) M (RelPost a dd s M L k kept rest) := by
  induction rest generalizing kept s M lost leaked k with
  | nil =>
    have he : { s with free := kept } = s := by
      have : kept = s.free := by simpa using hd.symm
      subst this; rfl
    unfold freeLoop2
    rw [he]
    exact ⟨⟨_, _, _, h, fun _ x hx => h.ref.mem_iff.2 (List.mem_append_right _ hx), fun _ h => h, fun _ => ⟨0, by simp, by simp⟩⟩,
      fun _ => rfl, fun _ _ => ⟨rfl, rfl⟩, fun h => (nomatch h), fun _ => by simpa using hd, rfl, rfl, rfl⟩
  | cons b bs ih =>
    unfold freeLoop2
    by_cases hb : b.size = b.blockSize
    · rw [if_pos hb]
      obtain ⟨⟨e, he, hk, hes, hkeep⟩, hpos, hact, hAm, _, _, _⟩ := free_whole h.core (kept := kept) (bs := bs) hd hb
      have he : e ∈ s.baseMap ++ lost := he
      have hbW : b.size ≤ W := by
        have hA := AMax_add_AMax
        have h1 : b.size ≤ k.act := hact
        have h2 : k.act ≤ AMax := hAm
        omega
      unfold alignedDealloc2
      simp only
      cases hbm : s.baseMap.find? (fun e => decide (e.1 = b.data)) with
      | some e' =>
        have he1 := List.mem_of_find?_eq_some hbm
        have he2 : e'.1 = b.data := by simpa using List.find?_some hbm
        have : e' = e := nodup_map_inj h.keys (List.mem_append_left _ he1) he (he2.trans hk.symm)
        subst this
        simp only
        have hheld : e'.2 ∈ M.held := h.held.mem_iff.2 (List.mem_append_left _ (List.mem_map_of_mem he))
        refine ⟨Or.inr ⟨hheld, h.not_ref he1, (h.range _ hheld).2.1, hkeep⟩, ?_⟩
        intro ok
        cases ok with
        | true =>
          simp only [Bool.true_or, if_true]
          have h1 := step_ok h hd hb he1 hk
          exact wp_mono (ih h1 rfl) fun r M' hr =>
            gone_step (M1 := M.back e'.2.1 e'.2.2 true) h hd hb (fun _ => ⟨rfl, rfl⟩) (Or.inr ⟨rfl, rfl⟩) hr
        | false =>
          cases dd with
          | true =>
            simp only [Bool.or_true, if_true]
            have h1 := step_destroyed h hd hb he1 hk
            exact wp_mono (ih h1 rfl) fun r M' hr => gone_step h hd hb (fun h => (nomatch h)) (Or.inl rfl) hr
          | false =>
            simp only [Bool.or_self, Bool.false_eq_true, if_false]
            have hne : e'.2.1 ≠ 0 := (h.range _ hheld).1
            have h1 := step_refused h hd he1 hk
            refine ⟨⟨_, _, k, h1, fun _ x hx => h.ref.mem_iff.2 (List.mem_append_right _ hx), ?_, fun h => (nomatch h)⟩,
              fun h => (nomatch h), fun _ h => (nomatch h), ?_, fun h => (nomatch h), rfl, rfl, rfl⟩
            · rintro _ ⟨db, dn, ho, hn⟩
              refine ⟨_, _, ho.refused hbW _ _, ?_⟩
              intro hnull
              have hnull : M.nulls = false := by
                simp only [Mem.back, Bool.or_eq_false_iff] at hnull
                exact hnull.1
              obtain ⟨d1, d2⟩ := hn hnull
              simp only [Mem.back, if_neg hne, List.map_cons, List.sum_cons, List.length_cons, hes]
              omega
            · intro _
              right
              exact ⟨e'.2, by simp [Mem.back, if_neg hne]⟩
      | none =>
        have hel : e ∈ lost := by
          rcases List.mem_append.1 he with he | he
          · exact absurd hk (by simpa using List.find?_eq_none.1 hbm e he)
          · exact he
        simp only
        refine ⟨Or.inl rfl, ?_⟩
        intro ok
        obtain ⟨z1, z2, z3, z4⟩ := back_zero h ok
        have h1 := fun ok => step_lost h hd hb hel hk ok
        cases ok with
        | true =>
          simp only [Bool.true_or, if_true]
          exact wp_mono (ih (h1 true) rfl) fun r M' hr => gone_step h hd hb (fun _ => ⟨z2, z3⟩) (Or.inr ⟨z2, z3⟩) hr
        | false =>
          cases dd with
          | true =>
            simp only [Bool.or_true, if_true]
            exact wp_mono (ih (h1 false) rfl) fun r M' hr => gone_step h hd hb (fun h => (nomatch h)) (Or.inl rfl) hr
          | false =>
            simp only [Bool.or_self, Bool.false_eq_true, if_false]
            have hfl : (s.baseMap.filter fun x => decide (x.1 ≠ b.data)) = s.baseMap := by
              rw [List.filter_eq_self]
              intro x hx
              have := List.find?_eq_none.1 hbm x hx
              simpa using this
            have h2 : InvM a { less s b.size with baseMap := s.baseMap.filter fun x => x.1 ≠ b.data, free := kept ++ b :: bs }
                (M.back 0 0 false) L lost leaked k := by
              rw [hfl, ← hd]
              exact ⟨h.core, by rw [z1]; exact h.held, by rw [z1]; exact h.disj, by rw [z1]; exact h.range, by rw [z2]; exact h.ref, h.big⟩
            refine ⟨⟨_, _, k, h2, fun _ x hx => h.ref.mem_iff.2 (List.mem_append_right _ hx), ?_, fun h => (nomatch h)⟩,
              fun h => (nomatch h), fun _ h => (nomatch h), fun _ => Or.inl z4, fun h => (nomatch h), rfl, rfl, rfl⟩
            rintro _ ⟨db, dn, ho, hn⟩
            refine ⟨_, _, ho.refused hbW _ _, ?_⟩
            intro hnull
            rw [z4] at hnull
            exact nomatch hnull
    · rw [if_neg hb]
      refine wp_mono (ih (kept := kept ++ [b]) h (by rw [hd]; simp)) ?_
      intro r M' hr
      refine { hr with free := ?_ }
      intro ht
      rw [hr.free ht, List.filter_cons]
      simp [hb]

/-! ## Between operations -/

/-- The invariant between operations. -/
def InvF (a : Nat) (s : State) (M : Mem) (L : Held) : Prop := ∃ lost leaked k, InvM a s M L lost leaked k ∧ Drift a s M k

theorem init_invF (a : Nat) : InvF a init ⟨[], [], false⟩ [] :=
  ⟨[], [], ⟨0, 0, 0, 0⟩, ⟨DynPool.init_inv a, .refl _, .nil, by simp, .refl _, by simp⟩, 0, 0, ⟨rfl, rfl, rfl, by decide⟩, fun _ => ⟨rfl, rfl⟩⟩

/-- What `release` leaves behind. -/
def ReleasePost (a : Nat) (s : State) (M : Mem) (L : Held) (k : Cnt) (r : Bool × State) (M' : Mem) : Prop :=
  (∃ lost leaked k', InvM a r.2 M' L lost leaked k' ∧ Drift a r.2 M' k' ∧ (∀ x ∈ leaked, x ∈ M.refused) ∧
    (r.1 = true → ∃ w, w + k'.act = k.act ∧ w64 (r.2.actualBytes + w) = w64 s.actualBytes)) ∧
  (r.1 = true → (r.2.free = s.free.filter fun b => decide (b.size ≠ b.blockSize)) ∧ M'.refused = M.refused ∧ M'.nulls = M.nulls) ∧
  (r.1 = false → M'.nulls = true ∨ ∃ x, M'.refused = x :: M.refused)

theorem release2_wp {a : Nat} {s : State} {M : Mem} {L : Held} {lost : List (Nat × Nat × Nat)} {leaked : Held} {k : Cnt}
    (h : InvM a s M L lost leaked k) (hd : Drift a s M k) : (release2 s).wp (Prog.Keep L) M (ReleasePost a s M L k) := by
  refine wp_mono (freeLoop2_wp (dd := false) (kept := []) h rfl) ?_
  intro r M' hr
  obtain ⟨l1, l2, k', h1, h2, h3, h4⟩ := hr.inv
  exact ⟨⟨l1, l2, k', h1, h3 rfl hd, h2 rfl, h4⟩, fun ht => ⟨by simpa using hr.free ht, hr.keep rfl ht⟩, hr.threw⟩

theorem ReleasePost.invF {a : Nat} {s : State} {M : Mem} {L : Held} {k : Cnt} {r : Bool × State} {M' : Mem} (h : ReleasePost a s M L k r M') :
    InvF a r.2 M' L := by
  obtain ⟨⟨l1, l2, k', h1, h2, _⟩, _⟩ := h
  exact ⟨l1, l2, k', h1, h2⟩

theorem destroy2_wp {a : Nat} {s : State} {M : Mem} {L : Held} (h : InvF a s M L) :
    (destroy2 s).wp (Prog.Keep L) M fun r M' => (∃ lost leaked k, InvM a r.2 M' L lost leaked k) ∧ r.1 = true ∧
      r.2.free = s.free.filter fun b => decide (b.size ≠ b.blockSize) := by
  obtain ⟨lost, leaked, k, h, _⟩ := h
  refine wp_mono (freeLoop2_wp (dd := true) (kept := []) h rfl) ?_
  intro r M' hr
  obtain ⟨l1, l2, k', h1, _⟩ := hr.inv
  exact ⟨⟨l1, l2, k', h1⟩, hr.dtor rfl, by simpa using hr.free (hr.dtor rfl)⟩

/-! ## `allocate` -/

/-- The counters when a block is taken into use, or added. -/
def Cnt.take (k : Cnt) (b : Blk) : Cnt := if b.size = b.blockSize then ⟨k.act, k.hwm, k.rel - 1, k.tot⟩ else k
def Cnt.add (k : Cnt) (n : Nat) : Cnt := ⟨k.act + n, max (k.act + n) k.hwm, k.rel + 1, k.tot + 1⟩

theorem take_fix (d : State) (lost : List (Nat × Nat × Nat)) (k : Cnt) (pos : Pos) (n : Nat) :
    (takeBlock (fix d lost k) pos n).2 = fix (takeBlock2 d pos n).2 lost (k.take pos.2.1) := by
  unfold takeBlock2 takeBlock fix Cnt.take
  by_cases hw : pos.2.1.size = pos.2.1.blockSize
  · simp only [if_pos hw]
  · simp only [if_neg hw]

theorem Off.take {d : State} {k : Cnt} {db dn : Nat} (h : Off d k db dn) {pos : Pos} (hr : pos.2.1.size = pos.2.1.blockSize → 1 ≤ k.rel) (n : Nat) :
    Off (takeBlock2 d pos n).2 (k.take pos.2.1) db dn := by
  unfold Cnt.take
  by_cases hw : pos.2.1.size = pos.2.1.blockSize
  · have := sub_off h.rel (hr hw) (by decide)
    simp only [if_pos hw]
    refine ⟨h.act, h.tot, ?_, h.lt⟩
    simp only [takeBlock2, if_pos hw]
    exact this
  · simp only [if_neg hw]
    refine ⟨h.act, h.tot, ?_, h.lt⟩
    simp only [takeBlock2, if_neg hw]
    exact h.rel

theorem Off.add {d : State} {k : Cnt} {db dn : Nat} (h : Off d k db dn) (cfg : Cfg) (size p : Nat) :
    Off (addBlock2 cfg d size p).2 (k.add size) db dn :=
  ⟨add_off h.act, add_off h.tot, add_off h.rel, add64_lt _ _⟩

theorem grow2_inv {cfg : Cfg} {s : State} {M : Mem} {L : Held} {n size p : Nat} (h : InvF cfg.align s M L)
    (hc : CfgOk cfg) (hn : ReqOk cfg n) (hsz : roundUp64 cfg.align n ≤ size) (hs0 : 0 < size)
    (hsW : size + cfg.align < W) (hp : Fresh p (size + cfg.align) M.held) :
    InvF cfg.align (takeBlock2 (addBlock2 cfg s size p).2 (addBlock2 cfg s size p).1 (roundUp64 cfg.align n)).2
      ⟨(p, size + cfg.align) :: M.held, M.refused, M.nulls⟩ ((alignPtr cfg.align p, n) :: L) := by
  obtain ⟨lost, leaked, k, h, db, dn, ho, hd⟩ := h
  have hpO : Fresh p (size + cfg.align) ((s.baseMap ++ lost).map (·.2)) :=
    ⟨hp.1, hp.2.1, fun r hr => hp.2.2 r (h.held.mem_iff.2 (List.mem_append_left _ hr))⟩
  have g := grow_sim h.core hc.al hn.1 hn.2 hsz hs0 hsW hpO
  have hwz : w64 (size + cfg.align) = size + cfg.align := Nat.mod_eq_of_lt hsW
  have hbg : (takeBlock (addBlock cfg (fix s lost k) size p).2 (addBlock cfg (fix s lost k) size p).1 (roundUp64 cfg.align n)).2.baseMap =
      (alignPtr cfg.align p, p, size + cfg.align) :: (s.baseMap ++ lost).filter fun e => decide (e.1 ≠ alignPtr cfg.align p) := by
    show (alignPtr cfg.align p, p, w64 (size + cfg.align)) :: (s.baseMap ++ lost).filter _ = _
    rw [hwz]
  have hfil : ((s.baseMap ++ lost).filter fun e => decide (e.1 ≠ alignPtr cfg.align p)).length = (s.baseMap ++ lost).length := by
    have := congrArg List.length (own g)
    rw [hbg] at this
    simp only [List.length_cons, List.length_map] at this
    omega
  obtain ⟨f1, f2⟩ := filter_both hfil
  have hpos : (addBlock cfg (fix s lost k) size p).1 = (addBlock2 cfg s size p).1 := rfl
  have hst : (addBlock cfg (fix s lost k) size p).2 = fix (addBlock2 cfg s size p).2 lost (k.add size) := by
    unfold addBlock2 addBlock fix Cnt.add
    simp only [List.filter_append, f1, f2, List.cons_append]
  have hbm : (addBlock2 cfg s size p).2.baseMap = (alignPtr cfg.align p, p, size + cfg.align) :: s.baseMap := by
    show (alignPtr cfg.align p, p, w64 (size + cfg.align)) :: s.baseMap.filter _ = _
    rw [hwz, f1]
  have hbt : (takeBlock2 (addBlock2 cfg s size p).2 (addBlock2 cfg s size p).1 (roundUp64 cfg.align n)).2.baseMap =
      (alignPtr cfg.align p, p, size + cfg.align) :: s.baseMap := hbm
  have ho2 := own g
  rw [hst, hpos, take_fix] at g ho2
  refine ⟨lost, leaked, _, ⟨?_, ?_, ?_, ?_, h.ref, h.big⟩, db, dn, (ho.add cfg size p).take (by intro _; show 1 ≤ k.rel + 1; omega) _, hd⟩
  · rw [hbt]; exact g
  · rw [hbt]; exact h.held.cons _
  · exact List.pairwise_cons.2 ⟨hp.2.2, h.disj⟩
  · intro r hr
    rcases List.mem_cons.1 hr with rfl | hr
    · refine ⟨hp.1, ?_, hp.2.1⟩
      show 0 < size + cfg.align
      omega
    · exact h.range r hr

theorem take2_inv {cfg : Cfg} {s : State} {M : Mem} {L : Held} {n : Nat} (h : InvF cfg.align s M L) (hc : CfgOk cfg) (hn : ReqOk cfg n)
    {pos : Pos} (hpos : findLoop (roundUp64 cfg.align n) none [] s.free = some pos) :
    InvF cfg.align (takeBlock2 s pos (roundUp64 cfg.align n)).2 M ((pos.2.1.data, n) :: L) := by
  obtain ⟨lost, leaked, k, h, db, dn, ho, hd⟩ := h
  have g := reuse_sim h.core hc.al hn.1 (by have := hn.2; omega) hpos
  rw [take_fix] at g
  obtain ⟨p1, _⟩ := findLoop_spec (by simp) hpos
  refine ⟨lost, leaked, _, ⟨g, h.held, h.disj, h.range, h.ref, h.big⟩, db, dn, ho.take ?_ _, hd⟩
  intro hw
  have := (free_whole h.core (kept := pos.1) (bs := pos.2.2) (b := pos.2.1) (by rw [p1]; rfl) hw).2.2.2.2.1
  exact this

def AllocPost2 (a n : Nat) (L : Held) (r : Option Nat × State) (M' : Mem) : Prop :=
  match r.1 with
  | some p => InvF a r.2 M' ((p, n) :: L)
  | none => InvF a r.2 M' L

theorem allocate2_wp {cfg : Cfg} {s : State} {M : Mem} {L : Held} {n : Nat} (h : InvF cfg.align s M L) (hc : CfgOk cfg) (hn : ReqOk cfg n) :
    (allocate2 cfg s n).wp (Prog.Keep L) M (AllocPost2 cfg.align n L) := by
  obtain ⟨g1, g2, g3⟩ := growSize_bounds (s := s) hc hn
  unfold allocate2
  simp only
  cases hl : findLoop (roundUp64 cfg.align n) none [] s.free with
  | some pos => exact take2_inv h hc hn hl
  | none =>
    simp only
    generalize hg : growSize cfg s (roundUp64 cfg.align n) = size at *
    have hw : w64 (size + cfg.align) = size + cfg.align := Nat.mod_eq_of_lt g3
    rw [hw]
    refine ⟨fun p hp => ?_, ?_⟩
    · exact grow2_inv h hc hn g1 g2 g3 hp
    · obtain ⟨lost, leaked, k, h, hd⟩ := h
      refine wp_bind (wp_mono (release2_wp h hd) ?_)
      rintro ⟨ok, s'⟩ M' hpost
      have h1 := hpost.invF
      dsimp only at h1 ⊢
      cases ok with
      | true =>
        simp only [if_true]
        exact ⟨fun p hp => grow2_inv h1 hc hn g1 g2 g3 hp, h1⟩
      | false => exact h1

/-! ## `deallocate` -/

theorem dealloc_fix (d : State) (lost : List (Nat × Nat × Nat)) (k : Cnt) (ptr : Nat) :
    ∃ r, (∀ {db dn : Nat}, Off d k db dn → Off (deallocCore2 d ptr) ⟨k.act, k.hwm, r, k.tot⟩ db dn) ∧
      deallocCore (fix d lost k) ptr = fix (deallocCore2 d ptr) lost ⟨k.act, k.hwm, r, k.tot⟩ ∧ (deallocCore2 d ptr).baseMap = d.baseMap := by
  unfold deallocCore2 deallocCore
  have e1 : (fix d lost k).used = d.used := rfl
  have e2 : (fix d lost k).free = d.free := rfl
  rw [e1, e2]
  cases hu : d.used.find? (fun b => decide (b.data = ptr)) with
  | none => exact ⟨k.rel, fun h => h, rfl, rfl⟩
  | some cur =>
    simp only
    by_cases hw : (insertFree cur d.free).2.1.size = (insertFree cur d.free).2.1.blockSize
    · simp only [if_pos hw]
      exact ⟨k.rel + 1, fun h => ⟨h.act, h.tot, add_off h.rel, h.lt⟩, rfl, trivial⟩
    · simp only [if_neg hw]
      exact ⟨k.rel, fun h => ⟨h.act, h.tot, h.rel, h.lt⟩, rfl, trivial⟩

theorem deallocCore2_inv {a : Nat} {s : State} {M : Mem} {L : Held} (h : InvF a s M L) {ptr n : Nat} (hL : (ptr, n) ∈ L) :
    InvF a (deallocCore2 s ptr) M (drop ptr L) := by
  obtain ⟨lost, leaked, k, h, db, dn, ho, hd⟩ := h
  have hi := deallocCore_inv h.core hL
  obtain ⟨r, r1, r2, r3⟩ := dealloc_fix s lost k ptr
  rw [r2] at hi
  refine ⟨lost, leaked, _, ⟨?_, ?_, h.disj, h.range, h.ref, h.big⟩, db, dn, r1 ho, hd⟩
  · rw [r3]; exact hi
  · rw [r3]; exact h.held

/-- A heuristic suggests a size far from the end of the 64-bit range, or not more than what the pool says it holds. -/
def HeurOk2 (cfg : Cfg) (heur : State → Nat) : Prop :=
  ∀ s M L, InvF cfg.align s M L → heur s + 2 * cfg.align ≤ W ∨ heur s ≤ s.actualBytes

theorem InvM.act_le {a : Nat} {d : State} {M : Mem} {L : Held} {lost : List (Nat × Nat × Nat)} {leaked : Held} {k : Cnt}
    (h : InvM a d M L lost leaked k) : k.act ≤ AMax := h.core.actual_le.1

theorem coalesceTo2_wp {cfg : Cfg} (hc : CfgOk cfg) (ha : 2 * cfg.align ≤ AMax) {s : State} {M : Mem} {L : Held}
    {sug : Nat} (h : InvF cfg.align s M L) (hs : sug + 2 * cfg.align ≤ W ∨ sug ≤ s.actualBytes) :
    (coalesceTo2 cfg s sug).wp (Prog.Keep L) M fun r M' => InvF cfg.align r.2 M' L := by
  unfold coalesceTo2
  split
  · obtain ⟨lost, leaked, k, h, hd⟩ := h
    have l1 : s.actualBytes < W := hd.choose_spec.choose_spec.1.lt
    refine wp_bind (wp_mono (release2_wp h hd) ?_)
    rintro ⟨ok, s1⟩ M1 hpost
    have h1 := hpost.invF
    dsimp only at h1 ⊢
    cases ok with
    | false => exact h1
    | true =>
      simp only [if_true]
      split
      · rename_i hlt
        obtain ⟨⟨lo1, le1, k1, hm1, hd1, _, hw⟩, _⟩ := hpost
        obtain ⟨w, hw1, hw2⟩ := hw rfl
        have hb := h.act_le
        have l2 : s1.actualBytes < W := hd1.choose_spec.choose_spec.1.lt
        have hAM := AMax_add_AMax
        have hreq : ReqOk cfg (sug - s1.actualBytes) := by
          refine ⟨by omega, ?_⟩
          rcases hs with hs | hs
          · omega
          · have hwA : w ≤ AMax := by omega
            have : sug - s1.actualBytes ≤ w := by
              clear hAM hwA hb
              dsimp only at hw2
              unfold w64 at hw2
              have m1 : s.actualBytes % W = s.actualBytes := Nat.mod_eq_of_lt l1
              rw [m1] at hw2
              unfold W at *
              omega
            omega
        refine wp_bind (wp_mono (release2_wp hm1 hd1) ?_)
        rintro ⟨ok2, s2⟩ M2 hpost2
        have h2 := hpost2.invF
        dsimp only at h2 ⊢
        cases ok2 with
        | false => exact h2
        | true =>
          simp only [if_true]
          refine wp_bind (wp_mono (allocate2_wp h2 hc hreq) ?_)
          rintro ⟨r, s3⟩ M3 h3
          cases r with
          | none => exact h3
          | some p =>
            have h3 : InvF cfg.align s3 M3 ((p, sug - s1.actualBytes) :: L) := h3
            have hne : ∀ l ∈ L, l.1 ≠ p := by
              obtain ⟨_, _, _, hm, _⟩ := h3
              exact hm.core.live_ne
            have h4 := deallocCore2_inv h3 (ptr := p) (n := sug - s1.actualBytes) (by simp)
            rw [drop_cons_self hne] at h4
            exact h4
      · exact h1
  · exact h

theorem deallocate2_wp {cfg : Cfg} {heur : State → Nat} (hc : CfgOk cfg) (ha : 2 * cfg.align ≤ AMax) (hh : HeurOk2 cfg heur) {s : State} {M : Mem}
    {L : Held} {p n : Nat} (h : InvF cfg.align s M L) (hL : (p, n) ∈ L) :
    (deallocate2 cfg heur s p).wp (Prog.Keep (drop p L)) M fun r M' => InvF cfg.align r.2 M' (drop p L) := by
  have h1 := deallocCore2_inv h hL
  simp only [deallocate2]
  split
  · exact coalesceTo2_wp hc ha h1 (hh _ _ _ h1)
  · exact h1

theorem coalesce2_wp {cfg : Cfg} {heur : State → Nat} (hc : CfgOk cfg) (ha : 2 * cfg.align ≤ AMax) (hh : HeurOk2 cfg heur) {s : State} {M : Mem}
    {L : Held} (h : InvF cfg.align s M L) :
    (coalesce2 cfg heur s).wp (DynPool.KeepAbort L) M fun s' M' => InvF cfg.align s' M' L := by
  simp only [coalesce2]
  split
  · refine wp_bind (wp_mono (wp_weaken (coalesceTo2_wp hc ha h (hh _ _ _ h)) ?_ ?_) ?_)
    · intro b hb; exact hb.elim
    · intro _ _ hf; exact hf
    · rintro ⟨b, d'⟩ O' h'
      cases b with
      | true => exact h'
      | false => exact (rfl : Bad.abort = .abort)
  · exact h

/-- The built-in heuristics (DynamicPoolList.cpp:139-195) qualify. -/
theorem builtIn_ok2 {cfg : Cfg} {f : State → Nat} (hf : BuiltIn f) (ha : 2 * cfg.align ≤ AMax) : HeurOk2 cfg f := by
  intro s M L h
  obtain ⟨lost, leaked, k, hm, _⟩ := h
  have h2 : s.alignedHwm ≤ AMax := hm.core.actual_le.2
  have hAM := AMax_add_AMax
  rcases builtIn_heurOk (cfg := cfg) ha hf s with h | ⟨_, h | h⟩
  · exact Or.inl h
  · exact Or.inr h
  · left; unfold getAlignedHighwaterMark at h; omega

end Umpire.Deny.Dyn
