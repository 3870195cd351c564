import Verif.DynPool.Sim
/-! # `deallocate` of `DynamicPoolList` keeps the invariant -/
set_option autoImplicit false
set_option linter.unusedSimpArgs false
namespace Umpire.DynPool
open Umpire.Prog
open Umpire.QuickPool (Chunk Inv Inv0 bsize Tiles NoAdj start BlockOk freeL usedL whole mem_decomp splitChunks freeL_append usedL_append MergeShape Merged)

/-- The effect of `QuickPool::deallocate` on the auxiliary pool. -/
theorem dealloc_shape {a : Nat} {s : QuickPool.State} {O L : Held} {sm : List (Nat × Nat)} (h : Inv0 a s O L sm)
    {B1 B2 : List (List Chunk)} {b1 b2 : List Chunk} {c : Chunk} (hbs : s.blocks = B1 ++ (b1 ++ c :: b2) :: B2)
    (hu : c.free = false) :
    ∃ m l1 pf nf l2, MergeShape b1 c b2 m l1 pf nf l2 ∧ QuickPool.deallocCore s c.data = some
    { blocks := B1 ++ m.chunks :: B2
      sizeMap := QuickPool.smInsert m.final.size m.final.id (s.sizeMap.filter fun e => e.2 ∉ m.erased)
      ptrMap := s.ptrMap.filter fun e => e.1 ≠ c.data
      baseMap := s.baseMap
      nextId := s.nextId
      totalBlocks := s.totalBlocks
      releasableBlocks := if m.final.size = m.final.chunkSize then s.releasableBlocks + 1 else s.releasableBlocks
      alignedBytes := s.alignedBytes - c.size
      alignedHwm := s.alignedHwm
      actualBytes := s.actualBytes
      releasableBytes := if m.final.size = m.final.chunkSize then s.releasableBytes + m.final.chunkSize else s.releasableBytes
      actualHwm := s.actualHwm } := by
  have hc : c ∈ s.blocks.flatten := by rw [hbs]; simp
  have hids := h.ids
  rw [hbs] at hids
  have key : ∀ d ∈ B1.flatten ++ b1 ++ b2 ++ B2.flatten, d.id ≠ c.id := by
    intro d hd he
    simp only [List.flatten_append, List.flatten_cons, List.map_append, List.map_cons,
      List.nodup_append, List.nodup_cons, List.mem_append, List.mem_map, List.mem_cons] at hids hd
    grind
  obtain ⟨m, l1, pf, nf, l2, hm, hs⟩ := QuickPool.freeIn_shape (b1 := b1) (b2 := b2) (c := c) (fun d hd => key d (by simp [hd]))
  have hblocks := QuickPool.freeInBlocks_eq (B1 := B1) (B2 := B2)
    (fun b' hb' d hd => key d (by simp; exact Or.inl ⟨b', hb', hd⟩)) hm
  refine ⟨m, l1, pf, nf, l2, hs, ?_⟩
  unfold QuickPool.deallocCore
  rw [h.ptr_find hc hu]
  simp only [Option.bind_eq_bind, Option.bind_some]
  rw [QuickPool.findChunk_decomp hc rfl h.ids]
  simp only [Option.bind_some]
  rw [hbs, hblocks]
  rfl

section
variable {a : Nat} {d : State} {q : QuickPool.State} {O L : Held} {sm : List (Nat × Nat)}
variable {B1 B2 : List (List Chunk)} {b1 b2 : List Chunk} {c : Chunk}

theorem adj_next (h : Inv0 a q O L sm) (hbs : q.blocks = B1 ++ (b1 ++ c :: b2) :: B2) {x : Chunk} {r : List Chunk} (hr : b2 = x :: r) :
    c.data + c.size = x.data := by
  have hblk : BlockOk a (b1 ++ c :: b2) := h.blk _ (by rw [hbs]; simp)
  rw [hr] at hblk
  exact tiles_last hblk.tiles

theorem adj_prev (h : Inv0 a q O L sm) (hbs : q.blocks = B1 ++ (b1 ++ c :: b2) :: B2) {x : Chunk} {r : List Chunk} (hr : b1 = r ++ [x]) :
    x.data + x.size = c.data := by
  have hblk : BlockOk a (b1 ++ c :: b2) := h.blk _ (by rw [hbs]; simp)
  rw [hr] at hblk
  have := hblk.tiles
  rw [List.append_assoc, List.singleton_append] at this
  exact tiles_last this

/-- Two chunks that end at the same address are equal. -/
theorem end_inj (h : Inv0 a q O L sm) {x y : Chunk} (hx : x ∈ q.blocks.flatten) (hy : y ∈ q.blocks.flatten)
    (he : x.data + x.size = y.data + y.size) : x = y := by
  by_cases hxy : x = y
  · exact hxy
  · have := pairwise_mem h.chunks_disj (fun _ _ => Disj.symm) hx hy hxy
    have := h.pos_of hx
    have := h.pos_of hy
    unfold Disj at *; omega

/-- A free piece that ends where `c` starts, for `c` not first in its block, is the
chunk before `c` in its block. -/
theorem prev_of_piece (h : Inv0 a q O L sm) (hrel : Rel d q) (hbs : q.blocks = B1 ++ (b1 ++ c :: b2) :: B2)
    {p : Blk} (hp : p ∈ d.free) (hpc : p.data + p.size = c.data) (hz : (toBlk (q.blocks.map start) c).blockSize = 0) :
    ∃ l x, b1 = l ++ [x] ∧ x.free = true ∧ toBlk (q.blocks.map start) x = p := by
  have hc : c ∈ q.blocks.flatten := by rw [hbs]; simp
  have hblk : BlockOk a (b1 ++ c :: b2) := h.blk _ (by rw [hbs]; simp)
  have hcs : 0 < c.chunkSize := by
    rw [hblk.csize c (by simp), QuickPool.bsize_append, QuickPool.bsize_cons]
    have := h.pos_of hc; omega
  have hnh : c.data ∉ q.blocks.map start := by
    intro hm
    unfold toBlk at hz
    simp only [if_pos hm] at hz
    omega
  rcases List.eq_nil_or_concat b1 with rfl | ⟨l, x, hlx⟩
  · exact absurd ((head_iff h hbs).2 rfl) hnh
  · rw [List.concat_eq_append] at hlx
    have hxc := adj_prev h hbs hlx
    obtain ⟨y, hy, hyf, hyp⟩ := hrel.chunk_of_free hp
    have h1 : y.data + y.size = c.data := by rw [← hyp] at hpc; exact hpc
    have hxm : x ∈ q.blocks.flatten := by rw [hbs, hlx]; simp
    have : x = y := end_inj h hxm hy (by omega)
    subst this
    exact ⟨l, x, hlx, hyf, hyp⟩

/-- A free piece that starts where `c` ends and is not first in a block is the
chunk after `c` in its block. -/
theorem next_of_piece (h : Inv0 a q O L sm) (hrel : Rel d q) (hbs : q.blocks = B1 ++ (b1 ++ c :: b2) :: B2)
    {n : Blk} (hn : n ∈ d.free) (hnc : c.data + c.size = n.data) (hz : n.blockSize = 0) :
    ∃ x l, b2 = x :: l ∧ x.free = true ∧ toBlk (q.blocks.map start) x = n := by
  have hc : c ∈ q.blocks.flatten := by rw [hbs]; simp
  obtain ⟨y, hy, hyf, hyn⟩ := hrel.chunk_of_free hn
  obtain ⟨C1, c1, c2, C2, hbs'⟩ := mem_decomp hy
  have hblk : BlockOk a (c1 ++ y :: c2) := h.blk _ (by rw [hbs']; simp)
  have hcs : 0 < y.chunkSize := by
    rw [hblk.csize y (by simp), QuickPool.bsize_append, QuickPool.bsize_cons]
    have := h.pos_of hy; omega
  have hyd : y.data = n.data := by rw [← hyn]; rfl
  have hnh : y.data ∉ q.blocks.map start := by
    intro hm
    rw [← hyn] at hz
    unfold toBlk at hz
    simp only [if_pos hm] at hz
    omega
  rcases List.eq_nil_or_concat c1 with rfl | ⟨l, x, hlx⟩
  · exact absurd ((head_iff h hbs').2 rfl) hnh
  · rw [List.concat_eq_append] at hlx
    have hxc := adj_prev h hbs' hlx
    have hxm : x ∈ q.blocks.flatten := by rw [hbs', hlx]; simp
    have : x = c := end_inj h hxm hc (by omega)
    subst this
    -- the block of `x` is the block of `y`
    have hb1 : b1 ++ x :: b2 ∈ q.blocks := by rw [hbs]; simp
    have hb2 : l ++ x :: y :: c2 ∈ q.blocks := by rw [hbs', hlx]; simp
    have he : b1 ++ x :: b2 = l ++ x :: y :: c2 := by
      by_cases he : b1 ++ x :: b2 = l ++ x :: y :: c2
      · exact he
      · exfalso
        have := List.pairwise_flatten.1 (List.pairwise_map.1 h.ids)
        exact pairwise_mem this.2 (fun p r hpr u hu v hv => (hpr v hv u hu).symm) hb1 hb2 he x (by simp) x (by simp) rfl
    -- `x` occurs once
    have hnd : ((b1 ++ x :: b2).map (·.id)).Nodup := by
      have := List.pairwise_flatten.1 (List.pairwise_map.1 h.ids)
      exact List.pairwise_map.2 (this.1 _ hb1)
    have hdrop : b2 = y :: c2 := by
      have k1 : ∀ z ∈ b1, z.id ≠ x.id := by
        intro z hz hzx
        simp only [List.map_append, List.map_cons, List.nodup_append, List.mem_map, List.mem_cons] at hnd
        exact hnd.2.2 z.id ⟨z, hz, rfl⟩ x.id (Or.inl rfl) hzx
      have hnd2 := hnd
      rw [he] at hnd2
      have k2 : ∀ z ∈ l, z.id ≠ x.id := by
        intro z hz hzx
        simp only [List.map_append, List.map_cons, List.nodup_append, List.mem_map, List.mem_cons] at hnd2
        exact hnd2.2.2 z.id ⟨z, hz, rfl⟩ x.id (Or.inl rfl) hzx
      have key : ∀ (l1 l2 m1 m2 : List Chunk), (∀ z ∈ l1, z.id ≠ x.id) → (∀ z ∈ l2, z.id ≠ x.id) →
          l1 ++ x :: m1 = l2 ++ x :: m2 → m1 = m2 := by
        intro l1
        induction l1 with
        | nil =>
          intro l2 m1 m2 _ hl2 he
          cases l2 with
          | nil => simpa using he
          | cons w ws => simp at he; exact absurd (by rw [he.1]) (hl2 w (by simp))
        | cons v vs ih =>
          intro l2 m1 m2 hl1 hl2 he
          cases l2 with
          | nil => simp at he; exact absurd (by rw [he.1]) (hl1 v (by simp))
          | cons w ws =>
            simp only [List.cons_append, List.cons.injEq] at he
            exact ih ws m1 m2 (fun z hz => hl1 z (by simp [hz])) (fun z hz => hl2 z (by simp [hz])) he.2
      exact key b1 l b2 (y :: c2) k1 k2 he
    exact ⟨y, c2, hdrop, hyf, hyn⟩

/-- Where the freed piece goes, and which pieces it absorbs. -/
theorem insert_shape (h : Inv0 a q O L sm) (hrel : Rel d q) (hbs : q.blocks = B1 ++ (b1 ++ c :: b2) :: B2)
    (hu : c.free = false) {m : Merged} {l1 pf nf l2 : List Chunk} (hs : MergeShape b1 c b2 m l1 pf nf l2) :
    let P := insertFree (toBlk (q.blocks.map start) c) d.free
    P.2.1 = toBlk (q.blocks.map start) m.final ∧
    d.free = P.1 ++ pf.map (toBlk (q.blocks.map start)) ++ nf.map (toBlk (q.blocks.map start)) ++ P.2.2 ∧
    (∀ x ∈ P.1, x.data < m.final.data) ∧ ∀ x ∈ P.2.2, m.final.data < x.data := by
  intro P
  have hc : c ∈ q.blocks.flatten := by rw [hbs]; simp
  have hsp := hrel.sorted
  have hcat : d.free.takeWhile (fun x => decide (x.data < c.data)) ++ d.free.dropWhile (fun x => decide (x.data < c.data)) = d.free :=
    List.takeWhile_append_dropWhile
  have hbef := takeWhile_sorted (l := d.free) (x := c.data)
  have haft := dropWhile_sorted (x := c.data) hsp
  have hP : P = insertFree (toBlk (q.blocks.map start) c) d.free := rfl
  unfold insertFree at hP
  have hcd : (toBlk (q.blocks.map start) c).data = c.data := rfl
  simp only [hcd] at hP
  generalize hB : d.free.takeWhile (fun x => decide (x.data < c.data)) = before at *
  generalize hA : d.free.dropWhile (fun x => decide (x.data < c.data)) = after at *
  rw [← hcat] at hsp
  obtain ⟨hsb, hsa, hsab⟩ := List.pairwise_append.1 hsp
  have hmf : ∀ x ∈ before ++ after, x ∈ d.free := by rw [hcat]; exact fun _ h => h
  -- pieces after the freed one start behind its end
  have haft2 : ∀ z ∈ after, c.data + c.size ≤ z.data := by
    intro z hz
    obtain ⟨y, hy, hyf, hyz⟩ := hrel.chunk_of_free (hmf z (by simp [hz]))
    have hyd : y.data = z.data := by rw [← hyz]; rfl
    have hne : c ≠ y := by rintro rfl; rw [hu] at hyf; cases hyf
    have := pairwise_mem h.chunks_disj (fun _ _ => Disj.symm) hc hy hne
    have := haft z hz
    have := h.pos_of hc
    have := h.pos_of hy
    unfold Disj at *; omega
  -- the merge with the next piece, for a block that ends where `c` ends
  have hnext : ∀ cur : Blk, cur.data + cur.size = c.data + c.size →
      (mergeAfter cur after).1 = { cur with size := cur.size + bsize nf } ∧
      after = nf.map (toBlk (q.blocks.map start)) ++ (mergeAfter cur after).2 := by
    intro cur hcur
    have hn1 := hs.nf1
    cases hnf : nf with
    | nil =>
      have hno : ∀ z r, after = z :: r → ¬(cur.data + cur.size = z.data ∧ z.blockSize = 0) := by
        rintro z r hz ⟨h1, h2⟩
        obtain ⟨x, l, hx, hxf, _⟩ := next_of_piece h hrel hbs (hmf z (by rw [hz]; simp)) (by omega) h2
        have := hs.right
        rw [hnf] at this
        have := hs.nmax hnf l x (by rw [← hx, this]; rfl)
        rw [hxf] at this; cases this
      cases after with
      | nil => simp [mergeAfter]
      | cons z r => simp only [mergeAfter, if_neg (hno z r rfl)]; simp
    | cons y ys =>
      have hys : ys = [] := by rw [hnf] at hn1; simpa using hn1
      subst hys
      have hb2 : b2 = y :: l2 := by have := hs.right; rw [hnf] at this; simpa using this
      have hyc := adj_next h hbs hb2
      have hym : y ∈ q.blocks.flatten := by rw [hbs, hb2]; simp
      have hyf : y.free = true := hs.nfree y (by rw [hnf]; simp)
      have hyF := hrel.free_of_chunk hym hyf
      have hyA : toBlk (q.blocks.map start) y ∈ after := by
        rw [← hcat] at hyF
        rcases List.mem_append.1 hyF with hy' | hy'
        · have := hbef _ hy'
          simp only [toBlk] at this
          have := h.pos_of hc
          omega
        · exact hy'
      have hnh : (toBlk (q.blocks.map start) y).blockSize = 0 := by
        have : y.data ∉ q.blocks.map start := by
          intro hm
          have hbs' : q.blocks = B1 ++ ((b1 ++ [c]) ++ y :: l2) :: B2 := by rw [hbs, hb2]; simp
          have := (head_iff h hbs').1 hm
          simp at this
        simp [toBlk, this]
      cases after with
      | nil => simp at hyA
      | cons z r =>
        have hz : z = toBlk (q.blocks.map start) y := by
          rcases List.mem_cons.1 hyA with hy' | hy'
          · exact hy'.symm
          · have h1 := (List.pairwise_cons.1 hsa).1 _ hy'
            have h2 := haft2 z (by simp)
            simp only [toBlk] at h1
            omega
        have hcond : cur.data + cur.size = z.data ∧ z.blockSize = 0 := by
          rw [hz]
          refine ⟨?_, hnh⟩
          show _ = y.data
          omega
        simp only [mergeAfter, if_pos hcond]
        rw [hz]
        simp [toBlk]
  have hfin := hs.fin
  have hp1 := hs.pf1
  cases hpf : pf with
  | nil =>
    have hfd : m.final.data = c.data := by rw [hfin, hpf]; rfl
    have hno : ∀ p, before.getLast? = some p → ¬(p.data + p.size = c.data ∧ (toBlk (q.blocks.map start) c).blockSize = 0) := by
      rintro p hp ⟨h1, h2⟩
      have hpm : p ∈ before := List.mem_of_getLast? hp
      obtain ⟨l, x, hx, hxf, _⟩ := prev_of_piece h hrel hbs (hmf p (by simp [hpm])) h1 h2
      have h3 := hs.left
      rw [hpf] at h3
      have := hs.pmax hpf l x (by rw [← hx, h3]; simp)
      rw [hxf] at this; cases this
    have hP2 : P = (before, (mergeAfter (toBlk (q.blocks.map start) c) after).1, (mergeAfter (toBlk (q.blocks.map start) c) after).2) := by
      rw [hP]
      cases hgl : before.getLast? with
      | none => rfl
      | some p => simp only [if_neg (hno p hgl)]
    obtain ⟨hn1, hn2⟩ := hnext (toBlk (q.blocks.map start) c) rfl
    rw [hP2]
    refine ⟨?_, ?_, ?_, ?_⟩
    · simp only [hn1, hfin, hpf]; simp [toBlk]
    · simp only [List.map_nil, List.append_nil, List.append_assoc]; rw [← hn2, hcat]
    · intro x hx; rw [hfd]; exact hbef x hx
    · intro x hx
      rw [hfd]
      have := haft2 x (by rw [hn2]; exact List.mem_append_right _ hx)
      have := h.pos_of hc
      omega
  | cons x xs =>
    have hxs : xs = [] := by rw [hpf] at hp1; simpa using hp1
    subst hxs
    have hb1 : b1 = l1 ++ [x] := by have := hs.left; rw [hpf] at this; exact this
    have hxc := adj_prev h hbs hb1
    have hxm : x ∈ q.blocks.flatten := by rw [hbs, hb1]; simp
    have hxf : x.free = true := hs.pfree x (by rw [hpf]; simp)
    have hxF := hrel.free_of_chunk hxm hxf
    have hxp := h.pos_of hxm
    have hfd : m.final.data = x.data := by rw [hfin, hpf]; rfl
    have hnh : (toBlk (q.blocks.map start) c).blockSize = 0 := by
      have : c.data ∉ q.blocks.map start := by
        intro hm
        have := (head_iff h hbs).1 hm
        rw [hb1] at this
        simp at this
      simp [toBlk, this]
    have hxB : toBlk (q.blocks.map start) x ∈ before := by
      rw [← hcat] at hxF
      rcases List.mem_append.1 hxF with hx' | hx'
      · exact hx'
      · have := haft _ hx'
        simp only [toBlk] at this
        omega
    obtain ⟨P0, hP0⟩ : ∃ P0, before = P0 ++ [toBlk (q.blocks.map start) x] := by
      obtain ⟨u, v, huv⟩ := List.append_of_mem hxB
      cases v with
      | nil => exact ⟨u, huv⟩
      | cons w ws =>
        exfalso
        rw [huv] at hsb
        have h1 := (List.pairwise_cons.1 (List.pairwise_append.1 hsb).2.1).1 w (by simp)
        have h2 := hbef w (by rw [huv]; simp)
        obtain ⟨y, hy, hyf, hyw⟩ := hrel.chunk_of_free (hmf w (by rw [huv]; simp))
        have hyd : y.data = w.data := by rw [← hyw]; rfl
        simp only [toBlk] at h1
        have hne : x ≠ y := by rintro rfl; omega
        have := pairwise_mem h.chunks_disj (fun _ _ => Disj.symm) hxm hy hne
        have := h.pos_of hy
        unfold Disj at *; omega
    have hgl : before.getLast? = some (toBlk (q.blocks.map start) x) := by rw [hP0]; simp
    have hcond : (toBlk (q.blocks.map start) x).data + (toBlk (q.blocks.map start) x).size = c.data ∧
        (toBlk (q.blocks.map start) c).blockSize = 0 := ⟨hxc, hnh⟩
    have hdl : before.dropLast = P0 := by rw [hP0]; simp
    rw [hgl] at hP
    simp only [if_pos hcond, hdl] at hP
    obtain ⟨hn1, hn2⟩ := hnext { toBlk (q.blocks.map start) x with
        size := (toBlk (q.blocks.map start) x).size + (toBlk (q.blocks.map start) c).size } (by simp only [toBlk]; omega)
    rw [hP]
    refine ⟨?_, ?_, ?_, ?_⟩
    · simp only [hn1, hfin, hpf]; simp [toBlk]
    · simp only [List.map_cons, List.map_nil, List.append_assoc]
      rw [← hn2, ← hcat, hP0]; simp
    · intro y hy
      rw [hfd]
      have := (List.pairwise_append.1 (hP0 ▸ hsb)).2.2 y hy _ (List.mem_singleton.2 rfl)
      exact this
    · intro y hy
      rw [hfd]
      have := haft2 y (by rw [hn2]; exact List.mem_append_right _ hy)
      omega

end

/-- Deallocating a live allocation. -/
theorem deallocCore_inv {a : Nat} {d : State} {O L : Held} (h : DInv a d O L) {ptr n : Nat} (hL : (ptr, n) ∈ L) :
    DInv a (deallocCore d ptr) O (drop ptr L) := by
  obtain ⟨q, hq, hrel⟩ := h
  obtain ⟨q', hq', hinv'⟩ := QuickPool.deallocCore_inv hq hL
  refine ⟨q', hinv', ?_⟩
  obtain ⟨c, hc, hu, hd, hcsz⟩ := hq.live_chunk hL
  simp only at hd
  subst hd
  obtain ⟨B1, b1, b2, B2, hbs⟩ := mem_decomp hc
  obtain ⟨m, l1, pf, nf, l2, hs, heq⟩ := dealloc_shape hq hbs hu
  rw [heq] at hq'
  injection hq' with hq'
  have hblk : BlockOk a (b1 ++ c :: b2) := hq.blk _ (by rw [hbs]; simp)
  obtain ⟨hok, hst, hbsz⟩ := QuickPool.mergeShape_block hblk hu hs
  have hstarts : (B1 ++ m.chunks :: B2).map start = q.blocks.map start := by
    rw [hbs]; simp only [List.map_append, List.map_cons, hst]
  obtain ⟨hi1, hi2, hi3, hi4⟩ := insert_shape hq hrel hbs hu hs
  -- the entry in the used list
  have hcu : toBlk (q.blocks.map start) c ∈ d.used :=
    hrel.used.mem_iff.2 (List.mem_map_of_mem (List.mem_filter.2 ⟨hc, by simp [hu]⟩))
  have hdn : ∀ x ∈ d.used, x.data = c.data → x = toBlk (q.blocks.map start) c := by
    intro x hx hxd
    obtain ⟨y, hy, rfl⟩ := List.mem_map.1 (hrel.used.mem_iff.1 hx)
    have : y = c := hq.data_inj (List.mem_filter.1 hy).1 hc hxd
    rw [this]
  have hfind : d.used.find? (fun b => decide (b.data = c.data)) = some (toBlk (q.blocks.map start) c) := by
    cases hf : d.used.find? (fun b => decide (b.data = c.data)) with
    | none => rw [List.find?_eq_none] at hf; exact absurd (by simp [toBlk]) (hf _ hcu)
    | some x =>
      have h1 := List.mem_of_find?_eq_some hf
      have h2 := List.find?_some hf
      rw [hdn x h1 (by simpa using h2)]
  have herase : d.used.Perm (toBlk (q.blocks.map start) c :: d.used.eraseP (fun b => decide (b.data = c.data))) := by
    obtain ⟨u, v, huv⟩ := List.append_of_mem hcu
    obtain ⟨x, l1, l2, h1, h2, h3, h4⟩ := List.exists_of_eraseP hcu (p := fun b => decide (b.data = c.data)) (by simp [toBlk])
    have hx : x = toBlk (q.blocks.map start) c := hdn x (by rw [h3]; simp) (by simpa using h2)
    rw [h4]
    conv => lhs; rw [h3, hx]
    exact List.perm_middle
  have hL1 := hs.left
  have hR1 := hs.right
  have hch := hs.chunks
  have hfl : q.blocks.flatten = (B1.flatten ++ l1) ++ (pf ++ [c] ++ nf) ++ (l2 ++ B2.flatten) := by
    rw [hbs, hL1, hR1]; simp
  have hfl' : (B1 ++ m.chunks :: B2).flatten = (B1.flatten ++ l1) ++ [m.final] ++ (l2 ++ B2.flatten) := by
    rw [hch]; simp
  generalize B1.flatten ++ l1 = X at hfl hfl'
  generalize l2 ++ B2.flatten = Y at hfl hfl'
  have hff : m.final.free = true := by rw [hs.fin]
  have fp : freeL pf = pf := List.filter_eq_self.2 hs.pfree
  have fn : freeL nf = nf := List.filter_eq_self.2 hs.nfree
  have up : usedL pf = [] := by
    simp only [usedL, List.filter_eq_nil_iff]; intro x hx; simp [hs.pfree x hx]
  have un : usedL nf = [] := by
    simp only [usedL, List.filter_eq_nil_iff]; intro x hx; simp [hs.nfree x hx]
  have fc : freeL [c] = [] := by simp [freeL, hu]
  have uc : usedL [c] = [c] := by simp [usedL, hu]
  have ff : freeL [m.final] = [m.final] := by simp [freeL, hff]
  have uf : usedL [m.final] = [] := by simp [usedL, hff]
  have hfree := hrel.free
  have hused := hrel.used
  have hsp := hrel.sorted
  have hwi : (toBlk (q.blocks.map start) m.final).size = (toBlk (q.blocks.map start) m.final).blockSize ↔
      m.final.size = m.final.chunkSize := by
    have hmm : m.final ∈ q'.blocks.flatten := by
      rw [← hq']; simp only; rw [hfl']; simp
    have := whole_iff hinv' hmm
    rw [← hq'] at this
    simp only [hstarts] at this
    exact this
  rw [hfl] at hfree hused
  generalize hst0 : q.blocks.map start = st at *
  generalize hPP : insertFree (toBlk st c) d.free = P at *
  obtain ⟨P1, P2, P3⟩ := P
  simp only at hi1 hi2 hi3 hi4
  subst hi1
  rw [hi2] at hfree hsp
  simp only [freeL_append, usedL_append, fc, uc, fp, fn, up, un, List.map_append, List.map_cons, List.map_nil, List.append_nil,
    List.nil_append] at hfree hused
  have hfree' : (P1 ++ P3).Perm ((freeL X).map (toBlk st) ++ (freeL Y).map (toBlk st)) := by
    have e1 : (P1 ++ pf.map (toBlk st) ++ nf.map (toBlk st) ++ P3).Perm
        ((pf.map (toBlk st) ++ nf.map (toBlk st)) ++ (P1 ++ P3)) := by
      simp only [List.append_assoc]
      exact (List.perm_append_comm_assoc ..).trans (List.Perm.append_left _ (List.perm_append_comm_assoc ..))
    have e2 : ((freeL X).map (toBlk st) ++ (pf.map (toBlk st) ++ nf.map (toBlk st)) ++ (freeL Y).map (toBlk st)).Perm
        ((pf.map (toBlk st) ++ nf.map (toBlk st)) ++ ((freeL X).map (toBlk st) ++ (freeL Y).map (toBlk st))) := by
      rw [List.append_assoc]
      exact List.perm_append_comm_assoc ..
    exact (List.perm_append_left_iff _).1 (e1.symm.trans (hfree.trans e2))
  subst hq'
  unfold deallocCore
  rw [hfind]
  simp only [hPP]
  constructor <;> simp only [hstarts, hfl', freeL_append, usedL_append, ff, uf, List.map_append, List.map_cons, List.map_nil, List.append_nil]
  · refine List.perm_middle.trans ((hfree'.cons _).trans ?_)
    simp only [List.append_assoc, List.singleton_append]
    exact List.perm_middle.symm
  · refine (List.Perm.cons_inv (a := toBlk st c) (herase.symm.trans (hused.trans ?_)))
    simp only [List.append_assoc, List.singleton_append]
    exact List.perm_middle
  · have hp1 := List.pairwise_append.1 hsp
    have hp2 := List.pairwise_append.1 hp1.1
    exact sorted_mid (List.pairwise_append.1 hp2.1).1 hp1.2.1 hi3 hi4
  · exact hrel.base
  · rw [hrel.aligned]; rfl
  · exact hrel.ahwm
  · exact hrel.actual
  · exact hrel.thwm
  · rw [hrel.rel]
    simp only [hwi]
  · exact hrel.total

end Umpire.DynPool
