import Verif.DynPool.Model
import Verif.QuickPool.View
/-!
# `DynamicPoolList` and the block structure of `QuickPool` (helper definitions)

A `DynamicPoolList` keeps one list of used and one list of free pieces, without
recording which pieces belong to the same block from the parent.  The proofs
reconstruct this: `Rel d q` says that the pieces of `d` are the chunks of the
`QuickPool` state `q`, for which the invariant is known to be preserved.  `q` is
an auxiliary object of the proofs only.
-/
set_option autoImplicit false
set_option linter.unusedSimpArgs false
namespace Umpire.DynPool
open Umpire.Prog
open Umpire.QuickPool (Chunk Inv Inv0 bsize Tiles NoAdj start BlockOk freeL usedL whole mem_decomp)

/-- The piece for a chunk; `st` are the start addresses of the blocks. -/
def toBlk (st : List Nat) (c : Chunk) : Blk :=
  ⟨c.data, c.size, if c.data ∈ st then c.chunkSize else 0⟩

structure Rel (d : State) (q : QuickPool.State) : Prop where
  free : d.free.Perm ((freeL q.blocks.flatten).map (toBlk (q.blocks.map start)))
  used : d.used.Perm ((usedL q.blocks.flatten).map (toBlk (q.blocks.map start)))
  sorted : d.free.Pairwise fun x y => x.data < y.data
  base : d.baseMap = q.baseMap
  aligned : d.alignedBytes = q.alignedBytes
  ahwm : d.alignedHwm = q.alignedHwm
  actual : d.actualBytes = q.actualBytes
  thwm : d.actualHwm = q.actualHwm
  rel : d.releasableBlocks = q.releasableBlocks
  total : d.totalBlocks = q.totalBlocks

/-- The invariant of a `DynamicPoolList`. -/
def DInv (a : Nat) (d : State) (O L : Held) : Prop := ∃ q, Inv a q O L ∧ Rel d q

section
variable {a : Nat} {q : QuickPool.State} {O L : Held} {sm : List (Nat × Nat)}

theorem tiles_last {d : Nat} {b1 b2 : List Chunk} {x c : Chunk} (h : Tiles d (b1 ++ x :: c :: b2)) :
    x.data + x.size = c.data := by
  rw [QuickPool.tiles_append] at h
  have := h.2
  simp only [Tiles] at this
  omega

/-- A chunk starts at the start of a block only if it is the first of its block. -/
theorem head_iff (h : Inv0 a q O L sm) {B1 B2 : List (List Chunk)} {b1 b2 : List Chunk} {c : Chunk}
    (hb : q.blocks = B1 ++ (b1 ++ c :: b2) :: B2) : c.data ∈ q.blocks.map start ↔ b1 = [] := by
  constructor
  · intro hm
    obtain ⟨b', hb', hs⟩ := List.mem_map.1 hm
    have hok' := h.blk b' hb'
    cases b' with
    | nil => exact absurd rfl hok'.ne
    | cons x xs =>
      have hcm : c ∈ q.blocks.flatten := by rw [hb]; simp
      have hxm : x ∈ q.blocks.flatten := List.mem_flatten.2 ⟨_, hb', by simp⟩
      have hxc : x = c := h.data_inj hxm hcm hs
      subst hxc
      have hbm : b1 ++ x :: b2 ∈ q.blocks := by rw [hb]; simp
      have hok := h.blk _ hbm
      cases b1 with
      | nil => rfl
      | cons y ys =>
        exfalso
        -- `x` is in both blocks, so the blocks are equal
        have hd : (y :: ys ++ x :: b2) = x :: xs := by
          have hn : (q.blocks.map start).Nodup := h.bases.nodup_iff.1 h.keys
          by_cases he : (y :: ys ++ x :: b2) = x :: xs
          · exact he
          · exfalso
            have hids := h.ids
            have := List.pairwise_flatten.1 (List.pairwise_map.1 hids)
            have h2 := pairwise_mem this.2 (fun p r hpr u hu v hv => (hpr v hv u hu).symm) hbm hb' he
            exact h2 x (by simp) x (by simp) rfl
        simp only [List.cons_append, List.cons.injEq] at hd
        have ht := hok.tiles
        simp only [List.cons_append, start, Tiles] at ht
        have hw := QuickPool.tiles_within ht.2 (c := x) (by simp)
        have hp := hok.pos y (by simp)
        rw [hd.1] at hw hp ht
        unfold Within at hw
        omega
  · rintro rfl
    rw [hb]; simp [start]

theorem tb_congr {st st' : List Nat} {l : List Chunk} (h : ∀ c ∈ l, (c.data ∈ st ↔ c.data ∈ st')) :
    l.map (toBlk st) = l.map (toBlk st') := by
  apply List.map_congr_left
  intro c hc
  unfold toBlk
  simp only [h c hc]

/-- Facts about a free piece and the chunk behind it. -/
theorem Rel.chunk_of_free {d : State} (hr : Rel d q) {b : Blk} (hb : b ∈ d.free) :
    ∃ c ∈ q.blocks.flatten, c.free = true ∧ toBlk (q.blocks.map start) c = b := by
  obtain ⟨c, hc, he⟩ := List.mem_map.1 (hr.free.mem_iff.1 hb)
  obtain ⟨h1, h2⟩ := List.mem_filter.1 hc
  exact ⟨c, h1, h2, he⟩

theorem Rel.free_of_chunk {d : State} (hr : Rel d q) {c : Chunk} (hc : c ∈ q.blocks.flatten) (hf : c.free = true) :
    toBlk (q.blocks.map start) c ∈ d.free :=
  hr.free.mem_iff.2 (List.mem_map_of_mem (List.mem_filter.2 ⟨hc, hf⟩))

/-- A piece is as large as its recorded block size only if it is a whole block. -/
theorem whole_iff (h : Inv0 a q O L sm) {c : Chunk} (hc : c ∈ q.blocks.flatten) :
    (toBlk (q.blocks.map start) c).size = (toBlk (q.blocks.map start) c).blockSize ↔ c.size = c.chunkSize := by
  have hp := h.pos_of hc
  unfold toBlk
  simp only
  split
  · exact Iff.rfl
  · rename_i hn
    constructor
    · intro h0; omega
    · intro hw
      exfalso
      obtain ⟨B1, B2, hbs⟩ := QuickPool.whole_decomp h hc hw
      apply hn
      rw [hbs]; simp [start]

/-! ## The free list is sorted -/

theorem takeWhile_sorted {l : List Blk} {x : Nat} : ∀ b ∈ l.takeWhile (fun y => decide (y.data < x)), b.data < x := by
  induction l with
  | nil => simp
  | cons y ys ih =>
    by_cases hy : y.data < x
    · rw [List.takeWhile_cons_of_pos (by simpa using hy)]
      intro b hb
      rcases List.mem_cons.1 hb with rfl | hb
      · exact hy
      · exact ih b hb
    · rw [List.takeWhile_cons_of_neg (by simpa using hy)]; simp

theorem dropWhile_sorted {l : List Blk} {x : Nat} (hs : l.Pairwise fun x y => x.data < y.data) :
    ∀ b ∈ l.dropWhile (fun y => decide (y.data < x)), x ≤ b.data := by
  induction l with
  | nil => simp
  | cons y ys ih =>
    rw [List.pairwise_cons] at hs
    by_cases hy : y.data < x
    · rw [List.dropWhile_cons_of_pos (by simpa using hy)]; exact ih hs.2
    · rw [List.dropWhile_cons_of_neg (by simpa using hy)]
      intro b hb
      rcases List.mem_cons.1 hb with rfl | hb
      · omega
      · have := hs.1 b hb; omega

theorem sorted_mid {l1 l2 : List Blk} {b : Blk} (h1 : l1.Pairwise fun x y => x.data < y.data)
    (h2 : l2.Pairwise fun x y => x.data < y.data) (hb1 : ∀ x ∈ l1, x.data < b.data) (hb2 : ∀ x ∈ l2, b.data < x.data) :
    (l1 ++ b :: l2).Pairwise fun x y => x.data < y.data := by
  rw [List.pairwise_append, List.pairwise_cons]
  refine ⟨h1, ⟨hb2, h2⟩, ?_⟩
  intro x hx y hy
  have := hb1 x hx
  rcases List.mem_cons.1 hy with rfl | hy
  · exact this
  · have := hb2 y hy; omega

end

end Umpire.DynPool
