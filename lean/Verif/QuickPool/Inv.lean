import Verif.QuickPool.Model
import Verif.Base.Lists
/-! # Invariant of the `QuickPool` model (helper definitions and lemmas) -/
set_option autoImplicit false
set_option linter.unusedSimpArgs false
namespace Umpire.QuickPool
open Umpire

/-- Total size of the chunks of a block. -/
def bsize (b : List Chunk) : Nat := (b.map (·.size)).sum

/-- Chunks are laid out back to back starting at `d`. -/
def Tiles : Nat → List Chunk → Prop
  | _, [] => True
  | d, c :: cs => c.data = d ∧ Tiles (d + c.size) cs

/-- No two neighbouring chunks are both free. -/
def NoAdj : List Chunk → Prop
  | [] => True
  | [_] => True
  | c :: d :: r => ¬(c.free = true ∧ d.free = true) ∧ NoAdj (d :: r)

/-- Start address of a block. -/
def start : List Chunk → Nat
  | [] => 0
  | c :: _ => c.data

/-- Well-formed block. -/
structure BlockOk (a : Nat) (b : List Chunk) : Prop where
  ne : b ≠ []
  tiles : Tiles (start b) b
  csize : ∀ c ∈ b, c.chunkSize = bsize b
  pos : ∀ c ∈ b, 0 < c.size
  adj : NoAdj b
  al : ∀ c ∈ b, a ∣ c.data

def freeL (cs : List Chunk) : List Chunk := cs.filter (·.free)
def usedL (cs : List Chunk) : List Chunk := cs.filter (!·.free)
def whole (c : Chunk) : Bool := decide (c.size = c.chunkSize) && c.free

/-- Everything except the relation of the size map to the free chunks, which is
given for an arbitrary list `sm`. -/
structure Inv0 (a : Nat) (s : State) (O : Held) (L : Held) (sm : List (Nat × Nat)) : Prop where
  blk : ∀ b ∈ s.blocks, BlockOk a b
  ids : (s.blocks.flatten.map (·.id)).Nodup
  idlt : ∀ c ∈ s.blocks.flatten, c.id < s.nextId
  sm : sm.Perm ((freeL s.blocks.flatten).map fun c => (c.size, c.id))
  sorted : s.sizeMap.Pairwise fun x y => x.1 ≤ y.1
  pm : s.ptrMap.Perm ((usedL s.blocks.flatten).map fun c => (c.data, c.id))
  own : O = s.baseMap.map (·.2)
  keys : (s.baseMap.map (·.1)).Nodup
  akey : ∀ e ∈ s.baseMap, e.1 = alignPtr a e.2.1
  bases : (s.baseMap.map (·.1)).Perm (s.blocks.map start)
  inside : ∀ b ∈ s.blocks, ∀ e ∈ s.baseMap, e.1 = start b →
    Within (start b) (bsize b) e.2.1 e.2.2 ∧ e.2.2 = bsize b + a
  disj : O.Disjoint
  range : ∀ r ∈ O, r.1 ≠ 0 ∧ 0 < r.2 ∧ r.1 + r.2 ≤ AMax
  total : s.totalBlocks = s.blocks.length
  relBlocks : s.releasableBlocks = (s.blocks.flatten.filter whole).length
  relBytes : s.releasableBytes = ((s.blocks.flatten.filter whole).map (·.chunkSize)).sum
  actual : s.actualBytes = (s.blocks.map bsize).sum
  aligned : s.alignedBytes = ((usedL s.blocks.flatten).map (·.size)).sum
  ahwm : s.alignedBytes ≤ s.alignedHwm
  ahwmle : s.alignedHwm ≤ AMax
  thwm : s.actualBytes ≤ s.actualHwm
  live : (L.map fun r => (r.1, roundUp64 a r.2)).Perm
    ((usedL s.blocks.flatten).map fun c => (c.data, c.size))
  req : ∀ r ∈ L, 0 < r.2 ∧ r.2 + a ≤ W

/-- The invariant of a pool between operations, where `O` is the memory held
from the parent and `L` the live allocations (pointer, requested bytes). -/
def Inv (a : Nat) (s : State) (O L : Held) : Prop := Inv0 a s O L s.sizeMap

/-! ## Lists of chunks -/

theorem bsize_append (x y : List Chunk) : bsize (x ++ y) = bsize x + bsize y := by
  simp [bsize]

@[simp] theorem bsize_cons (c : Chunk) (y : List Chunk) : bsize (c :: y) = c.size + bsize y := by
  simp [bsize]

@[simp] theorem bsize_nil : bsize [] = 0 := rfl

theorem tiles_append {d : Nat} {x y : List Chunk} :
    Tiles d (x ++ y) ↔ Tiles d x ∧ Tiles (d + bsize x) y := by
  induction x generalizing d with
  | nil => simp [Tiles]
  | cons c cs ih => simp [Tiles, ih, and_assoc, Nat.add_assoc]

theorem noAdj_append_cons {x y : List Chunk} {c : Chunk} :
    NoAdj (x ++ c :: y) ↔ NoAdj (x ++ [c]) ∧ NoAdj (c :: y) := by
  induction x with
  | nil => simp [NoAdj]
  | cons a r ih =>
    cases r with
    | nil => simp [NoAdj]
    | cons b r => simp only [List.cons_append, NoAdj] at *; rw [ih]; simp [and_assoc]

/-- Changing the last chunk to one that is used, or keeps its flag, is harmless. -/
theorem noAdj_last {x : List Chunk} {c c' : Chunk} (h : NoAdj (x ++ [c]))
    (hf : c'.free = true → c.free = true) : NoAdj (x ++ [c']) := by
  induction x with
  | nil => simp [NoAdj]
  | cons a r ih =>
    cases r with
    | nil => simp only [List.cons_append, List.nil_append, NoAdj] at *; exact ⟨fun ⟨u, v⟩ => h.1 ⟨u, hf v⟩, trivial⟩
    | cons b r => simp only [List.cons_append, NoAdj] at *; exact ⟨h.1, ih h.2⟩

theorem noAdj_head {y : List Chunk} {c c' : Chunk} (h : NoAdj (c :: y))
    (hf : c'.free = true → c.free = true) : NoAdj (c' :: y) := by
  cases y with
  | nil => simp [NoAdj]
  | cons d r => exact ⟨fun ⟨u, v⟩ => h.1 ⟨hf u, v⟩, h.2⟩

theorem start_append_cons (x y : List Chunk) (c : Chunk) : start (x ++ c :: y) = start (x ++ [c]) := by
  cases x <;> rfl

theorem tiles_within {d : Nat} {b : List Chunk} (h : Tiles d b) {c : Chunk} (hc : c ∈ b) :
    Within c.data c.size d (bsize b) := by
  induction b generalizing d with
  | nil => cases hc
  | cons x xs ih =>
    simp only [Tiles, bsize_cons] at *
    rcases List.mem_cons.1 hc with rfl | hc
    · unfold Within; omega
    · have := ih h.2 hc; unfold Within at *; omega

theorem tiles_pairwise {d : Nat} {b : List Chunk} (h : Tiles d b) :
    b.Pairwise fun x y => Disj x.data x.size y.data y.size := by
  induction b generalizing d with
  | nil => exact .nil
  | cons x xs ih =>
    simp only [Tiles] at h
    refine List.pairwise_cons.2 ⟨fun y hy => ?_, ih h.2⟩
    have := tiles_within h.2 hy
    unfold Within at this; unfold Disj; omega

theorem findChunk_decomp {id : Nat} {bs : List (List Chunk)} {c : Chunk} (h : c ∈ bs.flatten)
    (hid : c.id = id) (hn : (bs.flatten.map (·.id)).Nodup) :
    findChunk id bs = some c := by
  unfold findChunk
  cases hf : bs.flatten.find? (fun c => decide (c.id = id)) with
  | none =>
    rw [List.find?_eq_none] at hf
    exact absurd (by simpa using hid) (hf c h)
  | some d =>
    have hd := List.mem_of_find?_eq_some hf
    have hp := List.find?_some hf
    simp only [decide_eq_true_eq] at hp
    rw [nodup_map_inj hn hd h (by rw [hp, hid])]

theorem mem_decomp {bs : List (List Chunk)} {c : Chunk} (h : c ∈ bs.flatten) :
    ∃ B1 b1 b2 B2, bs = B1 ++ (b1 ++ c :: b2) :: B2 := by
  obtain ⟨b, hb, hc⟩ := List.mem_flatten.1 h
  obtain ⟨B1, B2, rfl⟩ := List.append_of_mem hb
  obtain ⟨b1, b2, rfl⟩ := List.append_of_mem hc
  exact ⟨B1, b1, b2, B2, rfl⟩

theorem splitIn_no {id r n : Nat} {b : List Chunk} (h : ∀ c ∈ b, c.id ≠ id) : splitIn id r n b = b := by
  induction b with
  | nil => rfl
  | cons c cs ih =>
    simp only [splitIn, if_neg (h c (by simp)), ih (fun d hd => h d (List.mem_cons_of_mem _ hd))]

/-- The chunks that replace `c` when it is used for `r` bytes. -/
def splitChunks (c : Chunk) (r n : Nat) : List Chunk :=
  if r ≠ c.size then
    [{ c with size := r, free := false },
     { id := n, data := c.data + r, size := c.size - r, chunkSize := c.chunkSize, free := true }]
  else [{ c with free := false }]

theorem splitIn_mid {r n : Nat} {b1 b2 : List Chunk} {c : Chunk} (h : ∀ d ∈ b1, d.id ≠ c.id) :
    splitIn c.id r n (b1 ++ c :: b2) = b1 ++ splitChunks c r n ++ b2 := by
  induction b1 with
  | nil =>
    simp only [List.nil_append, splitIn, splitChunks, if_true]
    split <;> simp
  | cons d ds ih =>
    simp only [List.cons_append, splitIn, if_neg (h d (by simp)),
      ih (fun e he => h e (List.mem_cons_of_mem _ he))]

theorem map_splitIn {bs : List (List Chunk)} {B1 B2 : List (List Chunk)} {b1 b2 : List Chunk} {c : Chunk}
    (r n : Nat) (hb : bs = B1 ++ (b1 ++ c :: b2) :: B2) (hn : (bs.flatten.map (·.id)).Nodup) :
    bs.map (splitIn c.id r n) = B1 ++ (b1 ++ splitChunks c r n ++ b2) :: B2 := by
  subst hb
  have key : ∀ d ∈ B1.flatten ++ b1 ++ b2 ++ B2.flatten, d.id ≠ c.id := by
    intro d hd he
    simp only [List.flatten_append, List.flatten_cons, List.map_append, List.map_cons,
      List.nodup_append, List.nodup_cons, List.mem_append, List.mem_map, List.mem_cons] at hn hd
    grind
  rw [List.map_append, List.map_cons, splitIn_mid (fun d hd => key d (by simp [hd]))]
  congr 1
  · conv => rhs; rw [← List.map_id B1]
    apply List.map_congr_left
    intro b hb
    exact splitIn_no fun d hd => key d (by simp; left; exact ⟨b, hb, hd⟩)
  · congr 1
    conv => rhs; rw [← List.map_id B2]
    apply List.map_congr_left
    intro b hb
    exact splitIn_no fun d hd => key d (by simp; right; right; right; exact ⟨b, hb, hd⟩)

/-! ## The size map -/

theorem smInsert_perm (k id : Nat) (m : List (Nat × Nat)) : (smInsert k id m).Perm ((k, id) :: m) := by
  induction m with
  | nil => exact .refl _
  | cons e es ih =>
    unfold smInsert
    split
    · exact .refl _
    · exact (ih.cons e).trans (.swap ..)

theorem smInsert_sorted {k id : Nat} {m : List (Nat × Nat)}
    (h : m.Pairwise fun x y => x.1 ≤ y.1) : (smInsert k id m).Pairwise fun x y => x.1 ≤ y.1 := by
  induction m with
  | nil => simp [smInsert]
  | cons e es ih =>
    rw [List.pairwise_cons] at h
    unfold smInsert
    split
    · refine List.pairwise_cons.2 ⟨?_, List.pairwise_cons.2 h⟩
      intro y hy
      rcases List.mem_cons.1 hy with rfl | hy
      · show k ≤ y.1; omega
      · have := h.1 y hy; show k ≤ y.1; omega
    · refine List.pairwise_cons.2 ⟨?_, ih h.2⟩
      intro y hy
      rcases List.mem_cons.1 ((smInsert_perm k id es).mem_iff.1 hy) with rfl | hy
      · show e.1 ≤ k; omega
      · exact h.1 y hy

end Umpire.QuickPool
