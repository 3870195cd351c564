import Verif.DynPool.Rel
/-! # The steps of `DynamicPoolList` keep the invariant -/
set_option autoImplicit false
set_option linter.unusedSimpArgs false
namespace Umpire.DynPool
open Umpire.Prog
open Umpire.QuickPool (Chunk Inv Inv0 bsize Tiles NoAdj start BlockOk freeL usedL whole mem_decomp splitChunks freeL_append usedL_append)

theorem init_inv (a : Nat) : DInv a init [] [] := by
  refine ⟨QuickPool.init, QuickPool.init_inv a, ?_⟩
  constructor <;> simp [init, QuickPool.init, freeL, usedL]

/-- Using a free piece, from a state where the auxiliary size map has already
given up its entry. -/
theorem take_sim {a : Nat} {d : State} {q : QuickPool.State} {O L : Held} {c : Chunk} {n : Nat}
    (h : Inv0 a q O L ((c.size, c.id) :: q.sizeMap)) (hrel : Rel d q) (ha : 0 < a) (hc : c ∈ q.blocks.flatten)
    (hf : c.free = true) (hn : 0 < n) (hb : n + a ≤ W) (hr : roundUp64 a n ≤ c.size)
    {pre post : List Blk} (hpos : d.free = pre ++ toBlk (q.blocks.map start) c :: post) :
    DInv a (takeBlock d (pre, toBlk (q.blocks.map start) c, post) (roundUp64 a n)).2 O ((c.data, n) :: L) := by
  have hinv := QuickPool.useChunk_inv h ha hc hf hn hb hr
  refine ⟨_, hinv, ?_⟩
  obtain ⟨hrd, hrn, _⟩ := roundUp64_spec ha hn hb
  have hwhole := whole_iff h hc
  generalize hR : roundUp64 a n = r at *
  obtain ⟨B1, b1, b2, B2, hbs⟩ := mem_decomp hc
  have hblk : BlockOk a (b1 ++ c :: b2) := h.blk _ (by rw [hbs]; simp)
  obtain ⟨hok, hst, hsz⟩ := QuickPool.splitChunks_ok (n := q.nextId) hblk hf (by omega) hr hrd
  have hmap := QuickPool.map_splitIn r q.nextId hbs h.ids
  have hnew : ∀ e ∈ q.ptrMap, e.1 ≠ c.data := by
    intro e he heq
    obtain ⟨d, hd, hde⟩ := List.mem_map.1 (h.pm.mem_iff.1 he)
    have hd' := List.mem_filter.1 hd
    have : c = d := h.data_inj hc hd'.1 (by rw [← heq, ← hde])
    subst this
    simp [hf] at hd'
  have hany : q.ptrMap.any (fun e => decide (e.1 = c.data)) = false := by simpa using hnew
  have huse := QuickPool.useChunk_eq (r := r) hf hany
  have hstarts : (q.blocks.map (QuickPool.splitIn c.id r q.nextId)).map start = q.blocks.map start := by
    rw [hmap, hbs]; simp only [List.map_append, List.map_cons, hst]
  -- the rest piece is not the beginning of a block
  have hrest : r ≠ c.size → c.data + r ∉ q.blocks.map start := by
    intro hrs hm
    have hb' : (QuickPool.useChunk q c r).2.blocks = B1 ++ ((b1 ++ [{ c with size := r, free := false }]) ++
        { id := q.nextId, data := c.data + r, size := c.size - r, chunkSize := c.chunkSize, free := true } :: b2) :: B2 := by
      rw [huse]; simp only; rw [hmap]; simp [splitChunks, hrs]
    have := (head_iff hinv hb').1 (by
      rw [huse]; simp only
      rw [hstarts]; exact hm)
    simp at this
  have hfl : q.blocks.flatten = (B1.flatten ++ b1) ++ [c] ++ (b2 ++ B2.flatten) := by rw [hbs]; simp
  have hfl' : (q.blocks.map (QuickPool.splitIn c.id r q.nextId)).flatten
      = (B1.flatten ++ b1) ++ splitChunks c r q.nextId ++ (b2 ++ B2.flatten) := by rw [hmap]; simp
  generalize hX : B1.flatten ++ b1 = X at hfl hfl'
  generalize hY : b2 ++ B2.flatten = Y at hfl hfl'
  have hfree := hrel.free
  have hused := hrel.used
  have hsorted := hrel.sorted
  have hdisj := h.chunks_disj
  rw [hpos] at hfree hsorted
  have hcs := h.pos_of hc
  have fc : freeL [c] = [c] := by simp [freeL, hf]
  have uc : usedL [c] = [] := by simp [usedL, hf]
  have fsc : freeL (splitChunks c r q.nextId) =
      if r ≠ c.size then [{ id := q.nextId, data := c.data + r, size := c.size - r, chunkSize := c.chunkSize, free := true }] else [] := by
    unfold splitChunks freeL; split <;> simp
  have usc : (usedL (splitChunks c r q.nextId)) = [{ c with size := r, free := false }] := by
    unfold splitChunks usedL; split <;> rename_i hq
    · simp
    · simp at hq; subst hq; simp
  have hlt : ∀ y ∈ post, c.data + c.size ≤ y.data := by
    intro y hy
    have h1 : c.data < y.data := by
      have := (List.pairwise_append.1 hsorted).2.1
      exact (List.pairwise_cons.1 this).1 y hy
    obtain ⟨e, he, hef, hey⟩ := hrel.chunk_of_free (b := y) (by rw [hpos]; simp [hy])
    have hyd : e.data = y.data := by rw [← hey]; rfl
    have hne : c ≠ e := by rintro rfl; omega
    have := pairwise_mem hdisj (fun _ _ => Disj.symm) hc he hne
    have := h.pos_of he
    unfold Disj at *; omega
  rw [hfl] at hfree hused
  generalize hst0 : q.blocks.map start = st at *
  simp only [freeL_append, usedL_append, fc, uc, List.map_append, List.map_cons, List.map_nil, List.append_nil] at hfree hused
  have hfree' : (pre ++ post).Perm ((freeL X).map (toBlk st) ++ (freeL Y).map (toBlk st)) := by
    have h1 := List.perm_middle.symm.trans hfree
    simp only [List.append_assoc, List.singleton_append] at h1
    exact (h1.trans List.perm_middle).cons_inv
  have hds : (toBlk st c).size = c.size := rfl
  have hdd : (toBlk st c).data = c.data := rfl
  unfold takeBlock
  rw [huse]
  constructor <;> simp only [hstarts, hfl', freeL_append, usedL_append, List.map_append, fsc, usc, hds, hdd]
  · by_cases hrs : c.size = r
    · rw [if_pos hrs, if_neg (by omega)]
      simpa using hfree'
    · rw [if_neg hrs, if_pos (by omega)]
      simp only [List.map_cons, List.map_nil, List.append_assoc, List.singleton_append]
      have : toBlk st { id := q.nextId, data := c.data + r, size := c.size - r, chunkSize := c.chunkSize, free := true } =
          ⟨c.data + r, c.size - r, 0⟩ := by
        unfold toBlk; simp only [if_neg (hrest (by omega))]
      rw [this]
      exact List.perm_middle.trans ((hfree'.cons _).trans List.perm_middle.symm)
  · simp only [List.map_cons, List.map_nil, List.append_assoc, List.singleton_append]
    have : toBlk st { c with size := r, free := false } = { toBlk st c with size := r } := rfl
    rw [this]
    exact (hused.cons _).trans List.perm_middle.symm
  · have hp1 := List.pairwise_append.1 hsorted
    have hp2 := List.pairwise_cons.1 hp1.2.1
    by_cases hrs : c.size = r
    · rw [if_pos hrs]
      simp only [List.append_nil]
      exact List.pairwise_append.2 ⟨hp1.1, hp2.2, fun x hx y hy => hp1.2.2 x hx y (by simp [hy])⟩
    · rw [if_neg hrs]
      simp only [List.append_assoc, List.singleton_append]
      refine sorted_mid hp1.1 hp2.2 ?_ ?_
      · intro x hx
        have := hp1.2.2 x hx (toBlk st c) (by simp)
        simp only [toBlk] at this ⊢
        omega
      · intro x hx
        have := hlt x hx
        simp only
        omega
  · exact hrel.base
  · rw [hrel.aligned]
  · rw [hrel.aligned, hrel.ahwm]
  · exact hrel.actual
  · exact hrel.thwm
  · have hw : (c.size = (toBlk st c).blockSize) ↔ c.size = c.chunkSize := hwhole
    simp only [hw, hrel.rel]
  · exact hrel.total

/-- The configuration of the auxiliary pool. -/
def qc (cfg : Cfg) : QuickPool.Cfg := ⟨cfg.align, cfg.first, cfg.next, fun _ => 0⟩

theorem Rel.of_sizeMap {d : State} {q : QuickPool.State} (h : Rel d q) (m : List (Nat × Nat)) :
    Rel d { q with sizeMap := m } :=
  ⟨h.free, h.used, h.sorted, h.base, h.aligned, h.ahwm, h.actual, h.thwm, h.rel, h.total⟩

theorem add_sim {cfg : Cfg} {d : State} {q : QuickPool.State} {O L : Held} {size p : Nat}
    (h : Inv cfg.align q O L) (hrel : Rel d q) (ha : 0 < cfg.align) (hs : 0 < size) (hb : size + cfg.align < W)
    (hp : Fresh p (size + cfg.align) O) :
    Rel (addBlock cfg d size p).2 (QuickPool.newBlock (qc cfg) q size p).2 ∧
    (addBlock cfg d size p).1.2.1 = toBlk ((QuickPool.newBlock (qc cfg) q size p).2.blocks.map start)
      (QuickPool.newBlock (qc cfg) q size p).1 := by
  obtain ⟨hinv, hcm, hcf, hcs⟩ := QuickPool.newBlock_inv (cfg := qc cfg) h ha hs hb hp
  have hne : ∀ e ∈ q.blocks.flatten, e.data ≠ alignPtr cfg.align p := by
    intro e he heq
    have : e = (QuickPool.newBlock (qc cfg) q size p).1 := by
      refine hinv.data_inj ?_ hcm heq
      simp only [QuickPool.newBlock, List.flatten_append, List.mem_append]
      exact Or.inl he
    have h2 := h.idlt e he
    rw [this] at h2
    simp [QuickPool.newBlock] at h2
  have hbl : (QuickPool.newBlock (qc cfg) q size p).2.blocks =
      q.blocks ++ [[{ id := q.nextId, data := alignPtr cfg.align p, size := size, chunkSize := size, free := true }]] := rfl
  generalize hA : alignPtr cfg.align p = A at *
  have hcg : ∀ l : List Chunk, (∀ e ∈ l, e ∈ q.blocks.flatten) →
      l.map (toBlk (q.blocks.map start ++ [A])) = l.map (toBlk (q.blocks.map start)) := by
    intro l hl
    apply tb_congr
    intro c hc
    have := hne c (hl c hc)
    simp [this]
  have hcat : d.free.takeWhile (fun x => decide (x.data < A)) ++ d.free.dropWhile (fun x => decide (x.data < A)) = d.free :=
    List.takeWhile_append_dropWhile
  have hfr : ∀ b ∈ d.free, b.data ≠ A := by
    intro b hb
    obtain ⟨c, hc, _, he⟩ := hrel.chunk_of_free hb
    rw [← he]; exact hne c hc
  have hsp := hrel.sorted
  have htb : toBlk (q.blocks.map start ++ [A]) { id := q.nextId, data := A, size := size, chunkSize := size, free := true } =
      ⟨A, size, size⟩ := by simp [toBlk]
  have hst : (q.blocks ++ [[({ id := q.nextId, data := A, size := size, chunkSize := size, free := true } : Chunk)]]).map start =
      q.blocks.map start ++ [A] := by simp [start]
  refine ⟨?_, ?_⟩
  · constructor
    · rw [hbl, hst]
      simp only [addBlock, hA]
      simp only [List.flatten_append, freeL_append, List.map_append, List.flatten_cons, List.flatten_nil, List.append_nil]
      rw [hcg (freeL q.blocks.flatten) (fun e he => (List.mem_filter.1 he).1)]
      have : freeL [({ id := q.nextId, data := A, size := size, chunkSize := size, free := true } : Chunk)] =
        [{ id := q.nextId, data := A, size := size, chunkSize := size, free := true }] := by simp [freeL]
      rw [this]
      simp only [List.map_cons, List.map_nil, htb]
      refine List.perm_middle.trans ?_
      rw [hcat]
      exact (hrel.free.cons _).trans (List.perm_append_comm (l₁ := [_]))
    · rw [hbl, hst]
      simp only [addBlock, hA]
      simp only [List.flatten_append, usedL_append, List.map_append, List.flatten_cons, List.flatten_nil, List.append_nil]
      rw [hcg (usedL q.blocks.flatten) (fun e he => (List.mem_filter.1 he).1)]
      have : usedL [({ id := q.nextId, data := A, size := size, chunkSize := size, free := true } : Chunk)] = [] := by
        simp [usedL]
      rw [this]
      simpa using hrel.used
    · simp only [addBlock, hA]
      refine sorted_mid (List.Pairwise.sublist (List.takeWhile_sublist _) hsp)
        (List.Pairwise.sublist (List.dropWhile_sublist _) hsp) takeWhile_sorted ?_
      intro x hx
      have h1 := dropWhile_sorted hsp x hx
      have h2 := hfr x ((List.dropWhile_sublist _).subset hx)
      simp only
      omega
    · simp only [addBlock, QuickPool.newBlock, qc, hrel.base]; rfl
    · exact hrel.aligned
    · exact hrel.ahwm
    · simp only [addBlock, QuickPool.newBlock, hrel.actual]
    · simp only [addBlock, QuickPool.newBlock, hrel.actual, hrel.thwm]
    · simp only [addBlock, QuickPool.newBlock, hrel.rel]
    · simp only [addBlock, QuickPool.newBlock, hrel.total]
  · rw [hbl, hst]
    simp only [addBlock, QuickPool.newBlock, qc, hA, htb]

/-- Growing the pool and using the new block. -/
theorem grow_sim {cfg : Cfg} {d : State} {O L : Held} {n size p : Nat} (h : DInv cfg.align d O L)
    (ha : 0 < cfg.align) (hn : 0 < n) (hn2 : n + 2 * cfg.align ≤ W) (hsz : roundUp64 cfg.align n ≤ size) (hs : 0 < size)
    (hb : size + cfg.align < W) (hp : Fresh p (size + cfg.align) O) :
    DInv cfg.align (takeBlock (addBlock cfg d size p).2 (addBlock cfg d size p).1 (roundUp64 cfg.align n)).2
      ((p, size + cfg.align) :: O) ((alignPtr cfg.align p, n) :: L) := by
  obtain ⟨q, hq, hrel⟩ := h
  obtain ⟨hinv, hcm, hcf, hcs⟩ := QuickPool.newBlock_inv (cfg := qc cfg) hq ha hs hb hp
  obtain ⟨hr2, hb2⟩ := add_sim hq hrel ha hs hb hp
  have := take_sim hinv hr2 ha hcm hcf hn (by show n + cfg.align ≤ W; omega) (by rw [hcs]; exact hsz)
    (pre := (addBlock cfg d size p).1.1) (post := (addBlock cfg d size p).1.2.2) (by rw [← hb2]; rfl)
  rw [← hb2] at this
  exact this

/-- Giving one whole block back. -/
theorem drop_sim {a : Nat} {d : State} {q : QuickPool.State} {O L : Held} (h : Inv a q O L) (hrel : Rel d q)
    {c : Chunk} (hc : c ∈ q.blocks.flatten) (hw : c.size = c.chunkSize) (hf : c.free = true)
    {kept bs : List Blk} (hpos : d.free = kept ++ toBlk (q.blocks.map start) c :: bs) :
    Rel { d with
          actualBytes := d.actualBytes - c.size
          releasableBlocks := d.releasableBlocks - 1
          totalBlocks := d.totalBlocks - 1
          baseMap := d.baseMap.filter fun e => e.1 ≠ c.data
          free := kept ++ bs } (QuickPool.dropBlock q c) := by
  obtain ⟨B1, B2, hbs⟩ := QuickPool.whole_decomp h hc hw
  have hbl := QuickPool.dropBlock_blocks h hbs
  have hd : (QuickPool.dropBlock q c).blocks = B1 ++ B2 := hbl
  have hfl : q.blocks.flatten = B1.flatten ++ [c] ++ B2.flatten := by rw [hbs]; simp
  have hidl : ∀ e ∈ B1.flatten ++ B2.flatten, e.data ≠ c.data := by
    intro e he hec
    have hem : e ∈ q.blocks.flatten := by
      rw [hfl]; simp only [List.mem_append] at he ⊢
      rcases he with he | he
      · exact Or.inl (Or.inl he)
      · exact Or.inr he
    have : e = c := h.data_inj hem hc hec
    subst this
    have hids := h.ids
    rw [hfl] at hids
    simp only [List.map_append, List.map_cons, List.map_nil, List.nodup_append, List.mem_append, List.mem_map, List.mem_singleton] at hids he
    rcases he with he | he
    · exact hids.1.2.2 e.id ⟨e, he, rfl⟩ e.id rfl rfl
    · exact hids.2.2 e.id (Or.inr rfl) e.id ⟨e, he, rfl⟩ rfl
  have hcg : ∀ l : List Chunk, (∀ e ∈ l, e ∈ B1.flatten ++ B2.flatten) →
      l.map (toBlk ((B1 ++ B2).map start)) = l.map (toBlk (q.blocks.map start)) := by
    intro l hl
    apply tb_congr
    intro e he
    have := hidl e (hl e he)
    rw [hbs]
    simp only [List.map_append, List.map_cons, List.mem_append, List.mem_cons, start, this, false_or]
  have fc : freeL [c] = [c] := by simp [freeL, hf]
  have uc : usedL [c] = [] := by simp [usedL, hf]
  have hfree := hrel.free
  have hused := hrel.used
  have hsp := hrel.sorted
  rw [hpos] at hfree hsp
  rw [hfl] at hfree hused
  generalize hst0 : q.blocks.map start = st at *
  simp only [freeL_append, usedL_append, fc, uc, List.map_append, List.map_cons, List.map_nil, List.append_nil] at hfree hused
  constructor
  · rw [hd]
    simp only [List.flatten_append, freeL_append, List.map_append]
    rw [← List.map_append, ← List.map_append]
    rw [hcg _ (fun e he => by
      simp only [freeL, List.mem_append, List.mem_filter] at he ⊢
      exact he.imp And.left And.left)]
    have h1 := List.perm_middle.symm.trans hfree
    simp only [List.append_assoc, List.singleton_append] at h1
    simpa using (h1.trans List.perm_middle).cons_inv
  · rw [hd]
    simp only [List.flatten_append, usedL_append, List.map_append]
    rw [← List.map_append, ← List.map_append]
    rw [hcg _ (fun e he => by
      simp only [usedL, List.mem_append, List.mem_filter] at he ⊢
      exact he.imp And.left And.left)]
    simpa using hused
  · have hp1 := List.pairwise_append.1 hsp
    have hp2 := List.pairwise_cons.1 hp1.2.1
    exact List.pairwise_append.2 ⟨hp1.1, hp2.2, fun x hx y hy => hp1.2.2 x hx y (by simp [hy])⟩
  · simp only [QuickPool.dropBlock, hrel.base]
  · exact hrel.aligned
  · exact hrel.ahwm
  · simp only [QuickPool.dropBlock, hrel.actual, hw]
  · exact hrel.thwm
  · simp only [QuickPool.dropBlock, hrel.rel]
  · simp only [QuickPool.dropBlock, hrel.total]

/-- What `freeReleasedBlocks` leaves unchanged, and the new free list. -/
structure Freed (d d' : State) (kept rest : List Blk) : Prop where
  free : d'.free = kept ++ rest.filter fun b => decide (b.size ≠ b.blockSize)
  used : d'.used = d.used
  aligned : d'.alignedBytes = d.alignedBytes
  ahwm : d'.alignedHwm = d.alignedHwm
  thwm : d'.actualHwm = d.actualHwm

theorem freeLoop_wp {a : Nat} {kept rest : List Blk} {d : State} {O L : Held} (h : DInv a d O L)
    (hd : d.free = kept ++ rest) :
    (freeLoop kept rest d).wp (Keep L) O fun d' O' => DInv a d' O' L ∧ Freed d d' kept rest ∧ O'.Sublist O ∧
      ∀ r ∈ O, r ∈ O' ∨ ∀ l ∈ L, Disj l.1 l.2 r.1 r.2 := by
  induction rest generalizing kept d O with
  | nil =>
    have he : { d with free := kept } = d := by
      have : kept = d.free := by simpa using hd.symm
      subst this; rfl
    unfold freeLoop
    rw [he]
    exact ⟨h, ⟨by simpa using hd, rfl, rfl, rfl, rfl⟩, .refl _, fun _ hr => Or.inl hr⟩
  | cons b bs ih =>
    obtain ⟨q, hq, hrel⟩ := h
    obtain ⟨c, hc, hf, hcb⟩ := hrel.chunk_of_free (b := b) (by rw [hd]; simp)
    have hwi := whole_iff hq hc
    rw [hcb] at hwi
    unfold freeLoop
    by_cases hbw : b.size = b.blockSize
    · have hw := hwi.1 hbw
      obtain ⟨B1, B2, hbs⟩ := QuickPool.whole_decomp hq hc hw
      have hbm : [c] ∈ q.blocks := by rw [hbs]; simp
      obtain ⟨e, he, hk, hO, hbf⟩ := hq.base_find hbm
      have hst : start [c] = c.data := rfl
      rw [hst] at hk hbf
      have hbd : b.data = c.data := by rw [← hcb]; rfl
      have hbsz : b.size = c.size := by rw [← hcb]; rfl
      rw [if_pos hbw]
      simp only [alignedDealloc, hrel.base, hbd, hbf, hbsz]
      have hkeep : ∀ l ∈ L, Disj l.1 l.2 e.2.1 e.2.2 := fun l hl => hq.live_disj_block hc hf hw he hk hl
      refine ⟨⟨hO, (hq.range _ hO).2.1, hkeep⟩, ?_⟩
      have hinv := QuickPool.dropBlock_inv hq hc hw hf he hk
      have hr2 := drop_sim hq hrel hc hw hf (kept := kept) (bs := bs) (by rw [hcb]; exact hd)
      rw [hrel.base] at hr2
      have := ih (kept := kept) ⟨_, hinv, hr2⟩ rfl
      refine Prog.wp_mono this ?_
      rintro d' O' ⟨h1, h2, h3, h4⟩
      refine ⟨h1, ⟨?_, h2.used, h2.aligned, h2.ahwm, h2.thwm⟩, h3.trans List.filter_sublist, fun r hr => ?_⟩
      · rw [h2.free]; simp [hbw]
      · by_cases hre : r.1 = e.2.1
        · right
          have hpO : ∀ r ∈ O, 0 < r.2 := fun r hr => (hq.range r hr).2.1
          rw [Held.inj hq.disj hpO hr hO hre]
          exact hkeep
        · exact h4 r (mem_drop.2 ⟨hr, hre⟩)
    · rw [if_neg hbw]
      refine Prog.wp_mono (ih (kept := kept ++ [b]) ⟨q, hq, hrel⟩ (by rw [hd]; simp)) ?_
      rintro d' O' ⟨h1, h2, h3, h4⟩
      refine ⟨h1, ⟨?_, h2.used, h2.aligned, h2.ahwm, h2.thwm⟩, h3, h4⟩
      rw [h2.free]; simp [hbw]

theorem freeReleased_wp {a : Nat} {d : State} {O L : Held} (h : DInv a d O L) :
    (freeReleased d).wp (Keep L) O fun d' O' => DInv a d' O' L ∧ Freed d d' [] d.free ∧ O'.Sublist O ∧
      ∀ r ∈ O, r ∈ O' ∨ ∀ l ∈ L, Disj l.1 l.2 r.1 r.2 :=
  freeLoop_wp h rfl

/-- A piece found by `findUsableBlock` is in the free list and large enough. -/
theorem findLoop_spec {size : Nat} {best : Option Pos} {seen l : List Blk} {pos : Pos}
    (hbest : ∀ x, best = some x → x.1 ++ x.2.1 :: x.2.2 = seen ++ l ∧ size ≤ x.2.1.size)
    (h : findLoop size best seen l = some pos) : pos.1 ++ pos.2.1 :: pos.2.2 = seen ++ l ∧ size ≤ pos.2.1.size := by
  induction l generalizing best seen with
  | nil => exact hbest pos h
  | cons b bs ih =>
    unfold findLoop at h
    split at h
    · rename_i hbt
      have hge : size ≤ b.size := by unfold better at hbt; simp at hbt; exact hbt.1
      split at h
      · injection h with h; subst h; exact ⟨rfl, hge⟩
      · have := ih (seen := seen ++ [b]) (by
          intro x hx; injection hx with hx; subst hx; exact ⟨by simp, hge⟩) h
        simpa using this
    · have := ih (seen := seen ++ [b]) (by
        intro x hx
        have := hbest x hx
        simpa using this) h
      simpa using this

/-- Using a piece found in the free list. -/
theorem reuse_sim {a : Nat} {d : State} {O L : Held} {n : Nat} (h : DInv a d O L)
    (ha : 0 < a) (hn : 0 < n) (hn2 : n + a ≤ W) {pos : Pos}
    (hpos : findLoop (roundUp64 a n) none [] d.free = some pos) :
    DInv a (takeBlock d pos (roundUp64 a n)).2 O ((pos.2.1.data, n) :: L) := by
  obtain ⟨q, hq, hrel⟩ := h
  obtain ⟨h1, h2⟩ := findLoop_spec (by simp) hpos
  obtain ⟨pre, b, post⟩ := pos
  simp only [List.nil_append] at h1 h2
  obtain ⟨c, hc, hf, rfl⟩ := hrel.chunk_of_free (b := b) (by rw [← h1]; simp)
  have hm : (c.size, c.id) ∈ q.sizeMap := hq.sm.mem_iff.2 (List.mem_map.2 ⟨c, List.mem_filter.2 ⟨hc, hf⟩, rfl⟩)
  exact take_sim (q := { q with sizeMap := QuickPool.smErase c.id q.sizeMap }) (QuickPool.take_inv hq hm) (hrel.of_sizeMap _) ha hc hf hn
    hn2 h2 h1.symm

end Umpire.DynPool
