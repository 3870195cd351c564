import Verif.QuickPool.Inv
/-! # `useChunk` and `newBlock` keep the invariant -/
set_option autoImplicit false
set_option linter.unusedSimpArgs false
namespace Umpire.QuickPool
open Umpire

theorem Inv0.base_of {a : Nat} {s : State} {O L : Held} {sm : List (Nat × Nat)}
    (h : Inv0 a s O L sm) {b : List Chunk} (hb : b ∈ s.blocks) :
    ∃ e ∈ s.baseMap, e.1 = start b ∧ e.2 ∈ O ∧ Within (start b) (bsize b) e.2.1 e.2.2 ∧
      e.2.2 = bsize b + a := by
  have h1 : start b ∈ s.blocks.map start := List.mem_map_of_mem hb
  obtain ⟨e, he, hk⟩ := List.mem_map.1 (h.bases.mem_iff.2 h1)
  have := h.inside b hb e he hk
  exact ⟨e, he, hk, by rw [h.own]; exact List.mem_map_of_mem he, this.1, this.2⟩

/-- All chunks of the pool are pairwise disjoint. -/
theorem Inv0.chunks_disj {a : Nat} {s : State} {O L : Held} {sm : List (Nat × Nat)}
    (h : Inv0 a s O L sm) :
    s.blocks.flatten.Pairwise fun x y => Disj x.data x.size y.data y.size := by
  rw [List.pairwise_flatten]
  refine ⟨fun b hb => tiles_pairwise (h.blk b hb).tiles, ?_⟩
  have hn : (s.blocks.map start).Nodup := h.bases.nodup_iff.1 h.keys
  rw [List.Nodup, List.pairwise_map] at hn
  refine List.Pairwise.imp_of_mem ?_ hn
  intro b b' hb hb' hne x hx y hy
  obtain ⟨e, he, hk, _, hw, _⟩ := h.base_of hb
  obtain ⟨e', he', hk', _, hw', _⟩ := h.base_of hb'
  have hd : s.baseMap.Pairwise fun x y => Disj x.2.1 x.2.2 y.2.1 y.2.2 := by
    have := h.disj
    rw [h.own] at this
    unfold Held.Disjoint at this
    rwa [List.pairwise_map] at this
  have hee : e ≠ e' := by rintro rfl; exact hne (hk.symm.trans hk')
  have := pairwise_mem hd (fun _ _ => Disj.symm) he he' hee
  have w1 := tiles_within (h.blk b hb).tiles hx
  have w2 := tiles_within (h.blk b' hb').tiles hy
  exact (this.of_within hw hw').of_within w1 w2

theorem Inv0.pos_of {a : Nat} {s : State} {O L : Held} {sm : List (Nat × Nat)}
    (h : Inv0 a s O L sm) {c : Chunk} (hc : c ∈ s.blocks.flatten) : 0 < c.size := by
  obtain ⟨b, hb, hcb⟩ := List.mem_flatten.1 hc
  exact (h.blk b hb).pos c hcb

theorem Inv0.data_inj {a : Nat} {s : State} {O L : Held} {sm : List (Nat × Nat)}
    (h : Inv0 a s O L sm) {c d : Chunk} (hc : c ∈ s.blocks.flatten) (hd : d ∈ s.blocks.flatten)
    (he : c.data = d.data) : c = d := by
  by_cases hcd : c = d
  · exact hcd
  · have := pairwise_mem h.chunks_disj (fun _ _ => Disj.symm) hc hd hcd
    have := h.pos_of hc
    have := h.pos_of hd
    unfold Disj at *; omega

theorem Inv0.chunk_range {a : Nat} {s : State} {O L : Held} {sm : List (Nat × Nat)}
    (h : Inv0 a s O L sm) {c : Chunk} (hc : c ∈ s.blocks.flatten) : c.data + c.size ≤ AMax := by
  obtain ⟨b, hb, hcb⟩ := List.mem_flatten.1 hc
  obtain ⟨e, he, hk, hO, hw, _⟩ := h.base_of hb
  have := h.range _ hO
  have h2 := tiles_within (h.blk b hb).tiles hcb
  unfold Within at *; omega

/-- The chunks fit in the address space. -/
theorem Inv0.sizes_le {a : Nat} {s : State} {O L : Held} {sm : List (Nat × Nat)}
    (h : Inv0 a s O L sm) : (s.blocks.flatten.map (·.size)).sum ≤ AMax := by
  have := Held.sum_le (O := s.blocks.flatten.map fun c => (c.data, c.size)) (hi := AMax)
    (by unfold Held.Disjoint; rw [List.pairwise_map]; exact h.chunks_disj)
    (by
      intro r hr
      obtain ⟨c, hc, rfl⟩ := List.mem_map.1 hr
      exact ⟨h.pos_of hc, h.chunk_range hc⟩)
  simpa [List.map_map, Function.comp_def] using this

theorem splitChunks_bsize {c : Chunk} {r n : Nat} (h : r ≤ c.size) : bsize (splitChunks c r n) = c.size := by
  unfold splitChunks
  split
  · simp; omega
  · simp

theorem splitChunks_ok {a : Nat} {b1 b2 : List Chunk} {c : Chunk} {r n : Nat}
    (h : BlockOk a (b1 ++ c :: b2)) (hf : c.free = true) (h0 : 0 < r) (hr : r ≤ c.size) (har : a ∣ r) :
    BlockOk a (b1 ++ splitChunks c r n ++ b2) ∧
    start (b1 ++ splitChunks c r n ++ b2) = start (b1 ++ c :: b2) ∧
    bsize (b1 ++ splitChunks c r n ++ b2) = bsize (b1 ++ c :: b2) := by
  have hst : start (b1 ++ splitChunks c r n ++ b2) = start (b1 ++ c :: b2) := by
    unfold splitChunks; split <;> cases b1 <;> simp [start]
  have hbs : bsize (b1 ++ splitChunks c r n ++ b2) = bsize (b1 ++ c :: b2) := by
    simp only [bsize_append, splitChunks_bsize hr, bsize_cons]; omega
  refine ⟨⟨?_, ?_, ?_, ?_, ?_, ?_⟩, hst, hbs⟩
  · unfold splitChunks; split <;> simp
  · rw [hst]
    have ht := h.tiles
    rw [tiles_append] at ht
    rw [List.append_assoc, tiles_append]
    refine ⟨ht.1, ?_⟩
    have h2 := ht.2
    simp only [Tiles] at h2
    unfold splitChunks
    split
    · simp only [List.cons_append, List.nil_append, Tiles]
      refine ⟨h2.1, by rw [h2.1], ?_⟩
      have : start (b1 ++ c :: b2) + bsize b1 + r + (c.size - r) = start (b1 ++ c :: b2) + bsize b1 + c.size := by omega
      rw [this]; exact h2.2
    · simp only [List.cons_append, List.nil_append, Tiles]
      exact h2
  · rw [hbs]
    intro d hd
    have hcs := h.csize
    unfold splitChunks at hd
    split at hd <;>
    · simp only [List.mem_append, List.mem_cons, List.not_mem_nil, or_false] at hd
      have := hcs c (by simp)
      rcases hd with (hd | hd) | hd
      · exact hcs d (by simp [hd])
      · first
        | (rcases hd with rfl | rfl <;> exact this)
        | (subst hd; exact this)
      · exact hcs d (by simp [hd])
  · intro d hd
    have hp := h.pos
    unfold splitChunks at hd
    split at hd <;>
    · simp only [List.mem_append, List.mem_cons, List.not_mem_nil, or_false] at hd
      have := hp c (by simp)
      rcases hd with (hd | hd) | hd
      · exact hp d (by simp [hd])
      · first
        | (rcases hd with rfl | rfl <;> simp <;> omega)
        | (subst hd; exact this)
      · exact hp d (by simp [hd])
  · have hn := noAdj_append_cons.1 h.adj
    unfold splitChunks
    split
    · simp only [List.append_assoc, List.cons_append, List.nil_append]
      rw [noAdj_append_cons]
      refine ⟨noAdj_last hn.1 (by simp), by simp, ?_⟩
      exact noAdj_head hn.2 (by simp [hf])
    · simp only [List.append_assoc, List.cons_append, List.nil_append]
      rw [noAdj_append_cons]
      exact ⟨noAdj_last hn.1 (by simp), noAdj_head hn.2 (by simp)⟩
  · intro d hd
    have hp := h.al
    unfold splitChunks at hd
    split at hd <;>
    · simp only [List.mem_append, List.mem_cons, List.not_mem_nil, or_false] at hd
      have := hp c (by simp)
      rcases hd with (hd | hd) | hd
      · exact hp d (by simp [hd])
      · first
        | (rcases hd with rfl | rfl
           · exact this
           · exact Nat.dvd_add this har)
        | (subst hd; exact this)
      · exact hp d (by simp [hd])

end Umpire.QuickPool
namespace Umpire.QuickPool
open Umpire

theorem usedL_append (x y : List Chunk) : usedL (x ++ y) = usedL x ++ usedL y := by simp [usedL]
theorem freeL_append (x y : List Chunk) : freeL (x ++ y) = freeL x ++ freeL y := by simp [freeL]

/-- `useChunk` as a single record, for a free chunk whose address is not in the pointer map. -/
theorem useChunk_eq {s : State} {c : Chunk} {r : Nat} (hf : c.free = true)
    (hany : s.ptrMap.any (fun e => decide (e.1 = c.data)) = false) :
    useChunk s c r = (c.data,
      { blocks := s.blocks.map (splitIn c.id r s.nextId)
        sizeMap := if r ≠ c.size then smInsert (c.size - r) s.nextId s.sizeMap else s.sizeMap
        ptrMap := (c.data, c.id) :: s.ptrMap
        baseMap := s.baseMap
        nextId := s.nextId + 1
        totalBlocks := s.totalBlocks
        releasableBlocks := if c.size = c.chunkSize then s.releasableBlocks - 1 else s.releasableBlocks
        alignedBytes := s.alignedBytes + r
        alignedHwm := max (s.alignedBytes + r) s.alignedHwm
        actualBytes := s.actualBytes
        releasableBytes := if c.size = c.chunkSize then s.releasableBytes - c.chunkSize else s.releasableBytes
        actualHwm := s.actualHwm }) := by
  unfold useChunk
  by_cases hw : c.size = c.chunkSize
  · simp only [hw, hf, and_self, if_true, hany, Bool.false_eq_true, if_false]
  · simp only [hw, hf, false_and, if_false, hany, Bool.false_eq_true]

/-- Using a free chunk (taken out of the size map) for an allocation. -/
theorem useChunk_inv {a : Nat} {s : State} {O L : Held} {c : Chunk} {n : Nat}
    (h : Inv0 a s O L ((c.size, c.id) :: s.sizeMap)) (ha : 0 < a) (hc : c ∈ s.blocks.flatten)
    (hf : c.free = true) (hn : 0 < n) (hb : n + a ≤ W) (hr : roundUp64 a n ≤ c.size) :
    Inv a (useChunk s c (roundUp64 a n)).2 O ((c.data, n) :: L) := by
  obtain ⟨hrd, hrn, _⟩ := roundUp64_spec ha hn hb
  generalize hR : roundUp64 a n = r at *
  have h0 : 0 < r := by omega
  obtain ⟨B1, b1, b2, B2, hbs⟩ := mem_decomp hc
  have hblk : BlockOk a (b1 ++ c :: b2) := h.blk _ (by rw [hbs]; simp)
  obtain ⟨hok, hst, hsz⟩ := splitChunks_ok (n := s.nextId) hblk hf h0 hr hrd
  have hmap := map_splitIn r s.nextId hbs h.ids
  have hnew : ∀ e ∈ s.ptrMap, e.1 ≠ c.data := by
    intro e he heq
    obtain ⟨d, hd, hde⟩ := List.mem_map.1 (h.pm.mem_iff.1 he)
    have hd' := List.mem_filter.1 hd
    have : c = d := h.data_inj hc hd'.1 (by rw [← heq, ← hde])
    subst this
    simp [hf] at hd'
  have hany : s.ptrMap.any (fun e => decide (e.1 = c.data)) = false := by
    simpa using hnew
  have hcsz : c.chunkSize = bsize (b1 ++ c :: b2) := hblk.csize c (by simp)
  have hle : c.size ≤ c.chunkSize := by rw [hcsz, bsize_append, bsize_cons]; omega
  -- the flattened lists
  have hfl : s.blocks.flatten = (B1.flatten ++ b1) ++ c :: (b2 ++ B2.flatten) := by
    rw [hbs]; simp
  have hfl' : (s.blocks.map (splitIn c.id r s.nextId)).flatten
      = (B1.flatten ++ b1) ++ splitChunks c r s.nextId ++ (b2 ++ B2.flatten) := by
    rw [hmap]; simp
  generalize hX : B1.flatten ++ b1 = X at hfl hfl'
  generalize hY : b2 ++ B2.flatten = Y at hfl hfl'
  have hidlt : ∀ d ∈ X ++ c :: Y, d.id < s.nextId := by rw [← hfl]; exact h.idlt
  -- facts about the old state
  have hsm := h.sm
  have hpm := h.pm
  have hids := h.ids
  have hrb := h.relBlocks
  have hry := h.relBytes
  have hal := h.aligned
  have hlv := h.live
  rw [hfl] at hsm hpm hids hrb hry hal hlv
  have fsc : freeL (splitChunks c r s.nextId) =
      if r ≠ c.size then [{ id := s.nextId, data := c.data + r, size := c.size - r, chunkSize := c.chunkSize, free := true }] else [] := by
    unfold splitChunks freeL; split <;> simp
  have usc : (usedL (splitChunks c r s.nextId)) = [{ c with size := r, free := false }] := by
    unfold splitChunks usedL; split <;> rename_i hq
    · simp
    · simp at hq; subst hq; simp
  have wsc : (splitChunks c r s.nextId).filter whole = [] := by
    unfold splitChunks
    split
    · have : c.size - r ≠ c.chunkSize := by omega
      simp [whole, this]
    · simp [whole]
  have wc : [c].filter whole = if c.size = c.chunkSize then [c] else [] := by
    simp only [List.filter_cons, whole, hf, Bool.and_true, List.filter_nil]
    split <;> simp_all
  have fc : freeL [c] = [c] := by simp [freeL, hf]
  have uc : usedL [c] = [] := by simp [usedL, hf]
  have hcons : c :: Y = [c] ++ Y := rfl
  rw [hcons] at hsm hpm hrb hry hal hlv
  simp only [freeL_append, usedL_append, fc, uc, List.filter_append, wc, List.map_append,
    List.length_append, List.sum_append, List.append_nil, List.nil_append, List.map_cons, List.map_nil] at hsm hpm hrb hry hal hlv
  have hsm' : s.sizeMap.Perm ((freeL X).map (fun c => (c.size, c.id)) ++ (freeL Y).map fun c => (c.size, c.id)) :=
    (hsm.trans (by simp)).cons_inv
  have hids2 : ((X ++ splitChunks c r s.nextId ++ Y).map (·.id)).Nodup := by
    unfold splitChunks
    split
    · simp only [List.map_append, List.nodup_append, List.map_cons, List.map_nil, List.mem_append, List.mem_map, List.mem_cons,
        List.nodup_cons] at hids hidlt ⊢
      have h1 := hidlt c (by simp)
      refine ⟨⟨hids.1, ?_, ?_⟩, hids.2.1.2, ?_⟩
      · simp; omega
      · grind
      · grind
    · simpa using hids
  have hBL : ∀ b ∈ B1 ++ (b1 ++ splitChunks c r s.nextId ++ b2) :: B2,
      b ∈ s.blocks ∨ b = b1 ++ splitChunks c r s.nextId ++ b2 := by
    intro b hb
    rw [hbs]
    simp only [List.mem_append, List.mem_cons] at hb ⊢
    rcases hb with h | h | h
    · left; left; exact h
    · right; exact h
    · left; right; right; exact h
  unfold Inv
  rw [useChunk_eq hf hany]
  refine
    { blk := ?_, ids := ?_, idlt := ?_, sm := ?_, sorted := ?_, pm := ?_, own := h.own, keys := h.keys, akey := h.akey,
      bases := ?_, inside := ?_, disj := h.disj, range := h.range, total := ?_, relBlocks := ?_,
      relBytes := ?_, actual := ?_, aligned := ?_, ahwm := ?_, ahwmle := ?_, thwm := ?_, live := ?_, req := ?_ }
  · simp only [hmap]
    intro b hb
    rcases hBL b hb with hb | rfl
    · exact h.blk b hb
    · exact hok
  · simp only [hfl']; exact hids2
  · simp only [hfl']
    intro d hd
    simp only [List.mem_append] at hd
    rcases hd with (hd | hd) | hd
    · have := hidlt d (by simp [hd]); omega
    · have := hidlt c (by simp)
      unfold splitChunks at hd
      split at hd
      · simp only [List.mem_cons, List.not_mem_nil, or_false] at hd
        rcases hd with rfl | rfl <;> simp; omega
      · simp only [List.mem_cons, List.not_mem_nil, or_false] at hd
        subst hd; simp; omega
    · have := hidlt d (by simp [hd]); omega
  · simp only [hfl', freeL_append, fsc, List.map_append]
    split
    · simp only [List.map_cons, List.map_nil, List.append_assoc, List.singleton_append]
      exact (smInsert_perm ..).trans ((hsm'.cons _).trans List.perm_middle.symm)
    · simpa using hsm'
  · simp only
    split
    · exact smInsert_sorted h.sorted
    · exact h.sorted
  · simp only [hfl', usedL_append, usc, List.map_append]
    simp only [Bool.false_eq_true, if_false, List.map_cons, List.map_nil, List.append_assoc, List.singleton_append]
    exact (hpm.cons _).trans List.perm_middle.symm
  · simp only [hmap, List.map_append, List.map_cons, hst]
    have := h.bases
    rw [hbs] at this
    simpa using this
  · simp only [hmap]
    intro b hb e he hk
    rcases hBL b hb with hb | rfl
    · exact h.inside b hb e he hk
    · rw [hst, hsz] at *
      exact h.inside (b1 ++ c :: b2) (by rw [hbs]; simp) e he (by rw [hk])
  · have := h.total
    simp only [List.length_map, this]
  · simp only [hfl', List.filter_append, wsc, List.append_nil, List.length_append]
    rw [hrb]
    by_cases hw : c.size = c.chunkSize <;> simp [hw] <;> omega
  · simp only [hfl', List.filter_append, wsc, List.append_nil, List.map_append, List.sum_append]
    rw [hry]
    by_cases hw : c.size = c.chunkSize <;> simp [hw] <;> omega
  · have := h.actual
    rw [hbs] at this
    simp only [hmap, List.map_append, List.map_cons, List.sum_append, List.sum_cons, hsz] at this ⊢
    exact this
  · simp only [hfl', usedL_append, usc, List.map_append, List.sum_append, List.map_cons, List.map_nil, List.sum_singleton]
    omega
  · exact Nat.le_max_left ..
  · have h1 := h.ahwmle
    have h2 := h.sizes_le
    have h3 := sum_map_filter_split (fun c : Chunk => c.size) (fun c => c.free) s.blocks.flatten
    have h4 : c.size ≤ ((s.blocks.flatten.filter (fun c => c.free)).map (·.size)).sum := by
      have hm : c ∈ s.blocks.flatten.filter (fun c => c.free) := List.mem_filter.2 ⟨hc, hf⟩
      obtain ⟨p, q, hpq⟩ := List.append_of_mem hm
      rw [hpq]; simp; omega
    have h5 := h.aligned
    unfold usedL at h5
    simp only
    apply Nat.max_le.2 ⟨_, h1⟩
    omega
  · exact h.thwm
  · simp only [hfl', usedL_append, usc, List.map_append, List.map_cons, List.map_nil, List.append_assoc, List.singleton_append, hR]
    exact (hlv.cons _).trans List.perm_middle.symm
  · intro q hq
    rcases List.mem_cons.1 hq with rfl | hq
    · exact ⟨hn, hb⟩
    · exact h.req q hq

end Umpire.QuickPool
