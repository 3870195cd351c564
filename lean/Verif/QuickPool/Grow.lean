import Verif.QuickPool.Use
/-! # `newBlock` and `release` keep the invariant -/
set_option autoImplicit false
set_option linter.unusedSimpArgs false
namespace Umpire.QuickPool
open Umpire

theorem newBlock_inv {cfg : Cfg} {s : State} {O L : Held} {size p : Nat}
    (h : Inv cfg.align s O L) (ha : 0 < cfg.align) (hs : 0 < size) (hb : size + cfg.align < W)
    (hp : Fresh p (size + cfg.align) O) :
    Inv0 cfg.align (newBlock cfg s size p).2 ((p, size + cfg.align) :: O) L
      (((newBlock cfg s size p).1.size, (newBlock cfg s size p).1.id) :: (newBlock cfg s size p).2.sizeMap) ∧
    (newBlock cfg s size p).1 ∈ (newBlock cfg s size p).2.blocks.flatten ∧
    (newBlock cfg s size p).1.free = true ∧ (newBlock cfg s size p).1.size = size := by
  obtain ⟨hp0, hpW, hpd⟩ := hp
  have hw : w64 (size + cfg.align) = size + cfg.align := Nat.mod_eq_of_lt hb
  have hAM := AMax_add_AMax
  obtain ⟨had, hage, hagl⟩ := alignPtr_bounds (p := p) ha (by omega)
  generalize hA : alignPtr cfg.align p = A at *
  have hnk : ∀ e ∈ s.baseMap, e.1 ≠ A := by
    intro e he heq
    have : e.1 ∈ s.blocks.map start := h.bases.mem_iff.1 (List.mem_map_of_mem he)
    obtain ⟨b, hbm, hbs⟩ := List.mem_map.1 this
    have hin := h.inside b hbm e he hbs.symm
    have hO : e.2 ∈ O := by rw [h.own]; exact List.mem_map_of_mem he
    have := hpd _ hO
    have hpos : 0 < bsize b := by
      have hok := h.blk b hbm
      cases b with
      | nil => exact absurd rfl hok.ne
      | cons c cs => have := hok.pos c (by simp); simp; omega
    have := hin.1
    unfold Disj Within at *; omega
  have hfil : s.baseMap.filter (fun e => decide (e.1 ≠ A)) = s.baseMap := by
    rw [List.filter_eq_self]; intro e he; simpa using hnk e he
  unfold newBlock
  simp only [hA, hw, hfil]
  refine ⟨?_, by simp, trivial, trivial⟩
  have hfl : (s.blocks ++ [[({ id := s.nextId, data := A, size := size, chunkSize := size, free := true } : Chunk)]]).flatten
     = s.blocks.flatten ++ [{ id := s.nextId, data := A, size := size, chunkSize := size, free := true }] := by simp
  refine
    { blk := ?_, ids := ?_, idlt := ?_, sm := ?_, sorted := h.sorted, pm := ?_, own := ?_, keys := ?_, akey := ?_,
      bases := ?_, inside := ?_, disj := ?_, range := ?_, total := ?_, relBlocks := ?_,
      relBytes := ?_, actual := ?_, aligned := ?_, ahwm := h.ahwm, ahwmle := h.ahwmle, thwm := Nat.le_max_left .., live := ?_, req := h.req }
  · intro b hb
    simp only [List.mem_append, List.mem_singleton] at hb
    rcases hb with hb | rfl
    · exact h.blk b hb
    · exact ⟨by simp, by simp [Tiles, start], by simp, by simp [hs], by simp [NoAdj], by simpa using had⟩
  · simp only [hfl, List.map_append, List.nodup_append]
    refine ⟨h.ids, by simp, ?_⟩
    intro x hx y hy
    obtain ⟨c, hc, rfl⟩ := List.mem_map.1 hx
    have := h.idlt c hc
    simp at hy; omega
  · simp only [hfl]
    intro c hc
    simp only [List.mem_append, List.mem_singleton] at hc
    rcases hc with hc | rfl
    · have := h.idlt c hc; omega
    · simp
  · simp only [hfl, freeL_append, List.map_append]
    have : freeL [({ id := s.nextId, data := A, size := size, chunkSize := size, free := true } : Chunk)]
      = [{ id := s.nextId, data := A, size := size, chunkSize := size, free := true }] := by simp [freeL]
    rw [this]
    exact (h.sm.cons _).trans (by simpa using (List.perm_append_comm (l₁ := [_])))
  · simp only [hfl, usedL_append, List.map_append]
    have : usedL [({ id := s.nextId, data := A, size := size, chunkSize := size, free := true } : Chunk)] = [] := by simp [usedL]
    rw [this]; simpa using h.pm
  · simp only [List.map_cons]; rw [h.own]
  · simp only [List.map_cons, List.nodup_cons]
    refine ⟨?_, h.keys⟩
    intro hm
    obtain ⟨e, he, hk⟩ := List.mem_map.1 hm
    exact hnk e he hk
  · intro e he
    rcases List.mem_cons.1 he with rfl | he
    · exact hA.symm
    · exact h.akey e he
  · simp only [List.map_cons, List.map_append, List.map_nil]
    exact (h.bases.cons _).trans (by simpa [start] using (List.perm_append_comm (l₁ := [A])))
  · intro b hb e he hk
    simp only [List.mem_append, List.mem_singleton] at hb
    rcases List.mem_cons.1 he with rfl | he <;> rcases hb with hb | rfl
    · have : start b ∈ s.baseMap.map (·.1) := h.bases.mem_iff.2 (List.mem_map_of_mem hb)
      obtain ⟨e, he, hk'⟩ := List.mem_map.1 this
      exact absurd (hk'.trans hk.symm) (hnk e he)
    · simp [start, Within]; omega
    · exact h.inside b hb e he hk
    · exact absurd hk (hnk e he)
  · exact List.pairwise_cons.2 ⟨hpd, h.disj⟩
  · intro r hr
    rcases List.mem_cons.1 hr with rfl | hr
    · exact ⟨hp0, by simp; omega, hpW⟩
    · exact h.range r hr
  · have := h.total; simp [this]
  · have := h.relBlocks; simp only [hfl, List.filter_append, List.length_append, this]; simp [whole]
  · have := h.relBytes; simp only [hfl, List.filter_append, List.map_append, List.sum_append, this]; simp [whole]
  · have := h.actual; simp only [List.map_append, List.sum_append, this]; simp
  · have := h.aligned; simp only [hfl, usedL_append, List.map_append, List.sum_append, this]; simp [usedL]
  · have := h.live
    simp only [hfl, usedL_append, List.map_append]
    simpa [usedL] using this

/-- The state after one block has been given back (QuickPool.cpp:218-237). -/
def dropBlock (s : State) (c : Chunk) : State :=
  { blocks := (s.blocks.map (·.filter fun d => d.id ≠ c.id)).filter (!·.isEmpty)
    sizeMap := smErase c.id s.sizeMap
    ptrMap := s.ptrMap
    baseMap := s.baseMap.filter fun e => e.1 ≠ c.data
    nextId := s.nextId
    totalBlocks := s.totalBlocks - 1
    releasableBlocks := s.releasableBlocks - 1
    alignedBytes := s.alignedBytes
    alignedHwm := s.alignedHwm
    actualBytes := s.actualBytes - c.chunkSize
    releasableBytes := s.releasableBytes - c.chunkSize
    actualHwm := s.actualHwm }

theorem bsize_zero {b : List Chunk} (hp : ∀ c ∈ b, 0 < c.size) (h : bsize b = 0) : b = [] := by
  cases b with
  | nil => rfl
  | cons c cs => have := hp c (by simp); simp at h; omega

theorem whole_alone {a : Nat} {b1 b2 : List Chunk} {c : Chunk} (h : BlockOk a (b1 ++ c :: b2))
    (hw : c.size = c.chunkSize) : b1 = [] ∧ b2 = [] := by
  have h1 := h.csize c (by simp)
  rw [bsize_append, bsize_cons] at h1
  exact ⟨bsize_zero (fun d hd => h.pos d (by simp [hd])) (by omega),
    bsize_zero (fun d hd => h.pos d (by simp [hd])) (by omega)⟩

theorem whole_decomp {a : Nat} {s : State} {O L : Held} {sm : List (Nat × Nat)}
    (h : Inv0 a s O L sm) {c : Chunk} (hc : c ∈ s.blocks.flatten) (hw : c.size = c.chunkSize) :
    ∃ B1 B2, s.blocks = B1 ++ [c] :: B2 := by
  obtain ⟨B1, b1, b2, B2, hbs⟩ := mem_decomp hc
  have hblk : BlockOk a (b1 ++ c :: b2) := h.blk _ (by rw [hbs]; simp)
  obtain ⟨rfl, rfl⟩ := whole_alone hblk hw
  exact ⟨B1, B2, by simpa using hbs⟩

theorem dropBlock_blocks {a : Nat} {s : State} {O L : Held} {sm : List (Nat × Nat)}
    (h : Inv0 a s O L sm) {c : Chunk} {B1 B2 : List (List Chunk)} (hbs : s.blocks = B1 ++ [c] :: B2) :
    (s.blocks.map (·.filter fun d => decide (d.id ≠ c.id))).filter (!·.isEmpty) = B1 ++ B2 := by
  have hids := h.ids
  rw [hbs] at hids
  have key : ∀ b ∈ B1 ++ B2, b.filter (fun d => decide (d.id ≠ c.id)) = b := by
    intro b hb
    rw [List.filter_eq_self]
    intro d hd
    simp only [List.flatten_append, List.flatten_cons, List.map_append, List.map_cons, List.map_nil, List.nodup_append,
      List.nodup_cons, List.mem_append, List.mem_map, List.mem_singleton, List.mem_flatten] at hids
    simp only [List.mem_append] at hb
    simp only [ne_eq, decide_not, Bool.not_eq_eq_eq_not, Bool.not_true, decide_eq_false_iff_not]
    intro he
    rcases hb with hb | hb
    · exact hids.2.2 d.id ⟨d, ⟨b, hb, hd⟩, rfl⟩ d.id (Or.inl he) rfl
    · exact hids.2.1.2.2 c.id rfl d.id ⟨d, ⟨b, hb, hd⟩, rfl⟩ he.symm
  have hne : ∀ b ∈ B1 ++ B2, (!b.isEmpty) = true := by
    intro b hb
    have := (h.blk b (by rw [hbs]; simp at hb ⊢; rcases hb with hb | hb <;> simp [hb])).ne
    simpa using this
  have m1 : B1.map (·.filter fun d => decide (d.id ≠ c.id)) = B1 := by
    conv => rhs; rw [← List.map_id B1]
    exact List.map_congr_left fun b hb => key b (by simp [hb])
  have m2 : B2.map (·.filter fun d => decide (d.id ≠ c.id)) = B2 := by
    conv => rhs; rw [← List.map_id B2]
    exact List.map_congr_left fun b hb => key b (by simp [hb])
  rw [hbs, List.map_append, List.map_cons, m1, m2, List.filter_append]
  rw [List.filter_eq_self.2 (fun b hb => hne b (by simp [hb]))]
  simp
  intro b hb
  simpa using hne b (by simp [hb])

theorem dropBlock_inv {a : Nat} {s : State} {O L : Held} (h : Inv a s O L) {c : Chunk}
    (hc : c ∈ s.blocks.flatten) (hw : c.size = c.chunkSize) (hf : c.free = true)
    {e : Nat × Nat × Nat} (he : e ∈ s.baseMap) (hk : e.1 = c.data) :
    Inv a (dropBlock s c) (drop e.2.1 O) L := by
  obtain ⟨B1, B2, hbs⟩ := whole_decomp h hc hw
  have hbl := dropBlock_blocks h hbs
  have hidl : ∀ d ∈ (B1 ++ B2).flatten, d.id ≠ c.id := by
    have hids := h.ids
    rw [hbs] at hids
    simp only [List.flatten_append, List.flatten_cons, List.map_append, List.map_cons, List.map_nil, List.nodup_append,
      List.nodup_cons, List.mem_append, List.mem_map, List.mem_singleton] at hids ⊢
    rintro d (hd | hd) he
    · exact hids.2.2 d.id ⟨d, hd, rfl⟩ d.id (Or.inl he) rfl
    · exact hids.2.1.2.2 c.id rfl d.id ⟨d, hd, rfl⟩ he.symm
  have hpO : ∀ r ∈ O, 0 < r.2 := fun r hr => (h.range r hr).2.1
  have heO : e.2 ∈ O := by rw [h.own]; exact List.mem_map_of_mem he
  have hOeq : drop e.2.1 O = (s.baseMap.filter fun e => decide (e.1 ≠ c.data)).map (·.2) := by
    unfold drop
    rw [h.own, List.filter_map]
    congr 1
    apply List.filter_congr
    intro x hx
    simp only [Function.comp, ne_eq, decide_not, Bool.not_eq_eq_eq_not]
    have hxO : x.2 ∈ O := by rw [h.own]; exact List.mem_map_of_mem hx
    congr 1
    have : x.2.1 = e.2.1 ↔ x.1 = c.data := by
      constructor
      · intro hx1
        have h2 := Held.inj h.disj hpO hxO heO hx1
        -- distinct entries would be disjoint
        by_cases hxe : x = e
        · rw [hxe, hk]
        · exfalso
          have hdd : s.baseMap.Pairwise fun x y => Disj x.2.1 x.2.2 y.2.1 y.2.2 := by
            have := h.disj
            rw [h.own] at this
            unfold Held.Disjoint at this
            rwa [List.pairwise_map] at this
          have h3 := pairwise_mem hdd (fun _ _ => Disj.symm) hx he hxe
          rw [h2] at h3
          have := hpO _ heO
          unfold Disj at h3; omega
      · intro hx1
        rw [nodup_map_inj h.keys hx he (hx1.trans hk.symm)]
    simp [this]
  have hfl : s.blocks.flatten = B1.flatten ++ c :: B2.flatten := by rw [hbs]; simp
  have hfl' : (B1 ++ B2).flatten = B1.flatten ++ B2.flatten := by simp
  have hbm : ∀ b ∈ B1 ++ B2, b ∈ s.blocks := by
    intro b hb; rw [hbs]; simp at hb ⊢; rcases hb with hb | hb <;> simp [hb]
  have wc : whole c = true := by simp [whole, hw, hf]
  refine
    { blk := ?_, ids := ?_, idlt := ?_, sm := ?_, sorted := ?_, pm := ?_, own := hOeq, keys := ?_, akey := ?_,
      bases := ?_, inside := ?_, disj := h.disj.drop _, range := ?_, total := ?_, relBlocks := ?_,
      relBytes := ?_, actual := ?_, aligned := ?_, ahwm := h.ahwm, ahwmle := h.ahwmle, thwm := ?_, live := ?_, req := h.req }
    <;> try simp only [dropBlock, hbl]
  · exact fun b hb => h.blk b (hbm b hb)
  · have := h.ids
    rw [hfl] at this
    rw [hfl']
    simp only [List.map_append, List.map_cons, List.nodup_append, List.nodup_cons, List.mem_cons] at this ⊢
    exact ⟨this.1, this.2.1.2, fun x hx y hy => this.2.2 x hx y (Or.inr hy)⟩
  · intro d hd
    rw [hfl'] at hd
    apply h.idlt d
    rw [hfl]; simp at hd ⊢; rcases hd with hd | hd <;> simp [hd]
  · have hsm := h.sm
    rw [hfl] at hsm
    unfold smErase
    rw [hfl']
    apply perm_filter_key (x := (c.size, c.id))
    · refine hsm.trans ?_
      rw [show c :: B2.flatten = [c] ++ B2.flatten from rfl]
      simp only [freeL_append, List.map_append]
      simp only [freeL, hf, List.filter_cons, List.filter_nil, if_true, List.map_cons, List.map_nil, List.singleton_append]
      exact List.perm_middle
    · simp
    · intro y hy
      obtain ⟨d, hd, rfl⟩ := List.mem_map.1 hy
      have := hidl d (by rw [hfl']; exact (List.mem_filter.1 hd).1)
      simpa using this
  · exact List.Pairwise.filter _ h.sorted
  · have := h.pm
    rw [hfl] at this
    rw [hfl']
    rw [show c :: B2.flatten = [c] ++ B2.flatten from rfl] at this
    simp only [usedL_append] at this ⊢
    have uc : usedL [c] = [] := by simp [usedL, hf]
    simpa [uc] using this
  · have : (s.baseMap.filter fun e => decide (e.1 ≠ c.data)).map (·.1) = (s.baseMap.map (·.1)).filter (fun x => decide (x ≠ c.data)) := by
      rw [List.filter_map]; rfl
    rw [this]
    exact List.Pairwise.filter _ h.keys
  · exact fun e he => h.akey e (List.mem_filter.1 he).1
  · have : (s.baseMap.filter fun e => decide (e.1 ≠ c.data)).map (·.1) = (s.baseMap.map (·.1)).filter (fun x => decide (x ≠ c.data)) := by
      rw [List.filter_map]; rfl
    rw [this]
    have hb := h.bases
    have hnd : (s.blocks.map start).Nodup := h.bases.nodup_iff.1 h.keys
    rw [hbs] at hb hnd
    simp only [List.map_append, List.map_cons, start] at hb hnd ⊢
    apply perm_filter_key (x := c.data)
    · exact hb.trans List.perm_middle
    · simp
    · intro y hy
      have hnd2 := (List.perm_middle.nodup_iff).1 hnd
      rw [List.nodup_cons] at hnd2
      simp only [ne_eq, decide_not, Bool.not_eq_eq_eq_not, Bool.not_true, decide_eq_false_iff_not]
      rintro rfl
      exact hnd2.1 hy
  · intro b hb x hx hxk
    exact h.inside b (hbm b hb) x (List.mem_filter.1 hx).1 hxk
  · exact fun r hr => h.range r (drop_sub r hr)
  · have := h.total; rw [hbs] at this; simp at this ⊢; omega
  · have := h.relBlocks
    rw [hfl, show c :: B2.flatten = [c] ++ B2.flatten from rfl] at this
    rw [hfl']
    simp only [List.filter_append, List.length_append] at this ⊢
    have wl : [c].filter whole = [c] := by simp [wc]
    rw [wl] at this
    simp only [List.length_singleton, List.map_cons, List.map_nil, List.sum_singleton] at this
    omega
  · have := h.relBytes
    rw [hfl, show c :: B2.flatten = [c] ++ B2.flatten from rfl] at this
    rw [hfl']
    simp only [List.filter_append, List.map_append, List.sum_append] at this ⊢
    have wl : [c].filter whole = [c] := by simp [wc]
    rw [wl] at this
    simp only [List.length_singleton, List.map_cons, List.map_nil, List.sum_singleton] at this
    omega
  · have := h.actual
    rw [hbs] at this
    simp at this ⊢
    omega
  · have := h.aligned
    rw [hfl, show c :: B2.flatten = [c] ++ B2.flatten from rfl] at this
    rw [hfl']
    have uc : usedL [c] = [] := by simp [usedL, hf]
    simp only [usedL_append, uc, List.nil_append] at this ⊢
    exact this
  · have := h.thwm; omega
  · have := h.live
    rw [hfl, show c :: B2.flatten = [c] ++ B2.flatten from rfl] at this
    rw [hfl']
    have uc : usedL [c] = [] := by simp [usedL, hf]
    simp only [usedL_append, uc, List.nil_append] at this ⊢
    exact this

end Umpire.QuickPool
