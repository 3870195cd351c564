import Verif.QuickPool.Ops
/-! # `deallocate` keeps the invariant -/
set_option autoImplicit false
set_option linter.unusedSimpArgs false
namespace Umpire.QuickPool
open Umpire Umpire.Prog

/-- Shape of the result of merging: `pf` and `nf` are the (at most one each)
free neighbours that are absorbed. -/
structure MergeShape (b1 : List Chunk) (c : Chunk) (b2 : List Chunk) (m : Merged)
    (l1 pf nf l2 : List Chunk) : Prop where
  left : b1 = l1 ++ pf
  right : b2 = nf ++ l2
  pf1 : pf.length ≤ 1
  nf1 : nf.length ≤ 1
  pfree : ∀ x ∈ pf, x.free = true
  nfree : ∀ x ∈ nf, x.free = true
  pmax : pf = [] → ∀ l x, l1 = l ++ [x] → x.free = false
  nmax : nf = [] → ∀ l x, l2 = x :: l → x.free = false
  fin : m.final = { (pf.head?.getD c) with size := bsize pf + c.size + bsize nf, free := true }
  chunks : m.chunks = l1 ++ m.final :: l2
  erased : m.erased = pf.map (·.id) ++ nf.map (·.id)

theorem mergeNext_shape (c : Chunk) (b2 : List Chunk) : ∃ nf l2, b2 = nf ++ l2 ∧ nf.length ≤ 1 ∧
    (∀ x ∈ nf, x.free = true) ∧ (nf = [] → ∀ l x, l2 = x :: l → x.free = false) ∧
    mergeNext c b2 = ⟨{ c with size := c.size + bsize nf } :: l2, { c with size := c.size + bsize nf }, nf.map (·.id)⟩ := by
  cases b2 with
  | nil => exact ⟨[], [], rfl, by simp, by simp, by simp, by simp [mergeNext]⟩
  | cons n r =>
    by_cases hf : n.free = true
    · exact ⟨[n], r, rfl, by simp, by simpa using hf, by simp, by simp [mergeNext, hf]⟩
    · refine ⟨[], n :: r, rfl, by simp, by simp, ?_, by simp [mergeNext, hf]⟩
      intro _ l x hx
      cases hx; simpa using hf

theorem freeIn_shape {b1 b2 : List Chunk} {c : Chunk} (h : ∀ d ∈ b1, d.id ≠ c.id) :
    ∃ m l1 pf nf l2, freeIn c.id (b1 ++ c :: b2) = some m ∧ MergeShape b1 c b2 m l1 pf nf l2 := by
  induction b1 with
  | nil =>
    obtain ⟨nf, l2, h1, h2, h3, h4, h5⟩ := mergeNext_shape { c with free := true } b2
    refine ⟨mergeNext { c with free := true } b2, [], [], nf, l2, ?_, rfl, h1, by simp, h2, by simp, h3, by simp, h4, ?_, ?_, ?_⟩
    · simp [freeIn]
    · rw [h5]; simp
    · rw [h5]; simp
    · rw [h5]; simp
  | cons d ds ih =>
    have hd : d.id ≠ c.id := h d (by simp)
    cases ds with
    | nil =>
      by_cases hf : d.free = true
      · obtain ⟨nf, l2, h1, h2, h3, h4, h5⟩ := mergeNext_shape { d with size := d.size + c.size } b2
        refine ⟨⟨(mergeNext { d with size := d.size + c.size } b2).chunks, (mergeNext { d with size := d.size + c.size } b2).final, d.id :: (mergeNext { d with size := d.size + c.size } b2).erased⟩,
          [], [d], nf, l2, ?_, rfl, h1, by simp, h2, by simpa using hf, h3, by simp, h4, ?_, ?_, ?_⟩
        · simp [freeIn, hd, hf]
        · simp only [h5]; simp [hf]
        · simp only [h5]; simp [hf]
        · simp only [h5]; simp
      · obtain ⟨nf, l2, h1, h2, h3, h4, h5⟩ := mergeNext_shape { c with free := true } b2
        refine ⟨⟨d :: (mergeNext { c with free := true } b2).chunks, (mergeNext { c with free := true } b2).final, (mergeNext { c with free := true } b2).erased⟩,
          [d], [], nf, l2, ?_, rfl, h1, by simp, h2, by simp, h3, ?_, h4, ?_, ?_, ?_⟩
        · simp [freeIn, hd, hf]
        · intro _ l x hx
          cases l with
          | nil => simp at hx; rw [← hx]; simpa using hf
          | cons y l => simp at hx
        · simp [h5]
        · simp [h5]
        · simp [h5]
    | cons e es =>
      obtain ⟨m, l1, pf, nf, l2, h0, hs⟩ := ih (fun x hx => h x (by simp [hx]))
      have he : e.id ≠ c.id := h e (by simp)
      have hstep : freeIn c.id (d :: e :: es ++ c :: b2) = (freeIn c.id (e :: es ++ c :: b2)).map fun m => { m with chunks := d :: m.chunks } := by
        simp only [List.cons_append]
        rw [freeIn]
        simp [hd, he]
      refine ⟨{ m with chunks := d :: m.chunks }, d :: l1, pf, nf, l2, ?_, ?_, hs.right, hs.pf1, hs.nf1, hs.pfree, hs.nfree, ?_, hs.nmax, hs.fin, ?_, hs.erased⟩
      · rw [hstep, h0]; rfl
      · rw [hs.left]; rfl
      · intro hp l x hx
        cases l with
        | nil =>
          have hl1 : l1 = [] := by simp at hx; exact hx.2
          have hl := hs.left
          rw [hl1, hp] at hl
          exact absurd hl (by simp)
        | cons y l =>
          simp at hx
          exact hs.pmax hp l x hx.2
      · rw [hs.chunks]; rfl

theorem freeIn_none {id : Nat} {b : List Chunk} (h : ∀ d ∈ b, d.id ≠ id) : freeIn id b = none := by
  induction b with
  | nil => rfl
  | cons c cs ih =>
    have hc := h c (by simp)
    have hcs := ih (fun d hd => h d (by simp [hd]))
    cases cs with
    | nil => simp [freeIn, hc]
    | cons d ds =>
      have hd := h d (by simp)
      rw [freeIn]
      simp [hc, hd, hcs]

theorem freeInBlocks_eq {B1 B2 : List (List Chunk)} {b : List Chunk} {id : Nat} {m : Merged}
    (h1 : ∀ b' ∈ B1, ∀ d ∈ b', d.id ≠ id) (h2 : freeIn id b = some m) :
    freeInBlocks id (B1 ++ b :: B2) = some (B1 ++ m.chunks :: B2, m) := by
  induction B1 with
  | nil => simp [freeInBlocks, h2]
  | cons x xs ih =>
    simp only [List.cons_append, freeInBlocks, freeIn_none (h1 x (by simp)),
      ih (fun b' hb' => h1 b' (by simp [hb']))]
    rfl

theorem mergeShape_block {a : Nat} {b1 b2 l1 pf nf l2 : List Chunk} {c : Chunk} {m : Merged}
    (h : BlockOk a (b1 ++ c :: b2)) (hu : c.free = false) (hs : MergeShape b1 c b2 m l1 pf nf l2) :
    BlockOk a m.chunks ∧ start m.chunks = start (b1 ++ c :: b2) ∧ bsize m.chunks = bsize (b1 ++ c :: b2) := by
  have hfin := hs.fin
  have hfs : m.final.size = bsize pf + c.size + bsize nf := by rw [hfin]
  have hff : m.final.free = true := by rw [hfin]
  have hch := hs.chunks
  have hL := hs.left
  have hR := hs.right
  subst hL hR
  have hbs : bsize m.chunks = bsize ((l1 ++ pf) ++ c :: (nf ++ l2)) := by
    rw [hch]; simp only [bsize_append, bsize_cons, hfs]; omega
  -- the head chunk
  have hhd : ∃ z ∈ (l1 ++ pf) ++ c :: (nf ++ l2), m.final.data = z.data ∧ m.final.chunkSize = z.chunkSize ∧ 
      z.data = start (pf ++ [c]) := by
    rw [hfin]
    cases pf with
    | nil => exact ⟨c, by simp, by simp, by simp, by simp [start]⟩
    | cons p ps => exact ⟨p, by simp, by simp, by simp, by simp [start]⟩
  obtain ⟨z, hz, hzd, hzc, hzs⟩ := hhd
  have hst : start m.chunks = start ((l1 ++ pf) ++ c :: (nf ++ l2)) := by
    rw [hch]
    cases l1 with
    | nil =>
      simp only [List.nil_append]
      rw [start_append_cons]
      show m.final.data = _
      rw [hzd, hzs]
    | cons x xs => simp [start]
  refine ⟨⟨?_, ?_, ?_, ?_, ?_, ?_⟩, hst, hbs⟩
  · rw [hch]; simp
  · rw [hst, hch, tiles_append]
    have ht := h.tiles
    generalize start ((l1 ++ pf) ++ c :: (nf ++ l2)) = d at ht
    simp only [List.append_assoc, tiles_append, bsize_append] at ht
    refine ⟨ht.1, ?_⟩
    simp only [Tiles] at ht ⊢
    refine ⟨?_, ?_⟩
    · rw [hzd, hzs]
      cases pf with
      | nil => simp [start, Tiles] at ht ⊢; exact ht.2.1
      | cons p ps => simp [start, Tiles] at ht ⊢; exact ht.2.1.1
    · rw [hfs]
      have := ht.2.2.2
      rw [tiles_append] at this
      have h2 := this.2
      rw [show d + bsize l1 + (bsize pf + c.size + bsize nf) = d + bsize l1 + bsize pf + c.size + bsize nf by omega]
      exact h2
  · rw [hbs, hch]
    intro x hx
    simp only [List.mem_append, List.mem_cons] at hx
    rcases hx with hx | rfl | hx
    · exact h.csize x (by simp [hx])
    · rw [hzc]; exact h.csize z hz
    · exact h.csize x (by simp [hx])
  · rw [hch]
    intro x hx
    simp only [List.mem_append, List.mem_cons] at hx
    rcases hx with hx | rfl | hx
    · exact h.pos x (by simp [hx])
    · rw [hfs]; have := h.pos c (by simp); omega
    · exact h.pos x (by simp [hx])
  · rw [hch, noAdj_append_cons]
    have hadj := h.adj
    constructor
    · cases hp : pf with
      | nil =>
        -- last of l1 is used
        have hmax := hs.pmax hp
        rcases List.eq_nil_or_concat l1 with rfl | ⟨l, x, rfl⟩
        · simp [NoAdj]
        · have hx := hmax l x (by simp)
          have hn : NoAdj ((l ++ [x]) ++ [c]) := by
            have := hadj
            rw [hp] at this
            simp only [List.append_nil, List.concat_eq_append] at this
            exact (noAdj_append_cons.1 this).1
          simp only [List.concat_eq_append, List.append_assoc, List.singleton_append] at hn ⊢
          rw [noAdj_append_cons] at hn ⊢
          exact ⟨hn.1, by simp [hx], trivial⟩
      | cons p ps =>
        have hps : ps = [] := by have := hs.pf1; rw [hp] at this; simp at this; exact this
        subst hps
        have hn : NoAdj (l1 ++ [p]) := by
          have := hadj
          rw [hp] at this
          have e : l1 ++ [p] ++ c :: (nf ++ l2) = l1 ++ p :: (c :: (nf ++ l2)) := by simp
          rw [e] at this
          exact (noAdj_append_cons.1 this).1
        exact noAdj_last hn (fun _ => hs.pfree p (by rw [hp]; simp))
    · cases hn : nf with
      | nil =>
        cases l2 with
        | nil => simp [NoAdj]
        | cons x xs =>
          have hx := hs.nmax hn xs x rfl
          have := (noAdj_append_cons.1 hadj).2
          rw [hn] at this
          exact ⟨by simp [hx], this.2⟩
      | cons n ns =>
        have hns : ns = [] := by have := hs.nf1; rw [hn] at this; simp at this; exact this
        subst hns
        have := (noAdj_append_cons.1 hadj).2
        rw [hn] at this
        exact noAdj_head (c := n) this.2 (fun _ => hs.nfree n (by rw [hn]; simp))
  · rw [hch]
    intro x hx
    simp only [List.mem_append, List.mem_cons] at hx
    rcases hx with hx | rfl | hx
    · exact h.al x (by simp [hx])
    · rw [hzd]; exact h.al z hz
    · exact h.al x (by simp [hx])


theorem Inv0.ptr_find {a : Nat} {s : State} {O L : Held} {sm : List (Nat × Nat)} (h : Inv0 a s O L sm)
    {c : Chunk} (hc : c ∈ s.blocks.flatten) (hu : c.free = false) :
    s.ptrMap.find? (fun e => decide (e.1 = c.data)) = some (c.data, c.id) := by
  have hm : (c.data, c.id) ∈ s.ptrMap :=
    h.pm.mem_iff.2 (List.mem_map.2 ⟨c, List.mem_filter.2 ⟨hc, by simp [hu]⟩, rfl⟩)
  cases hf : s.ptrMap.find? (fun e => decide (e.1 = c.data)) with
  | none => rw [List.find?_eq_none] at hf; exact absurd (by simp) (hf _ hm)
  | some x =>
    have hx := List.mem_of_find?_eq_some hf
    have hp := List.find?_some hf
    simp only [decide_eq_true_eq] at hp
    obtain ⟨d, hd, rfl⟩ := List.mem_map.1 (h.pm.mem_iff.1 hx)
    rw [h.data_inj (List.mem_filter.1 hd).1 hc hp]

theorem deallocCore_inv {a : Nat} {s : State} {O L : Held} (h : Inv a s O L) {ptr n : Nat}
    (hL : (ptr, n) ∈ L) :
    ∃ s', deallocCore s ptr = some s' ∧ Inv a s' O (drop ptr L) := by
  obtain ⟨c, hc, hu, hd, hsz⟩ := h.live_chunk hL
  simp only at hd hsz
  subst hd
  obtain ⟨B1, b1, b2, B2, hbs⟩ := mem_decomp hc
  have hblk : BlockOk a (b1 ++ c :: b2) := h.blk _ (by rw [hbs]; simp)
  have hids := h.ids
  rw [hbs] at hids
  have key : ∀ d ∈ B1.flatten ++ b1 ++ b2 ++ B2.flatten, d.id ≠ c.id := by
    intro d hd he
    simp only [List.flatten_append, List.flatten_cons, List.map_append, List.map_cons,
      List.nodup_append, List.nodup_cons, List.mem_append, List.mem_map, List.mem_cons] at hids hd
    grind
  obtain ⟨m, l1, pf, nf, l2, hm, hs⟩ := freeIn_shape (b1 := b1) (b2 := b2) (c := c) (fun d hd => key d (by simp [hd]))
  have hblocks := freeInBlocks_eq (B1 := B1) (B2 := B2)
    (fun b' hb' d hd => key d (by simp; exact Or.inl ⟨b', hb', hd⟩)) hm
  obtain ⟨hok, hst, hbsz⟩ := mergeShape_block hblk hu hs
  have hcore : deallocCore s c.data = some
    { blocks := B1 ++ m.chunks :: B2
      sizeMap := smInsert m.final.size m.final.id (s.sizeMap.filter fun e => e.2 ∉ m.erased)
      ptrMap := s.ptrMap.filter fun e => e.1 ≠ c.data
      baseMap := s.baseMap
      nextId := s.nextId
      totalBlocks := s.totalBlocks
      releasableBlocks := if m.final.size = m.final.chunkSize then s.releasableBlocks + 1 else s.releasableBlocks
      alignedBytes := s.alignedBytes - c.size
      alignedHwm := s.alignedHwm
      actualBytes := s.actualBytes
      releasableBytes := if m.final.size = m.final.chunkSize then s.releasableBytes + m.final.chunkSize else s.releasableBytes
      actualHwm := s.actualHwm } := by
    unfold deallocCore
    rw [h.ptr_find hc hu]
    simp only [Option.bind_eq_bind, Option.bind_some]
    rw [findChunk_decomp hc rfl h.ids]
    simp only [Option.bind_some]
    rw [hbs, hblocks]
    rfl
  refine ⟨_, hcore, ?_⟩
  have hL1 := hs.left
  have hR1 := hs.right
  have hch := hs.chunks
  have hfin := hs.fin
  have hpfree := hs.pfree
  have hnfree := hs.nfree
  have her := hs.erased
  clear hcore hblocks hm
  subst hL1 hR1
  -- flattened lists
  have hfl : s.blocks.flatten = (B1.flatten ++ l1) ++ (pf ++ [c] ++ nf) ++ (l2 ++ B2.flatten) := by
    rw [hbs]; simp
  have hfl' : (B1 ++ m.chunks :: B2).flatten = (B1.flatten ++ l1) ++ [m.final] ++ (l2 ++ B2.flatten) := by
    rw [hch]; simp
  have hbm : ∀ b ∈ B1 ++ m.chunks :: B2, b ∈ s.blocks ∨ b = m.chunks := by
    intro b hb
    rw [hbs]
    simp only [List.mem_append, List.mem_cons] at hb ⊢
    rcases hb with h | h | h
    · left; left; exact h
    · right; exact h
    · left; right; right; exact h
  generalize B1.flatten ++ l1 = X at hfl hfl'
  generalize l2 ++ B2.flatten = Y at hfl hfl'
  have fp : freeL pf = pf := List.filter_eq_self.2 hpfree
  have fn : freeL nf = nf := List.filter_eq_self.2 hnfree
  have up : usedL pf = [] := by
    simp only [usedL, List.filter_eq_nil_iff]; intro x hx; simp [hpfree x hx]
  have un : usedL nf = [] := by
    simp only [usedL, List.filter_eq_nil_iff]; intro x hx; simp [hnfree x hx]
  have fc : freeL [c] = [] := by simp [freeL, hu]
  have uc : usedL [c] = [c] := by simp [usedL, hu]
  have hff : m.final.free = true := by rw [hfin]
  have ff : freeL [m.final] = [m.final] := by simp [freeL, hff]
  have uf : usedL [m.final] = [] := by simp [usedL, hff]
  have wf : [m.final].filter whole = if m.final.size = m.final.chunkSize then [m.final] else [] := by
    simp only [List.filter_cons, whole, hff, Bool.and_true, List.filter_nil]
    split <;> simp_all
  have wc : [c].filter whole = [] := by simp [whole, hu]
  have hcpos := hblk.pos c (by simp)
  have hcB := bsize_append (l1 ++ pf) (c :: (nf ++ l2))
  have notwhole : ∀ x ∈ pf ++ nf, whole x = false := by
    intro x hx
    have h1 : x.chunkSize = bsize (l1 ++ pf ++ c :: (nf ++ l2)) := by
      apply hblk.csize x
      simp at hx ⊢; rcases hx with hx | hx <;> simp [hx]
    have h2 : x.size + c.size ≤ bsize (l1 ++ pf ++ c :: (nf ++ l2)) := by
      have tl : ∀ (l : List Chunk), x ∈ l → x.size ≤ bsize l := by
        intro l hl
        obtain ⟨p, q, rfl⟩ := List.append_of_mem hl
        rw [bsize_append, bsize_cons]; omega
      simp only [bsize_append, bsize_cons] at hcB ⊢
      rcases List.mem_append.1 hx with hx | hx
      · have := tl _ hx; omega
      · have := tl _ hx; omega
    have : x.size ≠ x.chunkSize := by omega
    simp [whole, this]
  have wp : pf.filter whole = [] := by
    simp only [List.filter_eq_nil_iff]; intro x hx; simp [notwhole x (by simp [hx])]
  have wn : nf.filter whole = [] := by
    simp only [List.filter_eq_nil_iff]; intro x hx; simp [notwhole x (by simp [hx])]
  have hsm := h.sm
  have hpm := h.pm
  have hidn := h.ids
  have hidl := h.idlt
  have hrb := h.relBlocks
  have hry := h.relBytes
  have hal := h.aligned
  have hlv := h.live
  rw [hfl] at hsm hpm hidn hrb hry hal hlv hidl
  simp only [freeL_append, usedL_append, fc, uc, fp, fn, up, un, List.filter_append, wc, wp, wn, List.map_append,
    List.length_append, List.sum_append, List.append_nil, List.nil_append, List.map_cons, List.map_nil,
    List.length_nil, List.sum_nil, List.sum_singleton, Nat.add_zero] at hsm hpm hrb hry hal hlv
  have hfid : m.final.id ∈ pf.map (·.id) ++ [c.id] := by
    rw [hfin]
    cases pf with
    | nil => simp
    | cons p ps => simp
  have hidn' := hidn
  simp only [List.map_append, List.nodup_append, List.mem_append, List.map_cons, List.map_nil] at hidn'
  refine
    { blk := ?_, ids := ?_, idlt := ?_, sm := ?_, sorted := ?_, pm := ?_, own := h.own, keys := h.keys, akey := h.akey,
      bases := ?_, inside := ?_, disj := h.disj, range := h.range, total := ?_, relBlocks := ?_,
      relBytes := ?_, actual := ?_, aligned := ?_, ahwm := ?_, ahwmle := h.ahwmle, thwm := h.thwm, live := ?_, req := ?_ }
    <;> try simp only
  · intro b hb
    rcases hbm b hb with hb | rfl
    · exact h.blk b hb
    · exact hok
  · rw [hfl']
    simp only [List.map_append, List.nodup_append, List.mem_append, List.map_cons, List.map_nil, List.mem_singleton] at hidn' hfid ⊢
    refine ⟨⟨hidn'.1.1, by simp, ?_⟩, hidn'.2.1, ?_⟩
    · rintro x hx y rfl
      exact hidn'.1.2.2 x hx _ (Or.inl hfid)
    · rintro x (hx | rfl) y hy
      · exact hidn'.2.2 x (Or.inl hx) y hy
      · exact hidn'.2.2 _ (Or.inr (Or.inl hfid)) y hy
  · rw [hfl']
    intro d hd
    simp only [List.mem_append, List.mem_singleton] at hd
    rcases hd with (hd | rfl) | hd
    · exact hidl d (by simp [hd])
    · simp only [List.mem_append, List.mem_map, List.mem_singleton] at hfid
      rcases hfid with ⟨x, hx, hxe⟩ | hxe
      · rw [← hxe]; exact hidl x (by simp [hx])
      · rw [hxe]; exact hidl c (by simp)
    · exact hidl d (by simp [hd])
  · rw [hfl']
    simp only [freeL_append, ff, List.map_append, List.map_cons, List.map_nil]
    refine (smInsert_perm ..).trans ?_
    simp only [List.append_assoc, List.singleton_append]
    refine List.Perm.trans ?_ List.perm_middle.symm
    refine List.Perm.cons _ ?_
    -- filtering out the absorbed neighbours
    have h1 := hsm.filter fun e => decide (e.2 ∉ m.erased)
    refine h1.trans ?_
    simp only [List.filter_append]
    have kp : ∀ l : List Chunk, (∀ x ∈ l, x.id ∈ m.erased) → (l.map fun c => (c.size, c.id)).filter (fun e => decide (e.2 ∉ m.erased)) = [] := by
      intro l hl
      rw [List.filter_eq_nil_iff]
      intro e he
      obtain ⟨x, hx, rfl⟩ := List.mem_map.1 he
      simp [hl x hx]
    have kk : ∀ l : List Chunk, (∀ x ∈ l, x.id ∉ m.erased) → (l.map fun c => (c.size, c.id)).filter (fun e => decide (e.2 ∉ m.erased)) = l.map fun c => (c.size, c.id) := by
      intro l hl
      rw [List.filter_eq_self]
      intro e he
      obtain ⟨x, hx, rfl⟩ := List.mem_map.1 he
      simp [hl x hx]
    rw [kp pf, kp nf, kk (freeL X), kk (freeL Y)]
    · simp
    · intro x hx hxe
      rw [her] at hxe
      have hxY : x.id ∈ Y.map (·.id) := List.mem_map_of_mem (List.mem_filter.1 hx).1
      rcases List.mem_append.1 hxe with hxe | hxe
      · exact hidn'.2.2 x.id (Or.inr (Or.inl (Or.inl hxe))) x.id hxY rfl
      · exact hidn'.2.2 x.id (Or.inr (Or.inr hxe)) x.id hxY rfl
    · intro x hx hxe
      rw [her] at hxe
      have hxX : x.id ∈ X.map (·.id) := List.mem_map_of_mem (List.mem_filter.1 hx).1
      rcases List.mem_append.1 hxe with hxe | hxe
      · exact hidn'.1.2.2 x.id hxX x.id (Or.inl (Or.inl hxe)) rfl
      · exact hidn'.1.2.2 x.id hxX x.id (Or.inr hxe) rfl
    · intro x hx; rw [her]; exact List.mem_append_right _ (List.mem_map_of_mem hx)
    · intro x hx; rw [her]; exact List.mem_append_left _ (List.mem_map_of_mem hx)
  · exact smInsert_sorted (List.Pairwise.filter _ h.sorted)
  · rw [hfl']
    simp only [usedL_append, uf, List.append_nil, List.map_append]
    refine perm_filter_key (x := (c.data, c.id)) _ ?_ (by simp) ?_
    · refine hpm.trans ?_
      simp only [List.append_assoc, List.singleton_append]
      exact List.perm_middle
    · intro y hy
      have hy' : ∃ d ∈ usedL X ++ usedL Y, (d.data, d.id) = y := by
        rw [← List.map_append] at hy; exact List.mem_map.1 hy
      obtain ⟨d, hd, rfl⟩ := hy'
      simp only [ne_eq, decide_not, Bool.not_eq_eq_eq_not, Bool.not_true, decide_eq_false_iff_not]
      intro hdd
      have hdm : d ∈ s.blocks.flatten := by
        rw [hfl]; simp only [usedL, List.mem_append, List.mem_filter] at hd ⊢
        rcases hd with hd | hd
        · exact Or.inl (Or.inl hd.1)
        · exact Or.inr hd.1
      have : d = c := h.data_inj hdm hc hdd
      subst this
      simp only [usedL, List.mem_append, List.mem_filter] at hd
      rcases hd with hd | hd
      · exact hidn'.1.2.2 d.id (List.mem_map_of_mem hd.1) d.id (by simp) rfl
      · exact hidn'.2.2 d.id (by simp) d.id (List.mem_map_of_mem hd.1) rfl
  · have := h.bases
    rw [hbs] at this
    simp only [List.map_append, List.map_cons, hst] at this ⊢
    exact this
  · intro b hb e he hk
    rcases hbm b hb with hb | rfl
    · exact h.inside b hb e he hk
    · rw [hst, hbsz] at *
      exact h.inside _ (by rw [hbs]; simp) e he (by rw [hk])
  · have := h.total; rw [hbs] at this; simpa using this
  · rw [hfl']
    simp only [List.filter_append, List.length_append, wf]
    rw [hrb]
    split <;> simp <;> omega
  · rw [hfl']
    simp only [List.filter_append, List.map_append, List.sum_append, wf]
    rw [hry]
    split <;> simp <;> omega
  · have := h.actual
    rw [hbs] at this
    simp only [List.map_append, List.map_cons, List.sum_append, List.sum_cons, hbsz] at this ⊢
    exact this
  · rw [hfl']
    simp only [usedL_append, uf, List.append_nil, List.map_append, List.sum_append]
    omega
  · have := h.ahwm; omega
  · rw [hfl']
    simp only [usedL_append, uf, List.append_nil, List.map_append]
    have he : (drop c.data L).map (fun r => (r.1, roundUp64 a r.2)) = (L.map fun r => (r.1, roundUp64 a r.2)).filter fun e => decide (e.1 ≠ c.data) := by
      unfold drop; rw [List.filter_map]; rfl
    rw [he]
    refine perm_filter_key (x := (c.data, c.size)) _ ?_ (by simp) ?_
    · refine hlv.trans ?_
      simp only [List.append_assoc, List.singleton_append]
      exact List.perm_middle
    · intro y hy
      have hy' : ∃ d ∈ usedL X ++ usedL Y, (d.data, d.size) = y := by
        rw [← List.map_append] at hy; exact List.mem_map.1 hy
      obtain ⟨d, hd, rfl⟩ := hy'
      simp only [ne_eq, decide_not, Bool.not_eq_eq_eq_not, Bool.not_true, decide_eq_false_iff_not]
      intro hdd
      have hdm : d ∈ s.blocks.flatten := by
        rw [hfl]; simp only [usedL, List.mem_append, List.mem_filter] at hd ⊢
        rcases hd with hd | hd
        · exact Or.inl (Or.inl hd.1)
        · exact Or.inr hd.1
      have : d = c := h.data_inj hdm hc hdd
      subst this
      simp only [usedL, List.mem_append, List.mem_filter] at hd
      rcases hd with hd | hd
      · exact hidn'.1.2.2 d.id (List.mem_map_of_mem hd.1) d.id (by simp) rfl
      · exact hidn'.2.2 d.id (by simp) d.id (List.mem_map_of_mem hd.1) rfl
  · exact fun r hr => h.req r (drop_sub r hr)

end Umpire.QuickPool
