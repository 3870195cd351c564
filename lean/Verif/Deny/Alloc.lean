import Verif.Deny.Quick
/-! # `allocate`, `deallocate` and `coalesce` over a parent that refuses memory (proofs) -/
set_option autoImplicit false
set_option linter.unusedSimpArgs false
namespace Umpire.Deny
open Umpire QuickPool Prog2

attribute [local irreducible] sub64 add64

/-- The invariant between operations. -/
def InvF (a : Nat) (s : State) (M : Mem) (L : Held) : Prop :=
  (∃ lost leaked, InvM a s M L lost leaked s.sizeMap) ∧ Drift a s M

theorem init_invF (a : Nat) : InvF a init ⟨[], [], false⟩ [] := by
  refine ⟨⟨[], [], ⟨init_inv a, .refl _, .nil, by simp, .refl _, by simp⟩⟩, 0, 0, ⟨rfl, rfl, rfl, rfl, by decide⟩, fun _ => ⟨rfl, rfl⟩⟩

/-- Counters of `s` relative to those of `q`. -/
structure OffQ (s q : State) (db dn : Nat) : Prop where
  act : w64 (s.actualBytes + db) = w64 q.actualBytes
  rel : w64 (s.releasableBytes + db) = w64 q.releasableBytes
  tot : w64 (s.totalBlocks + dn) = w64 q.totalBlocks
  relB : w64 (s.releasableBlocks + dn) = w64 q.releasableBlocks
  lt : s.actualBytes < W

theorem Off.toQ {s : State} {db dn : Nat} (h : Off s db dn) (lost : List (Nat × Nat × Nat)) : OffQ s (fix s lost) db dn :=
  ⟨h.act, h.rel, h.tot, h.relB, h.lt⟩

theorem OffQ.toOff {s q : State} {db dn : Nat} (h : OffQ s q db dn) {a : Nat} {O L : Held} {sm : List (Nat × Nat)} (hq : Inv0 a q O L sm)
    (hb : s.blocks = q.blocks) : Off s db dn :=
  ⟨by rw [h.act, hq.actual, hb], by rw [h.rel, hq.relBytes, hb], by rw [h.tot, hq.total, hb], by rw [h.relB, hq.relBlocks, hb], h.lt⟩

/-! ## `useChunk` -/

theorem useChunk_blocks (s : State) (c : Chunk) (r : Nat) : (useChunk s c r).2.blocks = s.blocks.map (splitIn c.id r s.nextId) := by
  unfold useChunk; dsimp only; by_cases hw : c.size = c.chunkSize ∧ c.free = true <;> simp only [hw, and_self, if_true, if_false] <;> rfl
theorem useChunk_sizeMap (s : State) (c : Chunk) (r : Nat) :
    (useChunk s c r).2.sizeMap = if r ≠ c.size then smInsert (c.size - r) s.nextId s.sizeMap else s.sizeMap := by
  unfold useChunk; dsimp only; by_cases hw : c.size = c.chunkSize ∧ c.free = true <;> simp only [hw, and_self, if_true, if_false] <;> rfl
theorem useChunk_ptrMap (s : State) (c : Chunk) (r : Nat) :
    (useChunk s c r).2.ptrMap = if s.ptrMap.any (fun e => decide (e.1 = c.data)) then s.ptrMap else (c.data, c.id) :: s.ptrMap := by
  unfold useChunk; dsimp only; by_cases hw : c.size = c.chunkSize ∧ c.free = true <;> simp only [hw, and_self, if_true, if_false] <;> rfl
theorem useChunk_nextId (s : State) (c : Chunk) (r : Nat) : (useChunk s c r).2.nextId = s.nextId + 1 := by
  unfold useChunk; dsimp only; by_cases hw : c.size = c.chunkSize ∧ c.free = true <;> simp only [hw, and_self, if_true, if_false] <;> rfl
theorem useChunk_baseMap (s : State) (c : Chunk) (r : Nat) : (useChunk s c r).2.baseMap = s.baseMap := by
  unfold useChunk; dsimp only; by_cases hw : c.size = c.chunkSize ∧ c.free = true <;> simp only [hw, and_self, if_true, if_false] <;> rfl
theorem useChunk_aligned (s : State) (c : Chunk) (r : Nat) : (useChunk s c r).2.alignedBytes = s.alignedBytes + r := by
  unfold useChunk; dsimp only; by_cases hw : c.size = c.chunkSize ∧ c.free = true <;> simp only [hw, and_self, if_true, if_false] <;> rfl
theorem useChunk_alignedHwm (s : State) (c : Chunk) (r : Nat) : (useChunk s c r).2.alignedHwm = max (s.alignedBytes + r) s.alignedHwm := by
  unfold useChunk; dsimp only; by_cases hw : c.size = c.chunkSize ∧ c.free = true <;> simp only [hw, and_self, if_true, if_false] <;> rfl
theorem useChunk_actual (s : State) (c : Chunk) (r : Nat) : (useChunk s c r).2.actualBytes = s.actualBytes := by
  unfold useChunk; dsimp only; by_cases hw : c.size = c.chunkSize ∧ c.free = true <;> simp only [hw, and_self, if_true, if_false] <;> rfl
theorem useChunk_total (s : State) (c : Chunk) (r : Nat) : (useChunk s c r).2.totalBlocks = s.totalBlocks := by
  unfold useChunk; dsimp only; by_cases hw : c.size = c.chunkSize ∧ c.free = true <;> simp only [hw, and_self, if_true, if_false] <;> rfl
theorem useChunk_rel (s : State) (c : Chunk) (r : Nat) :
    (useChunk s c r).2.releasableBytes = if c.size = c.chunkSize ∧ c.free = true then s.releasableBytes - c.chunkSize else s.releasableBytes := by
  unfold useChunk; dsimp only; by_cases hw : c.size = c.chunkSize ∧ c.free = true <;> simp only [hw, and_self, if_true, if_false] <;> rfl
theorem useChunk_relB (s : State) (c : Chunk) (r : Nat) :
    (useChunk s c r).2.releasableBlocks = if c.size = c.chunkSize ∧ c.free = true then s.releasableBlocks - 1 else s.releasableBlocks := by
  unfold useChunk; dsimp only; by_cases hw : c.size = c.chunkSize ∧ c.free = true <;> simp only [hw, and_self, if_true, if_false] <;> rfl

/-- What one whole block contributes. -/
theorem whole_le0 {a : Nat} {q : State} {O L : Held} {sm : List (Nat × Nat)} (h : Inv0 a q O L sm) {c : Chunk} (hc : c ∈ q.blocks.flatten)
    (hw : c.size = c.chunkSize) (hf : c.free = true) : c.chunkSize ≤ q.releasableBytes ∧ 1 ≤ q.releasableBlocks ∧ c.chunkSize ≤ W := by
  have hm : c ∈ q.blocks.flatten.filter whole := List.mem_filter.2 ⟨hc, by simp [whole, hw, hf]⟩
  refine ⟨?_, ?_, ?_⟩
  · rw [h.relBytes]; exact le_sum_of_mem (List.mem_map_of_mem hm)
  · rw [h.relBlocks]; exact List.length_pos_of_mem hm
  · have h1 := h.chunk_range hc
    have h2 := AMax_add_AMax
    omega

theorem OffQ.use {s q : State} {db dn : Nat} (h : OffQ s q db dn) {a : Nat} {O L : Held} {sm : List (Nat × Nat)} (hq : Inv0 a q O L sm)
    {c : Chunk} (hc : c ∈ q.blocks.flatten) (r : Nat) : OffQ (useChunk2 s c r).2 (useChunk q c r).2 db dn := by
  have e1 := useChunk_actual s c r
  have e2 := useChunk_actual q c r
  have e3 := useChunk_total s c r
  have e4 := useChunk_total q c r
  have f1 := useChunk_rel q c r
  have f2 := useChunk_relB q c r
  unfold useChunk2
  dsimp only
  by_cases hw : c.size = c.chunkSize ∧ c.free = true
  · obtain ⟨w1, w2, w3⟩ := whole_le0 hq hc hw.1 hw.2
    rw [if_pos hw] at f1 f2
    simp only [if_pos hw]
    have k1 := sub_off h.rel w1 w3
    have k2 := sub_off h.relB w2 (by decide)
    rw [← f1] at k1
    rw [← f2] at k2
    refine ⟨?_, k1, ?_, k2, ?_⟩
    · dsimp only; rw [e1, e2]; exact h.act
    · dsimp only; rw [e3, e4]; exact h.tot
    · dsimp only; rw [e1]; exact h.lt
  · rw [if_neg hw] at f1 f2
    simp only [if_neg hw]
    refine ⟨?_, ?_, ?_, ?_, ?_⟩ <;> dsimp only
    · rw [e1, e2]; exact h.act
    · rw [f1]; exact h.rel
    · rw [e3, e4]; exact h.tot
    · rw [f2]; exact h.relB
    · rw [e1]; exact h.lt

/-- `useChunk` sees the same chunks in both. -/
theorem use_move {s q : State} {a : Nat} {O L : Held} {sm : List (Nat × Nat)} {lost : List (Nat × Nat × Nat)} {c : Chunk} {r : Nat}
    (h : Inv0 a (useChunk q c r).2 O L sm)
    (hb : s.blocks = q.blocks) (hs : s.sizeMap = q.sizeMap) (hp : s.ptrMap = q.ptrMap) (hi : s.nextId = q.nextId)
    (ha : s.alignedBytes = q.alignedBytes) (hh : s.alignedHwm = q.alignedHwm) (hm : (s.baseMap ++ lost).Perm q.baseMap) :
    Inv0 a (fix (useChunk2 s c r).2 lost) (((useChunk2 s c r).2.baseMap ++ lost).map (·.2)) L sm ∧
      (useChunk2 s c r).2.blocks = (useChunk q c r).2.blocks ∧ (useChunk2 s c r).2.sizeMap = (useChunk q c r).2.sizeMap ∧
      (useChunk2 s c r).2.baseMap = s.baseMap := by
  have g1 : (useChunk2 s c r).2.blocks = (useChunk q c r).2.blocks := by
    show (useChunk s c r).2.blocks = _
    rw [useChunk_blocks, useChunk_blocks, hb, hi]
  have g2 : (useChunk2 s c r).2.sizeMap = (useChunk q c r).2.sizeMap := by
    show (useChunk s c r).2.sizeMap = _
    rw [useChunk_sizeMap, useChunk_sizeMap, hs, hi]
  have g3 : (useChunk2 s c r).2.baseMap = s.baseMap := useChunk_baseMap s c r
  refine ⟨move h g1 g2 ?_ ?_ ?_ ?_ ?_, g1, g2, g3⟩
  · show (useChunk s c r).2.ptrMap = _
    rw [useChunk_ptrMap, useChunk_ptrMap, hp]
  · show (useChunk s c r).2.nextId = _
    rw [useChunk_nextId, useChunk_nextId, hi]
  · show (useChunk s c r).2.alignedBytes = _
    rw [useChunk_aligned, useChunk_aligned, ha]
  · show (useChunk s c r).2.alignedHwm = _
    rw [useChunk_alignedHwm, useChunk_alignedHwm, ha, hh]
  · rw [g3, useChunk_baseMap]; exact hm

/-! ## New blocks -/

theorem OffQ.new {s q : State} {db dn : Nat} (h : OffQ s q db dn) (cfg : Cfg) (size p : Nat) :
    OffQ (newBlock2 cfg s size p).2 (newBlock cfg q size p).2 db dn :=
  ⟨add_off h.act, add_off h.rel, add_off h.tot, add_off h.relB, add64_lt _ _⟩

theorem filter_both {l m : List (Nat × Nat × Nat)} {f : Nat × Nat × Nat → Bool} (h : ((l ++ m).filter f).length = (l ++ m).length) :
    l.filter f = l ∧ m.filter f = m := by
  have := List.filter_sublist.eq_of_length h
  rw [List.filter_eq_self] at this
  exact ⟨List.filter_eq_self.2 fun x hx => this x (List.mem_append_left _ hx),
    List.filter_eq_self.2 fun x hx => this x (List.mem_append_right _ hx)⟩

theorem grow2_inv {cfg : Cfg} {s : State} {M : Mem} {L : Held} {n size p : Nat} (h : InvF cfg.align s M L)
    (hc : CfgOk cfg) (hn : ReqOk cfg n) (hsz : roundUp64 cfg.align n ≤ size) (hs0 : 0 < size)
    (hsW : size + cfg.align < W) (hp : Fresh p (size + cfg.align) M.held) :
    InvF cfg.align (useChunk2 (newBlock2 cfg s size p).2 (newBlock2 cfg s size p).1 (roundUp64 cfg.align n)).2
      ⟨(p, size + cfg.align) :: M.held, M.refused, M.nulls⟩ (((newBlock2 cfg s size p).1.data, n) :: L) := by
  obtain ⟨⟨lost, leaked, h⟩, db, dn, ho, hd⟩ := h
  have hpO : Fresh p (size + cfg.align) ((s.baseMap ++ lost).map (·.2)) :=
    ⟨hp.1, hp.2.1, fun r hr => hp.2.2 r (h.held.mem_iff.2 (List.mem_append_left _ hr))⟩
  obtain ⟨n1, n2, n3, n4⟩ := newBlock_inv (cfg := cfg) (s := fix s lost) (p := p) h.core hc.al hs0 hsW hpO
  have g := grow_inv (cfg := cfg) (s := fix s lost) (p := p) (n := n) h.core hc hn hsz hs0 hsW hpO
  have hfil : ((s.baseMap ++ lost).filter fun e => decide (e.1 ≠ alignPtr cfg.align p)).length = (s.baseMap ++ lost).length := by
    have := congrArg List.length n1.own
    simp only [newBlock, fix, List.length_cons, List.length_map] at this
    omega
  obtain ⟨f1, f2⟩ := filter_both hfil
  have hwz : w64 (size + cfg.align) = size + cfg.align := Nat.mod_eq_of_lt hsW
  have hbm : (newBlock2 cfg s size p).2.baseMap = (alignPtr cfg.align p, p, size + cfg.align) :: s.baseMap := by
    show (alignPtr cfg.align p, p, w64 (size + cfg.align)) :: s.baseMap.filter _ = _
    rw [hwz, f1]
  have hbq : (newBlock cfg (fix s lost) size p).2.baseMap = (alignPtr cfg.align p, p, size + cfg.align) :: (s.baseMap ++ lost) := by
    show (alignPtr cfg.align p, p, w64 (size + cfg.align)) :: (s.baseMap ++ lost).filter _ = _
    rw [hwz, List.filter_append, f1, f2]
  have hcc : (newBlock2 cfg s size p).1 = (newBlock cfg (fix s lost) size p).1 := rfl
  obtain ⟨m1, m2, m3, m4⟩ := use_move (s := (newBlock2 cfg s size p).2) (lost := lost) g rfl rfl rfl rfl rfl rfl
    (by rw [hbm, hbq]; exact .refl _)
  have o1 := ((ho.toQ lost).new cfg size p).use n1 n2 (roundUp64 cfg.align n)
  refine ⟨⟨lost, leaked, ?_⟩, db, dn, o1.toOff g m2, hd⟩
  refine ⟨?_, ?_, ?_, ?_, ?_, h.big⟩
  · rw [hcc, m3]; exact m1
  · rw [hcc, m4, hbm]
    exact (h.held.cons _)
  · exact List.pairwise_cons.2 ⟨hp.2.2, h.disj⟩
  · intro r hr
    rcases List.mem_cons.1 hr with rfl | hr
    · refine ⟨hp.1, ?_, hp.2.1⟩
      show 0 < size + cfg.align
      omega
    · exact h.range r hr
  · exact h.ref

theorem take2_inv {cfg : Cfg} {s : State} {M : Mem} {L : Held} {n : Nat} {c : Chunk} (h : InvF cfg.align s M L)
    (hc : CfgOk cfg) (hn : ReqOk cfg n) (hm : c ∈ s.blocks.flatten) (hf : c.free = true) (he : (c.size, c.id) ∈ s.sizeMap)
    (hr : roundUp64 cfg.align n ≤ c.size) :
    InvF cfg.align (useChunk2 { s with sizeMap := smErase c.id s.sizeMap } c (roundUp64 cfg.align n)).2 M ((c.data, n) :: L) := by
  obtain ⟨⟨lost, leaked, h⟩, db, dn, ho, hd⟩ := h
  have ht := take_inv (s := fix s lost) h.core he
  have g := useChunk_inv (n := n) ht hc.al hm hf hn.1 (by have := hn.2; omega) hr
  obtain ⟨m1, m2, m3, m4⟩ := use_move (s := { s with sizeMap := smErase c.id s.sizeMap }) (lost := lost) g rfl rfl rfl rfl rfl rfl (.refl _)
  have o0 : OffQ { s with sizeMap := smErase c.id s.sizeMap } { fix s lost with sizeMap := smErase c.id s.sizeMap } db dn :=
    ⟨ho.act, ho.rel, ho.tot, ho.relB, ho.lt⟩
  have o1 := o0.use ht hm (roundUp64 cfg.align n)
  refine ⟨⟨lost, leaked, ?_⟩, db, dn, o1.toOff g m2, hd⟩
  refine ⟨?_, ?_, h.disj, h.range, h.ref, h.big⟩
  · rw [m3]; exact m1
  · rw [m4]; exact h.held

/-! ## `release` -/

/-- After a normal return of `release`, or after the destructor, no block is entirely free. -/
structure RelAll (s s' : State) : Prop where
  sub : ∀ c ∈ s'.blocks.flatten, c ∈ s.blocks.flatten
  all : ∀ c ∈ s'.blocks.flatten, whole c = false
  bytes : ∃ w, w + (s'.blocks.map bsize).sum = (s.blocks.map bsize).sum ∧ w64 (s'.actualBytes + w) = w64 s.actualBytes

theorem RelPost.relAll {a : Nat} {d : Bool} {s : State} {M M' : Mem} {L : Held} {r : Bool × State} {lost : List (Nat × Nat × Nat)} {leaked : Held}
    (h : InvM a s M L lost leaked s.sizeMap) (hr : RelPost a d s M L s.sizeMap r M') (ht : r.1 = true) : RelAll s r.2 := by
  refine ⟨hr.sub, ?_, hr.bytes ht⟩
  intro c hc
  by_cases hf : c.free = true
  · refine hr.all ht c hc ?_
    exact h.core.sm.mem_iff.2 (List.mem_map.2 ⟨c, List.mem_filter.2 ⟨hr.sub c hc, hf⟩, rfl⟩)
  · simp [whole, hf]

/-- What `release` leaves behind. -/
def ReleasePost (a : Nat) (s : State) (M : Mem) (L : Held) (r : Bool × State) (M' : Mem) : Prop :=
  InvF a r.2 M' L ∧ (∃ lost leaked, InvM a r.2 M' L lost leaked r.2.sizeMap ∧ ∀ x ∈ leaked, x ∈ M.refused) ∧ (r.1 = true → RelAll s r.2 ∧ M'.refused = M.refused ∧ M'.nulls = M.nulls) ∧
    (r.1 = false → M'.nulls = true ∨ ∃ x, M'.refused = x :: M.refused)

theorem release2_wp {a : Nat} {s : State} {M : Mem} {L : Held} (h : InvF a s M L) :
    (release2 s).wp (Prog.Keep L) M (ReleasePost a s M L) := by
  obtain ⟨⟨lost, leaked, h⟩, hd⟩ := h
  refine wp_mono (releaseLoop2_wp (d := false) h (fun e he => he) (Inv.sm_nodup h.core)) ?_
  intro r M' hr
  obtain ⟨l1, l2, hi, hl⟩ := hr.inv
  exact ⟨⟨⟨l1, l2, hi⟩, hr.drift rfl hd⟩, ⟨l1, l2, hi, hl rfl⟩, fun ht => ⟨hr.relAll h ht, hr.kept rfl ht⟩, hr.threw⟩

theorem destroy2_wp {a : Nat} {s : State} {M : Mem} {L : Held} (h : InvF a s M L) :
    (destroy2 s).wp (Prog.Keep L) M fun r M' => (∃ lost leaked, InvM a r.2 M' L lost leaked r.2.sizeMap) ∧ r.1 = true ∧ RelAll s r.2 := by
  obtain ⟨⟨lost, leaked, h⟩, hd⟩ := h
  refine wp_mono (releaseLoop2_wp (d := true) h (fun e he => he) (Inv.sm_nodup h.core)) ?_
  intro r M' hr
  obtain ⟨l1, l2, hi, hl⟩ := hr.inv
  exact ⟨⟨l1, l2, hi⟩, hr.dtor rfl, hr.relAll h (hr.dtor rfl)⟩

/-! ## `allocate` -/

def AllocPost2 (a n : Nat) (L : Held) (r : Option Nat × State) (M' : Mem) : Prop :=
  match r.1 with
  | some p => InvF a r.2 M' ((p, n) :: L)
  | none => InvF a r.2 M' L

theorem allocate2_wp {cfg : Cfg} {s : State} {M : Mem} {L : Held} {n : Nat} (h : InvF cfg.align s M L) (hc : CfgOk cfg) (hn : ReqOk cfg n) :
    (allocate2 cfg s n).wp (Prog.Keep L) M (AllocPost2 cfg.align n L) := by
  obtain ⟨g1, g2, g3⟩ := growSize_bounds (s := s) hc hn
  unfold allocate2
  simp only
  cases hl : lowerBound (roundUp64 cfg.align n) s.sizeMap with
  | none =>
    simp only
    generalize hg : growSize cfg s (roundUp64 cfg.align n) = size at *
    have hw : w64 (size + cfg.align) = size + cfg.align := Nat.mod_eq_of_lt g3
    rw [hw]
    refine ⟨fun p hp => ?_, ?_⟩
    · exact grow2_inv h hc hn g1 g2 g3 hp
    · refine wp_bind (wp_mono (release2_wp h) ?_)
      rintro ⟨ok, s'⟩ M' ⟨h1, _, h2, h3⟩
      dsimp only at h1 ⊢
      cases ok with
      | true =>
        simp only [if_true]
        exact ⟨fun p hp => grow2_inv h1 hc hn g1 g2 g3 hp, h1⟩
      | false => exact h1
  | some e =>
    obtain ⟨hem, hen⟩ := lowerBound_spec hl
    obtain ⟨⟨lost, leaked, hm⟩, hd⟩ := h
    obtain ⟨c, hcm, hf, rfl, hfind⟩ := hm.core.sm_chunk hem
    have hfind : findChunk c.id s.blocks = some c := hfind
    simp only [hfind]
    exact take2_inv ⟨⟨lost, leaked, hm⟩, hd⟩ hc hn hcm hf hem hen

/-! ## `deallocate` -/

theorem deallocCore2_inv {a : Nat} {s : State} {M : Mem} {L : Held} (h : InvF a s M L) {ptr n : Nat} (hL : (ptr, n) ∈ L) :
    ∃ s', deallocCore2 s ptr = some s' ∧ InvF a s' M (drop ptr L) := by
  obtain ⟨⟨lost, leaked, h⟩, db, dn, ho, hd⟩ := h
  obtain ⟨q, hq, hi⟩ := deallocCore_inv (s := fix s lost) h.core hL
  have e1 : (fix s lost).ptrMap = s.ptrMap := rfl
  have e2 : (fix s lost).blocks = s.blocks := rfl
  unfold deallocCore at hq
  rw [e1, e2] at hq
  cases h1 : s.ptrMap.find? (fun e => decide (e.1 = ptr)) with
  | none => rw [h1] at hq; exact nomatch hq
  | some e =>
    rw [h1] at hq
    simp only [Option.bind_eq_bind, Option.bind_some] at hq
    cases h2 : findChunk e.2 s.blocks with
    | none => rw [h2] at hq; exact nomatch hq
    | some c =>
      rw [h2] at hq
      simp only [Option.bind_eq_bind, Option.bind_some] at hq
      cases h3 : freeInBlocks e.2 s.blocks with
      | none => rw [h3] at hq; exact nomatch hq
      | some m =>
        rw [h3] at hq
        simp only [Option.bind_eq_bind, Option.bind_some, Option.pure_def, Option.some.injEq] at hq
        unfold deallocCore2 deallocCore
        simp only [h1, h2, h3, Option.bind_eq_bind, Option.bind_some, Option.pure_def, Option.some.injEq, exists_eq_left']
        subst hq
        refine ⟨⟨lost, leaked, ⟨move hi rfl rfl rfl rfl rfl rfl (.refl _), h.held, h.disj, h.range, h.ref, h.big⟩⟩, db, dn, ?_, hd⟩
        refine OffQ.toOff (q := _) ?_ hi rfl
        have o := ho.toQ lost
        refine ⟨o.act, ?_, o.tot, ?_, o.lt⟩
        · dsimp only
          split
          · exact add_off o.rel
          · exact o.rel
        · dsimp only
          split
          · exact add_off o.relB
          · exact o.relB

/-- The heuristic suggests a size far from the end of the 64-bit range, or not more than what the pool says it holds. -/
def HeurOk2 (cfg : Cfg) : Prop := ∀ s M L, InvF cfg.align s M L → cfg.heur s + 2 * cfg.align ≤ W ∨ cfg.heur s ≤ s.actualBytes

theorem deallocWith2_wp {cfg : Cfg} {co : State → Nat → Prog2 State} {s : State} {M : Mem} {L : Held} {p n : Nat}
    (h : InvF cfg.align s M L) (hL : (p, n) ∈ L)
    (hco : ∀ s M L, InvF cfg.align s M L → cfg.heur s ≠ 0 →
      (co s (cfg.heur s)).wp (Prog.KeepUB L) M fun s' M' => InvF cfg.align s' M' L) :
    (deallocWith2 cfg co s p).wp (Prog.KeepUB (drop p L)) M fun s' M' => InvF cfg.align s' M' (drop p L) := by
  obtain ⟨s', hs, hi⟩ := deallocCore2_inv h hL
  unfold deallocWith2
  rw [hs]
  simp only
  split
  · rename_i hne; exact hco s' M _ hi hne
  · exact hi

theorem InvF.blocks_le {a : Nat} {s : State} {M : Mem} {L : Held} (h : InvF a s M L) : (s.blocks.map bsize).sum ≤ AMax := by
  obtain ⟨⟨lost, leaked, h⟩, _⟩ := h
  exact Inv.actual_le (s := fix s lost) h.core

theorem InvF.live_nodup {a : Nat} {s : State} {M : Mem} {L : Held} (h : InvF a s M L) : (L.map (·.1)).Nodup := by
  obtain ⟨⟨lost, leaked, h⟩, _⟩ := h
  exact h.core.live_fst_nodup

theorem doCoalesce2_wp {cfg : Cfg} (hc : CfgOk cfg) (ha : 2 * cfg.align ≤ AMax) (hh : HeurOk2 cfg) {fuel : Nat} {s : State} {M : Mem} {L : Held}
    {sug : Nat} (h : InvF cfg.align s M L) (hs : sug + 2 * cfg.align ≤ W ∨ sug ≤ s.actualBytes) :
    (doCoalesce2 cfg fuel s sug).wp (Prog.KeepUB L) M fun s' M' => InvF cfg.align s' M' L := by
  induction fuel generalizing s M L sug with
  | zero => simp [doCoalesce2, wp, Prog.KeepUB]
  | succ fuel ih =>
    unfold doCoalesce2
    split
    · refine wp_bind (wp_mono (wp_weaken (release2_wp h) (fun _ hb => hb.elim) (fun _ _ hf => hf)) ?_)
      rintro ⟨ok, s1⟩ M1 ⟨h1, _, h2, h3⟩
      dsimp only at h1 h2 ⊢
      cases ok with
      | false => simp [wp, Prog.KeepUB]
      | true =>
        simp only [if_true]
        split
        · rename_i hlt
          obtain ⟨hrel, _⟩ := h2 rfl
          obtain ⟨w, hw1, hw2⟩ := hrel.bytes
          have hb := h.blocks_le
          have l1 := h.2.choose_spec.choose_spec.1.lt
          have l2 := h1.2.choose_spec.choose_spec.1.lt
          have hAM := AMax_add_AMax
          have hreq : ReqOk cfg (sug - s1.actualBytes) := by
            refine ⟨by omega, ?_⟩
            rcases hs with hs | hs
            · omega
            · have hwA : w ≤ AMax := by omega
              have : sug - s1.actualBytes ≤ w := by
                clear hAM hwA hb
                unfold w64 at hw2
                have m1 : s.actualBytes % W = s.actualBytes := Nat.mod_eq_of_lt l1
                rw [m1] at hw2
                unfold W at *
                omega
              omega
          refine wp_bind (wp_mono (wp_weaken (allocate2_wp h1 hc hreq) (fun _ hb => hb.elim) (fun _ _ hf => hf)) ?_)
          rintro ⟨r, s2⟩ M2 hpost
          cases r with
          | none => simp [wp, Prog.KeepUB]
          | some p =>
            simp only [AllocPost2] at hpost
            have hnd := hpost.live_nodup
            simp only [List.map_cons, List.nodup_cons, List.mem_map, not_exists, not_and] at hnd
            have hdr := drop_cons_fresh (L := L) (p := p) (n := sug - s1.actualBytes) (fun r hr => fun he => hnd.1 r hr he)
            have := deallocWith2_wp (co := doCoalesce2 cfg fuel) (n := sug - s1.actualBytes)
              (L := (p, sug - s1.actualBytes) :: L) (p := p) hpost (by simp)
              (fun s M L hi _ => ih hi (hh s M L hi))
            rwa [hdr] at this
        · exact h1
    · exact h

theorem deallocate2_wp {cfg : Cfg} (hc : CfgOk cfg) (ha : 2 * cfg.align ≤ AMax) (hh : HeurOk2 cfg) {fuel : Nat} {s : State} {M : Mem} {L : Held}
    {p n : Nat} (h : InvF cfg.align s M L) (hL : (p, n) ∈ L) :
    (deallocate2 cfg fuel s p).wp (Prog.KeepUB (drop p L)) M fun s' M' => InvF cfg.align s' M' (drop p L) :=
  deallocWith2_wp h hL fun s M L hi _ => doCoalesce2_wp hc ha hh hi (hh s M L hi)

theorem coalesce2_wp {cfg : Cfg} (hc : CfgOk cfg) (ha : 2 * cfg.align ≤ AMax) (hh : HeurOk2 cfg) {fuel : Nat} {s : State} {M : Mem} {L : Held}
    (h : InvF cfg.align s M L) : (coalesce2 cfg fuel s).wp (Prog.KeepUB L) M fun s' M' => InvF cfg.align s' M' L := by
  unfold coalesce2
  split
  · exact doCoalesce2_wp hc ha hh h (hh s M L h)
  · exact h

/-- The built-in heuristics (QuickPool.cpp:348-412) qualify. -/
theorem builtIn_ok2 {cfg : Cfg} (hf : BuiltIn cfg.heur) (ha : 2 * cfg.align ≤ AMax) : HeurOk2 cfg := by
  intro s M L h
  obtain ⟨⟨lost, leaked, hm⟩, _⟩ := h
  have h2 : s.alignedHwm ≤ AMax := hm.core.ahwmle
  have hAM := AMax_add_AMax
  generalize cfg.heur = f at hf
  cases hf with
  | blocks n => unfold blocksReleasable getActualSize; split <;> omega
  | blocksHwm n => unfold blocksReleasableHwm getAlignedHighwaterMark; split <;> omega
  | percent thr p f hp =>
    unfold percentReleasable getActualSize at hp
    split at hp
    · simp at hp
    split at hp
    · injection hp with hp; subst hp; simp
    split at hp
    · injection hp with hp; subst hp; simp only; split <;> omega
    · injection hp with hp; subst hp; simp only; split <;> omega
  | percentHwm thr p f hp =>
    unfold percentReleasableHwm getAlignedHighwaterMark at hp
    split at hp
    · simp at hp
    split at hp
    · injection hp with hp; subst hp; simp
    split at hp
    · injection hp with hp; subst hp; simp only; split <;> omega
    · injection hp with hp; subst hp; simp only; split <;> omega

end Umpire.Deny
