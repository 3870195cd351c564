import Verif.QuickPool.Grow
import Verif.QuickPool.Spec
/-! # `release` and `allocate` keep the invariant, for every parent -/
set_option autoImplicit false
set_option linter.unusedSimpArgs false
namespace Umpire.QuickPool
open Umpire Umpire.Prog

theorem Inv0.sm_chunk {a : Nat} {s : State} {O L : Held} {sm : List (Nat × Nat)} (h : Inv0 a s O L sm)
    {e : Nat × Nat} (he : e ∈ sm) :
    ∃ c ∈ s.blocks.flatten, c.free = true ∧ e = (c.size, c.id) ∧ findChunk e.2 s.blocks = some c := by
  obtain ⟨c, hc, rfl⟩ := List.mem_map.1 (h.sm.mem_iff.1 he)
  have := List.mem_filter.1 hc
  exact ⟨c, this.1, this.2, rfl, findChunk_decomp this.1 rfl h.ids⟩

theorem Inv0.base_find {a : Nat} {s : State} {O L : Held} {sm : List (Nat × Nat)} (h : Inv0 a s O L sm)
    {b : List Chunk} (hb : b ∈ s.blocks) :
    ∃ e ∈ s.baseMap, e.1 = start b ∧ e.2 ∈ O ∧ s.baseMap.find? (fun e => decide (e.1 = start b)) = some e := by
  obtain ⟨e, he, hk, hO, _⟩ := h.base_of hb
  refine ⟨e, he, hk, hO, ?_⟩
  cases hf : s.baseMap.find? (fun e => decide (e.1 = start b)) with
  | none => rw [List.find?_eq_none] at hf; exact absurd (by simpa using hk) (hf e he)
  | some x =>
    have hx := List.mem_of_find?_eq_some hf
    have hp := List.find?_some hf
    simp only [decide_eq_true_eq] at hp
    rw [nodup_map_inj h.keys hx he (hp.trans hk.symm)]

theorem Inv0.live_chunk {a : Nat} {s : State} {O L : Held} {sm : List (Nat × Nat)} (h : Inv0 a s O L sm)
    {r : Nat × Nat} (hr : r ∈ L) :
    ∃ c ∈ s.blocks.flatten, c.free = false ∧ c.data = r.1 ∧ c.size = roundUp64 a r.2 := by
  have : (r.1, roundUp64 a r.2) ∈ L.map fun r => (r.1, roundUp64 a r.2) := List.mem_map.2 ⟨r, hr, rfl⟩
  obtain ⟨c, hc, he⟩ := List.mem_map.1 (h.live.mem_iff.1 this)
  have := List.mem_filter.1 hc
  exact ⟨c, this.1, by simpa using this.2, congrArg Prod.fst he, congrArg Prod.snd he⟩

theorem Inv0.base_disj {a : Nat} {s : State} {O L : Held} {sm : List (Nat × Nat)} (h : Inv0 a s O L sm) :
    s.baseMap.Pairwise fun x y => Disj x.2.1 x.2.2 y.2.1 y.2.2 := by
  have := h.disj
  rw [h.own] at this
  unfold Held.Disjoint at this
  rwa [List.pairwise_map] at this

theorem Inv0.al_pos {a : Nat} {s : State} {O L : Held} {sm : List (Nat × Nat)} (h : Inv0 a s O L sm)
    {l : Nat × Nat} (hl : l ∈ L) : 0 < a := by
  rcases Nat.eq_zero_or_pos a with rfl | ha
  · obtain ⟨c, hc, _, _, hcs⟩ := h.live_chunk hl
    have := h.pos_of hc
    obtain ⟨b, hb, hcb⟩ := List.mem_flatten.1 hc
    obtain ⟨e, he, hk, hO, hw, _⟩ := h.base_of hb
    have hkey := h.akey e he
    have h0 := (h.blk b hb).tiles
    have hdat := (h.blk b hb).al
    have hr := h.range _ hO
    simp only [alignPtr] at hkey
    unfold Within at hw
    omega
  · exact ha

/-- A live allocation lies in the chunk behind it. -/
theorem Inv0.live_within {a : Nat} {s : State} {O L : Held} {sm : List (Nat × Nat)} (h : Inv0 a s O L sm)
    {l : Nat × Nat} (hl : l ∈ L) :
    ∃ c ∈ s.blocks.flatten, c.free = false ∧ c.data = l.1 ∧ c.size = roundUp64 a l.2 ∧ l.2 ≤ c.size := by
  obtain ⟨c, hc, hu, hd, hcs⟩ := h.live_chunk hl
  have hq := h.req l hl
  exact ⟨c, hc, hu, hd, hcs, by rw [hcs]; exact (roundUp64_bounds (h.al_pos hl) hq.1 hq.2).1⟩

/-- Live allocations do not touch a block that is entirely free. -/
theorem Inv0.live_disj_block {a : Nat} {s : State} {O L : Held} {sm : List (Nat × Nat)} (h : Inv0 a s O L sm)
    {c : Chunk} (hc : c ∈ s.blocks.flatten) (hf : c.free = true) (hw : c.size = c.chunkSize)
    {e : Nat × Nat × Nat} (he : e ∈ s.baseMap) (hk : e.1 = c.data) {l : Nat × Nat} (hl : l ∈ L) :
    Disj l.1 l.2 e.2.1 e.2.2 := by
  obtain ⟨d, hd, hu, hdd, _, hds⟩ := h.live_within hl
  obtain ⟨b, hb, hdb⟩ := List.mem_flatten.1 hd
  obtain ⟨e', he', hk', _, hw', _⟩ := h.base_of hb
  have hee : e' ≠ e := by
    rintro rfl
    -- then the block is `[c]`
    obtain ⟨B1, B2, hbs⟩ := whole_decomp h hc hw
    have hnd : (s.blocks.map start).Nodup := h.bases.nodup_iff.1 h.keys
    have : b = [c] := nodup_map_inj hnd hb (by rw [hbs]; simp) (by rw [← hk', hk]; rfl)
    subst this
    simp at hdb
    subst hdb
    simp [hf] at hu
  have h1 := pairwise_mem h.base_disj (fun _ _ => Disj.symm) he' he hee
  have h2 := tiles_within (h.blk b hb).tiles hdb
  unfold Disj Within at *
  omega

/-- Effect of `release` restricted to the size map entries `es`. -/
structure Released (s s' : State) (es : List (Nat × Nat)) : Prop where
  blocks : s'.blocks = s.blocks.filter fun b => b.all fun c => !(whole c && decide ((c.size, c.id) ∈ es))
  sm : s'.sizeMap.Sublist s.sizeMap
  ptrMap : s'.ptrMap = s.ptrMap
  aligned : s'.alignedBytes = s.alignedBytes
  ahwm : s'.alignedHwm = s.alignedHwm
  thwm : s'.actualHwm = s.actualHwm
  nextId : s'.nextId = s.nextId

theorem releaseLoop_wp {a : Nat} {es : List (Nat × Nat)} {s : State} {O L : Held} (h : Inv a s O L)
    (hes : ∀ e ∈ es, e ∈ s.sizeMap) (hnd : (es.map (·.2)).Nodup) :
    (releaseLoop es s).wp (Keep L) O fun s' O' => Inv a s' O' L ∧ Released s s' es ∧ O'.Sublist O ∧
      ∀ r ∈ O, r ∈ O' ∨ ∀ l ∈ L, Disj l.1 l.2 r.1 r.2 := by
  induction es generalizing s O with
  | nil =>
    refine ⟨h, ⟨?_, .refl _, rfl, rfl, rfl, rfl, rfl⟩, .refl _, fun _ hr => Or.inl hr⟩
    symm; rw [List.filter_eq_self]; simp
  | cons e es ih =>
    obtain ⟨c, hc, hf, rfl, hfind⟩ := h.sm_chunk (hes e (by simp))
    simp only [List.map_cons, List.nodup_cons] at hnd
    unfold releaseLoop
    simp only [hfind]
    by_cases hw : c.size = c.chunkSize
    · obtain ⟨B1, B2, hbs⟩ := whole_decomp h hc hw
      have hbm : [c] ∈ s.blocks := by rw [hbs]; simp
      obtain ⟨e, he, hk, hO, hbf⟩ := h.base_find hbm
      have hst : start [c] = c.data := rfl
      rw [hst] at hk hbf
      simp only [hw, hf, and_self, if_true, alignedDealloc, hbf]
      have hkeep : ∀ l ∈ L, Disj l.1 l.2 e.2.1 e.2.2 := fun l hl => h.live_disj_block hc hf hw he hk hl
      refine ⟨⟨hO, (h.range _ hO).2.1, hkeep⟩, ?_⟩
      have hinv := dropBlock_inv h hc hw hf he hk
      have := ih (s := dropBlock s c) hinv (fun x hx => by
          refine List.mem_filter.2 ⟨hes x (by simp [hx]), ?_⟩
          simp only [ne_eq, decide_not, Bool.not_eq_eq_eq_not, Bool.not_true, decide_eq_false_iff_not]
          intro hxc
          exact hnd.1 (List.mem_map.2 ⟨x, hx, hxc⟩)) hnd.2
      refine Prog.wp_mono this ?_
      rintro s' O' ⟨h1, h2, h3, h4⟩
      refine ⟨h1, ⟨?_, h2.sm.trans List.filter_sublist, h2.ptrMap, h2.aligned, h2.ahwm, h2.thwm, h2.nextId⟩,
        h3.trans List.filter_sublist, fun r hr => ?_⟩
      rotate_left
      · by_cases hre : r.1 = e.2.1
        · right
          have hpO : ∀ r ∈ O, 0 < r.2 := fun r hr => (h.range r hr).2.1
          rw [Held.inj h.disj hpO hr hO hre]
          exact hkeep
        · exact h4 r (mem_drop.2 ⟨hr, hre⟩)
      rw [h2.blocks]
      have hbl := dropBlock_blocks h hbs
      have hd : (dropBlock s c).blocks = B1 ++ B2 := hbl
      rw [hd, hbs]
      have hids := h.ids
      rw [hbs] at hids
      simp only [List.flatten_append, List.flatten_cons, List.map_append, List.map_cons, List.map_nil, List.nodup_append,
        List.nodup_cons, List.mem_append, List.mem_map, List.mem_singleton] at hids
      have key : ∀ b ∈ B1 ++ B2, (b.all fun d => !(whole d && decide ((d.size, d.id) ∈ es))) =
          b.all fun d => !(whole d && decide ((d.size, d.id) ∈ (c.chunkSize, c.id) :: es)) := by
        intro b hb
        rw [Bool.eq_iff_iff, List.all_eq_true, List.all_eq_true]
        have hne : ∀ d ∈ b, (d.size, d.id) ≠ (c.chunkSize, c.id) := by
          intro d hd heq
          have hid : d.id = c.id := congrArg Prod.snd heq
          rcases List.mem_append.1 hb with hb | hb
          · exact hids.2.2 d.id ⟨d, List.mem_flatten.2 ⟨b, hb, hd⟩, rfl⟩ d.id (Or.inl hid) rfl
          · exact hids.2.1.2.2 c.id rfl d.id ⟨d, List.mem_flatten.2 ⟨b, hb, hd⟩, rfl⟩ hid.symm
        constructor
        · intro hx d hd
          have := hx d hd
          simp only [List.mem_cons, hne d hd, false_or]; exact this
        · intro hx d hd
          have := hx d hd
          simp only [List.mem_cons, hne d hd, false_or] at this; exact this
      rw [List.filter_append, List.filter_append, List.filter_cons]
      rw [List.filter_congr (fun b hb => key b (List.mem_append_left _ hb)),
        List.filter_congr (fun b hb => key b (List.mem_append_right _ hb))]
      simp [whole, hw, hf]
    · have hcond : ¬(c.size = c.chunkSize ∧ c.free = true) := fun x => hw x.1
      rw [if_neg hcond]
      have := ih h (fun x hx => hes x (by simp [hx])) hnd.2
      refine Prog.wp_mono this ?_
      rintro s' O' ⟨h1, h2, h3, h4⟩
      refine ⟨h1, ⟨?_, h2.sm, h2.ptrMap, h2.aligned, h2.ahwm, h2.thwm, h2.nextId⟩, h3, h4⟩
      rw [h2.blocks]
      apply List.filter_congr
      intro b hb
      rw [Bool.eq_iff_iff, List.all_eq_true, List.all_eq_true]
      constructor
      · intro hx d hd
        have := hx d hd
        simp only [Bool.not_eq_eq_eq_not, Bool.not_true, Bool.and_eq_false_iff, decide_eq_false_iff_not, List.mem_cons] at this ⊢
        rcases this with this | this
        · exact Or.inl this
        · by_cases hdc : (d.size, d.id) = (c.size, c.id)
          · left
            have : d = c := nodup_map_inj h.ids (List.mem_flatten.2 ⟨b, hb, hd⟩) hc (congrArg Prod.snd hdc)
            subst this
            simp [whole, hw]
          · exact Or.inr fun hh => hh.elim hdc this
      · intro hx d hd
        have := hx d hd
        simp only [Bool.not_eq_eq_eq_not, Bool.not_true, Bool.and_eq_false_iff, decide_eq_false_iff_not, List.mem_cons, not_or] at this ⊢
        exact this.imp_right And.right

/-- What `release` does as seen from outside. -/
structure ReleasedAll (s s' : State) : Prop where
  blocks : s'.blocks = s.blocks.filter fun b => b.all fun c => !whole c
  sm : s'.sizeMap.Sublist s.sizeMap
  ptrMap : s'.ptrMap = s.ptrMap
  aligned : s'.alignedBytes = s.alignedBytes
  ahwm : s'.alignedHwm = s.alignedHwm
  thwm : s'.actualHwm = s.actualHwm
  nextId : s'.nextId = s.nextId

theorem Inv.sm_nodup {a : Nat} {s : State} {O L : Held} {sm : List (Nat × Nat)} (h : Inv0 a s O L sm) : (sm.map (·.2)).Nodup := by
  have h1 := h.sm.map (·.2)
  rw [h1.nodup_iff, List.map_map]
  have : ((fun x : Nat × Nat => x.2) ∘ fun c : Chunk => (c.size, c.id)) = fun c : Chunk => c.id := rfl
  rw [this]
  exact (List.filter_sublist.map _).nodup h.ids

theorem release_wp {a : Nat} {s : State} {O L : Held} (h : Inv a s O L) :
    (release s).wp (Keep L) O fun s' O' => Inv a s' O' L ∧ ReleasedAll s s' ∧ O'.Sublist O ∧
      ∀ r ∈ O, r ∈ O' ∨ ∀ l ∈ L, Disj l.1 l.2 r.1 r.2 := by
  refine Prog.wp_mono (releaseLoop_wp h (fun _ he => he) (Inv.sm_nodup h)) ?_
  rintro s' O' ⟨h1, h2, h3, h4⟩
  refine ⟨h1, ⟨?_, h2.sm, h2.ptrMap, h2.aligned, h2.ahwm, h2.thwm, h2.nextId⟩, h3, h4⟩
  rw [h2.blocks]
  apply List.filter_congr
  intro b hb
  rw [Bool.eq_iff_iff, List.all_eq_true, List.all_eq_true]
  constructor
  · intro hx d hd
    have := hx d hd
    simp only [Bool.not_eq_eq_eq_not, Bool.not_true, Bool.and_eq_false_iff, decide_eq_false_iff_not] at this ⊢
    rcases this with this | this
    · exact this
    · by_cases hdf : d.free = true
      · exfalso
        apply this
        apply h.sm.mem_iff.2
        exact List.mem_map.2 ⟨d, List.mem_filter.2 ⟨List.mem_flatten.2 ⟨b, hb, hd⟩, hdf⟩, rfl⟩
      · simp [whole, hdf]
  · intro hx d hd
    have := hx d hd
    simp only [Bool.not_eq_eq_eq_not, Bool.not_true] at this ⊢
    simp [this]

/-- Admissible constructor arguments: no overflow in `size + alignment`. -/
structure CfgOk (cfg : Cfg) : Prop where
  al : 0 < cfg.align
  first : cfg.first + cfg.align < W
  next : cfg.next + cfg.align < W

theorem growSize_bounds {cfg : Cfg} {s : State} {n : Nat} (hc : CfgOk cfg) (hn : ReqOk cfg n) :
    roundUp64 cfg.align n ≤ growSize cfg s (roundUp64 cfg.align n) ∧
    0 < growSize cfg s (roundUp64 cfg.align n) ∧
    growSize cfg s (roundUp64 cfg.align n) + cfg.align < W := by
  have hal := hc.al
  have hf := hc.first
  have hx := hc.next
  obtain ⟨h1, h2⟩ := hn
  have := roundUp64_bounds hal h1 (by omega)
  unfold growSize
  dsimp only
  split <;> split <;> omega

/-- Result of `allocate`: a new live allocation, or an exception after which
everything releasable has been given back. -/
def AllocPost (a n : Nat) (s : State) (O L : Held) (r : Option Nat × State) (O' : Held) : Prop :=
  match r.1 with
  | some p => Inv a r.2 O' ((p, n) :: L) ∧ (∃ O1, O1.Sublist O ∧ (O' = O1 ∨ ∃ q m, O' = (q, m) :: O1)) ∧
      r.2.alignedHwm = max r.2.alignedBytes s.alignedHwm ∧
      r.2.actualHwm = max r.2.actualBytes s.actualHwm
  | none => Inv a r.2 O' L ∧ ReleasedAll s r.2 ∧ O'.Sublist O ∧
      ∀ q ∈ O, q ∈ O' ∨ ∀ l ∈ L, Disj l.1 l.2 q.1 q.2

theorem useChunk_fst {s : State} {c : Chunk} {r : Nat} : (useChunk s c r).1 = c.data := rfl

theorem useChunk_hwm {s : State} {c : Chunk} {r : Nat} :
    (useChunk s c r).2.alignedHwm = max (useChunk s c r).2.alignedBytes s.alignedHwm ∧
    (useChunk s c r).2.actualHwm = s.actualHwm ∧ (useChunk s c r).2.actualBytes = s.actualBytes := by
  unfold useChunk
  simp only
  split <;> simp

theorem grow_hwm {cfg : Cfg} {s : State} {size p r : Nat} :
    (useChunk (newBlock cfg s size p).2 (newBlock cfg s size p).1 r).2.actualHwm =
      max (useChunk (newBlock cfg s size p).2 (newBlock cfg s size p).1 r).2.actualBytes s.actualHwm := by
  have h1 := useChunk_hwm (s := (newBlock cfg s size p).2) (c := (newBlock cfg s size p).1) (r := r)
  rw [h1.2.1, h1.2.2]
  rfl

theorem grow_inv {cfg : Cfg} {s : State} {O L : Held} {n size p : Nat} (h : Inv cfg.align s O L)
    (hc : CfgOk cfg) (hn : ReqOk cfg n) (hsz : roundUp64 cfg.align n ≤ size) (hs0 : 0 < size)
    (hsW : size + cfg.align < W) (hp : Fresh p (size + cfg.align) O) :
    Inv cfg.align (useChunk (newBlock cfg s size p).2 (newBlock cfg s size p).1 (roundUp64 cfg.align n)).2
      ((p, size + cfg.align) :: O) (((newBlock cfg s size p).1.data, n) :: L) := by
  obtain ⟨h1, h2, h3, h4⟩ := newBlock_inv h hc.al hs0 hsW hp
  exact useChunk_inv h1 hc.al h2 h3 hn.1 (by have := hn.2; omega) (by rw [h4]; exact hsz)

theorem lowerBound_spec {n : Nat} {m : List (Nat × Nat)} {e : Nat × Nat} (h : lowerBound n m = some e) :
    e ∈ m ∧ n ≤ e.1 := by
  have := List.find?_some h
  exact ⟨List.mem_of_find?_eq_some h, by simpa using this⟩

/-- Taking an entry out of the size map. -/
theorem take_inv {a : Nat} {s : State} {O L : Held} (h : Inv a s O L) {c : Chunk}
    (he : (c.size, c.id) ∈ s.sizeMap) :
    Inv0 a { s with sizeMap := smErase c.id s.sizeMap } O L ((c.size, c.id) :: smErase c.id s.sizeMap) := by
  have hp : ((c.size, c.id) :: smErase c.id s.sizeMap).Perm s.sizeMap := by
    obtain ⟨l1, l2, hl⟩ := List.append_of_mem he
    have hnd := Inv.sm_nodup h
    rw [hl] at hnd ⊢
    have : smErase c.id (l1 ++ (c.size, c.id) :: l2) = l1 ++ l2 := by
      unfold smErase
      rw [List.filter_append, List.filter_cons]
      simp only [List.map_append, List.map_cons, List.nodup_append, List.nodup_cons, List.mem_map, List.mem_cons] at hnd
      rw [List.filter_eq_self.2, List.filter_eq_self.2]
      · simp
      · intro x hx
        simp only [ne_eq, decide_not, Bool.not_eq_eq_eq_not, Bool.not_true, decide_eq_false_iff_not]
        intro hxc; exact hnd.2.1.1 ⟨x, hx, hxc⟩
      · intro x hx
        simp only [ne_eq, decide_not, Bool.not_eq_eq_eq_not, Bool.not_true, decide_eq_false_iff_not]
        intro hxc; exact hnd.2.2 x.2 ⟨x, hx, rfl⟩ x.2 (Or.inl hxc) rfl
    rw [this]; exact List.perm_middle.symm
  exact { h with sm := hp.trans h.sm, sorted := List.Pairwise.filter _ h.sorted }

theorem allocate_wp {cfg : Cfg} {s : State} {O L : Held} {n : Nat} (h : Inv cfg.align s O L)
    (hc : CfgOk cfg) (hn : ReqOk cfg n) :
    (allocate cfg s n).wp (Keep L) O (AllocPost cfg.align n s O L) := by
  obtain ⟨g1, g2, g3⟩ := growSize_bounds (s := s) hc hn
  unfold allocate
  simp only
  cases hl : lowerBound (roundUp64 cfg.align n) s.sizeMap with
  | none =>
    simp only
    generalize hg : growSize cfg s (roundUp64 cfg.align n) = size at *
    have hw : w64 (size + cfg.align) = size + cfg.align := Nat.mod_eq_of_lt g3
    rw [hw]
    refine ⟨fun p hp => ?_, ?_⟩
    · exact ⟨grow_inv h hc hn g1 g2 g3 hp, ⟨O, .refl _, .inr ⟨_, _, rfl⟩⟩, useChunk_hwm.1, grow_hwm⟩
    · refine Prog.wp_bind (Prog.wp_mono (release_wp h) ?_)
      rintro s' O' ⟨h1, h2, h3, h4⟩
      refine ⟨fun p hp => ?_, ?_⟩
      · refine ⟨grow_inv h1 hc hn g1 g2 g3 hp, ⟨O', h3, .inr ⟨_, _, rfl⟩⟩, ?_, ?_⟩
        · rw [← h2.ahwm]; exact useChunk_hwm.1
        · rw [← h2.thwm]; exact grow_hwm
      · exact ⟨h1, h2, h3, h4⟩
  | some e =>
    obtain ⟨hem, hen⟩ := lowerBound_spec hl
    obtain ⟨c, hcm, hf, rfl, hfind⟩ := h.sm_chunk hem
    simp only [hfind]
    refine ⟨useChunk_inv (take_inv h hem) hc.al hcm hf hn.1 (by have := hn.2; omega) hen, ⟨O, .refl _, .inl rfl⟩,
      useChunk_hwm.1, ?_⟩
    have h1 := useChunk_hwm (s := { s with sizeMap := smErase c.id s.sizeMap }) (c := c) (r := roundUp64 cfg.align n)
    have h2 := h.thwm
    have h3 : s.actualBytes = (useChunk { s with sizeMap := smErase c.id s.sizeMap } c (roundUp64 cfg.align n)).2.actualBytes := h1.2.2.symm
    have h4 : s.actualHwm = (useChunk { s with sizeMap := smErase c.id s.sizeMap } c (roundUp64 cfg.align n)).2.actualHwm := h1.2.1.symm
    simp only
    omega

end Umpire.QuickPool
