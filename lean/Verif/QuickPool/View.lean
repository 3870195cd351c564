import Verif.QuickPool.Coalesce
/-! # From the invariant to the outside view (helper lemmas) -/
set_option autoImplicit false
set_option linter.unusedSimpArgs false
namespace Umpire.QuickPool
open Umpire Umpire.Prog

theorem reach_inv {cfg : Cfg} (hc : CfgOk cfg) (hh : HeurOk cfg) {S : Sys} (h : Reach cfg S) :
    Inv cfg.align S.pool S.held S.live := by
  induction h with
  | init => exact init_inv _
  | step _ hs ih =>
    cases hs with
    | allocOk hn hr => have := wp_run (allocate_wp ih hc hn) hr; exact this.1
    | allocErr hn hr => have := wp_run (allocate_wp ih hc hn) hr; exact this.1
    | dealloc hL hr => have := wp_run (deallocate_wp hc hh ih hL) hr; exact this
    | release hr => exact (wp_run (release_wp ih) hr).1
    | coalesce hr => have := wp_run (coalesce_wp hc hh ih) hr; exact this

theorem ceil_spec {a n : Nat} (ha : 0 < a) : IsRoundUp a n (ceil a n) := roundUp_spec ha

theorem roundUp64_eq_ceil {a n : Nat} (ha : 0 < a) (hn : 0 < n) (hb : n + a ≤ W) : roundUp64 a n = ceil a n :=
  roundUp64_eq ha hn hb

theorem alignPtr_eq_ceil {a p : Nat} (ha : 0 < a) (hb : p + a ≤ W) : alignPtr a p = ceil a p := by
  unfold alignPtr ceil w64
  rw [Nat.mod_eq_of_lt (by omega)]

theorem gap_in_chunk {d p n : Nat} {b : List Chunk} (ht : Tiles d b) (hadj : NoAdj b)
    (hpos : ∀ c ∈ b, 0 < c.size) (hn : 0 < n) (hw : Within p n d (bsize b))
    (hd : ∀ c ∈ b, c.free = false → Disj p n c.data c.size) :
    ∃ c ∈ b, c.free = true ∧ Within p n c.data c.size := by
  induction b generalizing d with
  | nil => simp [Within] at hw; omega
  | cons c cs ih =>
    simp only [Tiles] at ht
    have hcp := hpos c (by simp)
    by_cases h1 : d + c.size ≤ p
    · obtain ⟨x, hx, hxf⟩ := ih ht.2 (by cases cs with | nil => trivial | cons y ys => exact hadj.2)
        (fun y hy => hpos y (by simp [hy])) (by unfold Within at *; simp at hw; omega)
        (fun y hy => hd y (by simp [hy]))
      exact ⟨x, by simp [hx], hxf⟩
    · have hf : c.free = true := by
        cases hcf : c.free with
        | true => rfl
        | false =>
          have := hd c (by simp) hcf
          unfold Disj Within at *; omega
      by_cases h2 : p + n ≤ d + c.size
      · exact ⟨c, by simp, hf, by unfold Within at *; omega⟩
      · cases cs with
        | nil => simp [Within] at hw; omega
        | cons y ys =>
          exfalso
          have hy : y.free = false := by
            cases hyf : y.free with
            | false => rfl
            | true => exact absurd ⟨hf, hyf⟩ hadj.1
          have h3 := hd y (by simp) hy
          have hyp := hpos y (by simp)
          simp only [Tiles] at ht
          unfold Disj Within at *; omega

section
variable {a : Nat} {s : State} {O L : Held} (h : Inv a s O L) (ha : 0 < a)
include h ha

theorem Inv.key_ceil {e : Nat × Nat × Nat} (he : e ∈ s.baseMap) : e.1 = ceil a e.2.1 := by
  have hO : e.2 ∈ O := by rw [h.own]; exact List.mem_map_of_mem he
  have hr := h.range _ hO
  have hAM := AMax_add_AMax
  have hk : e.1 ∈ s.blocks.map start := h.bases.mem_iff.1 (List.mem_map_of_mem he)
  obtain ⟨b, hb, hbs⟩ := List.mem_map.1 hk
  have hin := h.inside b hb e he hbs.symm
  rw [h.akey e he, alignPtr_eq_ceil ha (by omega)]

/-- Blocks of the model and blocks held from the parent correspond. -/
theorem Inv.block_of_held {o : Nat × Nat} (ho : o ∈ O) :
    ∃ b ∈ s.blocks, usable a o = (start b, bsize b) ∧ Within (start b) (bsize b) o.1 o.2 := by
  rw [h.own] at ho
  obtain ⟨e, he, rfl⟩ := List.mem_map.1 ho
  have hk : e.1 ∈ s.blocks.map start := h.bases.mem_iff.1 (List.mem_map_of_mem he)
  obtain ⟨b, hb, hbs⟩ := List.mem_map.1 hk
  have hin := h.inside b hb e he hbs.symm
  refine ⟨b, hb, ?_, hin.1⟩
  unfold usable
  rw [← Inv.key_ceil h ha he, hbs]
  simp only [Prod.mk.injEq, true_and]
  omega

theorem Inv.held_of_block {b : List Chunk} (hb : b ∈ s.blocks) :
    ∃ o ∈ O, usable a o = (start b, bsize b) ∧ Within (start b) (bsize b) o.1 o.2 := by
  obtain ⟨e, he, hk, hO, hw, hsz⟩ := h.base_of hb
  refine ⟨e.2, hO, ?_, hw⟩
  unfold usable
  rw [← Inv.key_ceil h ha he, hk]
  simp only [Prod.mk.injEq, true_and]
  omega

omit ha in
theorem Inv.starts_nodup : (s.blocks.map start).Nodup := h.bases.nodup_iff.1 h.keys

omit ha in
theorem Inv.bsize_pos {b : List Chunk} (hb : b ∈ s.blocks) : 0 < bsize b := by
  have hok := h.blk b hb
  cases b with
  | nil => exact absurd rfl hok.ne
  | cons c cs => have := hok.pos c (by simp); simp; omega

theorem Inv.usable_perm : (O.map (usable a)).Perm (s.blocks.map fun b => (start b, bsize b)) := by
  have hn1 : (O.map (usable a)).Nodup := by
    have : ((O.map (usable a)).map (·.1)).Nodup := by
      have he : (O.map (usable a)).map (·.1) = s.baseMap.map (·.1) := by
        rw [h.own]
        simp only [List.map_map]
        apply List.map_congr_left
        intro e he
        exact (Inv.key_ceil h ha he).symm
      rw [he]; exact h.keys
    exact List.Pairwise.of_map (·.1) (fun x y hxy hne => hxy (congrArg _ hne)) this
  have hn2 : (s.blocks.map fun b => (start b, bsize b)).Nodup := by
    have : ((s.blocks.map fun b => (start b, bsize b)).map (·.1)).Nodup := by
      have he : (s.blocks.map fun b => (start b, bsize b)).map (·.1) = s.blocks.map start := by simp
      rw [he]; exact Inv.starts_nodup h
    exact List.Pairwise.of_map (·.1) (fun x y hxy hne => hxy (congrArg _ hne)) this
  rw [List.perm_ext_iff_of_nodup hn1 hn2]
  intro u
  constructor
  · intro hu
    obtain ⟨o, ho, rfl⟩ := List.mem_map.1 hu
    obtain ⟨b, hb, he, _⟩ := Inv.block_of_held h ha ho
    exact List.mem_map.2 ⟨b, hb, he.symm⟩
  · intro hu
    obtain ⟨b, hb, rfl⟩ := List.mem_map.1 hu
    obtain ⟨o, ho, he, _⟩ := Inv.held_of_block h ha hb
    exact List.mem_map.2 ⟨o, ho, he⟩

theorem Inv.live_ceil {l : Nat × Nat} (hl : l ∈ L) : roundUp64 a l.2 = ceil a l.2 :=
  roundUp64_eq_ceil ha (h.req l hl).1 (h.req l hl).2

theorem Inv.live_perm : (L.map fun r => (r.1, ceil a r.2)).Perm
    ((usedL s.blocks.flatten).map fun c => (c.data, c.size)) := by
  have : (L.map fun r => (r.1, ceil a r.2)) = L.map fun r => (r.1, roundUp64 a r.2) := by
    apply List.map_congr_left
    intro r hr
    rw [Inv.live_ceil h ha hr]
  rw [this]; exact h.live

theorem Inv.live_disj : L.Pairwise fun x y => Disj x.1 (ceil a x.2) y.1 (ceil a y.2) := by
  have h1 : ((usedL s.blocks.flatten).map fun c => (c.data, c.size)).Pairwise fun x y => Disj x.1 x.2 y.1 y.2 := by
    rw [List.pairwise_map]; exact h.chunks_disj.filter _
  have h2 := List.Pairwise.perm h1 (Inv.live_perm h ha).symm (fun hh => Disj.symm hh)
  rw [List.pairwise_map] at h2
  exact h2

theorem Inv.live_held {l : Nat × Nat} (hl : l ∈ L) :
    a ∣ l.1 ∧ ∃ o ∈ O, Within l.1 (ceil a l.2) (usable a o).1 (usable a o).2 ∧
      Within (usable a o).1 (usable a o).2 o.1 o.2 := by
  obtain ⟨c, hc, hu, hd, hcs⟩ := h.live_chunk hl
  obtain ⟨b, hb, hcb⟩ := List.mem_flatten.1 hc
  obtain ⟨o, ho, he, hw⟩ := Inv.held_of_block h ha hb
  have h1 := tiles_within (h.blk b hb).tiles hcb
  rw [hd, hcs, Inv.live_ceil h ha hl] at h1
  refine ⟨by rw [← hd]; exact (h.blk b hb).al c hcb, o, ho, ?_, ?_⟩
  · rw [he]; exact h1
  · rw [he]; exact hw

/-- Gaps are parts of free chunks. -/
theorem Inv.gap_chunk {p n : Nat} (hg : Gap a O L p n) :
    ∃ c ∈ freeL s.blocks.flatten, Within p n c.data c.size := by
  obtain ⟨hn, ⟨o, ho, hw⟩, hl⟩ := hg
  obtain ⟨b, hb, he, _⟩ := Inv.block_of_held h ha ho
  rw [he] at hw
  have hok := h.blk b hb
  obtain ⟨c, hc, hf, hcw⟩ := gap_in_chunk hok.tiles hok.adj hok.pos hn hw (by
    intro c hc hu
    have hm : (c.data, c.size) ∈ (usedL s.blocks.flatten).map fun c => (c.data, c.size) :=
      List.mem_map.2 ⟨c, List.mem_filter.2 ⟨List.mem_flatten.2 ⟨b, hb, hc⟩, by simp [hu]⟩, rfl⟩
    obtain ⟨l, hlm, hle⟩ := List.mem_map.1 ((Inv.live_perm h ha).mem_iff.2 hm)
    have h2 := hl l hlm
    have e1 : l.1 = c.data := congrArg Prod.fst hle
    have e2 : ceil a l.2 = c.size := congrArg Prod.snd hle
    rwa [e1, e2] at h2)
  exact ⟨c, List.mem_filter.2 ⟨List.mem_flatten.2 ⟨b, hb, hc⟩, hf⟩, hcw⟩

theorem Inv.chunk_gap {c : Chunk} (hc : c ∈ freeL s.blocks.flatten) : Gap a O L c.data c.size := by
  obtain ⟨hcm, hf⟩ := List.mem_filter.1 hc
  obtain ⟨b, hb, hcb⟩ := List.mem_flatten.1 hcm
  obtain ⟨o, ho, he, _⟩ := Inv.held_of_block h ha hb
  refine ⟨h.pos_of hcm, ⟨o, ho, ?_⟩, ?_⟩
  · rw [he]; exact tiles_within (h.blk b hb).tiles hcb
  · intro l hl
    obtain ⟨d, hd, hu, hdd, hds⟩ := h.live_chunk hl
    rw [← hdd, ← Inv.live_ceil h ha hl, ← hds]
    refine pairwise_mem h.chunks_disj (fun _ _ => Disj.symm) hcm hd ?_
    rintro rfl
    rw [hf] at hu
    exact absurd hu (by simp)

theorem Inv.maxGap_iff {p n : Nat} : MaxGap a O L p n ↔ ∃ c ∈ freeL s.blocks.flatten, c.data = p ∧ c.size = n := by
  constructor
  · rintro ⟨hg, hmax⟩
    obtain ⟨c, hc, hw⟩ := Inv.gap_chunk h ha hg
    have := hmax c.data c.size (Inv.chunk_gap h ha hc) hw
    exact ⟨c, hc, this⟩
  · rintro ⟨c, hc, rfl, rfl⟩
    refine ⟨Inv.chunk_gap h ha hc, ?_⟩
    intro q m hq hw
    obtain ⟨d, hd, hdw⟩ := Inv.gap_chunk h ha hq
    have hcm := (List.mem_filter.1 hc).1
    have hdm := (List.mem_filter.1 hd).1
    have hcp := h.pos_of hcm
    have : c = d := by
      by_cases hcd : c = d
      · exact hcd
      · have := pairwise_mem h.chunks_disj (fun _ _ => Disj.symm) hcm hdm hcd
        unfold Disj Within at *; omega
    subst this
    unfold Within at *; omega

/-- A block of the model consists of one free chunk iff no live allocation touches it. -/
theorem Inv.block_free {b : List Chunk} (hb : b ∈ s.blocks) {o : Nat × Nat} (ho : o ∈ O)
    (he : usable a o = (start b, bsize b)) :
    (∀ l ∈ L, Disj l.1 l.2 o.1 o.2) ↔ ∃ c, b = [c] ∧ c.free = true := by
  have hok := h.blk b hb
  obtain ⟨e, hem, hek, heO, hew, _⟩ := h.base_of hb
  have hoe : e.2 = o := by
    rw [h.own] at ho
    obtain ⟨e', he', rfl⟩ := List.mem_map.1 ho
    have hk' := Inv.key_ceil h ha he'
    have : e'.1 = start b := by rw [hk']; exact congrArg Prod.fst he
    rw [nodup_map_inj h.keys hem he' (by rw [hek, this])]
  have hcl : ∀ c ∈ b, c.free = false → ∃ l ∈ L, l.1 = c.data ∧ 0 < l.2 := by
    intro c hc hu
    have hm : (c.data, c.size) ∈ (usedL s.blocks.flatten).map fun c => (c.data, c.size) :=
      List.mem_map.2 ⟨c, List.mem_filter.2 ⟨List.mem_flatten.2 ⟨b, hb, hc⟩, by simp [hu]⟩, rfl⟩
    obtain ⟨l, hlm, hle⟩ := List.mem_map.1 ((Inv.live_perm h ha).mem_iff.2 hm)
    exact ⟨l, hlm, congrArg Prod.fst hle, (h.req l hlm).1⟩
  constructor
  · intro hl
    have hall : ∀ c ∈ b, c.free = true := by
      intro c hc
      cases hcf : c.free with
      | true => rfl
      | false =>
        obtain ⟨l, hlm, hld, hl0⟩ := hcl c hc hcf
        have h1 := hl l hlm
        have h2 := tiles_within hok.tiles hc
        have h3 := hok.pos c hc
        rw [← hoe, hld] at h1
        unfold Disj Within at *; omega
    match b, hok, hall with
    | [], hok, _ => exact absurd rfl hok.ne
    | [c], _, hall => exact ⟨c, rfl, hall c (by simp)⟩
    | c :: d :: r, hok, hall => exact absurd ⟨hall c (by simp), hall d (by simp)⟩ hok.adj.1
  · rintro ⟨c, rfl, hf⟩ l hl
    have hcm : c ∈ s.blocks.flatten := List.mem_flatten.2 ⟨[c], hb, by simp⟩
    have hw : c.size = c.chunkSize := by have := hok.csize c (by simp); simpa using this.symm
    rw [← hoe]
    exact h.live_disj_block hcm hf hw hem hek hl

/-- The block is one free chunk. -/
def isFree (b : List Chunk) : Bool := match b with | [c] => c.free | _ => false

omit h ha in
theorem isFree_iff {b : List Chunk} : isFree b = true ↔ ∃ c, b = [c] ∧ c.free = true := by
  unfold isFree
  split
  · simp
  · rename_i hne
    simp only [Bool.false_eq_true, false_iff, not_exists, not_and]
    intro c hb; exact absurd hb (hne c)

omit h ha in
theorem filter_whole {b : List Chunk} (hok : BlockOk a b) :
    b.filter whole = if isFree b = true then b else [] := by
  match b, hok with
  | [], hok => exact absurd rfl hok.ne
  | [c], hok =>
    have := hok.csize c (by simp)
    simp only [bsize_cons, bsize_nil, Nat.add_zero] at this
    cases hf : c.free <;> simp [isFree, whole, this, List.filter_cons, hf]
  | c :: d :: r, hok =>
    have : isFree (c :: d :: r) = false := rfl
    rw [this]
    simp only [Bool.false_eq_true, if_false]
    rw [List.filter_eq_nil_iff]
    intro x hx
    have h1 := hok.csize x hx
    have : x.size < bsize (c :: d :: r) := by
      have hc := hok.pos c (by simp)
      have hd := hok.pos d (by simp)
      simp only [List.mem_cons] at hx
      simp only [bsize_cons]
      rcases hx with rfl | rfl | hx
      · omega
      · omega
      · have := Umpire.le_sum_of_mem (List.mem_map_of_mem (f := fun c : Chunk => c.size) hx)
        unfold bsize; omega
    unfold whole
    simp
    intro h2; omega

omit ha in
theorem Inv.whole_blocks : ((s.blocks.flatten.filter whole).map fun c => (c.data, c.chunkSize)) =
    (s.blocks.filter isFree).map fun b => (start b, bsize b) := by
  have : ∀ bs : List (List Chunk), (∀ b ∈ bs, BlockOk a b) →
      ((bs.flatten.filter whole).map fun c => (c.data, c.chunkSize)) =
      (bs.filter isFree).map fun b => (start b, bsize b) := by
    intro bs
    induction bs with
    | nil => intro _; rfl
    | cons b bs ih =>
      intro hok
      rw [List.flatten_cons, List.filter_append, List.map_append, ih (fun x hx => hok x (by simp [hx])),
        filter_whole (hok b (by simp)), List.filter_cons]
      split
      · rename_i hf
        obtain ⟨c, rfl, _⟩ := isFree_iff.1 hf
        have := (hok [c] (by simp)).csize c (by simp)
        simp [start, this]
      · simp
  exact this _ h.blk

theorem Inv.free_perm : ((freeBlocks O L).map (usable a)).Perm
    ((s.blocks.filter isFree).map fun b => (start b, bsize b)) := by
  let P : Nat × Nat → Bool := fun u => s.blocks.any fun b => decide ((start b, bsize b) = u) && isFree b
  have e1 : (freeBlocks O L).map (usable a) = (O.map (usable a)).filter P := by
    rw [List.filter_map]
    unfold freeBlocks
    congr 1
    apply List.filter_congr
    intro o ho
    obtain ⟨b, hb, he, _⟩ := Inv.block_of_held h ha ho
    have h1 := Inv.block_free h ha hb ho he
    rw [Bool.eq_iff_iff]
    simp only [Function.comp, P, List.any_eq_true, List.all_eq_true, decide_eq_true_eq, Bool.and_eq_true]
    rw [show (∀ l ∈ L, Disj l.1 l.2 o.1 o.2) ↔ _ from h1, ← isFree_iff]
    constructor
    · intro hf; exact ⟨b, hb, he.symm, hf⟩
    · rintro ⟨b', hb', he', hf⟩
      rw [he] at he'
      rwa [← nodup_map_inj (Inv.starts_nodup h) hb' hb (congrArg Prod.fst he')]
  have e2 : ((s.blocks.filter isFree).map fun b => (start b, bsize b)) =
      (s.blocks.map fun b => (start b, bsize b)).filter P := by
    rw [List.filter_map]
    congr 1
    apply List.filter_congr
    intro b hb
    rw [Bool.eq_iff_iff]
    simp only [Function.comp, P, List.any_eq_true, decide_eq_true_eq, Bool.and_eq_true]
    constructor
    · intro hf; exact ⟨b, hb, rfl, hf⟩
    · rintro ⟨b', hb', he', hf⟩
      rwa [← nodup_map_inj (Inv.starts_nodup h) hb' hb (congrArg Prod.fst he')]
  rw [e1, e2]
  exact (Inv.usable_perm h ha).filter P

theorem Inv.relBlocks_eq : s.releasableBlocks = (freeBlocks O L).length := by
  rw [h.relBlocks]
  have h1 := congrArg List.length (Inv.whole_blocks h)
  have h2 := (Inv.free_perm h ha).length_eq
  simp only [List.length_map] at h1 h2
  omega

theorem Inv.relBytes_eq : s.releasableBytes = ((freeBlocks O L).map fun o => o.2 - a).sum := by
  rw [h.relBytes]
  have h1 := congrArg (fun l => (l.map (·.2)).sum) (Inv.whole_blocks h)
  have h2 := ((Inv.free_perm h ha).map (·.2)).sum_nat
  simp only [List.map_map, Function.comp_def] at h1 h2
  rw [h1, ← h2]
  rfl

theorem Inv.actual_eq : s.actualBytes = (O.map fun o => o.2 - a).sum := by
  rw [h.actual]
  have h2 := ((Inv.usable_perm h ha).map (·.2)).sum_nat
  simp only [List.map_map, Function.comp_def] at h2
  rw [← h2]; rfl

theorem Inv.total_eq : s.totalBlocks = O.length := by
  rw [h.total]
  have h2 := (Inv.usable_perm h ha).length_eq
  simp only [List.length_map] at h2
  omega

theorem Inv.aligned_eq : s.alignedBytes = (L.map fun l => ceil a l.2).sum := by
  rw [h.aligned]
  have h2 := ((Inv.live_perm h ha).map (·.2)).sum_nat
  simp only [List.map_map, Function.comp_def] at h2
  rw [← h2]

/-- The maximal gaps, listed. -/
def gaps (s : State) : Held := (freeL s.blocks.flatten).map fun c => (c.data, c.size)

theorem Inv.gaps_spec : (gaps s).Nodup ∧ (∀ p n, (p, n) ∈ gaps s ↔ MaxGap a O L p n) ∧
    (gaps s).length = s.sizeMap.length ∧ ((gaps s).map (·.2)).Perm (s.sizeMap.map (·.1)) := by
  refine ⟨?_, ?_, ?_, ?_⟩
  · unfold gaps List.Nodup
    rw [List.pairwise_map]
    refine List.Pairwise.imp_of_mem ?_ (h.chunks_disj.filter _)
    intro x y hx hy hd
    have px := h.pos_of (List.mem_filter.1 hx).1
    have py := h.pos_of (List.mem_filter.1 hy).1
    intro he
    have e1 := congrArg Prod.fst he
    simp only at e1
    unfold Disj at hd
    omega
  · intro p n
    rw [Inv.maxGap_iff h ha]
    unfold gaps
    simp [List.mem_map]
  · have := h.sm.length_eq
    unfold gaps
    simp only [List.length_map] at *
    exact this.symm
  · have := h.sm.map (·.1)
    unfold gaps
    simpa [List.map_map, Function.comp_def] using this.symm

omit ha in
theorem Inv.ptrMap_length : s.ptrMap.length = L.length := by
  have h1 := h.pm.length_eq
  have h2 := h.live.length_eq
  simp only [List.length_map] at *
  omega

omit ha in
theorem Inv.largest_eq : (∀ m ∈ s.sizeMap.map (·.1), m ≤ getLargestAvailableBlock s) ∧
    (getLargestAvailableBlock s = 0 ∧ s.sizeMap = [] ∨ getLargestAvailableBlock s ∈ s.sizeMap.map (·.1)) := by
  unfold getLargestAvailableBlock
  cases hl : s.sizeMap.getLast? with
  | none => simp only [List.getLast?_eq_none_iff] at hl; simp [hl]
  | some e =>
    obtain ⟨l, hle⟩ := List.getLast?_eq_some_iff.1 hl
    have hs := h.sorted
    rw [hle] at hs ⊢
    rw [List.pairwise_append] at hs
    constructor
    · intro m hm
      simp only [List.map_append, List.map_cons, List.map_nil, List.mem_append, List.mem_map, List.mem_singleton] at hm
      rcases hm with ⟨x, hx, rfl⟩ | rfl
      · exact hs.2.2 x hx e (by simp)
      · simp
    · right; simp

end

end Umpire.QuickPool
