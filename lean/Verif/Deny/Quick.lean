import Verif.Deny.Model
import Verif.QuickPool.Heur
/-! # A `QuickPool` whose parent refuses memory keeps its books of the memory (proofs) -/
set_option autoImplicit false
set_option linter.unusedSimpArgs false
namespace Umpire.Deny
open Umpire QuickPool Prog2

attribute [local irreducible] sub64 add64

/-- The pool as it would be if the blocks whose base pointer was forgotten (`lost`) were still known and the counters were right. -/
def fix (s : State) (lost : List (Nat × Nat × Nat)) : State :=
  { s with
    baseMap := s.baseMap ++ lost
    totalBlocks := s.blocks.length
    releasableBlocks := (s.blocks.flatten.filter whole).length
    actualBytes := (s.blocks.map bsize).sum
    releasableBytes := ((s.blocks.flatten.filter whole).map (·.chunkSize)).sum
    actualHwm := (s.blocks.map bsize).sum }

/-- The invariant does not depend on the order of the base pointers nor on the counters. -/
theorem move {a : Nat} {q s : State} {lost : List (Nat × Nat × Nat)} {O L : Held} {sm : List (Nat × Nat)} (h : Inv0 a q O L sm)
    (hb : s.blocks = q.blocks) (hs : s.sizeMap = q.sizeMap) (hp : s.ptrMap = q.ptrMap) (hi : s.nextId = q.nextId)
    (ha : s.alignedBytes = q.alignedBytes) (hh : s.alignedHwm = q.alignedHwm) (hm : (s.baseMap ++ lost).Perm q.baseMap) :
    Inv0 a (fix s lost) ((s.baseMap ++ lost).map (·.2)) L sm := by
  have hO : ((s.baseMap ++ lost).map (·.2)).Perm O := by rw [h.own]; exact hm.map _
  refine
    { blk := ?_, ids := ?_, idlt := ?_, sm := ?_, sorted := ?_, pm := ?_, own := rfl, keys := ?_, akey := ?_,
      bases := ?_, inside := ?_, disj := ?_, range := ?_, total := rfl, relBlocks := rfl,
      relBytes := rfl, actual := rfl, aligned := ?_, ahwm := ?_, ahwmle := ?_, thwm := Nat.le_refl _, live := ?_, req := h.req }
    <;> try simp only [fix, hb, hs, hp, hi, ha, hh]
  · exact h.blk
  · exact h.ids
  · exact h.idlt
  · exact h.sm
  · exact h.sorted
  · exact h.pm
  · exact ((hm.map (·.1)).nodup_iff).2 h.keys
  · exact fun e he => h.akey e (hm.mem_iff.1 he)
  · exact (hm.map (·.1)).trans h.bases
  · exact fun b hb' e he hk => h.inside b hb' e (hm.mem_iff.1 he) hk
  · exact (hO.pairwise_iff (fun hxy => Disj.symm hxy)).2 h.disj
  · exact fun r hr => h.range r (hO.mem_iff.1 hr)
  · exact h.aligned
  · exact h.ahwm
  · exact h.ahwmle
  · exact h.live

/-- The memory of a pool: `lost` are the blocks it still uses but can no longer give back, `leaked` those it forgot. -/
structure InvM (a : Nat) (s : State) (M : Mem) (L : Held) (lost : List (Nat × Nat × Nat)) (leaked : Held) (sm : List (Nat × Nat)) : Prop where
  core : Inv0 a (fix s lost) ((s.baseMap ++ lost).map (·.2)) L sm
  held : M.held.Perm ((s.baseMap ++ lost).map (·.2) ++ leaked)
  disj : M.held.Disjoint
  range : ∀ r ∈ M.held, r.1 ≠ 0 ∧ 0 < r.2 ∧ r.1 + r.2 ≤ AMax
  ref : M.refused.Perm (lost.map (·.2) ++ leaked)
  big : ∀ r ∈ leaked, a < r.2

/-- How far the counters of a pool are off. -/
structure Off (s : State) (db dn : Nat) : Prop where
  act : w64 (s.actualBytes + db) = w64 (s.blocks.map bsize).sum
  rel : w64 (s.releasableBytes + db) = w64 ((s.blocks.flatten.filter whole).map (·.chunkSize)).sum
  tot : w64 (s.totalBlocks + dn) = w64 s.blocks.length
  relB : w64 (s.releasableBlocks + dn) = w64 (s.blocks.flatten.filter whole).length
  lt : s.actualBytes < W

/-- They are off by what was refused, if the parent takes `nullptr`. -/
def Drift (a : Nat) (s : State) (M : Mem) : Prop :=
  ∃ db dn, Off s db dn ∧ (M.nulls = false → db = (M.refused.map fun r => r.2 - a).sum ∧ dn = M.refused.length)

/-! ## Lists -/

theorem perm_key {l : List (Nat × Nat × Nat)} (hn : (l.map (·.1)).Nodup) {e : Nat × Nat × Nat} (he : e ∈ l) {k : Nat} (hk : e.1 = k) :
    l.Perm (e :: l.filter fun x => decide (x.1 ≠ k)) := by
  obtain ⟨l1, l2, rfl⟩ := List.append_of_mem he
  simp only [List.map_append, List.map_cons, List.nodup_append, List.nodup_cons, List.mem_map, List.mem_cons] at hn
  have h1 : l1.filter (fun x => decide (x.1 ≠ k)) = l1 := by
    rw [List.filter_eq_self]
    intro x hx
    simp only [ne_eq, decide_not, Bool.not_eq_eq_eq_not, Bool.not_true, decide_eq_false_iff_not]
    intro hxk
    exact hn.2.2 x.1 ⟨x, hx, rfl⟩ x.1 (Or.inl (hxk.trans hk.symm)) rfl
  have h2 : l2.filter (fun x => decide (x.1 ≠ k)) = l2 := by
    rw [List.filter_eq_self]
    intro x hx
    simp only [ne_eq, decide_not, Bool.not_eq_eq_eq_not, Bool.not_true, decide_eq_false_iff_not]
    intro hxk
    exact hn.2.1.1 ⟨x, hx, hxk.trans hk.symm⟩
  rw [List.filter_append, List.filter_cons, h1, h2]
  simp only [hk, ne_eq, not_true_eq_false, decide_false, Bool.false_eq_true, if_false]
  exact List.perm_middle

theorem perm_drop {O rest : Held} {r : Nat × Nat} (h : O.Perm (r :: rest)) (hd : O.Disjoint) (hp : ∀ x ∈ O, 0 < x.2) :
    (drop r.1 O).Perm rest := by
  have hd' : Held.Disjoint (r :: rest) := (h.pairwise_iff (fun hxy => Disj.symm hxy)).1 hd
  have hp' : ∀ x ∈ r :: rest, 0 < x.2 := fun x hx => hp x (h.mem_iff.2 hx)
  unfold drop
  refine perm_filter_key _ h (by simp) ?_
  intro y hy
  simp only [ne_eq, decide_not, Bool.not_eq_eq_eq_not, Bool.not_true, decide_eq_false_iff_not]
  intro he
  have h1 := (List.pairwise_cons.1 hd').1 y hy
  have h2 := hp' y (by simp [hy])
  have h3 := hp' r (by simp)
  unfold Disj at h1
  omega

theorem drop_zero {O : Held} (h : ∀ r ∈ O, r.1 ≠ 0) : drop 0 O = O := by
  unfold drop
  rw [List.filter_eq_self]
  intro r hr
  simpa using h r hr

theorem InvM.keys {a : Nat} {s : State} {M : Mem} {L : Held} {lost : List (Nat × Nat × Nat)} {leaked : Held} {sm : List (Nat × Nat)}
    (h : InvM a s M L lost leaked sm) : ((s.baseMap ++ lost).map (·.1)).Nodup := h.core.keys

/-- Nothing that was refused is among the known base pointers. -/
theorem InvM.not_ref {a : Nat} {s : State} {M : Mem} {L : Held} {lost : List (Nat × Nat × Nat)} {leaked : Held} {sm : List (Nat × Nat)}
    (h : InvM a s M L lost leaked sm) {e : Nat × Nat × Nat} (he : e ∈ s.baseMap) : e.2 ∉ M.refused := by
  intro hr
  have hd : Held.Disjoint ((s.baseMap.map (·.2)) ++ (lost.map (·.2) ++ leaked)) := by
    have := (h.held.pairwise_iff (fun hxy => Disj.symm hxy)).1 h.disj
    simpa [Held.Disjoint] using this
  have h1 : e.2 ∈ s.baseMap.map (·.2) := List.mem_map_of_mem he
  have h2 : e.2 ∈ lost.map (·.2) ++ leaked := h.ref.mem_iff.1 hr
  have h3 := (List.pairwise_append.1 hd).2.2 _ h1 _ h2
  have h4 := h.range e.2 (h.held.mem_iff.2 (by simp; exact Or.inl ⟨e.1, he⟩))
  unfold Disj at h3
  omega

/-- What was refused is still held. -/
theorem InvM.ref_held {a : Nat} {s : State} {M : Mem} {L : Held} {lost : List (Nat × Nat × Nat)} {leaked : Held} {sm : List (Nat × Nat)}
    (h : InvM a s M L lost leaked sm) {r : Nat × Nat} (hr : r ∈ M.refused) : r ∈ M.held := by
  refine h.held.mem_iff.2 ?_
  rcases List.mem_append.1 (h.ref.mem_iff.1 hr) with hr | hr
  · rw [List.map_append]; exact List.mem_append_left _ (List.mem_append_right _ hr)
  · exact List.mem_append_right _ hr

/-! ## The steps of `release` -/

/-- A whole block leaves the pool (QuickPool.cpp:236-237) and its base pointer is forgotten. -/
def gone (s : State) (c : Chunk) : State :=
  { s with
    blocks := (s.blocks.map (·.filter fun d => d.id ≠ c.id)).filter (!·.isEmpty)
    sizeMap := smErase c.id s.sizeMap
    baseMap := s.baseMap.filter fun e => e.1 ≠ c.data }

/-- The counters before the parent is called (QuickPool.cpp:218-221). -/
def less (s : State) (c : Chunk) : State :=
  { s with
    actualBytes := sub64 s.actualBytes c.chunkSize
    releasableBytes := sub64 s.releasableBytes c.chunkSize
    releasableBlocks := sub64 s.releasableBlocks 1
    totalBlocks := sub64 s.totalBlocks 1 }

theorem InvM.cnt {a : Nat} {s : State} {M : Mem} {L : Held} {lost : List (Nat × Nat × Nat)} {leaked : Held} {sm : List (Nat × Nat)}
    (h : InvM a s M L lost leaked sm) (x y z w : Nat) :
    InvM a { s with actualBytes := x, releasableBytes := y, releasableBlocks := z, totalBlocks := w } M L lost leaked sm :=
  ⟨h.core, h.held, h.disj, h.range, h.ref, h.big⟩

theorem InvM.less {a : Nat} {s : State} {M : Mem} {L : Held} {lost : List (Nat × Nat × Nat)} {leaked : Held} {sm : List (Nat × Nat)}
    (h : InvM a s M L lost leaked sm) (c : Chunk) : InvM a (less s c) M L lost leaked sm := h.cnt _ _ _ _

section Step
variable {a : Nat} {s : State} {M : Mem} {L : Held} {lost : List (Nat × Nat × Nat)} {leaked : Held} {c : Chunk}

theorem gone_core (h : InvM a s M L lost leaked s.sizeMap) (hc : c ∈ s.blocks.flatten) (hw : c.size = c.chunkSize)
    (hf : c.free = true) {e : Nat × Nat × Nat} (he : e ∈ s.baseMap ++ lost) (hk : e.1 = c.data) :
    Inv0 a (fix (gone s c) (lost.filter fun x => decide (x.1 ≠ c.data)))
      (((gone s c).baseMap ++ (lost.filter fun x => decide (x.1 ≠ c.data))).map (·.2)) L (gone s c).sizeMap := by
  have := dropBlock_inv (s := fix s lost) h.core hc hw hf he hk
  refine move this rfl rfl rfl rfl rfl rfl ?_
  simp only [gone, dropBlock, fix, List.filter_append]
  exact .refl _

theorem base_perm (h : InvM a s M L lost leaked s.sizeMap) {e : Nat × Nat × Nat} (he : e ∈ s.baseMap ++ lost) (hk : e.1 = c.data) :
    ((s.baseMap ++ lost).map (·.2)).Perm
      (e.2 :: ((gone s c).baseMap ++ (lost.filter fun x => decide (x.1 ≠ c.data))).map (·.2)) := by
  have := (perm_key h.keys he hk).map (·.2)
  rwa [List.filter_append] at this

theorem big_cons (h : InvM a s M L lost leaked s.sizeMap) (hc : c ∈ s.blocks.flatten) (hw : c.size = c.chunkSize)
    {e : Nat × Nat × Nat} (he : e ∈ s.baseMap ++ lost) (hk : e.1 = c.data) : ∀ r ∈ e.2 :: leaked, a < r.2 := by
  intro r hr
  rcases List.mem_cons.1 hr with rfl | hr
  · obtain ⟨B1, B2, hbs⟩ := whole_decomp h.core hc hw
    have hbm : [c] ∈ (fix s lost).blocks := by rw [hbs]; simp
    have hin := (h.core.inside [c] hbm e he hk).2
    have hp := h.core.pos_of hc
    simp only [bsize_cons, bsize_nil] at hin
    omega
  · exact h.big r hr

/-- The parent took the block back. -/
theorem step_ok (h : InvM a s M L lost leaked s.sizeMap) (hc : c ∈ s.blocks.flatten) (hw : c.size = c.chunkSize)
    (hf : c.free = true) {e : Nat × Nat × Nat} (he : e ∈ s.baseMap) (hk : e.1 = c.data) :
    InvM a (gone s c) (M.back e.2.1 e.2.2 true) L lost leaked (gone s c).sizeMap := by
  have he' : e ∈ s.baseMap ++ lost := List.mem_append_left _ he
  have hlost : (lost.filter fun x => decide (x.1 ≠ c.data)) = lost := by
    rw [List.filter_eq_self]
    intro x hx
    simp only [ne_eq, decide_not, Bool.not_eq_eq_eq_not, Bool.not_true, decide_eq_false_iff_not]
    intro hxc
    have hn := h.keys
    rw [List.map_append, List.nodup_append] at hn
    exact hn.2.2 e.1 (List.mem_map_of_mem he) x.1 (List.mem_map_of_mem hx) (hk.trans hxc.symm)
  have h1 := gone_core h hc hw hf he' hk
  have h2 := base_perm (c := c) h he' hk
  rw [hlost] at h1 h2
  have hp : ∀ r ∈ M.held, 0 < r.2 := fun r hr => (h.range r hr).2.1
  refine ⟨h1, ?_, h.disj.drop _, fun r hr => h.range r (drop_sub r hr), h.ref, h.big⟩
  exact perm_drop (h.held.trans ((h2.append_right leaked).trans (.of_eq rfl))) h.disj hp

/-- The parent refused the block, and the exception leaves `release`. -/
theorem step_refused (h : InvM a s M L lost leaked s.sizeMap) {e : Nat × Nat × Nat} (he : e ∈ s.baseMap) (hk : e.1 = c.data) :
    InvM a { s with baseMap := s.baseMap.filter fun x => x.1 ≠ c.data } (M.back e.2.1 e.2.2 false) L (e :: lost) leaked s.sizeMap := by
  have hn := h.keys
  rw [List.map_append, List.nodup_append] at hn
  have hp : ((s.baseMap.filter fun x => decide (x.1 ≠ c.data)) ++ e :: lost).Perm (s.baseMap ++ lost) :=
    (List.perm_middle.trans ((perm_key hn.1 he hk).symm.append_right lost))
  have hne : e.2.1 ≠ 0 := by
    refine (h.range e.2 (h.held.mem_iff.2 ?_)).1
    simp; exact Or.inl ⟨e.1, he⟩
  refine ⟨move (lost := e :: lost) h.core rfl rfl rfl rfl rfl rfl hp, h.held.trans (((hp.map (·.2)).append_right leaked).symm), h.disj, h.range, ?_, h.big⟩
  simp only [Mem.back, if_neg hne, List.map_cons]
  exact h.ref.cons _

/-- The parent refused the block, and the destructor goes on. -/
theorem step_destroyed (h : InvM a s M L lost leaked s.sizeMap) (hc : c ∈ s.blocks.flatten) (hw : c.size = c.chunkSize)
    (hf : c.free = true) {e : Nat × Nat × Nat} (he : e ∈ s.baseMap) (hk : e.1 = c.data) :
    InvM a (gone s c) (M.back e.2.1 e.2.2 false) L lost (e.2 :: leaked) (gone s c).sizeMap := by
  have h0 := step_ok h hc hw hf he hk
  have hne : e.2.1 ≠ 0 := by
    refine (h.range e.2 (h.held.mem_iff.2 ?_)).1
    simp; exact Or.inl ⟨e.1, he⟩
  have he' : e ∈ s.baseMap ++ lost := List.mem_append_left _ he
  have h2 := base_perm (c := c) h he' hk
  have hlost : (lost.filter fun x => decide (x.1 ≠ c.data)) = lost := by
    rw [List.filter_eq_self]
    intro x hx
    simp only [ne_eq, decide_not, Bool.not_eq_eq_eq_not, Bool.not_true, decide_eq_false_iff_not]
    intro hxc
    have hn := h.keys
    rw [List.map_append, List.nodup_append] at hn
    exact hn.2.2 e.1 (List.mem_map_of_mem he) x.1 (List.mem_map_of_mem hx) (hk.trans hxc.symm)
  rw [hlost] at h2
  refine ⟨h0.core, ?_, h.disj, h.range, ?_, big_cons h hc hw he' hk⟩
  · exact h.held.trans ((h2.append_right leaked).trans List.perm_middle.symm)
  · simp only [Mem.back, if_neg hne]
    exact (h.ref.cons _).trans List.perm_middle.symm

theorem back_zero (h : InvM a s M L lost leaked s.sizeMap) (ok : Bool) :
    (M.back 0 0 ok).held = M.held ∧ (M.back 0 0 ok).refused = M.refused ∧ (M.back 0 0 true).nulls = M.nulls ∧ (M.back 0 0 false).nulls = true := by
  cases ok with
  | true => exact ⟨drop_zero fun r hr => (h.range r hr).1, rfl, rfl, by simp [Mem.back]⟩
  | false => exact ⟨rfl, by simp [Mem.back], rfl, by simp [Mem.back]⟩

/-- The base pointer had been forgotten: the block is dropped and nothing is given back. -/
theorem step_lost (h : InvM a s M L lost leaked s.sizeMap) (hc : c ∈ s.blocks.flatten) (hw : c.size = c.chunkSize)
    (hf : c.free = true) {e : Nat × Nat × Nat} (he : e ∈ lost) (hk : e.1 = c.data) (ok : Bool) :
    InvM a (gone s c) (M.back 0 0 ok) L (lost.filter fun x => decide (x.1 ≠ c.data)) (e.2 :: leaked) (gone s c).sizeMap := by
  have he' : e ∈ s.baseMap ++ lost := List.mem_append_right _ he
  have h1 := gone_core h hc hw hf he' hk
  have h2 := base_perm (c := c) h he' hk
  obtain ⟨z1, z2, _⟩ := back_zero h ok
  refine ⟨h1, ?_, ?_, ?_, ?_, big_cons h hc hw he' hk⟩
  · rw [z1]
    exact h.held.trans ((h2.append_right leaked).trans List.perm_middle.symm)
  · rw [z1]; exact h.disj
  · rw [z1]; exact h.range
  · rw [z2]
    have hn := h.keys
    rw [List.map_append, List.nodup_append] at hn
    have hp := (perm_key hn.2.1 he hk).map (·.2)
    exact h.ref.trans ((hp.append_right leaked).trans List.perm_middle.symm)

theorem find_lost {k : Nat} (h : s.baseMap.find? (fun e => decide (e.1 = k)) = none) :
    (s.baseMap.filter fun x => decide (x.1 ≠ k)) = s.baseMap := by
  rw [List.filter_eq_self]
  intro x hx
  have := List.find?_eq_none.1 h x hx
  simpa using this

/-! ### Counters -/

unseal sub64 add64 in
theorem sub_off {x t d c : Nat} (h : w64 (x + d) = w64 t) (hc : c ≤ t) (hw : c ≤ W) : w64 (sub64 x c + d) = w64 (t - c) := by
  unfold sub64 w64 W at *
  split <;> omega

unseal sub64 add64 in
theorem sub_off' {x t d c : Nat} (h : w64 (x + d) = w64 t) (hw : c ≤ W) : w64 (sub64 x c + (d + c)) = w64 t := by
  unfold sub64 w64 W at *
  split <;> omega

unseal sub64 add64 in
theorem add_off {x t d c : Nat} (h : w64 (x + d) = w64 t) : w64 (add64 x c + d) = w64 (t + c) := by
  unfold add64 w64 W at *
  omega

unseal sub64 in
theorem sub64_lt {x : Nat} (c : Nat) (h : x < W) : sub64 x c < W := by
  unfold sub64; split <;> omega
unseal add64 in
theorem add64_lt (x c : Nat) : add64 x c < W := Nat.mod_lt _ (by decide)

/-- What one whole block contributes. -/
theorem whole_le (h : InvM a s M L lost leaked s.sizeMap) (hc : c ∈ s.blocks.flatten) (hw : c.size = c.chunkSize)
    (hf : c.free = true) :
    c.chunkSize ≤ ((s.blocks.flatten.filter whole).map (·.chunkSize)).sum ∧ 1 ≤ (s.blocks.flatten.filter whole).length ∧
      c.chunkSize ≤ (s.blocks.map bsize).sum ∧ 1 ≤ s.blocks.length ∧ c.chunkSize ≤ W := by
  have hm : c ∈ s.blocks.flatten.filter whole := List.mem_filter.2 ⟨hc, by simp [whole, hw, hf]⟩
  obtain ⟨B1, B2, hbs⟩ := whole_decomp h.core hc hw
  have hbs : s.blocks = B1 ++ [c] :: B2 := hbs
  refine ⟨le_sum_of_mem (List.mem_map_of_mem hm), List.length_pos_of_mem hm, ?_, ?_⟩
  · rw [hbs]; simp; omega
  · refine ⟨by rw [hbs]; simp; omega, ?_⟩
    have h1 := h.core.chunk_range hc
    have h2 := AMax_add_AMax
    omega

theorem Off.gone {db dn : Nat} (ho : Off s db dn) (h : InvM a s M L lost leaked s.sizeMap) (hc : c ∈ s.blocks.flatten) (hw : c.size = c.chunkSize)
    (hf : c.free = true) {e : Nat × Nat × Nat} (he : e ∈ s.baseMap ++ lost) (hk : e.1 = c.data) :
    Off (gone (less s c) c) db dn ∧ ((Deny.gone s c).blocks.map bsize).sum + c.chunkSize = (s.blocks.map bsize).sum := by
  have hd := dropBlock_inv (s := fix s lost) h.core hc hw hf he hk
  obtain ⟨w1, w2, w3, w4, w5⟩ := whole_le h hc hw hf
  have a1 : (s.blocks.map bsize).sum - c.chunkSize = ((Deny.gone s c).blocks.map bsize).sum := hd.actual
  have a2 : ((s.blocks.flatten.filter whole).map (·.chunkSize)).sum - c.chunkSize =
    (((Deny.gone s c).blocks.flatten.filter whole).map (·.chunkSize)).sum := hd.relBytes
  have a3 : s.blocks.length - 1 = (Deny.gone s c).blocks.length := hd.total
  have a4 : (s.blocks.flatten.filter whole).length - 1 = ((Deny.gone s c).blocks.flatten.filter whole).length := hd.relBlocks
  have b1 := sub_off ho.act w3 w5
  have b2 := sub_off ho.rel w1 w5
  have b3 := sub_off ho.tot w4 (by decide)
  have b4 := sub_off ho.relB w2 (by decide)
  rw [a1] at b1
  rw [a2] at b2
  rw [a3] at b3
  rw [a4] at b4
  have key : ∀ x y z w : Nat, x < W → w64 (x + db) = w64 ((Deny.gone s c).blocks.map bsize).sum →
      w64 (y + db) = w64 (((Deny.gone s c).blocks.flatten.filter whole).map (·.chunkSize)).sum →
      w64 (w + dn) = w64 (Deny.gone s c).blocks.length → w64 (z + dn) = w64 ((Deny.gone s c).blocks.flatten.filter whole).length →
      Off (Deny.gone { s with actualBytes := x, releasableBytes := y, releasableBlocks := z, totalBlocks := w } c) db dn :=
    fun x y z w h0 h1 h2 h3 h4 => ⟨h1, h2, h3, h4, h0⟩
  exact ⟨key _ _ _ _ (sub64_lt _ ho.lt) b1 b2 b3 b4, by omega⟩

theorem Off.refused {db dn : Nat} (ho : Off s db dn) (hcW : c.chunkSize ≤ W) (bm : List (Nat × Nat × Nat)) :
    Off { less s c with baseMap := bm } (db + c.chunkSize) (dn + 1) := by
  have key : ∀ x y z w db dn : Nat, x < W → w64 (x + db) = w64 (s.blocks.map bsize).sum →
      w64 (y + db) = w64 ((s.blocks.flatten.filter whole).map (·.chunkSize)).sum →
      w64 (w + dn) = w64 s.blocks.length → w64 (z + dn) = w64 (s.blocks.flatten.filter whole).length →
      Off { { s with actualBytes := x, releasableBytes := y, releasableBlocks := z, totalBlocks := w } with baseMap := bm } db dn :=
    fun x y z w db dn h0 h1 h2 h3 h4 => ⟨h1, h2, h3, h4, h0⟩
  exact key _ _ _ _ _ _ (sub64_lt _ ho.lt) (sub_off' ho.act hcW) (sub_off' ho.rel hcW) (sub_off' ho.tot (by decide)) (sub_off' ho.relB (by decide))

end Step

/-- What `release` and the destructor leave behind. -/
structure RelPost (a : Nat) (d : Bool) (s : State) (M : Mem) (L : Held) (es : List (Nat × Nat)) (r : Bool × State) (M' : Mem) : Prop where
  inv : ∃ lost leaked, InvM a r.2 M' L lost leaked r.2.sizeMap ∧ (d = false → ∀ x ∈ leaked, x ∈ M.refused)
  drift : d = false → Drift a s M → Drift a r.2 M'
  dtor : d = true → r.1 = true
  kept : d = false → r.1 = true → M'.refused = M.refused ∧ M'.nulls = M.nulls
  threw : r.1 = false → M'.nulls = true ∨ ∃ x, M'.refused = x :: M.refused
  sub : ∀ c ∈ r.2.blocks.flatten, c ∈ s.blocks.flatten
  all : r.1 = true → ∀ c ∈ r.2.blocks.flatten, (c.size, c.id) ∈ es → whole c = false
  bytes : r.1 = true → ∃ w, w + (r.2.blocks.map bsize).sum = (s.blocks.map bsize).sum ∧ w64 (r.2.actualBytes + w) = w64 s.actualBytes

theorem gone_mem {s : State} {c : Chunk} :
    ∀ d ∈ (gone s c).blocks.flatten, d ∈ s.blocks.flatten ∧ d.id ≠ c.id := by
  intro d hd
  obtain ⟨b, hb, hdb⟩ := List.mem_flatten.1 hd
  have hb := (List.mem_filter.1 hb).1
  obtain ⟨b', hb', rfl⟩ := List.mem_map.1 hb
  have := List.mem_filter.1 hdb
  exact ⟨List.mem_flatten.2 ⟨b', hb', this.1⟩, by simpa using this.2⟩

unseal sub64 in
theorem sub64_back (x : Nat) {c : Nat} (h : c ≤ W) : w64 (sub64 x c + c) = w64 x := by
  unfold sub64 w64 W at *; split <;> omega

theorem gone_step {a : Nat} {d : Bool} {s : State} {M M1 M' : Mem} {L : Held} {lost : List (Nat × Nat × Nat)} {leaked : Held} {c : Chunk}
    {es : List (Nat × Nat)} {r : Bool × State} (h : InvM a s M L lost leaked s.sizeMap) (hc : c ∈ s.blocks.flatten) (hw : c.size = c.chunkSize)
    (hf : c.free = true) {e : Nat × Nat × Nat} (he : e ∈ s.baseMap ++ lost) (hk : e.1 = c.data)
    (hM : d = false → M1.refused = M.refused ∧ M1.nulls = M.nulls) (hT : d = true ∨ (M1.refused = M.refused ∧ M1.nulls = M.nulls))
    (hr : RelPost a d (gone (less s c) c) M1 L es r M') : RelPost a d s M L ((c.size, c.id) :: es) r M' := by
  have hb : (gone (less s c) c).blocks = (gone s c).blocks := rfl
  refine ⟨?_, ?_, hr.dtor, ?_, ?_, ?_, ?_, ?_⟩
  · obtain ⟨l1, l2, h1, h2⟩ := hr.inv
    refine ⟨l1, l2, h1, fun hd => ?_⟩
    have := h2 hd
    rwa [(hM hd).1] at this
  · rintro hd ⟨db, dn, ho, hn⟩
    obtain ⟨m1, m2⟩ := hM hd
    refine hr.drift hd ⟨db, dn, (ho.gone h hc hw hf he hk).1, ?_⟩
    rw [m1, m2]; exact hn
  · intro hd ht
    obtain ⟨m1, m2⟩ := hM hd
    have := hr.kept hd ht
    rw [m1, m2] at this
    exact this
  · intro ht
    rcases hT with hT | ⟨m1, m2⟩
    · rw [hr.dtor hT] at ht; exact nomatch ht
    · have := hr.threw ht
      rwa [m1] at this
  · intro x hx
    have := hr.sub x hx
    rw [hb] at this
    exact (gone_mem x this).1
  · intro ht x hx hm
    rcases List.mem_cons.1 hm with hm | hm
    · have := hr.sub x hx
      rw [hb] at this
      exact absurd (congrArg Prod.snd hm) (gone_mem x this).2
    · exact hr.all ht x hx hm
  · intro ht
    obtain ⟨w, h1, h2⟩ := hr.bytes ht
    obtain ⟨w1, w2, w3, w4, w5⟩ := whole_le h hc hw hf
    have h3 : ((gone s c).blocks.map bsize).sum + c.chunkSize = (s.blocks.map bsize).sum := by
      have hd := dropBlock_inv (s := fix s lost) h.core hc hw hf he hk
      have a1 : (s.blocks.map bsize).sum - c.chunkSize = ((gone s c).blocks.map bsize).sum := hd.actual
      omega
    rw [hb] at h1
    refine ⟨w + c.chunkSize, by omega, ?_⟩
    have h4 := sub64_back s.actualBytes w5
    have h5 : w64 (r.2.actualBytes + w) = w64 (sub64 s.actualBytes c.chunkSize) := h2
    unfold w64 W at *
    omega

theorem releaseLoop2_wp {a : Nat} {d : Bool} {es : List (Nat × Nat)} {s : State} {M : Mem} {L : Held} {lost : List (Nat × Nat × Nat)}
    {leaked : Held} (h : InvM a s M L lost leaked s.sizeMap) (hes : ∀ e ∈ es, e ∈ s.sizeMap) (hnd : (es.map (·.2)).Nodup) :
    (releaseLoop2 d es s).wp (Prog.Keep L) M (RelPost a d s M L es) := by
  induction es generalizing s M lost leaked with
  | nil =>
    exact ⟨⟨_, _, h, fun _ x hx => h.ref.mem_iff.2 (List.mem_append_right _ hx)⟩, fun _ h => h, fun _ => rfl, fun _ _ => ⟨rfl, rfl⟩, fun h => (nomatch h), fun c hc => hc,
      fun _ c hc h => (nomatch h), fun _ => ⟨0, by simp, by simp⟩⟩
  | cons e es ih =>
    obtain ⟨c, hc, hf, rfl, hfind⟩ := h.core.sm_chunk (hes e (by simp))
    have hc : c ∈ s.blocks.flatten := hc
    have hfind : findChunk c.id s.blocks = some c := hfind
    simp only [List.map_cons, List.nodup_cons] at hnd
    have hes' : ∀ x ∈ es, x ∈ smErase c.id s.sizeMap := by
      intro x hx
      refine List.mem_filter.2 ⟨hes x (by simp [hx]), ?_⟩
      simp only [ne_eq, decide_not, Bool.not_eq_eq_eq_not, Bool.not_true, decide_eq_false_iff_not]
      intro hxc
      exact hnd.1 (List.mem_map.2 ⟨x, hx, hxc⟩)
    unfold releaseLoop2
    simp only [hfind]
    by_cases hw : c.size = c.chunkSize
    · obtain ⟨B1, B2, hbs⟩ := whole_decomp h.core hc hw
      have hbm : [c] ∈ (fix s lost).blocks := by rw [hbs]; simp
      obtain ⟨e, he, hk, hO, hbf⟩ := h.core.base_find hbm
      have hk : e.1 = c.data := hk
      have he : e ∈ s.baseMap ++ lost := he
      have hin := h.core.inside [c] hbm e he hk
      have hes2 : e.2.2 - a = c.chunkSize := by
        have := hin.2
        simp only [bsize_cons, bsize_nil] at this
        omega
      rw [if_pos ⟨hw, hf⟩]
      have hcW : c.chunkSize ≤ W := (whole_le h hc hw hf).2.2.2.2
      have hl := h.less c
      have hl' : InvM a (less s c) M L lost leaked (less s c).sizeMap := hl
      unfold alignedDealloc2
      simp only
      cases hbm : s.baseMap.find? (fun e => decide (e.1 = c.data)) with
      | some e' =>
        have he1 := List.mem_of_find?_eq_some hbm
        have he2 : e'.1 = c.data := by simpa using List.find?_some hbm
        have : e' = e := nodup_map_inj h.keys (List.mem_append_left _ he1) he (he2.trans hk.symm)
        subst this
        simp only
        have hkeep : ∀ l ∈ L, Disj l.1 l.2 e'.2.1 e'.2.2 := fun l hl => h.core.live_disj_block hc hf hw he hk hl
        have hheld : e'.2 ∈ M.held := h.held.mem_iff.2 (List.mem_append_left _ hO)
        refine ⟨Or.inr ⟨hheld, h.not_ref he1, (h.range _ hheld).2.1, hkeep⟩, ?_⟩
        intro ok
        cases ok with
        | true =>
          simp only [Bool.true_or, if_true]
          have h1 := step_ok hl' hc hw hf he1 hk
          exact wp_mono (ih h1 hes' hnd.2) fun r M' hr =>
            gone_step (M1 := M.back e'.2.1 e'.2.2 true) h hc hw hf he hk (fun _ => ⟨rfl, rfl⟩) (Or.inr ⟨rfl, rfl⟩) hr
        | false =>
          cases d with
          | true =>
            simp only [Bool.or_true, if_true]
            have h1 := step_destroyed hl' hc hw hf he1 hk
            exact wp_mono (ih h1 hes' hnd.2) fun r M' hr =>
              gone_step h hc hw hf he hk (fun h => (nomatch h)) (Or.inl rfl) hr
          | false =>
            simp only [Bool.or_self, Bool.false_eq_true, if_false]
            have hne : e'.2.1 ≠ 0 := (h.range _ hheld).1
            have h1 := step_refused hl' he1 hk
            refine ⟨⟨_, _, h1, fun _ x hx => h.ref.mem_iff.2 (List.mem_append_right _ hx)⟩, ?_, fun h => (nomatch h), fun _ h => (nomatch h), ?_, fun x hx => hx, fun h => (nomatch h), fun h => (nomatch h)⟩
            · rintro _ ⟨db, dn, ho, hn⟩
              refine ⟨_, _, ho.refused (c := c) hcW _, ?_⟩
              intro hnull
              have hnull : M.nulls = false := by
                simp only [Mem.back, Bool.or_eq_false_iff] at hnull
                exact hnull.1
              obtain ⟨d1, d2⟩ := hn hnull
              simp only [Mem.back, if_neg hne, List.map_cons, List.sum_cons, List.length_cons, hes2]
              omega
            · intro _
              right
              exact ⟨e'.2, by simp [Mem.back, if_neg hne]⟩
      | none =>
        have hel : e ∈ lost := by
          rcases List.mem_append.1 he with he | he
          · exact absurd hk (by simpa using List.find?_eq_none.1 hbm e he)
          · exact he
        simp only
        refine ⟨Or.inl rfl, ?_⟩
        intro ok
        obtain ⟨z1, z2, z3, z4⟩ := back_zero h ok
        have h1 := fun ok => step_lost hl' hc hw hf hel hk ok
        cases ok with
        | true =>
          simp only [Bool.true_or, if_true]
          exact wp_mono (ih (h1 true) hes' hnd.2) fun r M' hr =>
            gone_step h hc hw hf he hk (fun _ => ⟨z2, z3⟩) (Or.inr ⟨z2, z3⟩) hr
        | false =>
          cases d with
          | true =>
            simp only [Bool.or_true, if_true]
            exact wp_mono (ih (h1 false) hes' hnd.2) fun r M' hr =>
              gone_step h hc hw hf he hk (fun h => (nomatch h)) (Or.inl rfl) hr
          | false =>
            simp only [Bool.or_self, Bool.false_eq_true, if_false]
            have hfl := find_lost hbm
            have h2 : InvM a { less s c with baseMap := s.baseMap.filter fun x => x.1 ≠ c.data } (M.back 0 0 false) L lost leaked s.sizeMap := by
              rw [hfl]
              exact ⟨hl'.core, by rw [z1]; exact h.held, by rw [z1]; exact h.disj, by rw [z1]; exact h.range, by rw [z2]; exact h.ref, h.big⟩
            refine ⟨⟨_, _, h2, fun _ x hx => h.ref.mem_iff.2 (List.mem_append_right _ hx)⟩, ?_, fun h => (nomatch h), fun _ h => (nomatch h), fun _ => Or.inl z4, fun x hx => hx, fun h => (nomatch h), fun h => (nomatch h)⟩
            rintro _ ⟨db, dn, ho, hn⟩
            refine ⟨_, _, ho.refused (c := c) hcW _, ?_⟩
            intro hnull
            rw [z4] at hnull
            exact nomatch hnull
    · have hcond : ¬(c.size = c.chunkSize ∧ c.free = true) := fun x => hw x.1
      rw [if_neg hcond]
      refine wp_mono (ih h (fun x hx => hes x (by simp [hx])) hnd.2) ?_
      intro r M' hr
      refine { hr with all := ?_ }
      intro ht x hx hm
      rcases List.mem_cons.1 hm with hm | hm
      · have hxc : x = c := nodup_map_inj h.core.ids (hr.sub x hx) hc (congrArg Prod.snd hm)
        subst hxc
        simp [whole, hw]
      · exact hr.all ht x hx hm

end Umpire.Deny
