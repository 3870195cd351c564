import Verif.BlockPool.Model
import Verif.FixedPool.Inv
/-! # The invariant of `FixedSizePool` (helper lemmas) -/
set_option autoImplicit false
set_option linter.unusedSimpArgs false
namespace Umpire.BlockPool
open Umpire.Prog

structure CfgOk (c : Cfg) : Prop where
  sz : 0 < c.sz
  np : 0 < c.np

theorem CfgOk.per {c : Cfg} (h : CfgOk c) : 0 < c.per := by have := h.np; unfold Cfg.per; omega
theorem CfgOk.data {c : Cfg} (h : CfgOk c) : 0 < c.data := Nat.mul_pos h.per h.sz
theorem hdr_pos {c : Cfg} : 0 < c.hdr := by unfold Cfg.hdr; omega

/-- Indices of the slots in use. -/
def used (c : Cfg) (p : Pool) : List Nat := (List.range c.per).filter fun i => !bitAt p.avail i

/-- The objects in use. -/
def objs (c : Cfg) (p : Pool) : Held := (used c p).map fun i => (p.data + c.sz * i, c.sz)

/-- The two blocks of a pool. -/
def blocks (c : Cfg) (p : Pool) : Held := [(p.data, c.data), (p.hdr, c.hdr)]

structure PoolOk (c : Cfg) (p : Pool) : Prop where
  len : p.avail.length = c.np
  count : p.numAvail + (used c p).length = c.per

structure Inv (c : Cfg) (s : State) (O L : Held) : Prop where
  pools : ∀ p ∈ s.pools, PoolOk c p
  held : O.Perm (s.pools.flatMap (blocks c))
  disj : O.Disjoint
  rngs : ∀ r ∈ O, r.1 ≠ 0 ∧ r.1 + r.2 ≤ AMax
  live : L.Perm (s.pools.flatMap (objs c))
  cnt : s.numBlocks = L.length

theorem scan_eq {n i : Nat} {ws : List Nat} (h : i + ws.length ≤ n) : scan i ws = FixedPool.scan (n * 32) i ws := by
  induction ws generalizing i with
  | nil => rfl
  | cons w ws ih =>
    simp only [List.length_cons] at h
    unfold scan FixedPool.scan
    rw [ih (by omega)]
    cases hb : ffs w with
    | zero => rfl
    | succ b =>
      have := (ffs_succ hb).1
      simp only
      rw [if_pos (by omega)]

section
variable {c : Cfg} {p : Pool}

theorem used_flip_on (hp : PoolOk c p) {i : Nat} (hi : i < c.per) (hb : bitAt p.avail i = true) (m : Nat) :
    (used c { p with avail := flipAt p.avail (i / 32) (i % 32), numAvail := m }).Perm (i :: used c p) := by
  have hl : i / 32 < p.avail.length := by rw [hp.len]; unfold Cfg.per at hi; omega
  refine filter_range_add hi (by simp [hb]) ?_ ?_
  · simp only [flipAt_bit hl, if_true, hb, Bool.not_true, Bool.not_false]
  · intro j hj
    simp only [flipAt_bit hl, if_neg hj]

theorem used_flip_off (hp : PoolOk c p) {i : Nat} (hi : i < c.per) (hb : bitAt p.avail i = false) (m : Nat) :
    (used c p).Perm (i :: used c { p with avail := flipAt p.avail (i / 32) (i % 32), numAvail := m }) := by
  have hl : i / 32 < p.avail.length := by rw [hp.len]; unfold Cfg.per at hi; omega
  refine filter_range_add hi ?_ (by simp [hb]) ?_
  · simp only [flipAt_bit hl, if_true, hb, Bool.not_true, Bool.not_false]
  · intro j hj
    simp only [flipAt_bit hl, if_neg hj]

/-- A pool with a free slot serves the request. -/
theorem allocInPool_some (hp : PoolOk c p) (hn : p.numAvail ≠ 0) :
    ∃ i p', i < c.per ∧ allocInPool c p = (p.data + c.sz * i, p') ∧ PoolOk c p' ∧ p'.data = p.data ∧ p'.hdr = p.hdr ∧
      (objs c p').Perm ((p.data + c.sz * i, c.sz) :: objs c p) := by
  unfold allocInPool
  rw [if_neg hn, scan_eq (n := c.np) (by rw [hp.len]; omega)]
  cases hs : FixedPool.scan (c.np * 32) 0 p.avail with
  | none =>
    exfalso
    have hu : used c p = List.range c.per := by
      unfold used
      rw [List.filter_eq_self]
      intro i hi
      have hi := List.mem_range.1 hi
      unfold Cfg.per at hi
      rw [FixedPool.scan_none hs i (by rw [hp.len]; omega) (by omega)]
      rfl
    have := hp.count
    rw [hu, List.length_range] at this
    omega
  | some r =>
    obtain ⟨k, ws⟩ := r
    obtain ⟨j, hj1, hj2, hj3, hj4, hj5⟩ := FixedPool.scan_some hs
    simp only [Nat.zero_mul, Nat.zero_add] at hj1
    subst hj1
    subst hj5
    have hu := used_flip_on hp hj2 hj4 (p.numAvail - 1)
    refine ⟨k, _, hj2, rfl, ⟨?_, ?_⟩, rfl, rfl, hu.map _⟩
    · simp only [flipAt_length]; exact hp.len
    · have := hu.length_eq
      have := hp.count
      simp only [List.length_cons] at *
      omega

theorem allocInPool_full (hn : p.numAvail = 0) : allocInPool c p = (0, p) := by
  unfold allocInPool; rw [if_pos hn]

theorem mkPool_bit {h d i : Nat} (hi : i < c.per) : bitAt (mkPool c h d).avail i = true := by
  unfold bitAt mkPool
  simp only [List.getD_eq_getElem?_getD]
  rw [List.getElem?_replicate, if_pos (by unfold Cfg.per at hi; omega)]
  simp only [Option.getD_some]
  rw [Nat.testBit_two_pow_sub_one]
  simpa using Nat.mod_lt i (by decide : 32 > 0)

theorem mkPool_used {h d : Nat} : used c (mkPool c h d) = [] := by
  unfold used
  rw [List.filter_eq_nil_iff]
  intro i hi
  simp [mkPool_bit (c := c) (h := h) (d := d) (List.mem_range.1 hi)]

theorem mkPool_ok {h d : Nat} : PoolOk c (mkPool c h d) := by
  refine ⟨by simp [mkPool], ?_⟩
  rw [mkPool_used]
  rfl

end

theorem allocLoop_full {c : Cfg} {ps : List Pool} (h : ∀ p ∈ ps, p.numAvail = 0) : allocLoop c ps = (0, ps) := by
  induction ps with
  | nil => rfl
  | cons p ps ih =>
    have hp := allocInPool_full (c := c) (h p (by simp))
    unfold allocLoop
    rw [hp, ih fun q hq => h q (by simp [hq])]
    simp

/-- The first pool with a free slot is used. -/
theorem allocLoop_some {c : Cfg} {ps : List Pool} (hd : ∀ p ∈ ps, p.data ≠ 0) (hk : ∀ p ∈ ps, PoolOk c p)
    (h : ∃ p ∈ ps, p.numAvail ≠ 0) :
    ∃ a p b i p', ps = a ++ p :: b ∧ (∀ q ∈ a, q.numAvail = 0) ∧ i < c.per ∧
      allocLoop c ps = (p.data + c.sz * i, a ++ p' :: b) ∧
      PoolOk c p' ∧ p'.data = p.data ∧ p'.hdr = p.hdr ∧ (objs c p').Perm ((p.data + c.sz * i, c.sz) :: objs c p) := by
  induction ps with
  | nil => obtain ⟨p, hp, _⟩ := h; cases hp
  | cons q qs ih =>
    by_cases hq : q.numAvail = 0
    · have h' : ∃ p ∈ qs, p.numAvail ≠ 0 := by
        obtain ⟨p, hp, hn⟩ := h
        rcases List.mem_cons.1 hp with rfl | hp
        · exact absurd hq hn
        · exact ⟨p, hp, hn⟩
      obtain ⟨a, p, b, i, p', h1, h2, h3, h4, h5⟩ := ih (fun p hp => hd p (by simp [hp])) (fun p hp => hk p (by simp [hp])) h'
      refine ⟨q :: a, p, b, i, p', by rw [h1]; rfl, ?_, h3, ?_, h5⟩
      · intro x hx
        rcases List.mem_cons.1 hx with rfl | hx
        · exact hq
        · exact h2 x hx
      · unfold allocLoop
        rw [allocInPool_full hq, h4]
        simp
    · obtain ⟨i, p', h1, h2, h3⟩ := allocInPool_some (hk q (by simp)) hq
      refine ⟨[], q, qs, i, p', rfl, by simp, h1, ?_, h3⟩
      have := hd q (by simp)
      unfold allocLoop
      rw [h2, if_pos (by simp only; omega)]
      rfl

section
variable {c : Cfg} {s : State} {O L : Held}

theorem Inv.data_ne (h : Inv c s O L) : ∀ p ∈ s.pools, p.data ≠ 0 := by
  intro p hp
  exact (h.rngs (p.data, c.data) (h.held.mem_iff.2 (List.mem_flatMap.2 ⟨p, hp, by simp [blocks]⟩))).1

theorem sum_used {ps : List Pool} (h : ∀ p ∈ ps, PoolOk c p) :
    (ps.flatMap (objs c)).length + (ps.map (·.numAvail)).sum = c.per * ps.length := by
  induction ps with
  | nil => rfl
  | cons p ps ih =>
    have h1 := (h p (by simp)).count
    have h2 := ih fun q hq => h q (by simp [hq])
    simp only [List.flatMap_cons, List.length_append, List.map_cons, List.sum_cons, List.length_cons, Nat.mul_succ, objs,
      List.length_map] at h2 ⊢
    omega

theorem Inv.not_full (h : Inv c s O L) (hlt : L.length < c.per * s.pools.length) : ∃ p ∈ s.pools, p.numAvail ≠ 0 := by
  apply Classical.byContradiction
  intro hno
  have hz : (s.pools.map (·.numAvail)).sum = 0 := by
    rw [List.sum_eq_zero_iff_forall_eq_nat]
    intro x hx
    obtain ⟨p, hp, rfl⟩ := List.mem_map.1 hx
    apply Classical.byContradiction
    intro hne
    exact hno ⟨p, hp, hne⟩
  have := sum_used h.pools
  have := h.live.length_eq
  omega

theorem Inv.full (h : Inv c s O L) (hle : c.per * s.pools.length ≤ L.length) : ∀ p ∈ s.pools, p.numAvail = 0 := by
  intro p hp
  have h1 := sum_used h.pools
  have h2 := h.live.length_eq
  have h3 : p.numAvail ≤ (s.pools.map (·.numAvail)).sum := le_sum_of_mem (List.mem_map.2 ⟨p, hp, rfl⟩)
  omega

/-- Using a slot of an existing pool. -/
theorem allocate_some (h : Inv c s O L) (hlt : L.length < c.per * s.pools.length) (fuel : Nat) :
    ∃ a p b i p' s', s.pools = a ++ p :: b ∧ s'.pools = a ++ p' :: b ∧ (∀ q ∈ a, q.numAvail = 0) ∧ i < c.per ∧
      allocate c (fuel + 1) s = .ret (p.data + c.sz * i, s') ∧ Inv c s' O ((p.data + c.sz * i, c.sz) :: L) := by
  obtain ⟨a, p, b, i, p', h1, h2, h3, h4, h5, h6, h7, h8⟩ := allocLoop_some h.data_ne h.pools (h.not_full hlt)
  have hm : p ∈ s.pools := by rw [h1]; simp
  refine ⟨a, p, b, i, p', ⟨a ++ p' :: b, s.numBlocks + 1⟩, h1, rfl, h2, h3, ?_, ?_, ?_, h.disj, h.rngs, ?_, ?_⟩
  · have := h.data_ne p hm
    unfold allocate
    rw [h4, if_pos (by simp only; omega)]
  · intro q hq
    simp only [List.mem_append, List.mem_cons] at hq
    rcases hq with hq | rfl | hq
    · exact h.pools q (by rw [h1]; simp [hq])
    · exact h5
    · exact h.pools q (by rw [h1]; simp [hq])
  · have := h.held
    rw [h1] at this
    simp only [List.flatMap_append, List.flatMap_cons, blocks, h6, h7] at this ⊢
    exact this
  · have := h.live
    rw [h1] at this
    simp only [List.flatMap_append, List.flatMap_cons] at this ⊢
    exact (this.cons _).trans (perm_mid h8).symm
  · simp only [List.length_cons, h.cnt]

theorem allocate_full (h : Inv c s O L) (hle : c.per * s.pools.length ≤ L.length) (fuel : Nat) :
    allocate c (fuel + 1) s = newPool c fun p => allocate c fuel { s with pools := s.pools ++ [p] } := by
  rw [allocate, allocLoop_full (h.full hle)]
  simp

/-- Adding a pool. -/
theorem Inv.add (h : Inv c s O L) {x d : Nat} (hx : Fresh x c.hdr O) (hd : Fresh d c.data ((x, c.hdr) :: O)) :
    Inv c { s with pools := s.pools ++ [mkPool c x d] } ((d, c.data) :: (x, c.hdr) :: O) L := by
  refine ⟨?_, ?_, List.pairwise_cons.2 ⟨hd.2.2, List.pairwise_cons.2 ⟨hx.2.2, h.disj⟩⟩, ?_, ?_, h.cnt⟩
  · intro q hq
    simp only [List.mem_append, List.mem_singleton] at hq
    rcases hq with hq | rfl
    · exact h.pools q hq
    · exact mkPool_ok
  · simp only [List.flatMap_append, List.flatMap_cons, List.flatMap_nil, List.append_nil, blocks, mkPool]
    refine ((h.held.cons _).cons _).trans ?_
    exact List.perm_append_comm (l₁ := [(d, c.data), (x, c.hdr)])
  · intro r hr
    rcases List.mem_cons.1 hr with rfl | hr
    · exact ⟨hd.1, hd.2.1⟩
    rcases List.mem_cons.1 hr with rfl | hr
    · exact ⟨hx.1, hx.2.1⟩
    · exact h.rngs r hr
  · simp only [List.flatMap_append, List.flatMap_cons, List.flatMap_nil, objs, mkPool_used,
      List.map_nil, List.append_nil]
    exact h.live

theorem allocLoop_append {ps qs : List Pool} (h : ∀ p ∈ ps, p.numAvail = 0) :
    allocLoop c (ps ++ qs) = ((allocLoop c qs).1, ps ++ (allocLoop c qs).2) := by
  induction ps with
  | nil => rfl
  | cons p ps ih =>
    rw [List.cons_append]
    conv => lhs; unfold allocLoop
    rw [allocInPool_full (h p (by simp)), ih fun q hq => h q (by simp [hq])]
    simp

theorem allocInPool_new (hc : CfgOk c) {x d : Nat} :
    allocInPool c (mkPool c x d) =
      (d, { mkPool c x d with avail := (2 ^ 32 - 2) :: List.replicate (c.np - 1) (2 ^ 32 - 1), numAvail := c.per - 1 }) := by
  have hp := hc.per
  obtain ⟨n, hn⟩ : ∃ n, c.np = n + 1 := ⟨c.np - 1, by have := hc.np; omega⟩
  unfold allocInPool
  rw [if_neg (by simp only [mkPool]; omega)]
  simp only [mkPool, hn, List.replicate_succ]
  unfold scan
  rw [show ffs (2 ^ 32 - 1) = 0 + 1 from by decide]
  simp only [Nat.add_sub_cancel, Nat.zero_mul, Nat.add_zero, Nat.mul_zero]
  rfl

/-- The new pool serves the request with its first slot. -/
theorem allocate_grown (hc : CfgOk c) (h : Inv c s O L) (hle : c.per * s.pools.length ≤ L.length) {x d : Nat}
    (hx : Fresh x c.hdr O) (hd : Fresh d c.data ((x, c.hdr) :: O)) (fuel : Nat) :
    ∃ s', allocate c (fuel + 1) { s with pools := s.pools ++ [mkPool c x d] } = .ret (d, s') ∧
      Inv c s' ((d, c.data) :: (x, c.hdr) :: O) ((d, c.sz) :: L) ∧ s'.pools.length = s.pools.length + 1 := by
  have h1 := h.add hx hd
  have hp := hc.per
  have hf := h.full hle
  have hlt : L.length < c.per * (s.pools ++ [mkPool c x d]).length := by
    have := sum_used h1.pools
    have h2 := h1.live.length_eq
    have h3 := le_sum_of_mem (x := c.per) (l := (s.pools ++ [mkPool c x d]).map (·.numAvail))
      (List.mem_map.2 ⟨mkPool c x d, by simp, rfl⟩)
    simp only at *
    omega
  obtain ⟨a, p, b, i, p', s', e1, e2, -, -, e5, e6⟩ := allocate_some h1 hlt fuel
  have hlen : s'.pools.length = s.pools.length + 1 := by
    have := congrArg List.length e1
    rw [e2]
    simp only [List.length_append, List.length_cons, List.length_nil] at this ⊢
    omega
  have heq : p.data + c.sz * i = d := by
    have hd0 := hd.1
    unfold allocate at e5
    simp only [allocLoop_append hf] at e5
    have hl : allocLoop c [mkPool c x d] = (d, [(allocInPool c (mkPool c x d)).2]) := by
      unfold allocLoop
      rw [allocInPool_new hc, if_pos (by simpa using hd0)]
    rw [hl, if_pos (by simpa using hd0)] at e5
    injection e5 with e5
    injection e5 with e5 _
    exact e5.symm
  rw [heq] at e5 e6
  exact ⟨s', e5, e6, hlen⟩

/-! ## Deallocation -/

theorem Inv.pairs (h : Inv c s O L) : (s.pools.flatMap (blocks c)).Pairwise fun a b => Disj a.1 a.2 b.1 b.2 :=
  List.Pairwise.perm h.disj h.held (fun h => h.symm)

theorem Inv.pool_disj (h : Inv c s O L) {a b : List Pool} {p q : Pool} (hs : s.pools = a ++ p :: b)
    (hq : q ∈ a ∨ q ∈ b) : Disj q.data c.data p.data c.data := by
  have h1 := h.pairs
  rw [hs, List.flatMap_append, List.flatMap_cons, List.pairwise_append, List.pairwise_append] at h1
  rcases hq with hq | hq
  · exact h1.2.2 (q.data, c.data) (List.mem_flatMap.2 ⟨q, hq, by simp [blocks]⟩) (p.data, c.data) (by simp [blocks])
  · exact (h1.2.1.2.2 (p.data, c.data) (by simp [blocks]) (q.data, c.data) (List.mem_flatMap.2 ⟨q, hq, by simp [blocks]⟩)).symm

theorem deallocLoop_at {ptr : Nat} {a b : List Pool} {p : Pool} (ha : ∀ x ∈ a, inPool c x ptr = false)
    (hp : inPool c p ptr = true) :
    deallocLoop c ptr (a ++ p :: b) = some (a ++
      { p with avail := flipAt p.avail ((ptr - p.data) / c.sz / 32) ((ptr - p.data) / c.sz % 32),
               numAvail := p.numAvail + 1 } :: b) := by
  induction a with
  | nil => simp only [List.nil_append]; unfold deallocLoop; rw [if_pos hp]
  | cons x xs ih =>
    simp only [List.cons_append]
    unfold deallocLoop
    rw [if_neg (by rw [ha x (by simp)]; simp), ih (fun y hy => ha y (by simp [hy]))]
    rfl

theorem deallocLoop_none {ptr : Nat} {ps : List Pool} (h : ∀ p ∈ ps, inPool c p ptr = false) :
    deallocLoop c ptr ps = none := by
  induction ps with
  | nil => rfl
  | cons x xs ih =>
    unfold deallocLoop
    rw [if_neg (by rw [h x (by simp)]; simp), ih (fun y hy => h y (by simp [hy]))]
    rfl

/-- A live object lies in a slot of one of the pools. -/
theorem Inv.slot (h : Inv c s O L) {l : Nat × Nat} (hl : l ∈ L) :
    ∃ a p b i, s.pools = a ++ p :: b ∧ i < c.per ∧ bitAt p.avail i = false ∧ l = (p.data + c.sz * i, c.sz) := by
  obtain ⟨p, hp, hlp⟩ := List.mem_flatMap.1 (h.live.mem_iff.1 hl)
  obtain ⟨i, hi, rfl⟩ := List.mem_map.1 hlp
  obtain ⟨hi1, hi2⟩ := List.mem_filter.1 hi
  obtain ⟨a, b, hs⟩ := List.append_of_mem hp
  exact ⟨a, p, b, i, hs, List.mem_range.1 hi1, by simpa using hi2, rfl⟩

theorem slot_in {d i : Nat} (hi : i < c.per) : Within (d + c.sz * i) c.sz d c.data := by
  have h1 : c.sz * (i + 1) ≤ c.sz * c.per := Nat.mul_le_mul_left _ hi
  rw [Nat.mul_succ, Nat.mul_comm c.sz c.per] at h1
  unfold Within Cfg.data
  omega

theorem Inv.live_disj (h : Inv c s O L) : L.Pairwise fun x y => Disj x.1 x.2 y.1 y.2 := by
  refine List.Pairwise.perm ?_ h.live.symm (fun h => h.symm)
  have h1 := h.pairs
  rw [List.flatMap, List.pairwise_flatten, List.pairwise_map] at h1
  rw [List.flatMap, List.pairwise_flatten]
  constructor
  · intro l hl
    obtain ⟨p, hp, rfl⟩ := List.mem_map.1 hl
    unfold objs
    rw [List.pairwise_map]
    refine List.Pairwise.imp ?_ ((List.nodup_range (n := c.per)).filter _)
    intro i j hij
    unfold Disj
    simp only
    rcases Nat.lt_or_gt_of_ne hij with hlt | hlt
    · have := Nat.mul_le_mul_left c.sz hlt
      rw [Nat.mul_succ] at this
      omega
    · have := Nat.mul_le_mul_left c.sz hlt
      rw [Nat.mul_succ] at this
      omega
  · rw [List.pairwise_map]
    refine h1.2.imp ?_
    intro p q hd x hx y hy
    obtain ⟨i, hi, rfl⟩ := List.mem_map.1 hx
    obtain ⟨j, hj, rfl⟩ := List.mem_map.1 hy
    exact Disj.of_within (hd (p.data, c.data) (by simp [blocks]) (q.data, c.data) (by simp [blocks]))
      (slot_in (List.mem_range.1 (List.mem_filter.1 hi).1)) (slot_in (List.mem_range.1 (List.mem_filter.1 hj).1))

theorem deallocate_live (h : Inv c s O L) (hc : CfgOk c) {l : Nat × Nat} (hl : l ∈ L) :
    ∃ s', deallocate c s l.1 = (true, s') ∧ Inv c s' O (drop l.1 L) ∧ s'.pools.length = s.pools.length := by
  obtain ⟨a, p, b, i, hs, hi, hbit, rfl⟩ := h.slot hl
  have hpm : p ∈ s.pools := by rw [hs]; simp
  have hpo := h.pools p hpm
  have hw := slot_in (c := c) (d := p.data) hi
  have hsz := hc.sz
  have hidx : (p.data + c.sz * i - p.data) / c.sz = i := by
    rw [Nat.add_sub_cancel_left, Nat.mul_div_cancel_left _ hsz]
  have hin : inPool c p (p.data + c.sz * i) = true := by
    unfold inPool Within at *
    simp only [decide_eq_true_eq]
    omega
  have hne : ∀ x ∈ a, inPool c x (p.data + c.sz * i) = false := by
    intro x hx
    have hd := h.pool_disj hs (Or.inl hx)
    unfold inPool Within Disj at *
    simp only [decide_eq_false_iff_not]
    omega
  have hdl := deallocLoop_at (b := b) hne hin
  rw [hidx] at hdl
  unfold deallocate
  rw [hs, hdl]
  refine ⟨_, rfl, ?_, by simp⟩
  have hu := used_flip_off hpo hi hbit (p.numAvail + 1)
  have hLp : L.Perm ((p.data + c.sz * i, c.sz) ::
      ((a ++ { p with avail := flipAt p.avail (i / 32) (i % 32), numAvail := p.numAvail + 1 } :: b).flatMap (objs c))) := by
    have := h.live
    rw [hs] at this
    simp only [List.flatMap_append, List.flatMap_cons] at this ⊢
    refine this.trans ?_
    have h3 := hu.map fun i => (p.data + c.sz * i, c.sz)
    exact perm_mid h3
  have hLd := List.Pairwise.perm h.live_disj hLp (fun h => h.symm)
  have hdrop : (drop (p.data + c.sz * i) L).Perm
      ((a ++ { p with avail := flipAt p.avail (i / 32) (i % 32), numAvail := p.numAvail + 1 } :: b).flatMap (objs c)) := by
    refine perm_filter_key _ hLp (by simp) ?_
    intro y hy
    have hd := (List.pairwise_cons.1 hLd).1 y hy
    have hyo : y.2 = c.sz := by
      obtain ⟨q, _, hq⟩ := List.mem_flatMap.1 hy
      obtain ⟨k, _, rfl⟩ := List.mem_map.1 hq
      rfl
    unfold Disj at hd
    simp only [ne_eq, decide_not, Bool.not_eq_true', decide_eq_false_iff_not]
    omega
  refine ⟨?_, ?_, h.disj, h.rngs, hdrop, ?_⟩
  · intro q hq
    simp only [List.mem_append, List.mem_cons] at hq
    rcases hq with hq | rfl | hq
    · exact h.pools q (by rw [hs]; simp [hq])
    · refine ⟨by simp only [flipAt_length]; exact hpo.len, ?_⟩
      have := hu.length_eq
      have := hpo.count
      simp only [List.length_cons] at *
      omega
    · exact h.pools q (by rw [hs]; simp [hq])
  · have := h.held
    rw [hs] at this
    simp only [List.flatMap_append, List.flatMap_cons, blocks] at this ⊢
    exact this
  · have h1 := hLp.length_eq
    have h2 := hdrop.length_eq
    have h3 := h.cnt
    simp only [List.length_cons] at h1
    rw [h1, ← h2] at h3
    simp only
    omega

/-! ## Destruction -/

theorem Inv.keys (h : Inv c s O L) (hc : CfgOk c) : (O.map (·.1)).Nodup := by
  have hp : ∀ r ∈ O, 0 < r.2 := by
    intro r hr
    obtain ⟨p, _, hb⟩ := List.mem_flatMap.1 (h.held.mem_iff.1 hr)
    simp only [blocks, List.mem_cons, List.not_mem_nil, or_false] at hb
    have := hc.data
    have := hdr_pos (c := c)
    rcases hb with rfl | rfl <;> assumption
  rw [List.Nodup, List.pairwise_map]
  refine (List.pairwise_iff_forall_sublist.2 ?_)
  intro a b hab
  have hd := (List.pairwise_iff_forall_sublist.1 h.disj) hab
  have h1 := hp a (hab.subset (by simp))
  have h2 := hp b (hab.subset (by simp))
  unfold Disj at hd
  omega

theorem drop_head {p n : Nat} {O X : Held} (hO : O.Perm ((p, n) :: X)) (hn : (O.map (·.1)).Nodup) : (drop p O).Perm X := by
  have hn2 := (hO.map (·.1)).nodup_iff.1 hn
  refine perm_filter_key _ hO (by simp) ?_
  intro y hy
  have := (List.nodup_cons.1 hn2).1
  simp only [ne_eq, decide_not, Bool.not_eq_true', decide_eq_false_iff_not]
  intro he
  exact this (List.mem_map.2 ⟨y, hy, he⟩)

theorem destroy_wp {ps : List Pool} (hd : ∀ p ∈ ps, p.data ≠ 0) (hO : O.Perm (ps.flatMap (blocks c)))
    (hn : (O.map (·.1)).Nodup) :
    (destroy c ps).wp ⟨fun _ => False, fun _ _ => True⟩ O fun _ O' => O' = [] := by
  induction ps generalizing O with
  | nil => exact List.Perm.eq_nil (by simpa using hO)
  | cons p ps ih =>
    unfold destroy
    rw [if_neg (hd p (by simp))]
    simp only [List.flatMap_cons, blocks, List.cons_append, List.nil_append] at hO
    have h1 := drop_head hO hn
    have hn1 : ((drop p.data O).map (·.1)).Nodup := hn.sublist (List.filter_sublist.map _)
    refine ⟨⟨hO.mem_iff.2 (by simp), trivial⟩, ⟨h1.mem_iff.2 (by simp), trivial⟩, ?_⟩
    exact ih (fun q hq => hd q (by simp [hq])) (drop_head h1 hn1) (hn1.sublist (List.filter_sublist.map _))

end
end Umpire.BlockPool
