import Verif.FixedPool.Model
import Verif.Base.Lists
/-! # The invariant of `FixedPool` (helper lemmas) -/
set_option autoImplicit false
set_option linter.unusedSimpArgs false
namespace Umpire.FixedPool
open Umpire.Prog

structure CfgOk (cfg : Cfg) : Prop where
  obj : 0 < cfg.obj
  per : 0 < cfg.per
  fits : cfg.obj * cfg.per < W

theorem CfgOk.data {cfg : Cfg} (h : CfgOk cfg) : cfg.data = cfg.obj * cfg.per := Nat.mod_eq_of_lt h.fits
theorem CfgOk.data_pos {cfg : Cfg} (h : CfgOk cfg) : 0 < cfg.data := by
  rw [h.data]; exact Nat.mul_pos h.obj h.per

/-- Indices of the slots in use. -/
def used (cfg : Cfg) (p : Pool) : List Nat := (List.range cfg.per).filter fun i => !bitAt p.avail i

/-- The objects in use. -/
def objs (cfg : Cfg) (p : Pool) : Held := (used cfg p).map fun i => (p.data + cfg.obj * i, cfg.obj)

/-- The parent block of a pool. -/
def rng (cfg : Cfg) (p : Pool) : Nat × Nat := (p.data, cfg.data)

structure PoolOk (cfg : Cfg) (p : Pool) : Prop where
  len : p.avail.length = cfg.words
  count : p.numAvail + (used cfg p).length = cfg.per
  high : ∀ i, cfg.per ≤ i → i < cfg.words * 32 → bitAt p.avail i = true

structure Inv (cfg : Cfg) (s : State) (O L : Held) : Prop where
  pools : ∀ p ∈ s.pools, PoolOk cfg p
  held : O.Perm (s.pools.map (rng cfg))
  disj : O.Disjoint
  rngs : ∀ r ∈ O, r.1 ≠ 0 ∧ r.1 + r.2 ≤ AMax
  live : L.Perm (s.pools.flatMap (objs cfg))
  cur : s.current = cfg.obj * L.length
  hwm : s.current ≤ s.hwm

/-! ## Scanning the bitmap -/

theorem bitAt_cons_lo {w : Nat} {ws : List Nat} {j : Nat} (h : j < 32) : bitAt (w :: ws) j = w.testBit j := by
  unfold bitAt
  rw [Nat.div_eq_of_lt h, Nat.mod_eq_of_lt h]
  rfl

theorem bitAt_cons_hi {w : Nat} {ws : List Nat} {j : Nat} : bitAt (w :: ws) (j + 32) = bitAt ws j := by
  unfold bitAt
  rw [show (j + 32) / 32 = j / 32 + 1 from by omega, show (j + 32) % 32 = j % 32 from by omega]
  rfl

theorem scan_none {per i : Nat} {ws : List Nat} (h : scan per i ws = none) :
    ∀ j, j < ws.length * 32 → i * 32 + j < per → bitAt ws j = false := by
  induction ws generalizing i with
  | nil => intro j hj; simp at hj
  | cons w ws ih =>
    intro j hj hp
    unfold scan at h
    have key : scan per (i + 1) ws = none → 32 ≤ j → bitAt (w :: ws) j = false := by
      intro hn hj2
      obtain ⟨j', rfl⟩ : ∃ j', j = j' + 32 := ⟨j - 32, by omega⟩
      rw [bitAt_cons_hi]
      simp only [List.length_cons] at hj
      exact ih hn j' (by omega) (by omega)
    split at h
    · rename_i hf
      by_cases hj2 : j < 32
      · rw [bitAt_cons_lo hj2]; exact ffs_zero hf j hj2
      · exact key (by simpa using h) (by omega)
    · rename_i b hf
      split at h
      · cases h
      · rename_i hb
        by_cases hj2 : j < 32
        · rw [bitAt_cons_lo hj2]
          exact (ffs_succ hf).2.2 j (by omega)
        · exact key (by simpa using h) (by omega)

theorem scan_some {per i k : Nat} {ws ws' : List Nat} (h : scan per i ws = some (k, ws')) :
    ∃ j, k = i * 32 + j ∧ k < per ∧ j / 32 < ws.length ∧ bitAt ws j = true ∧ ws' = flipAt ws (j / 32) (j % 32) := by
  induction ws generalizing i ws' with
  | nil => cases h
  | cons w ws ih =>
    have key : ∀ r, scan per (i + 1) ws = some r → r.1 = k → w :: r.2 = ws' →
        ∃ j, k = i * 32 + j ∧ k < per ∧ j / 32 < (w :: ws).length ∧ bitAt (w :: ws) j = true ∧
          ws' = flipAt (w :: ws) (j / 32) (j % 32) := by
      rintro ⟨k', r⟩ hs rfl rfl
      obtain ⟨j, h1, h2, h3, h4, h5⟩ := ih hs
      refine ⟨j + 32, by simp only at *; omega, h2, by simp only [List.length_cons]; omega, ?_, ?_⟩
      · rw [bitAt_cons_hi]; exact h4
      · simp only at h5 ⊢
        rw [h5]
        unfold flipAt
        rw [show (j + 32) / 32 = j / 32 + 1 from by omega, show (j + 32) % 32 = j % 32 from by omega]
        rfl
    unfold scan at h
    split at h
    · obtain ⟨r, hr, he⟩ := Option.map_eq_some_iff.1 h
      injection he with h1 h2
      exact key r hr h1 h2
    · rename_i b hf
      split at h
      · rename_i hb
        injection h with h
        injection h with h1 h2
        obtain ⟨hb1, hb2, _⟩ := ffs_succ hf
        refine ⟨b, h1.symm, by omega, by simp only [List.length_cons]; omega, ?_, ?_⟩
        · rw [bitAt_cons_lo hb1]; exact hb2
        · rw [← h2]
          unfold flipAt
          rw [Nat.div_eq_of_lt hb1, Nat.mod_eq_of_lt hb1]
          rfl
      · obtain ⟨r, hr, he⟩ := Option.map_eq_some_iff.1 h
        injection he with h1 h2
        exact key r hr h1 h2

/-! ## Slots in use -/

theorem lt_words {cfg : Cfg} {i : Nat} (h : i < cfg.per) : i / 32 < cfg.words := by
  unfold Cfg.words
  have := Nat.div_le_div_right (c := 32) (Nat.le_of_lt h)
  omega

section
variable {cfg : Cfg} {p : Pool}

theorem used_flip_on (hp : PoolOk cfg p) {i : Nat} (hi : i < cfg.per) (hb : bitAt p.avail i = true) (m : Nat) :
    (used cfg { p with avail := flipAt p.avail (i / 32) (i % 32), numAvail := m }).Perm (i :: used cfg p) := by
  have hl : i / 32 < p.avail.length := by rw [hp.len]; exact lt_words hi
  refine filter_range_add hi (by simp [hb]) ?_ ?_
  · simp only [flipAt_bit hl, if_true, hb, Bool.not_true, Bool.not_false]
  · intro j hj
    simp only [flipAt_bit hl, if_neg hj]

theorem used_flip_off (hp : PoolOk cfg p) {i : Nat} (hi : i < cfg.per) (hb : bitAt p.avail i = false) (m : Nat) :
    (used cfg p).Perm (i :: used cfg { p with avail := flipAt p.avail (i / 32) (i % 32), numAvail := m }) := by
  have hl : i / 32 < p.avail.length := by rw [hp.len]; exact lt_words hi
  refine filter_range_add hi ?_ (by simp [hb]) ?_
  · simp only [flipAt_bit hl, if_true, hb, Bool.not_true, Bool.not_false]
  · intro j hj
    simp only [flipAt_bit hl, if_neg hj]

theorem flip_high (hp : PoolOk cfg p) {i : Nat} (hi : i < cfg.per) :
    ∀ j, cfg.per ≤ j → j < cfg.words * 32 → bitAt (flipAt p.avail (i / 32) (i % 32)) j = true := by
  intro j h1 h2
  have hl : i / 32 < p.avail.length := by rw [hp.len]; exact lt_words hi
  rw [flipAt_bit hl, if_neg (by omega)]
  exact hp.high j h1 h2

theorem allocInPool_some (hp : PoolOk cfg p) {ptr : Nat} {p' : Pool} (h : allocInPool cfg p = some (ptr, p')) :
    PoolOk cfg p' ∧ p'.data = p.data ∧ (objs cfg p').Perm ((ptr, cfg.obj) :: objs cfg p) := by
  unfold allocInPool at h
  split at h
  · cases h
  · rename_i hn
    obtain ⟨⟨k, ws⟩, hr, he⟩ := Option.map_eq_some_iff.1 h
    injection he with h1 h2
    obtain ⟨j, hj1, hj2, hj3, hj4, hj5⟩ := scan_some hr
    simp only [Nat.zero_mul, Nat.zero_add] at hj1
    subst hj1
    subst h2
    simp only at h1 hj5 ⊢
    subst hj5
    have hu := used_flip_on hp hj2 hj4 (p.numAvail - 1)
    refine ⟨⟨?_, ?_, flip_high hp hj2⟩, trivial, ?_⟩
    · simp only [flipAt_length]; exact hp.len
    · have := hu.length_eq
      have := hp.count
      simp only [List.length_cons] at *
      omega
    · rw [← h1]
      exact hu.map _

theorem allocInPool_none (hp : PoolOk cfg p) (h : allocInPool cfg p = none) : p.numAvail = 0 := by
  unfold allocInPool at h
  split at h
  · assumption
  · have hs : scan cfg.per 0 p.avail = none := by simpa using h
    have hu : used cfg p = List.range cfg.per := by
      unfold used
      rw [List.filter_eq_self]
      intro i hi
      have hi := List.mem_range.1 hi
      have := lt_words hi
      rw [scan_none hs i (by rw [hp.len]; omega) (by omega)]
      rfl
    have := hp.count
    rw [hu, List.length_range] at this
    omega

theorem mkPool_bit {cfg : Cfg} {d i : Nat} (hi : i < cfg.words * 32) : bitAt (mkPool cfg d).avail i = true := by
  unfold bitAt mkPool
  simp only [List.getD_eq_getElem?_getD]
  rw [List.getElem?_replicate, if_pos (by omega)]
  simp only [Option.getD_some]
  rw [Nat.testBit_two_pow_sub_one]
  simpa using Nat.mod_lt i (by decide : 32 > 0)

theorem mkPool_used {cfg : Cfg} {d : Nat} : used cfg (mkPool cfg d) = [] := by
  unfold used
  rw [List.filter_eq_nil_iff]
  intro i hi
  have := lt_words (List.mem_range.1 hi)
  simp only [mkPool_bit (cfg := cfg) (d := d) (i := i) (by omega), Bool.not_true, Bool.false_eq_true, not_false_eq_true]

theorem mkPool_ok {cfg : Cfg} {d : Nat} : PoolOk cfg (mkPool cfg d) := by
  refine ⟨by simp [mkPool], ?_, fun i _ hi => mkPool_bit hi⟩
  rw [mkPool_used]
  rfl

end

theorem allocLoop_some {cfg : Cfg} {ps ps' : List Pool} {ptr : Nat} (h : allocLoop cfg ps = some (ptr, ps')) :
    ∃ a p p' b, ps = a ++ p :: b ∧ ps' = a ++ p' :: b ∧ allocInPool cfg p = some (ptr, p') := by
  induction ps generalizing ps' with
  | nil => cases h
  | cons q qs ih =>
    unfold allocLoop at h
    split at h
    · rename_i ptr' p' hq
      injection h with h; injection h with h1 h2
      subst h1 h2
      exact ⟨[], q, p', qs, rfl, rfl, hq⟩
    · obtain ⟨⟨r1, r2⟩, hr, he⟩ := Option.map_eq_some_iff.1 h
      injection he with h1 h2
      simp only at h1 h2
      subst h1 h2
      obtain ⟨a, p, p', b, rfl, rfl, hp⟩ := ih hr
      exact ⟨q :: a, p, p', b, rfl, rfl, hp⟩

theorem allocLoop_none {cfg : Cfg} {ps : List Pool} (h : allocLoop cfg ps = none) :
    ∀ p ∈ ps, allocInPool cfg p = none := by
  induction ps with
  | nil => intro p hp; cases hp
  | cons q qs ih =>
    unfold allocLoop at h
    split at h
    · cases h
    · rename_i hq
      intro p hp
      rcases List.mem_cons.1 hp with rfl | hp
      · exact hq
      · exact ih (by simpa using h) p hp

section
variable {cfg : Cfg} {s : State} {O L : Held}

/-- Using a slot of an existing pool. -/
theorem Inv.use (h : Inv cfg s O L) {a b : List Pool} {p p' : Pool} {ptr hw : Nat} (hs : s.pools = a ++ p :: b)
    (hp : allocInPool cfg p = some (ptr, p')) (hh : s.current + cfg.obj ≤ hw) :
    Inv cfg { s with pools := a ++ p' :: b, current := s.current + cfg.obj, hwm := hw } O ((ptr, cfg.obj) :: L) := by
  have hm : p ∈ s.pools := by rw [hs]; simp
  obtain ⟨h1, h2, h3⟩ := allocInPool_some (h.pools p hm) hp
  refine ⟨?_, ?_, h.disj, h.rngs, ?_, ?_, hh⟩
  · intro q hq
    simp only [List.mem_append, List.mem_cons] at hq
    rcases hq with hq | rfl | hq
    · exact h.pools q (by rw [hs]; simp [hq])
    · exact h1
    · exact h.pools q (by rw [hs]; simp [hq])
  · have := h.held
    rw [hs] at this
    simp only [List.map_append, List.map_cons, rng, h2] at this ⊢
    exact this
  · have := h.live
    rw [hs] at this
    simp only [List.flatMap_append, List.flatMap_cons] at this ⊢
    exact (this.cons _).trans (perm_mid h3).symm
  · simp only [List.length_cons, Nat.mul_succ]
    rw [h.cur]

/-- Adding a pool. -/
theorem Inv.add (h : Inv cfg s O L) {d : Nat} (hd : Fresh d cfg.data O) :
    Inv cfg (addPool cfg s d) ((d, cfg.data) :: O) L := by
  obtain ⟨hd1, hd2, hd3⟩ := hd
  refine ⟨?_, ?_, ?_, ?_, ?_, h.cur, h.hwm⟩
  · intro q hq
    simp only [addPool, List.mem_append, List.mem_singleton] at hq
    rcases hq with hq | rfl
    · exact h.pools q hq
    · exact mkPool_ok
  · simp only [addPool, List.map_append, List.map_cons, List.map_nil]
    exact (h.held.cons _).trans (List.perm_append_singleton _ _).symm
  · exact List.pairwise_cons.2 ⟨hd3, h.disj⟩
  · intro r hr
    rcases List.mem_cons.1 hr with rfl | hr
    · exact ⟨hd1, hd2⟩
    · exact h.rngs r hr
  · simp only [addPool, List.flatMap_append, List.flatMap_cons, List.flatMap_nil, objs, mkPool_used,
      List.map_nil, List.append_nil]
    exact h.live

theorem allocLoop_fresh {d : Nat} {ps : List Pool} (hc : CfgOk cfg) : allocLoop cfg (mkPool cfg d :: ps) ≠ none := by
  intro h
  have := allocLoop_none h _ (List.mem_cons_self ..)
  have := allocInPool_none (mkPool_ok) this
  have hp := hc.per
  simp only [mkPool] at this
  omega

/-- What `allocate` does. -/
theorem allocate_wp (h : Inv cfg s O L) (hc : CfgOk cfg) (fuel : Nat) :
    (allocate cfg (fuel + 2) s).wp (Keep L) O fun r O' =>
      match r.1 with
      | some p => Inv cfg r.2 O' ((p, cfg.obj) :: L) ∧ r.2.hwm = max s.hwm r.2.current
      | none => r.2 = s ∧ O' = O := by
  have step : ∀ {fuel : Nat} {s : State} {O : Held} {x : Nat × List Pool}, Inv cfg s O L → allocLoop cfg s.pools.reverse = some x →
      ∃ s', allocate cfg (fuel + 1) s = .ret (some x.1, s') ∧ Inv cfg s' O ((x.1, cfg.obj) :: L) ∧ s'.hwm = max s.hwm s'.current := by
    intro fuel s O x h hx
    obtain ⟨ptr, ps⟩ := x
    unfold allocate
    rw [hx]
    refine ⟨_, rfl, ?_, rfl⟩
    obtain ⟨a, p, p', b, h1, h2, h3⟩ := allocLoop_some hx
    have hs : s.pools = b.reverse ++ p :: a.reverse := by
      have := congrArg List.reverse h1
      simpa using this
    have := h.use hs h3 (hw := max s.hwm (s.current + cfg.obj)) (by omega)
    rw [h2]
    simpa using this
  cases hl : allocLoop cfg s.pools.reverse with
  | some x =>
    obtain ⟨s', he, hi⟩ := step (fuel := fuel + 1) h hl
    rw [he]; exact hi
  | none =>
    unfold allocate
    rw [hl]
    refine ⟨fun d hd => ?_, ?_⟩
    · have hi := h.add hd
      simp only
      have hrev : (addPool cfg s d).pools.reverse = mkPool cfg d :: s.pools.reverse := by simp [addPool]
      cases hl2 : allocLoop cfg (addPool cfg s d).pools.reverse with
      | none => exact absurd (hrev ▸ hl2) (allocLoop_fresh hc)
      | some x =>
        obtain ⟨s', he, hi⟩ := step (fuel := fuel) hi hl2
        rw [he]; exact hi
    · exact ⟨rfl, rfl⟩

/-! ## Deallocation -/

theorem Inv.keys (h : Inv cfg s O L) (hc : CfgOk cfg) : (s.pools.map (·.data)).Nodup := by
  have h1 : (s.pools.map (rng cfg)).Pairwise fun a b => Disj a.1 a.2 b.1 b.2 :=
    List.Pairwise.perm h.disj h.held (fun h => h.symm)
  rw [List.pairwise_map] at h1
  rw [List.Nodup, List.pairwise_map]
  refine h1.imp ?_
  intro x y hd
  have := hc.data_pos
  simp only [rng, Disj] at hd
  simp only [ne_eq]
  omega

theorem Inv.pool_disj (h : Inv cfg s O L) {a b : List Pool} {p q : Pool} (hs : s.pools = a ++ p :: b)
    (hq : q ∈ a ∨ q ∈ b) : Disj q.data cfg.data p.data cfg.data := by
  have h1 : (s.pools.map (rng cfg)).Pairwise fun a b => Disj a.1 a.2 b.1 b.2 :=
    List.Pairwise.perm h.disj h.held (fun h => h.symm)
  rw [hs, List.pairwise_map, List.pairwise_append] at h1
  rcases hq with hq | hq
  · exact h1.2.2 q hq p (by simp)
  · exact (List.pairwise_cons.1 h1.2.1).1 q hq |>.symm

theorem deallocLoop_at {ptr : Nat} {a b : List Pool} {p : Pool} (ha : ∀ x ∈ a, inPool cfg x ptr = false)
    (hp : inPool cfg p ptr = true) (hb : (ptr - p.data) / cfg.obj / 32 < p.avail.length) :
    deallocLoop cfg ptr (a ++ p :: b) = some (some (a ++
      { p with avail := flipAt p.avail ((ptr - p.data) / cfg.obj / 32) ((ptr - p.data) / cfg.obj % 32),
               numAvail := p.numAvail + 1 } :: b)) := by
  induction a with
  | nil => simp only [List.nil_append]; unfold deallocLoop; rw [if_pos hp]; simp only; rw [if_pos hb]
  | cons x xs ih =>
    simp only [List.cons_append]
    unfold deallocLoop
    rw [if_neg (by rw [ha x (by simp)]; simp), ih (fun y hy => ha y (by simp [hy]))]
    rfl

theorem deallocLoop_none {ptr : Nat} {ps : List Pool} :
    deallocLoop cfg ptr ps = none ↔ ∀ p ∈ ps, inPool cfg p ptr = false := by
  induction ps with
  | nil => simp [deallocLoop]
  | cons x xs ih =>
    unfold deallocLoop
    by_cases hx : inPool cfg x ptr = true
    · simp only [hx, if_true]
      constructor
      · intro h; split at h <;> cases h
      · intro h; have := h x (by simp); rw [hx] at this; cases this
    · simp only [hx, Bool.false_eq_true, if_false, Option.map_eq_none_iff, ih]
      have hx' : inPool cfg x ptr = false := by simpa using hx
      simp [hx']

/-- A live object lies in a slot of one of the pools. -/
theorem Inv.slot (h : Inv cfg s O L) {l : Nat × Nat} (hl : l ∈ L) :
    ∃ a p b i, s.pools = a ++ p :: b ∧ i < cfg.per ∧ bitAt p.avail i = false ∧ l = (p.data + cfg.obj * i, cfg.obj) := by
  obtain ⟨p, hp, hlp⟩ := List.mem_flatMap.1 (h.live.mem_iff.1 hl)
  obtain ⟨i, hi, rfl⟩ := List.mem_map.1 hlp
  obtain ⟨hi1, hi2⟩ := List.mem_filter.1 hi
  obtain ⟨a, b, hs⟩ := List.append_of_mem hp
  exact ⟨a, p, b, i, hs, List.mem_range.1 hi1, by simpa using hi2, rfl⟩

theorem slot_in {p : Pool} (hc : CfgOk cfg) {i : Nat} (hi : i < cfg.per) :
    Within (p.data + cfg.obj * i) cfg.obj p.data cfg.data := by
  have h1 : cfg.obj * (i + 1) ≤ cfg.obj * cfg.per := Nat.mul_le_mul_left _ hi
  rw [Nat.mul_succ] at h1
  unfold Within
  rw [hc.data]
  omega

theorem Inv.live_nodup (h : Inv cfg s O L) (hc : CfgOk cfg) : L.Pairwise fun x y => Disj x.1 x.2 y.1 y.2 := by
  refine List.Pairwise.perm ?_ h.live.symm (fun h => h.symm)
  have h1 : (s.pools.map (rng cfg)).Pairwise fun a b => Disj a.1 a.2 b.1 b.2 :=
    List.Pairwise.perm h.disj h.held (fun h => h.symm)
  rw [List.pairwise_map] at h1
  rw [List.flatMap, List.pairwise_flatten]
  constructor
  · intro l hl
    obtain ⟨p, hp, rfl⟩ := List.mem_map.1 hl
    unfold objs
    rw [List.pairwise_map]
    refine List.Pairwise.imp ?_ ((List.nodup_range (n := cfg.per)).filter _)
    intro i j hij
    unfold Disj
    simp only
    rcases Nat.lt_or_gt_of_ne hij with hlt | hlt
    · have := Nat.mul_le_mul_left cfg.obj hlt
      rw [Nat.mul_succ] at this
      omega
    · have := Nat.mul_le_mul_left cfg.obj hlt
      rw [Nat.mul_succ] at this
      omega
  · rw [List.pairwise_map]
    refine h1.imp ?_
    intro p q hd x hx y hy
    obtain ⟨i, hi, rfl⟩ := List.mem_map.1 hx
    obtain ⟨j, hj, rfl⟩ := List.mem_map.1 hy
    exact Disj.of_within hd (slot_in hc (List.mem_range.1 (List.mem_filter.1 hi).1))
      (slot_in hc (List.mem_range.1 (List.mem_filter.1 hj).1))

theorem deallocate_wp (h : Inv cfg s O L) (hc : CfgOk cfg) {l : Nat × Nat} (hl : l ∈ L) :
    ∃ s', deallocate cfg s l.1 = .ret (true, s') ∧ Inv cfg s' O (drop l.1 L) ∧ s'.hwm = s.hwm := by
  obtain ⟨a, p, b, i, hs, hi, hbit, rfl⟩ := h.slot hl
  have hpm : p ∈ s.pools := by rw [hs]; simp
  have hpo := h.pools p hpm
  have hw := slot_in (p := p) hc hi
  have hidx : (p.data + cfg.obj * i - p.data) / cfg.obj = i := by
    rw [Nat.add_sub_cancel_left, Nat.mul_div_cancel_left _ hc.obj]
  have hin : inPool cfg p (p.data + cfg.obj * i) = true := by
    unfold inPool Within at *
    have := hc.obj
    simp only [decide_eq_true_eq]
    omega
  have hne : ∀ x ∈ a, inPool cfg x (p.data + cfg.obj * i) = false := by
    intro x hx
    have hd := h.pool_disj hs (Or.inl hx)
    unfold inPool Within Disj at *
    have := hc.obj
    simp only [decide_eq_false_iff_not]
    omega
  have hdl := deallocLoop_at (b := b) hne hin (by rw [hidx, hpo.len]; exact lt_words hi)
  rw [hidx] at hdl
  unfold deallocate
  rw [hs, hdl]
  refine ⟨_, rfl, ?_, rfl⟩
  have hu := used_flip_off hpo hi hbit (p.numAvail + 1)
  have hLp : L.Perm ((p.data + cfg.obj * i, cfg.obj) ::
      ((a ++ { p with avail := flipAt p.avail (i / 32) (i % 32), numAvail := p.numAvail + 1 } :: b).flatMap (objs cfg))) := by
    have := h.live
    rw [hs] at this
    simp only [List.flatMap_append, List.flatMap_cons] at this ⊢
    refine this.trans ?_
    have h3 := hu.map fun i => (p.data + cfg.obj * i, cfg.obj)
    exact perm_mid h3
  have hLd := List.Pairwise.perm (h.live_nodup hc) hLp (fun h => h.symm)
  have hdrop : (drop (p.data + cfg.obj * i) L).Perm
      ((a ++ { p with avail := flipAt p.avail (i / 32) (i % 32), numAvail := p.numAvail + 1 } :: b).flatMap (objs cfg)) := by
    refine perm_filter_key _ hLp (by simp) ?_
    intro y hy
    have hd := (List.pairwise_cons.1 hLd).1 y hy
    have hyo : y.2 = cfg.obj := by
      obtain ⟨q, _, hq⟩ := List.mem_flatMap.1 hy
      obtain ⟨k, _, rfl⟩ := List.mem_map.1 hq
      rfl
    have := hc.obj
    unfold Disj at hd
    simp only [ne_eq, decide_not, Bool.not_eq_true', decide_eq_false_iff_not]
    omega
  refine ⟨?_, ?_, h.disj, h.rngs, hdrop, ?_, ?_⟩
  · intro q hq
    simp only [List.mem_append, List.mem_cons] at hq
    rcases hq with hq | rfl | hq
    · exact h.pools q (by rw [hs]; simp [hq])
    · refine ⟨by simp only [flipAt_length]; exact hpo.len, ?_, flip_high hpo hi⟩
      have := hu.length_eq
      have := hpo.count
      simp only [List.length_cons] at *
      omega
    · exact h.pools q (by rw [hs]; simp [hq])
  · have := h.held
    rw [hs] at this
    simp only [List.map_append, List.map_cons, rng] at this ⊢
    exact this
  · have h1 := hLp.length_eq
    have h2 := hdrop.length_eq
    have h3 := h.cur
    simp only [List.length_cons] at h1
    rw [h1, ← h2, Nat.mul_succ] at h3
    simp only
    omega
  · have := h.hwm
    simp only
    omega

/-! ## Release and destruction -/

theorem freeFull_wp (hc : CfgOk cfg) {ps : List Pool} {X : List (Nat × Nat)} (hO : O.Perm (X ++ ps.map (rng cfg)))
    (hn : (O.map (·.1)).Nodup) (hf : ∀ p ∈ ps, cfg.per = p.numAvail → ∀ l ∈ L, Disj l.1 l.2 p.data cfg.data) :
    (freeFull cfg ps).wp (Keep L) O fun _ O' =>
      O'.Perm (X ++ (ps.filter fun p => cfg.per ≠ p.numAvail).map (rng cfg)) ∧ O'.Sublist O := by
  induction ps generalizing O X with
  | nil => exact ⟨by simpa using hO, List.Sublist.refl _⟩
  | cons p ps ih =>
    unfold freeFull
    have hf' : ∀ q ∈ ps, cfg.per = q.numAvail → ∀ l ∈ L, Disj l.1 l.2 q.data cfg.data :=
      fun q hq => hf q (by simp [hq])
    split
    · rename_i hfull
      have hmem : (p.data, cfg.data) ∈ O := hO.mem_iff.2 (by simp [rng])
      refine ⟨⟨hmem, hc.data_pos, hf p (by simp) hfull⟩, ?_⟩
      have hO2 : O.Perm ((p.data, cfg.data) :: (X ++ ps.map (rng cfg))) := hO.trans List.perm_middle
      have hn2 := (hO2.map (·.1)).nodup_iff.1 hn
      have hd : (drop p.data O).Perm (X ++ ps.map (rng cfg)) := by
        refine perm_filter_key _ hO2 (by simp) ?_
        intro y hy
        have := (List.nodup_cons.1 hn2).1
        simp only [ne_eq, decide_not, Bool.not_eq_true', decide_eq_false_iff_not]
        intro he
        exact this (List.mem_map.2 ⟨y, hy, he⟩)
      have hsub : (drop p.data O).Sublist O := List.filter_sublist
      have := ih hd (hn.sublist (hsub.map _)) hf'
      rw [List.filter_cons, if_neg (by simp [hfull])]
      exact wp_mono this fun _ O' h => ⟨h.1, h.2.trans hsub⟩
    · rename_i hfull
      have := ih (X := X ++ [rng cfg p]) (by simpa using hO) hn hf'
      rw [List.filter_cons, if_pos (by simpa using hfull)]
      simpa using this

theorem Inv.held_keys (h : Inv cfg s O L) (hc : CfgOk cfg) : (O.map (·.1)).Nodup := by
  have := h.keys hc
  have h2 := h.held.map (·.1)
  rw [List.map_map] at h2
  exact h2.nodup_iff.2 this

theorem Inv.full (h : Inv cfg s O L) (hc : CfgOk cfg) {p : Pool} (hp : p ∈ s.pools) (hf : used cfg p = []) :
    ∀ l ∈ L, Disj l.1 l.2 p.data cfg.data := by
  intro l hl
  obtain ⟨a, q, b, i, hs, hi, hb, rfl⟩ := h.slot hl
  by_cases hpq : p = q
  · subst hpq
    have : i ∈ used cfg p := List.mem_filter.2 ⟨List.mem_range.2 hi, by simp [hb]⟩
    rw [hf] at this
    cases this
  · have hpm : p ∈ a ∨ p ∈ b := by
      rw [hs] at hp
      simp only [List.mem_append, List.mem_cons] at hp
      rcases hp with hp | hp | hp
      · exact Or.inl hp
      · exact absurd hp hpq
      · exact Or.inr hp
    exact Disj.of_within (h.pool_disj hs hpm).symm (slot_in hc hi) ⟨Nat.le_refl _, Nat.le_refl _⟩

theorem full_iff {p : Pool} (hp : PoolOk cfg p) : cfg.per = p.numAvail ↔ used cfg p = [] := by
  have := hp.count
  rw [← List.length_eq_zero_iff]
  omega

theorem release_wp (h : Inv cfg s O L) (hc : CfgOk cfg) :
    (release cfg s).wp (Keep L) O fun s' O' => Inv cfg s' O' L ∧ s'.actual = s.actual ∧ s'.hwm = s.hwm ∧
      (∀ p ∈ s'.pools, used cfg p ≠ []) ∧ O'.Sublist O ∧ ∀ o ∈ O, o ∈ O' ∨ ∀ l ∈ L, Disj l.1 l.2 o.1 o.2 := by
  have hfree : ∀ p ∈ s.pools, cfg.per = p.numAvail → ∀ l ∈ L, Disj l.1 l.2 p.data cfg.data :=
    fun p hp hf => h.full hc hp ((full_iff (h.pools p hp)).1 hf)
  refine wp_bind (wp_mono (freeFull_wp hc (X := []) h.held (h.held_keys hc) hfree) ?_)
  rintro _ O' ⟨h1, h2⟩
  simp only [List.nil_append] at h1
  refine ⟨⟨?_, h1, h.disj.sublist h2, fun r hr => h.rngs r (h2.subset hr), ?_, h.cur, h.hwm⟩, rfl, rfl, ?_, h2, ?_⟩
  · intro p hp; exact h.pools p (List.mem_filter.1 hp).1
  · refine h.live.trans (List.Perm.of_eq ?_)
    simp only
    have hp := h.pools
    generalize s.pools = ps at hp
    induction ps with
    | nil => rfl
    | cons p ps ih =>
      rw [List.filter_cons]
      have ih := ih fun q hq => hp q (by simp [hq])
      split
      · simp only [List.flatMap_cons, ih]
      · rename_i hf
        have : used cfg p = [] := (full_iff (hp p (by simp))).1 (by simpa using hf)
        simp only [List.flatMap_cons, objs, this, List.map_nil, List.nil_append]
        exact ih
  · intro p hp
    obtain ⟨hp1, hp2⟩ := List.mem_filter.1 hp
    intro hu
    have := (full_iff (h.pools p hp1)).2 hu
    simp [this] at hp2
  · intro o ho
    obtain ⟨p, hp, rfl⟩ := List.mem_map.1 (h.held.mem_iff.1 ho)
    by_cases hf : cfg.per = p.numAvail
    · exact Or.inr (hfree p hp hf)
    · left
      exact h1.mem_iff.2 (List.mem_map.2 ⟨p, List.mem_filter.2 ⟨hp, by simpa using hf⟩, rfl⟩)

theorem leaks_iff {p : Pool} (hp : PoolOk cfg p) : leaks cfg p = true ↔ used cfg p ≠ [] := by
  unfold leaks
  simp only [Bool.and_eq_true, decide_eq_true_eq, List.any_eq_true, List.mem_range, Bool.not_eq_true']
  constructor
  · rintro ⟨h1, _⟩ hu
    exact h1 ((full_iff hp).2 hu)
  · intro hu
    refine ⟨fun h => hu ((full_iff hp).1 h), ?_⟩
    obtain ⟨i, hi⟩ := List.exists_mem_of_ne_nil _ hu
    obtain ⟨h1, h2⟩ := List.mem_filter.1 hi
    have := lt_words (List.mem_range.1 h1)
    exact ⟨i, by omega, by simpa using h2⟩

theorem freeAll_wp (hc : CfgOk cfg) {ps : List Pool} (hO : O.Perm (ps.map (rng cfg))) (hn : (O.map (·.1)).Nodup) :
    (freeAll cfg ps).wp (Keep []) O fun _ O' => O' = [] := by
  induction ps generalizing O with
  | nil => exact List.Perm.eq_nil (by simpa using hO)
  | cons p ps ih =>
    refine ⟨⟨hO.mem_iff.2 (by simp [rng]), hc.data_pos, by simp⟩, ?_⟩
    have hn2 := (hO.map (·.1)).nodup_iff.1 hn
    refine ih ?_ (hn.sublist (List.filter_sublist.map _))
    refine perm_filter_key _ hO (by simp [rng]) ?_
    intro y hy
    have := (List.nodup_cons.1 hn2).1
    simp only [ne_eq, decide_not, Bool.not_eq_true', decide_eq_false_iff_not]
    intro he
    exact this (List.mem_map.2 ⟨y, hy, he⟩)

theorem destroy_wp (h : Inv cfg s O L) (hc : CfgOk cfg) :
    (destroy cfg s).wp (Keep L) O fun _ O' => if L = [] then O' = [] else O' = O := by
  have hany : s.pools.any (leaks cfg) = true ↔ L ≠ [] := by
    rw [List.any_eq_true]
    constructor
    · rintro ⟨p, hp, hl⟩ hL
      have hu := (leaks_iff (h.pools p hp)).1 hl
      obtain ⟨i, hi⟩ := List.exists_mem_of_ne_nil _ hu
      have : (p.data + cfg.obj * i, cfg.obj) ∈ L :=
        h.live.mem_iff.2 (List.mem_flatMap.2 ⟨p, hp, List.mem_map.2 ⟨i, hi, rfl⟩⟩)
      rw [hL] at this
      cases this
    · intro hL
      obtain ⟨l, hl⟩ := List.exists_mem_of_ne_nil _ hL
      obtain ⟨p, hp, hlp⟩ := List.mem_flatMap.1 (h.live.mem_iff.1 hl)
      obtain ⟨i, hi, _⟩ := List.mem_map.1 hlp
      exact ⟨p, hp, (leaks_iff (h.pools p hp)).2 (List.ne_nil_of_mem hi)⟩
  unfold destroy
  by_cases hL : L = []
  · rw [if_neg (by rw [hany]; simp [hL])]
    simp only [hL, if_true]
    subst hL
    exact freeAll_wp hc h.held (h.held_keys hc)
  · rw [if_pos (hany.2 hL)]
    simp only [hL, if_false]
    rfl

end
end Umpire.FixedPool
