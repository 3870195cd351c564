import Verif.MallocPool.Model
import Verif.QuickPool.Fit
/-! # The invariant of `FixedMallocPool` (helper lemmas) -/
set_option autoImplicit false
set_option linter.unusedSimpArgs false
namespace Umpire.MallocPool
open Umpire.Prog
open Umpire.QuickPool (drop_perm)

/-- Objects hold a `size_t`, sizes and indices fit their types. -/
structure CfgOk (cfg : Cfg) : Prop where
  obj : 8 ≤ cfg.obj
  per : 0 < cfg.per
  idx : cfg.per < 2 ^ 32
  fits : cfg.obj * cfg.per < W

theorem CfgOk.data {cfg : Cfg} (h : CfgOk cfg) : cfg.data = cfg.obj * cfg.per := Nat.mod_eq_of_lt h.fits
theorem CfgOk.data_pos {cfg : Cfg} (h : CfgOk cfg) : 0 < cfg.data := by
  rw [h.data]; exact Nat.mul_pos (by have := h.obj; omega) h.per

/-- The links of the free list `F`: initialised objects (index below `k`) store
the index of their successor. -/
def Linked (cfg : Cfg) (m : Mem) (d k : Nat) : List Nat → Prop
  | i :: j :: F => (i < k → m.rd (d + i * cfg.obj) 4 = j) ∧ Linked cfg m d k (j :: F)
  | _ => True

/-- Address of the first element of the free list. -/
def headOf (cfg : Cfg) (d : Nat) : List Nat → Nat
  | [] => 0
  | i :: _ => d + i * cfg.obj

/-- Pool `p` with free list `F`. -/
structure POk (cfg : Cfg) (m : Mem) (p : Pool) (F : List Nat) : Prop where
  init : p.numInit ≤ cfg.per
  shape : ∃ A, F = A ++ List.range' p.numInit (cfg.per - p.numInit) ∧ ∀ i ∈ A, i < p.numInit
  nodup : F.Nodup
  count : p.numFree = F.length
  next : p.next = headOf cfg p.data F
  links : Linked cfg m p.data p.numInit F
  nz : p.data ≠ 0

def used (cfg : Cfg) (F : List Nat) : List Nat := (List.range cfg.per).filter fun i => decide (i ∉ F)

abbrev Ghost := List (Pool × List Nat)

def objs (cfg : Cfg) (g : Pool × List Nat) : Held := (used cfg g.2).map fun i => (g.1.data + i * cfg.obj, cfg.obj)

def rng (cfg : Cfg) (g : Pool × List Nat) : Nat × Nat := (g.1.data, cfg.data)

structure Inv (cfg : Cfg) (m : Mem) (G : Ghost) (O L : Held) : Prop where
  pools : ∀ g ∈ G, POk cfg m g.1 g.2
  held : O.Perm (G.map (rng cfg))
  disj : O.Disjoint
  live : L.Perm (G.flatMap (objs cfg))

theorem POk.lt {cfg : Cfg} {m : Mem} {p : Pool} {F : List Nat} (h : POk cfg m p F) {i : Nat} (hi : i ∈ F) : i < cfg.per := by
  obtain ⟨A, rfl, hA⟩ := h.shape
  have := h.init
  rcases List.mem_append.1 hi with hi | hi
  · have := hA i hi; omega
  · rw [List.mem_range'_1] at hi; omega

/-- Objects of a pool do not overlap. -/
theorem slot_disj {obj i j x y : Nat} (h : i ≠ j) (hx : x < obj) (hy : y < obj) : i * obj + x ≠ j * obj + y := by
  rcases Nat.lt_or_gt_of_ne h with h | h
  · have := Nat.mul_le_mul_right obj (show i + 1 ≤ j from h)
    rw [Nat.succ_mul] at this
    omega
  · have := Nat.mul_le_mul_right obj (show j + 1 ≤ i from h)
    rw [Nat.succ_mul] at this
    omega

theorem slot_le {cfg : Cfg} (hc : CfgOk cfg) {i : Nat} (h : i < cfg.per) : i * cfg.obj + cfg.obj ≤ cfg.data := by
  have := Nat.mul_le_mul_right cfg.obj (show i + 1 ≤ cfg.per from h)
  rw [Nat.succ_mul] at this
  rw [hc.data, Nat.mul_comm cfg.obj]
  exact this

theorem Linked.congr {cfg : Cfg} {m m' : Mem} {d k : Nat} {F : List Nat} (h : Linked cfg m d k F)
    (he : ∀ i ∈ F, i < k → m'.rd (d + i * cfg.obj) 4 = m.rd (d + i * cfg.obj) 4) : Linked cfg m' d k F := by
  induction F with
  | nil => trivial
  | cons i F ih =>
    cases F with
    | nil => trivial
    | cons j F =>
      refine ⟨fun hi => ?_, ih h.2 fun x hx => he x (by simp [hx])⟩
      rw [he i (by simp) hi]
      exact h.1 hi

theorem POk.congr {cfg : Cfg} (hc : CfgOk cfg) {m m' : Mem} {p : Pool} {F : List Nat} (h : POk cfg m p F)
    (he : ∀ i ∈ F, ∀ x < cfg.obj, m' (p.data + i * cfg.obj + x) = m (p.data + i * cfg.obj + x)) : POk cfg m' p F := by
  refine ⟨h.init, h.shape, h.nodup, h.count, h.next, h.links.congr fun i hi _ => ?_, h.nz⟩
  refine Mem.rd_congr fun x h1 h2 => ?_
  have hobj := hc.obj
  have := he i hi (x - (p.data + i * cfg.obj)) (by omega)
  rwa [Nat.add_sub_cancel' h1] at this

/-- Advancing the initialised part by one. -/
theorem Linked.init {cfg : Cfg} {m m' : Mem} {d k per : Nat} {A : List Nat}
    (h : Linked cfg m d k (A ++ List.range' k (per - k))) (hk : k < per) (hA : ∀ i ∈ A, i < k)
    (he : ∀ i, i < k → m'.rd (d + i * cfg.obj) 4 = m.rd (d + i * cfg.obj) 4)
    (hw : m'.rd (d + k * cfg.obj) 4 = k + 1) : Linked cfg m' d (k + 1) (A ++ List.range' k (per - k)) := by
  have tail : ∀ n k', k < k' → Linked cfg m' d (k + 1) (List.range' k' n) := by
    intro n
    induction n with
    | zero => intro _ _; trivial
    | succ n ih =>
      intro k' hk'
      rw [List.range'_succ]
      have := ih (k' + 1) (by omega)
      cases n with
      | zero => trivial
      | succ n =>
        rw [List.range'_succ] at this ⊢
        exact ⟨fun hlt => by omega, this⟩
  have last : Linked cfg m' d (k + 1) (List.range' k (per - k)) := by
    obtain ⟨n, hn⟩ : ∃ n, per - k = n + 1 := ⟨per - k - 1, by omega⟩
    rw [hn, List.range'_succ]
    have := tail n (k + 1) (by omega)
    cases n with
    | zero => trivial
    | succ n =>
      rw [List.range'_succ] at this ⊢
      exact ⟨fun _ => hw, this⟩
  clear tail
  generalize List.range' k (per - k) = R at *
  induction A with
  | nil => exact last
  | cons i A ih =>
    have ih := ih (fun x hx => hA x (by simp [hx]))
    cases hAR : A ++ R with
    | nil => rw [List.cons_append, hAR]; trivial
    | cons j B =>
      rw [List.cons_append, hAR] at h ⊢
      rw [hAR] at ih
      have hi := hA i (by simp)
      refine ⟨fun _ => ?_, ih h.2⟩
      rw [he i hi]
      exact h.1 hi

/-- Bytes outside the free objects of `p`. -/
def Outside (cfg : Cfg) (p : Pool) (F : List Nat) (x : Nat) : Prop :=
  ∀ i ∈ F, ¬ (p.data + i * cfg.obj ≤ x ∧ x < p.data + i * cfg.obj + cfg.obj)

section
variable {cfg : Cfg} {m : Mem} {p : Pool} {F : List Nat}

theorem okAccess_slot (hc : CfgOk cfg) (hp : p.data ≠ 0) {i n : Nat} (hi : i < cfg.per) (hn : n ≤ cfg.obj) :
    okAccess cfg p (p.data + i * cfg.obj) n = true := by
  have := slot_le hc hi
  unfold okAccess
  simp only [decide_eq_true_eq]
  exact ⟨hp, by omega, by omega⟩

theorem initOne_spec (hc : CfgOk cfg) (h : POk cfg m p F) :
    ∃ m' k', initOne cfg m p = some (m', { p with numInit := k' }) ∧ POk cfg m' { p with numInit := k' } F ∧
      (∀ i F', F = i :: F' → i < k') ∧ ∀ x, Outside cfg p F x → m' x = m x := by
  obtain ⟨A, hF, hA⟩ := h.shape
  have hobj := hc.obj
  unfold initOne
  by_cases hk : p.numInit < cfg.per
  · rw [if_pos hk, show addrOf cfg p p.numInit = p.data + p.numInit * cfg.obj from rfl,
      okAccess_slot hc h.nz hk (by omega)]
    simp only [if_true]
    have hidx := hc.idx
    rw [Nat.mod_eq_of_lt (show p.numInit + 1 < 2 ^ 32 by omega)]
    refine ⟨_, p.numInit + 1, rfl, ⟨by simp only; omega, ?_, h.nodup, h.count, h.next, ?_, h.nz⟩, ?_, ?_⟩
    · refine ⟨A ++ [p.numInit], ?_, ?_⟩
      · rw [hF]
        obtain ⟨n, hn⟩ : ∃ n, cfg.per - p.numInit = n + 1 := ⟨cfg.per - p.numInit - 1, by omega⟩
        rw [hn, List.range'_succ, show cfg.per - (p.numInit + 1) = n by omega]
        simp
      · intro i hi
        rcases List.mem_append.1 hi with hi | hi
        · have := hA i hi; simp only; omega
        · have := List.mem_singleton.1 hi; simp only; omega
    · have hl := h.links
      rw [hF] at hl ⊢
      refine hl.init hk hA ?_ ?_
      · intro i hi
        refine Mem.rd_wr_out ?_
        rcases Nat.lt_or_gt_of_ne (Nat.ne_of_lt hi) with hlt | hlt
        · have := Nat.mul_le_mul_right cfg.obj (show i + 1 ≤ p.numInit from hlt)
          rw [Nat.succ_mul] at this
          omega
        · omega
      · rw [Mem.rd_wr]
        exact Nat.mod_eq_of_lt (by omega)
    · intro i F' hi
      rw [hi] at hF
      cases A with
      | nil =>
        obtain ⟨n, hn⟩ : ∃ n, cfg.per - p.numInit = n + 1 := ⟨cfg.per - p.numInit - 1, by omega⟩
        rw [hn, List.range'_succ] at hF
        injection hF with hF _
        omega
      | cons a A =>
        injection hF with hF _
        have := hA a (by simp)
        omega
    · intro x hx
      refine Mem.wr_out ?_
      have hmem : p.numInit ∈ F := by
        rw [hF]
        refine List.mem_append.2 (Or.inr ?_)
        rw [List.mem_range'_1]
        omega
      have := hx _ hmem
      omega
  · rw [if_neg hk]
    refine ⟨m, p.numInit, rfl, h, ?_, fun _ _ => rfl⟩
    intro i F' hi
    have hz : cfg.per - p.numInit = 0 := by omega
    rw [hz, List.range'_zero, List.append_nil] at hF
    exact hA i (by rw [← hF, hi]; simp)

/-- `allocInPool` on a pool with a free object. -/
theorem allocInPool_cons (hc : CfgOk cfg) {i : Nat} (h : POk cfg m p (i :: F)) :
    ∃ m' p', allocInPool cfg m p = some (p.data + i * cfg.obj, m', p') ∧ POk cfg m' p' F ∧ p'.data = p.data ∧
      ∀ x, Outside cfg p (i :: F) x → m' x = m x := by
  have hobj := hc.obj
  obtain ⟨m', k', he, h', hk, hout⟩ := initOne_spec hc h
  have hi := hk i F rfl
  unfold allocInPool
  rw [he]
  simp only
  have hcount := h'.count
  simp only [List.length_cons] at hcount
  rw [if_pos (by omega), h'.next, show headOf cfg p.data (i :: F) = p.data + i * cfg.obj from rfl]
  have hshape : ∃ A, F = A ++ List.range' k' (cfg.per - k') ∧ ∀ i ∈ A, i < k' := by
    obtain ⟨A, hF, hA⟩ := h'.shape
    simp only at hF hA
    cases A with
    | nil =>
      exfalso
      rw [List.nil_append] at hF
      have : i ∈ List.range' k' (cfg.per - k') := by rw [← hF]; simp
      rw [List.mem_range'_1] at this
      omega
    | cons a A =>
      injection hF with hF1 hF2
      exact ⟨A, hF2, fun x hx => hA x (by simp [hx])⟩
  have hnd := (List.nodup_cons.1 h'.nodup).2
  cases F with
  | nil =>
    simp only [List.length_nil, Nat.zero_add] at hcount
    simp only [hcount, Nat.sub_self, ne_eq, not_true_eq_false, if_false]
    refine ⟨_, _, rfl, ?_, rfl, hout⟩
    exact ⟨h'.init, hshape, hnd, rfl, rfl, trivial, h'.nz⟩
  | cons j F =>
    simp only [List.length_cons] at hcount
    rw [if_pos (by omega), if_pos (okAccess_slot (p := { p with next := p.data + i * cfg.obj, numInit := k' }) hc h'.nz
      (h'.lt (by simp)) (by omega))]
    refine ⟨_, _, rfl, ?_, rfl, hout⟩
    refine ⟨h'.init, hshape, hnd, by simp only [List.length_cons]; omega, ?_, h'.links.2, h'.nz⟩
    simp only [addrOf]
    rw [h'.links.1 hi]
    rfl

/-- `allocInPool` on a full pool. -/
theorem allocInPool_nil (h : POk cfg m p []) : allocInPool cfg m p = some (0, m, p) := by
  have hk : ¬ p.numInit < cfg.per := by
    intro hlt
    obtain ⟨A, hF, _⟩ := h.shape
    have := congrArg List.length hF
    simp at this
    omega
  have hn : p.numFree = 0 := h.count
  unfold allocInPool initOne
  rw [if_neg hk]
  simp only [hn, gt_iff_lt, Nat.lt_irrefl, if_false]

theorem mkPool_ok (hc : CfgOk cfg) {d : Nat} (hd : d ≠ 0) : POk cfg m (mkPool cfg d) (List.range' 0 cfg.per) := by
  refine ⟨Nat.zero_le _, ⟨[], by simp [mkPool], by simp⟩, List.nodup_range', by simp [mkPool], ?_, ?_, hd⟩
  · obtain ⟨n, hn⟩ : ∃ n, cfg.per = n + 1 := ⟨cfg.per - 1, by have := hc.per; omega⟩
    rw [hn, List.range'_succ]
    simp [mkPool, headOf]
  · have : ∀ n k, Linked cfg m d 0 (List.range' k n) := by
      intro n
      induction n with
      | zero => intro _; trivial
      | succ n ih =>
        intro k
        rw [List.range'_succ]
        have := ih (k + 1)
        cases n with
        | zero => trivial
        | succ n =>
          rw [List.range'_succ] at this ⊢
          exact ⟨fun h => absurd h (Nat.not_lt_zero _), this⟩
    exact this _ _

/-- Deallocation in the pool that owns the object. -/
theorem freeIn_spec (hc : CfgOk cfg) (h : POk cfg m p F) {i : Nat} (hi : i < cfg.per) (hF : i ∉ F) :
    ∃ m' p', freeIn cfg m p (p.data + i * cfg.obj) = some (m', p') ∧ POk cfg m' p' (i :: F) ∧ p'.data = p.data ∧
      ∀ x, ¬ (p.data + i * cfg.obj ≤ x ∧ x < p.data + i * cfg.obj + cfg.obj) → m' x = m x := by
  have hobj := hc.obj
  obtain ⟨A, hFA, hA⟩ := h.shape
  have hinit : i < p.numInit := by
    apply Classical.byContradiction
    intro hge
    apply hF
    rw [hFA]
    refine List.mem_append.2 (Or.inr ?_)
    rw [List.mem_range'_1]
    omega
  have hshape : ∃ A, i :: F = A ++ List.range' p.numInit (cfg.per - p.numInit) ∧ ∀ i ∈ A, i < p.numInit := by
    refine ⟨i :: A, by rw [hFA]; rfl, ?_⟩
    intro x hx
    rcases List.mem_cons.1 hx with rfl | hx
    · exact hinit
    · exact hA x hx
  have hnd : (i :: F).Nodup := List.nodup_cons.2 ⟨hF, h.nodup⟩
  have hfar : ∀ j ∈ F, ∀ n v, n ≤ cfg.obj →
      (m.wr (p.data + i * cfg.obj) n v).rd (p.data + j * cfg.obj) 4 = m.rd (p.data + j * cfg.obj) 4 := by
    intro j hj n v hn
    refine Mem.rd_wr_out ?_
    have hne : i ≠ j := fun e => hF (e ▸ hj)
    rcases Nat.lt_or_gt_of_ne hne with hlt | hlt
    · have := Nat.mul_le_mul_right cfg.obj (show i + 1 ≤ j from hlt)
      rw [Nat.succ_mul] at this
      omega
    · have := Nat.mul_le_mul_right cfg.obj (show j + 1 ≤ i from hlt)
      rw [Nat.succ_mul] at this
      omega
  unfold freeIn
  rw [h.next]
  cases F with
  | nil =>
    rw [if_neg (by simp [headOf]), if_pos (okAccess_slot hc h.nz hi (by omega))]
    refine ⟨_, _, rfl, ⟨h.init, hshape, hnd, ?_, rfl, trivial, h.nz⟩, rfl, fun x hx => Mem.wr_out (by omega)⟩
    have := h.count
    simp only [List.length_nil, List.length_cons] at *
    omega
  | cons j F =>
    have hnz := h.nz
    rw [if_pos (by simp only [headOf]; omega),
      if_pos (okAccess_slot hc h.nz hi (by omega))]
    refine ⟨_, _, rfl, ⟨h.init, hshape, hnd, ?_, rfl, ⟨fun _ => ?_, ?_⟩, h.nz⟩, rfl, fun x hx => Mem.wr_out (by omega)⟩
    · have := h.count
      simp only [List.length_cons] at *
      omega
    · rw [Mem.rd_wr]
      simp only [headOf]
      rw [Nat.add_sub_cancel_left, Nat.mul_div_cancel _ (by omega)]
      refine Nat.mod_eq_of_lt ?_
      have := h.lt (i := j) (by simp)
      have := hc.idx
      omega
    · exact h.links.congr fun x hx _ => hfar x hx 4 _ (by omega)

end

/-! ## All pools together -/

/-- The loop over the pools: the first one with a free object serves the request. -/
theorem allocLoop_spec {cfg : Cfg} (hc : CfgOk cfg) {m : Mem} {G : Ghost} (h : ∀ g ∈ G, POk cfg m g.1 g.2) :
    (∀ g ∈ G, g.2 = []) ∧ allocLoop cfg m (G.map (·.1)) = some (0, m, G.map (·.1)) ∨
    ∃ a p i F b m' p', G = a ++ (p, i :: F) :: b ∧
      allocLoop cfg m (G.map (·.1)) = some (p.data + i * cfg.obj, m', (a ++ (p', F) :: b).map (·.1)) ∧
      POk cfg m' p' F ∧ p'.data = p.data ∧ ∀ x, Outside cfg p (i :: F) x → m' x = m x := by
  induction G with
  | nil => left; exact ⟨by simp, rfl⟩
  | cons g G ih =>
    obtain ⟨p, F⟩ := g
    have hp := h (p, F) (by simp)
    simp only at hp
    cases F with
    | nil =>
      have he := allocInPool_nil hp
      simp only [List.map_cons]
      unfold allocLoop
      rw [he]
      simp only [ne_eq, not_true_eq_false, if_false]
      rcases ih fun g hg => h g (by simp [hg]) with ⟨h1, h2⟩ | ⟨a, q, i, F, b, m', p', h1, h2, h3⟩
      · left
        rw [h2]
        refine ⟨?_, rfl⟩
        intro g hg
        rcases List.mem_cons.1 hg with rfl | hg
        · rfl
        · exact h1 g hg
      · right
        rw [h2]
        exact ⟨(p, []) :: a, q, i, F, b, m', p', by rw [h1]; rfl, rfl, h3⟩
    | cons i F =>
      right
      obtain ⟨m', p', he, h1, h2, h3⟩ := allocInPool_cons hc hp
      refine ⟨[], p, i, F, G, m', p', rfl, ?_, h1, h2, h3⟩
      simp only [List.map_cons]
      unfold allocLoop
      rw [he]
      simp only
      rw [if_pos (by have := hp.nz; omega)]
      rfl

section
variable {cfg : Cfg} {m : Mem} {G : Ghost} {O L : Held}

theorem Inv.pw (h : Inv cfg m G O L) : (G.map (rng cfg)).Pairwise fun a b => Disj a.1 a.2 b.1 b.2 :=
  List.Pairwise.perm h.disj h.held (fun h => h.symm)

theorem Inv.pool_disj {a b : Ghost} {g q : Pool × List Nat} (h : Inv cfg m (a ++ g :: b) O L)
    (hq : q ∈ a ∨ q ∈ b) : Disj q.1.data cfg.data g.1.data cfg.data := by
  have h1 := h.pw
  rw [List.pairwise_map, List.pairwise_append] at h1
  rcases hq with hq | hq
  · exact h1.2.2 q hq g (by simp)
  · exact (List.pairwise_cons.1 h1.2.1).1 q hq |>.symm

/-- Change one pool and only memory of that pool. -/
theorem Inv.replace (hc : CfgOk cfg) {a b : Ghost} {p p' : Pool} {F F' : List Nat} {m' : Mem} {L' : Held}
    (h : Inv cfg m (a ++ (p, F) :: b) O L) (hp : POk cfg m' p' F') (hd : p'.data = p.data)
    (hm : ∀ x, ¬ (p.data ≤ x ∧ x < p.data + cfg.data) → m' x = m x)
    (hL : L'.Perm ((a ++ (p', F') :: b).flatMap (objs cfg))) : Inv cfg m' (a ++ (p', F') :: b) O L' := by
  have hothers : ∀ g, g ∈ a ∨ g ∈ b → POk cfg m' g.1 g.2 := by
    intro g hg
    have hdj := h.pool_disj hg
    simp only at hdj
    have hgo := h.pools g (by rcases hg with hg | hg <;> simp [hg])
    refine hgo.congr hc fun i hi x hx => hm _ ?_
    have := slot_le hc (hgo.lt hi)
    unfold Disj at hdj
    omega
  refine ⟨?_, ?_, h.disj, hL⟩
  · intro g hg
    simp only [List.mem_append, List.mem_cons] at hg
    rcases hg with hg | rfl | hg
    · exact hothers g (Or.inl hg)
    · exact hp
    · exact hothers g (Or.inr hg)
  · have := h.held
    simp only [List.map_append, List.map_cons, rng, hd] at this ⊢
    exact this

theorem used_cons {F : List Nat} {i : Nat} (hi : i < cfg.per) (hF : i ∉ F) :
    (used cfg F).Perm (i :: used cfg (i :: F)) := by
  refine filter_range_add hi (by simp) (by simp [hF]) ?_
  intro j hj
  simp [hj]

theorem live_alloc {a b : Ghost} {p p' : Pool} {F : List Nat} {i : Nat} (hi : i < cfg.per) (hF : i ∉ F)
    (hd : p'.data = p.data) :
    ((a ++ (p', F) :: b).flatMap (objs cfg)).Perm
      ((p.data + i * cfg.obj, cfg.obj) :: (a ++ (p, i :: F) :: b).flatMap (objs cfg)) := by
  simp only [List.flatMap_append, List.flatMap_cons]
  refine perm_mid ?_
  have := (used_cons (cfg := cfg) hi hF).map fun i => (p.data + i * cfg.obj, cfg.obj)
  unfold objs
  simp only [hd]
  exact this

theorem slot_in {d : Nat} (hc : CfgOk cfg) {i : Nat} (hi : i < cfg.per) :
    Within (d + i * cfg.obj) cfg.obj d cfg.data := by
  have := slot_le hc hi
  unfold Within
  omega

/-- A live object is a slot of one of the pools that is not in its free list. -/
theorem Inv.slot (h : Inv cfg m G O L) {l : Nat × Nat} (hl : l ∈ L) :
    ∃ a p F b i, G = a ++ (p, F) :: b ∧ i < cfg.per ∧ i ∉ F ∧ l = (p.data + i * cfg.obj, cfg.obj) := by
  obtain ⟨⟨p, F⟩, hp, hlp⟩ := List.mem_flatMap.1 (h.live.mem_iff.1 hl)
  obtain ⟨i, hi, rfl⟩ := List.mem_map.1 hlp
  obtain ⟨hi1, hi2⟩ := List.mem_filter.1 hi
  obtain ⟨a, b, hs⟩ := List.append_of_mem hp
  exact ⟨a, p, F, b, i, hs, List.mem_range.1 hi1, by simpa using hi2, rfl⟩

/-- Bytes of live objects are outside the free objects of every pool. -/
theorem Inv.live_outside (hc : CfgOk cfg) (h : Inv cfg m G O L) {l : Nat × Nat} (hl : l ∈ L) {g : Pool × List Nat}
    (hg : g ∈ G) {x : Nat} (hx : l.1 ≤ x ∧ x < l.1 + l.2) : Outside cfg g.1 g.2 x := by
  obtain ⟨a, p, F, b, i, hs, hi, hiF, rfl⟩ := h.slot hl
  intro j hj hin
  have hgo := h.pools g hg
  have hj' := slot_le hc (hgo.lt hj)
  have hi' := slot_le hc hi
  by_cases hgp : g = (p, F)
  · subst hgp
    simp only at *
    have hne : i ≠ j := fun e => hiF (e ▸ hj)
    refine slot_disj (obj := cfg.obj) hne (x := x - (p.data + i * cfg.obj)) (y := x - (p.data + j * cfg.obj))
      (by omega) (by omega) (by omega)
  · have hgm : g ∈ a ∨ g ∈ b := by
      rw [hs] at hg
      simp only [List.mem_append, List.mem_cons] at hg
      rcases hg with hg | hg | hg
      · exact Or.inl hg
      · exact absurd hg hgp
      · exact Or.inr hg
    have hd := (hs ▸ h).pool_disj hgm
    unfold Disj at hd
    simp only at *
    omega

theorem Inv.live_pw (hc : CfgOk cfg) (h : Inv cfg m G O L) : L.Pairwise fun x y => Disj x.1 x.2 y.1 y.2 := by
  refine List.Pairwise.perm ?_ h.live.symm (fun h => h.symm)
  have h1 := h.pw
  rw [List.pairwise_map] at h1
  rw [List.flatMap, List.pairwise_flatten]
  constructor
  · intro l hl
    obtain ⟨p, hp, rfl⟩ := List.mem_map.1 hl
    unfold objs
    rw [List.pairwise_map]
    refine List.Pairwise.imp ?_ ((List.nodup_range (n := cfg.per)).filter _)
    intro i j hij
    unfold Disj
    simp only
    rcases Nat.lt_or_gt_of_ne hij with hlt | hlt
    · have := Nat.mul_le_mul_right cfg.obj (show i + 1 ≤ j from hlt)
      rw [Nat.succ_mul] at this
      omega
    · have := Nat.mul_le_mul_right cfg.obj (show j + 1 ≤ i from hlt)
      rw [Nat.succ_mul] at this
      omega
  · rw [List.pairwise_map]
    refine h1.imp ?_
    intro p q hd x hx y hy
    obtain ⟨i, hi, rfl⟩ := List.mem_map.1 hx
    obtain ⟨j, hj, rfl⟩ := List.mem_map.1 hy
    exact Disj.of_within hd (slot_in hc (List.mem_range.1 (List.mem_filter.1 hi).1))
      (slot_in hc (List.mem_range.1 (List.mem_filter.1 hj).1))

theorem Inv.live_keys (hc : CfgOk cfg) (h : Inv cfg m G O L) : (L.map (·.1)).Nodup := by
  rw [List.Nodup, List.pairwise_map]
  refine List.Pairwise.imp_of_mem ?_ (h.live_pw hc)
  intro x y hx hy hd
  obtain ⟨_, _, _, _, _, _, _, _, rfl⟩ := h.slot hx
  obtain ⟨_, _, _, _, _, _, _, _, rfl⟩ := h.slot hy
  have := hc.obj
  unfold Disj at hd
  simp only at hd ⊢
  omega

/-- Contents of live objects are the same in both memories. -/
def Same (L : Held) (m m' : Mem) : Prop := ∀ l ∈ L, ∀ x, l.1 ≤ x → x < l.1 + l.2 → m' x = m x

theorem allocate_some (hc : CfgOk cfg) (h : Inv cfg m G O L) (hf : ∃ g ∈ G, g.2 ≠ []) (fuel : Nat) :
    ∃ ptr m' G', allocate cfg (fuel + 1) ⟨m, G.map (·.1)⟩ = .ret (ptr, ⟨m', G'.map (·.1)⟩) ∧
      Inv cfg m' G' O ((ptr, cfg.obj) :: L) ∧ Same L m m' ∧ ptr ≠ 0 := by
  have hrev : ∀ g ∈ G.reverse, POk cfg m g.1 g.2 := fun g hg => h.pools g (List.mem_reverse.1 hg)
  rcases allocLoop_spec hc hrev with ⟨h1, _⟩ | ⟨a, p, i, F, b, m', p', h1, h2, h3, h4, h5⟩
  · obtain ⟨g, hg, hne⟩ := hf
    exact absurd (h1 g (List.mem_reverse.2 hg)) hne
  · have hG : G = b.reverse ++ (p, i :: F) :: a.reverse := by
      have := congrArg List.reverse h1
      simpa using this
    have hpo := h.pools (p, i :: F) (by rw [hG]; simp)
    have hi := hpo.lt (i := i) (by simp)
    have hiF := (List.nodup_cons.1 hpo.nodup).1
    have hnz := hpo.nz
    simp only at hnz
    refine ⟨p.data + i * cfg.obj, m', b.reverse ++ (p', F) :: a.reverse, ?_, ?_, ?_, by omega⟩
    · unfold allocate
      simp only
      rw [← List.map_reverse, h2]
      simp only
      rw [if_pos (by omega)]
      simp
    · have hl := h.live
      rw [hG] at h hl
      refine h.replace hc h3 h4 ?_ ((hl.cons _).trans (live_alloc hi hiF h4).symm)
      intro x hx
      refine h5 x fun j hj => ?_
      have := slot_le hc (hpo.lt hj)
      omega
    · intro l hl x h6 h7
      exact h5 x (h.live_outside hc hl (g := (p, i :: F)) (by rw [hG]; simp) ⟨h6, h7⟩)

theorem allocate_full (hc : CfgOk cfg) (h : Inv cfg m G O L) (hf : ∀ g ∈ G, g.2 = []) (fuel : Nat) :
    allocate cfg (fuel + 1) ⟨m, G.map (·.1)⟩ =
      .alloc cfg.data fun r => allocate cfg fuel ⟨m, G.map (·.1) ++ [mkPool cfg (r.getD 0)]⟩ := by
  have hrev : ∀ g ∈ G.reverse, POk cfg m g.1 g.2 := fun g hg => h.pools g (List.mem_reverse.1 hg)
  rcases allocLoop_spec hc hrev with ⟨_, h2⟩ | ⟨a, p, i, F, b, m', p', h1, _⟩
  · conv => lhs; unfold allocate
    simp only
    rw [← List.map_reverse, h2]
    simp
  · have := hf (p, i :: F) (List.mem_reverse.1 (by rw [h1]; simp))
    cases this

theorem Inv.add (hc : CfgOk cfg) (h : Inv cfg m G O L) {d : Nat} (hd : Fresh d cfg.data O) :
    Inv cfg m (G ++ [(mkPool cfg d, List.range' 0 cfg.per)]) ((d, cfg.data) :: O) L := by
  obtain ⟨hd1, hd2, hd3⟩ := hd
  refine ⟨?_, ?_, List.pairwise_cons.2 ⟨hd3, h.disj⟩, ?_⟩
  · intro g hg
    rcases List.mem_append.1 hg with hg | hg
    · exact h.pools g hg
    · rw [List.mem_singleton.1 hg]
      exact mkPool_ok hc hd1
  · rw [List.map_append]
    exact (h.held.cons _).trans (List.perm_append_singleton _ _).symm
  · have : used cfg (List.range' 0 cfg.per) = [] := by
      unfold used
      rw [List.filter_eq_nil_iff]
      intro i hi
      have := List.mem_range.1 hi
      simp [List.mem_range'_1, this]
    simp only [List.flatMap_append, List.flatMap_cons, List.flatMap_nil, objs, this, List.map_nil, List.append_nil]
    exact h.live

theorem deallocLoop_at {ptr : Nat} {a b : List Pool} {p : Pool} (ha : ∀ x ∈ a, inPool cfg x ptr = false)
    (hp : inPool cfg p ptr = true) :
    deallocLoop cfg m ptr (a ++ p :: b) = some ((freeIn cfg m p ptr).map fun r => (r.1, a ++ r.2 :: b)) := by
  induction a with
  | nil => simp only [List.nil_append]; unfold deallocLoop; rw [if_pos hp]
  | cons x xs ih =>
    simp only [List.cons_append]
    unfold deallocLoop
    rw [if_neg (by rw [ha x (by simp)]; simp), ih (fun y hy => ha y (by simp [hy]))]
    simp [Option.map_map, Function.comp_def]

theorem deallocate_live (hc : CfgOk cfg) (h : Inv cfg m G O L) {l : Nat × Nat} (hl : l ∈ L) :
    ∃ m' G', deallocate cfg ⟨m, G.map (·.1)⟩ l.1 = .ret (true, ⟨m', G'.map (·.1)⟩) ∧
      Inv cfg m' G' O (drop l.1 L) ∧ Same (drop l.1 L) m m' ∧ ∃ g ∈ G', g.2 ≠ [] := by
  have hpw := h.live_pw hc
  have hperm := drop_perm (h.live_keys hc) hl
  obtain ⟨a, p, F, b, i, rfl, hi, hiF, rfl⟩ := h.slot hl
  have hobj := hc.obj
  have hpo := h.pools (p, F) (by simp)
  simp only at hpo
  have hw := slot_le hc hi
  have hin : inPool cfg p (p.data + i * cfg.obj) = true := by
    unfold inPool
    simp only [decide_eq_true_eq]
    omega
  have hne : ∀ x ∈ a.map (·.1), inPool cfg x (p.data + i * cfg.obj) = false := by
    intro x hx
    obtain ⟨g, hg, rfl⟩ := List.mem_map.1 hx
    have hd := h.pool_disj (Or.inl hg)
    unfold inPool Disj at *
    simp only [decide_eq_false_iff_not] at *
    omega
  obtain ⟨m', p', he, h1, h2, h3⟩ := freeIn_spec hc hpo hi hiF
  have hdl := deallocLoop_at (m := m) (b := b.map (·.1)) hne hin
  rw [he] at hdl
  refine ⟨m', a ++ (p', i :: F) :: b, ?_, ?_, ?_, (p', i :: F), by simp, by simp⟩
  · unfold deallocate
    simp only [List.map_append, List.map_cons]
    rw [hdl]
    rfl
  · have hl2 := h.live
    refine h.replace hc h1 h2 (fun x hx => h3 x (by omega)) ?_
    have h4 := live_alloc (cfg := cfg) (a := a) (b := b) (p := p') (p' := p) (F := F) hi hiF h2.symm
    have h5 := hperm.trans (hl2.trans h4)
    rw [h2] at h5
    exact h5.cons_inv
  · intro l' hl' x h6 h7
    refine h3 x ?_
    have hp2 := List.Pairwise.perm hpw hperm.symm (fun h => h.symm)
    have hd := (List.pairwise_cons.1 hp2).1 l' hl'
    unfold Disj at hd
    simp only at hd
    omega

/-- The user may write anything into live objects. -/
theorem Inv.write (hc : CfgOk cfg) (h : Inv cfg m G O L) {m' : Mem}
    (hm : ∀ x, (∀ l ∈ L, ¬ (l.1 ≤ x ∧ x < l.1 + l.2)) → m' x = m x) : Inv cfg m' G O L := by
  refine ⟨fun g hg => ?_, h.held, h.disj, h.live⟩
  have hgo := h.pools g hg
  refine hgo.congr hc fun i hi x hx => hm _ fun l hl hin => ?_
  exact h.live_outside hc hl hg hin i hi (by omega)

theorem destroy_wp {ps : List Pool} (hO : O.Perm (ps.map fun p => (p.data, cfg.data))) (hn : (O.map (·.1)).Nodup) :
    (destroy cfg ps).wp NoBad O fun _ O' => O' = [] := by
  induction ps generalizing O with
  | nil => exact List.Perm.eq_nil (by simpa using hO)
  | cons p ps ih =>
    refine ⟨⟨hO.mem_iff.2 (by simp), trivial⟩, ?_⟩
    have hn2 := (hO.map (·.1)).nodup_iff.1 hn
    refine ih ?_ (hn.sublist (List.filter_sublist.map _))
    refine perm_filter_key _ hO (by simp) ?_
    intro y hy
    have := (List.nodup_cons.1 hn2).1
    simp only [ne_eq, decide_not, Bool.not_eq_true', decide_eq_false_iff_not]
    intro he
    exact this (List.mem_map.2 ⟨y, hy, he⟩)

end
end Umpire.MallocPool
