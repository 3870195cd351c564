import Verif.MallocPool.Inv
/-!
# Properties of `FixedMallocPool` (C13)
-/
set_option autoImplicit false
set_option linter.unusedSimpArgs false
namespace Umpire.MallocPool
open Umpire.Prog
open Umpire.QuickPool (drop_perm)

/-- A pool together with the ghost view of its two neighbours. -/
structure Sys where
  st : State
  held : Held
  live : Held

/-- One step: an operation that completes, or the user changing the contents of
live objects in any way.  Only live objects are deallocated. -/
inductive Step (cfg : Cfg) : Sys → Sys → Prop where
  | alloc {S : Sys} {fuel p s' O'} : Run (allocate cfg (fuel + 2) S.st) S.held (p, s') O' →
      Step cfg S ⟨s', O', (p, cfg.obj) :: S.live⟩
  | dealloc {S : Sys} {p n b s' O'} : (p, n) ∈ S.live → Run (deallocate cfg S.st p) S.held (b, s') O' →
      Step cfg S ⟨s', O', drop p S.live⟩
  | write {S : Sys} {m : Mem} : (∀ x, (∀ l ∈ S.live, ¬ (l.1 ≤ x ∧ x < l.1 + l.2)) → m x = S.st.mem x) →
      Step cfg S ⟨⟨m, S.st.pools⟩, S.held, S.live⟩

/-- Everything that can happen to a pool whose construction succeeded, with any
initial memory contents. -/
inductive Reach (cfg : Cfg) : Sys → Prop where
  | init {m s O} : Run (create cfg m) [] s O → O ≠ [] → Reach cfg ⟨s, O, []⟩
  | step {S T : Sys} : Reach cfg S → Step cfg S T → Reach cfg T

/-- The invariant, in terms of what is reachable. -/
def SInv (cfg : Cfg) (S : Sys) : Prop := ∃ G : Ghost, S.st.pools = G.map (·.1) ∧ Inv cfg S.st.mem G S.held S.live

theorem sum_used {cfg : Cfg} {m : Mem} {G : Ghost} (h : ∀ g ∈ G, POk cfg m g.1 g.2) :
    (G.flatMap (objs cfg)).length + (G.map fun g => g.2.length).sum = cfg.per * G.length := by
  induction G with
  | nil => rfl
  | cons g G ih =>
    have hg := h g (by simp)
    have h2 := ih fun q hq => h q (by simp [hq])
    have h1 : (used cfg g.2).length + g.2.length = cfg.per := by
      have hp : ((List.range cfg.per).filter fun i => !decide (i ∉ g.2)).Perm g.2 := by
        rw [List.perm_ext_iff_of_nodup (List.nodup_range.filter _) hg.nodup]
        intro i
        simp only [List.mem_filter, List.mem_range, decide_not, Bool.not_not, decide_eq_true_eq]
        exact ⟨fun h => h.2, fun h => ⟨hg.lt h, h⟩⟩
      have h3 := (List.filter_append_perm (fun i => decide (i ∉ g.2)) (List.range cfg.per)).length_eq
      rw [List.length_append, List.length_range, hp.length_eq] at h3
      unfold used
      omega
    simp only [List.flatMap_cons, List.length_append, List.map_cons, List.sum_cons, List.length_cons, Nat.mul_succ, objs,
      List.length_map] at h2 ⊢
    omega

theorem Inv.free_count {cfg : Cfg} {m : Mem} {G : Ghost} {O L : Held} (h : Inv cfg m G O L) :
    L.length + (G.map fun g => g.2.length).sum = cfg.per * O.length := by
  have h1 := sum_used h.pools
  have h2 := h.live.length_eq
  have h3 := h.held.length_eq
  rw [List.length_map] at h3
  rw [h3]
  omega

theorem Inv.not_full {cfg : Cfg} {m : Mem} {G : Ghost} {O L : Held} (h : Inv cfg m G O L)
    (hlt : L.length < cfg.per * O.length) : ∃ g ∈ G, g.2 ≠ [] := by
  apply Classical.byContradiction
  intro hno
  have hz : (G.map fun g => g.2.length).sum = 0 := by
    rw [List.sum_eq_zero_iff_forall_eq_nat]
    intro x hx
    obtain ⟨g, hg, rfl⟩ := List.mem_map.1 hx
    apply Classical.byContradiction
    intro hne
    exact hno ⟨g, hg, fun he => hne (by rw [he]; rfl)⟩
  have := h.free_count
  omega

theorem Inv.full {cfg : Cfg} {m : Mem} {G : Ghost} {O L : Held} (h : Inv cfg m G O L)
    (hle : cfg.per * O.length ≤ L.length) : ∀ g ∈ G, g.2 = [] := by
  intro g hg
  have h1 := h.free_count
  have h2 : g.2.length ≤ (G.map fun g => g.2.length).sum := le_sum_of_mem (List.mem_map.2 ⟨g, hg, rfl⟩)
  exact List.length_eq_zero_iff.1 (by omega)

/-- The new pool serves the request. -/
theorem allocate_grown {cfg : Cfg} (hc : CfgOk cfg) {m : Mem} {G : Ghost} {O L : Held} (h : Inv cfg m G O L)
    (d : Nat) (hd : Fresh d cfg.data O) (fuel : Nat) :
    ∃ ptr m' G', allocate cfg (fuel + 1) ⟨m, G.map (·.1) ++ [mkPool cfg d]⟩ = .ret (ptr, ⟨m', G'.map (·.1)⟩) ∧
      Inv cfg m' G' ((d, cfg.data) :: O) ((ptr, cfg.obj) :: L) ∧ Same L m m' ∧ ptr ≠ 0 := by
  have h1 := h.add hc hd
  have h2 := allocate_some hc h1 ⟨(mkPool cfg d, List.range' 0 cfg.per), by simp, ?_⟩ fuel
  · simpa using h2
  · have hp := hc.per
    simp only [ne_eq]
    intro he
    have := congrArg List.length he
    simp at this
    omega

/-- After a refused request the program writes through a null pointer. -/
theorem allocate_null {cfg : Cfg} (hc : CfgOk cfg) {m : Mem} {ps : List Pool} (fuel : Nat) :
    allocate cfg (fuel + 1) ⟨m, ps ++ [mkPool cfg 0]⟩ = .fail .ub := by
  have hp := hc.per
  have : allocInPool cfg m (mkPool cfg 0) = none := by
    unfold allocInPool initOne
    rw [if_pos (by simp only [mkPool]; omega)]
    have : okAccess cfg (mkPool cfg 0) (addrOf cfg (mkPool cfg 0) (mkPool cfg 0).numInit) 4 = false := by
      simp [okAccess, mkPool]
    rw [this]
    rfl
  unfold allocate
  simp only [List.reverse_append, List.reverse_cons, List.reverse_nil, List.nil_append, List.singleton_append]
  unfold allocLoop
  rw [this]

theorem allocate_run {cfg : Cfg} (hc : CfgOk cfg) {S : Sys} (h : SInv cfg S) {fuel p : Nat} {s' : State} {O' : Held}
    (hr : Run (allocate cfg (fuel + 2) S.st) S.held (p, s') O') :
    SInv cfg ⟨s', O', (p, cfg.obj) :: S.live⟩ ∧ Same S.live S.st.mem s'.mem ∧ p ≠ 0 := by
  obtain ⟨G, hG, hi⟩ := h
  have hst : S.st = ⟨S.st.mem, G.map (·.1)⟩ := by rw [← hG]
  rw [hst] at hr
  rcases Nat.lt_or_ge S.live.length (cfg.per * S.held.length) with hlt | hge
  · obtain ⟨ptr, m', G', he, h1, h2, h3⟩ := allocate_some hc hi (hi.not_full hlt) (fuel + 1)
    rw [he] at hr
    cases hr
    exact ⟨⟨G', rfl, h1⟩, h2, h3⟩
  · rw [allocate_full hc hi (hi.full hge)] at hr
    cases hr with
    | @allocOk _ _ _ d _ _ hd hr =>
      obtain ⟨ptr, m', G', he, h1, h2, h3⟩ := allocate_grown hc hi d hd fuel
      simp only [Option.getD_some] at hr
      rw [he] at hr
      cases hr
      exact ⟨⟨G', rfl, h1⟩, h2, h3⟩
    | allocFail hr =>
      simp only [Option.getD_none] at hr
      rw [allocate_null hc] at hr
      cases hr

theorem deallocate_run {cfg : Cfg} (hc : CfgOk cfg) {S : Sys} (h : SInv cfg S) {p n : Nat} (hl : (p, n) ∈ S.live) :
    ∃ s', deallocate cfg S.st p = .ret (true, s') ∧ SInv cfg ⟨s', S.held, drop p S.live⟩ ∧
      Same (drop p S.live) S.st.mem s'.mem := by
  obtain ⟨G, hG, hi⟩ := h
  have hst : S.st = ⟨S.st.mem, G.map (·.1)⟩ := by rw [← hG]
  obtain ⟨m', G', he, h1, h2, h3⟩ := deallocate_live hc hi hl
  simp only at he h1 h2
  rw [hst]
  exact ⟨_, he, ⟨G', rfl, h1⟩, h2⟩

theorem reach_inv {cfg : Cfg} (hc : CfgOk cfg) {S : Sys} (h : Reach cfg S) : SInv cfg S := by
  induction h with
  | @init m s O hr hO =>
    cases hr with
    | @allocOk _ _ _ d _ _ hd hr =>
      cases hr
      have h0 : Inv cfg m [] [] [] := ⟨by simp, by simp, List.Pairwise.nil, by simp⟩
      exact ⟨_, rfl, h0.add hc hd⟩
    | allocFail hr => cases hr; exact absurd rfl hO
  | step _ hs ih =>
    cases hs with
    | alloc hr => exact (allocate_run hc ih hr).1
    | dealloc hl hr =>
      obtain ⟨s', he, h1, _⟩ := deallocate_run hc ih hl
      rw [he] at hr
      cases hr
      exact h1
    | write hm =>
      obtain ⟨G, hG, hi⟩ := ih
      exact ⟨G, hG, hi.write hc hm⟩

/-! ## Non-vacuity: five objects allocated with two per pool, two of them freed -/

def cfgX : Cfg := { obj := 16, per := 2 }

theorem cfgX_ok : CfgOk cfgX := ⟨by decide, by decide, by decide, by decide⟩

/-- Scripted history: `inl` allocates with the given answers of `malloc`, `inr`
deallocates. -/
def play (cfg : Cfg) (d : Nat) (ops : List (List (Option Nat) ⊕ (Nat × Nat))) : Option Sys :=
  match (create cfg fun x => x).exec [some d] [] with
  | .ok (s, _, O) =>
    if O = [] then none
    else ops.foldlM (fun S op =>
      match op with
      | .inl sc =>
        match (allocate cfg 2 S.st).exec sc S.held with
        | .ok ((p, s'), _, O') => some ⟨s', O', (p, cfg.obj) :: S.live⟩
        | .error _ => none
      | .inr l =>
        if l ∈ S.live then
          match (deallocate cfg S.st l.1).exec [] S.held with
          | .ok ((_, s'), _, O') => some ⟨s', O', drop l.1 S.live⟩
          | .error _ => none
        else none) ⟨s, O, []⟩
  | .error _ => none

theorem play_reach {cfg : Cfg} {d : Nat} {ops : List (List (Option Nat) ⊕ (Nat × Nat))} {S : Sys}
    (h : play cfg d ops = some S) : Reach cfg S := by
  unfold play at h
  split at h
  · rename_i s sc O he
    split at h
    · cases h
    · rename_i hO
      have h0 : Reach cfg ⟨s, O, []⟩ := .init (exec_run he) hO
      generalize (⟨s, O, []⟩ : Sys) = S0 at h0 h
      clear he hO
      induction ops generalizing S0 with
      | nil => simp only [List.foldlM_nil] at h; injection h with h; subst h; exact h0
      | cons op ops ih =>
        simp only [List.foldlM_cons, Option.bind_eq_bind, Option.bind_eq_some_iff] at h
        obtain ⟨U, hU, h⟩ := h
        refine ih U (.step h0 ?_) h
        split at hU
        · split at hU
          · injection hU with hU; subst hU; exact .alloc (fuel := 0) (exec_run ‹_›)
          · cases hU
        · split at hU
          · split at hU
            · injection hU with hU; subst hU
              rename_i l hl _ _ _ _ _ he
              exact .dealloc (n := l.2) hl (exec_run he)
            · cases hU
          · cases hU
  · cases h

theorem sysX_exists : ∃ S, Reach cfgX S ∧ S.live = [(1616, 16), (3216, 16), (3200, 16)] ∧ S.held = [(3200, 32), (1600, 32)] := by
  have h0 : (play cfgX 1600 [.inl [], .inl [], .inl [some 3200], .inr (1600, 16), .inr (1616, 16), .inl [],
      .inl []]).map
      (fun S => (S.live, S.held)) = some ([(1616, 16), (3216, 16), (3200, 16)], [(3200, 32), (1600, 32)]) := by decide +kernel
  cases hp : play cfgX 1600 [.inl [], .inl [], .inl [some 3200], .inr (1600, 16), .inr (1616, 16), .inl [],
      .inl []] with
  | none => rw [hp] at h0; cases h0
  | some S =>
    rw [hp] at h0
    simp only [Option.map_some, Option.some.injEq, Prod.mk.injEq] at h0
    exact ⟨S, play_reach hp, h0⟩

/-! ## C13 -/

/-- Live objects are pairwise disjoint and lie inside blocks obtained from
`malloc`.  (So an object is never handed out twice without being freed in
between.)  Partial: only for objects of at least 8 bytes, counts below 2^32, total
size below 2^64 (`CfgOk`), and as long as `malloc` does not fail. -/
theorem mallocpool_live_disjoint_partial {cfg : Cfg} (hc : CfgOk cfg) {S : Sys} (h : Reach cfg S) :
    (S.live.Pairwise fun x y => Disj x.1 x.2 y.1 y.2) ∧
    ∀ l ∈ S.live, l.2 = cfg.obj ∧ ∃ o ∈ S.held, Within l.1 l.2 o.1 o.2 ∧ cfg.obj ∣ l.1 - o.1 := by
  obtain ⟨G, _, hi⟩ := reach_inv hc h
  refine ⟨hi.live_pw hc, fun l hl => ?_⟩
  obtain ⟨a, p, F, b, i, hs, h1, h2, rfl⟩ := hi.slot hl
  refine ⟨rfl, rng cfg (p, F), hi.held.mem_iff.2 (List.mem_map.2 ⟨_, by rw [hs]; simp, rfl⟩), slot_in hc h1, i, ?_⟩
  simp [rng, Nat.mul_comm]

example : ∃ S, Reach cfgX S ∧ S.live.length = 3 ∧ S.live.Pairwise fun x y => Disj x.1 x.2 y.1 y.2 := by
  obtain ⟨S, h1, h2, _⟩ := sysX_exists
  exact ⟨S, h1, by rw [h2]; rfl, (mallocpool_live_disjoint_partial cfgX_ok h1).1⟩

/-- While fewer objects are live than fit the blocks held, no memory is requested
from `malloc`; otherwise exactly one block is. -/
theorem mallocpool_reuses_first {cfg : Cfg} (hc : CfgOk cfg) {S : Sys} (h : Reach cfg S) {fuel p : Nat}
    {s' : State} {O' : Held} {t : List Ev} (hr : RunT (allocate cfg (fuel + 2) S.st) S.held t (p, s') O') :
    (S.live.length < cfg.per * S.held.length → t = [] ∧ O' = S.held) ∧
    (cfg.per * S.held.length ≤ S.live.length →
      ∃ d, t = [.got d (cfg.obj * cfg.per)] ∧ O' = (d, cfg.obj * cfg.per) :: S.held) := by
  obtain ⟨G, hG, hi⟩ := reach_inv hc h
  have hst : S.st = ⟨S.st.mem, G.map (·.1)⟩ := by rw [← hG]
  rw [hst] at hr
  constructor
  · intro hlt
    obtain ⟨ptr, m', G', he, _⟩ := allocate_some hc hi (hi.not_full hlt) (fuel + 1)
    rw [he] at hr
    cases hr
    exact ⟨rfl, rfl⟩
  · intro hge
    rw [allocate_full hc hi (hi.full hge), hc.data] at hr
    cases hr with
    | @allocOk _ _ _ d _ _ _ hd hr =>
      rw [← hc.data] at hd
      obtain ⟨ptr, m', G', he, _⟩ := allocate_grown hc hi d hd fuel
      simp only [Option.getD_some] at hr
      rw [he] at hr
      cases hr
      exact ⟨d, rfl, rfl⟩
    | allocFail hr =>
      simp only [Option.getD_none] at hr
      rw [allocate_null hc] at hr
      cases hr

/-- The pool never changes the contents of live objects, although it keeps its
free list inside its blocks. -/
theorem mallocpool_preserves_contents {cfg : Cfg} (hc : CfgOk cfg) {S : Sys} (h : Reach cfg S) :
    (∀ fuel p s' O', Run (allocate cfg (fuel + 2) S.st) S.held (p, s') O' →
      ∀ l ∈ S.live, ∀ x, l.1 ≤ x → x < l.1 + l.2 → s'.mem x = S.st.mem x) ∧
    (∀ p n b s' O', (p, n) ∈ S.live → Run (deallocate cfg S.st p) S.held (b, s') O' →
      ∀ l ∈ S.live, l.1 ≠ p → ∀ x, l.1 ≤ x → x < l.1 + l.2 → s'.mem x = S.st.mem x) := by
  have hi := reach_inv hc h
  constructor
  · intro fuel p s' O' hr
    exact (allocate_run hc hi hr).2.1
  · intro p n b s' O' hl hr l hl2 hne
    obtain ⟨s1, he, _, h2⟩ := deallocate_run hc hi hl
    rw [he] at hr
    cases hr
    exact h2 l (mem_drop.2 ⟨hl2, hne⟩)

/-- Deallocating a live object succeeds, contacts nobody, and makes room for one
more object. -/
theorem mallocpool_deallocate {cfg : Cfg} (hc : CfgOk cfg) {S : Sys} (h : Reach cfg S) {p n : Nat}
    (hl : (p, n) ∈ S.live) :
    ∃ s', deallocate cfg S.st p = .ret (true, s') ∧ Reach cfg ⟨s', S.held, drop p S.live⟩ ∧
      (drop p S.live).length + 1 = S.live.length := by
  have hi := reach_inv hc h
  obtain ⟨s', he, h1, _⟩ := deallocate_run hc hi hl
  refine ⟨s', he, ?_, ?_⟩
  · have hr : Run (deallocate cfg S.st p) S.held (true, s') S.held := by rw [he]; exact .ret
    exact .step h (.dealloc hl hr)
  obtain ⟨G, _, hi⟩ := hi
  have := (drop_perm (hi.live_keys hc) hl).length_eq
  simpa using this

/-- No invalid memory access and no endless recursion happens, unless `malloc`
has refused a block: `allocate` is safe while objects are left, and also when the
new block it asks for is granted; the destructor frees every block exactly once. -/
theorem mallocpool_safe {cfg : Cfg} (hc : CfgOk cfg) {S : Sys} (h : Reach cfg S) (fuel : Nat) :
    (S.live.length < cfg.per * S.held.length → ∀ b, ¬ Goes (allocate cfg (fuel + 2) S.st) S.held b) ∧
    (cfg.per * S.held.length ≤ S.live.length → ∃ k, allocate cfg (fuel + 2) S.st = .alloc (cfg.obj * cfg.per) k ∧
      ∀ d, Fresh d (cfg.obj * cfg.per) S.held → ∀ b, ¬ Goes (k (some d)) ((d, cfg.obj * cfg.per) :: S.held) b) ∧
    (∀ b, ¬ Goes (destroy cfg S.st.pools) S.held b) ∧
    (∀ u O', Run (destroy cfg S.st.pools) S.held u O' → O' = []) := by
  obtain ⟨G, hG, hi⟩ := reach_inv hc h
  have hst : S.st = ⟨S.st.mem, G.map (·.1)⟩ := by rw [← hG]
  have hd : (destroy cfg S.st.pools).wp NoBad S.held fun _ O' => O' = [] := by
    refine destroy_wp ?_ ?_
    · rw [hG, List.map_map]
      exact hi.held
    · have := hi.pw
      rw [(hi.held.map (·.1)).nodup_iff, List.Nodup, List.pairwise_map]
      refine this.imp_of_mem ?_
      intro x y hx hy hd
      obtain ⟨_, _, rfl⟩ := List.mem_map.1 hx
      obtain ⟨_, _, rfl⟩ := List.mem_map.1 hy
      have := hc.data_pos
      unfold Disj at hd
      simp only [rng] at hd ⊢
      omega
  refine ⟨?_, ?_, fun b hg => wp_safe hd hg, ?_⟩
  · intro hlt b hg
    obtain ⟨ptr, m', G', he, _⟩ := allocate_some hc hi (hi.not_full hlt) (fuel + 1)
    rw [hst, he] at hg
    cases hg
  · intro hge
    rw [hst, allocate_full hc hi (hi.full hge), ← hc.data]
    refine ⟨_, rfl, fun d hd b hg => ?_⟩
    obtain ⟨ptr, m', G', he, _⟩ := allocate_grown hc hi d hd fuel
    simp only [Option.getD_some] at hg
    rw [he] at hg
    cases hg
  · intro u O' hr
    have := wp_run hd hr
    exact this

/-- When `malloc` refuses a block, `allocate` writes through a null pointer. -/
theorem mallocpool_malloc_failure_counterexample :
    ∃ (cfg : Cfg) (S : Sys), CfgOk cfg ∧ Reach cfg S ∧ Goes (allocate cfg 2 S.st) S.held .ub := by
  have h0 : (play cfgX 1600 [.inl [], .inl []]).map
      (fun S => (allocate cfgX 2 S.st).execBad [none] S.held) = some (some .ub) := by decide +kernel
  cases hp : play cfgX 1600 [.inl [], .inl []] with
  | none => rw [hp] at h0; cases h0
  | some S =>
    rw [hp] at h0
    simp only [Option.map_some, Option.some.injEq] at h0
    exact ⟨cfgX, S, cfgX_ok, play_reach hp, execBad_goes _ h0⟩

/-- The user stores a 7 at address 1605. -/
def poke (S : Sys) : Sys := ⟨⟨fun x => if x = 1605 then 7 else S.st.mem x, S.st.pools⟩, S.held, S.live⟩

/-- What can be seen of deallocating 1600 after that. -/
def probe (S : Sys) : (Held × Held) × Option ((Bool × Nat) × Held) :=
  ((S.live, S.held), ((deallocate ⟨4, 2⟩ (poke S).st 1600).execOk [] S.held).map fun r => ((r.1.1, r.1.2.mem 1605), r.2))

set_option synthInstance.maxSize 1000 in
/-- With objects smaller than 8 bytes, deallocating overwrites the neighbouring
live object: here an object at 1600 is deallocated and the byte at 1605, inside
the live object at 1604, changes. -/
theorem mallocpool_small_objects_counterexample :
    ∃ (cfg : Cfg) (S : Sys) (s' : State), cfg.obj = 4 ∧ Reach cfg S ∧ S.live = [(1604, 4), (1600, 4)] ∧
      Run (deallocate cfg S.st 1600) S.held (true, s') S.held ∧ s'.mem 1605 ≠ S.st.mem 1605 := by
  have h0 : (play ⟨4, 2⟩ 1600 [.inl [], .inl []]).map probe =
      some (([(1604, 4), (1600, 4)], [(1600, 8)]), some ((true, 0), [(1600, 8)])) := by decide +kernel
  cases hp : play ⟨4, 2⟩ 1600 [.inl [], .inl []] with
  | none => rw [hp] at h0; cases h0
  | some S =>
    rw [hp] at h0
    simp only [Option.map_some, Option.some.injEq, probe, Prod.mk.injEq] at h0
    obtain ⟨⟨h1, h2⟩, h3⟩ := h0
    obtain ⟨⟨⟨b, s'⟩, O'⟩, hr, he⟩ := Option.map_eq_some_iff.1 h3
    simp only [Prod.mk.injEq] at he
    obtain ⟨⟨rfl, h4⟩, rfl⟩ := he
    refine ⟨⟨4, 2⟩, poke S, s', rfl, .step (play_reach hp) (.write ?_), h1, ?_, ?_⟩
    · intro x hx
      have := hx (1604, 4) (by rw [h1]; simp)
      simp only at this
      exact if_neg (by omega)
    · have := execOk_run [] hr
      rw [show (poke S).held = S.held from rfl, h2]
      rw [h2] at this
      exact this
    · rw [h4]
      simp [poke]

end Umpire.MallocPool
