import Verif.QuickPool.View
/-!
# The built-in coalescing heuristics (model) and when they terminate

QuickPool.cpp:348-421.  The comparison of `percent_releasable(p)` for
`0 < p < 100` computes a byte threshold in single precision; it is a parameter
`thr` here (made concrete in `Verif/Misc/Heuristics.lean`).
-/
set_option autoImplicit false
set_option linter.unusedSimpArgs false
namespace Umpire.QuickPool
open Umpire Umpire.Prog

/-- QuickPool.cpp:348-352. -/
def blocksReleasable (nblocks : Nat) (s : State) : Nat :=
  if getReleasableBlocks s ≥ nblocks then getActualSize s else 0

/-- QuickPool.cpp:354-359. -/
def blocksReleasableHwm (nblocks : Nat) (s : State) : Nat :=
  if getReleasableBlocks s ≥ nblocks then getAlignedHighwaterMark s else 0

/-- QuickPool.cpp:361-385; `none` when the percentage is rejected. -/
def percentReleasable (thr : Nat → Nat) (percentage : Int) : Option (State → Nat) :=
  if percentage < 0 ∨ percentage > 100 then none
  else if percentage = 0 then some fun _ => 0
  else if percentage = 100 then
    some fun s => if getActualSize s = getReleasableSize s then getActualSize s else 0
  else some fun s => if getReleasableSize s ≥ thr (getActualSize s) then getActualSize s else 0

/-- QuickPool.cpp:387-412; `none` when the percentage is rejected. -/
def percentReleasableHwm (thr : Nat → Nat) (percentage : Int) : Option (State → Nat) :=
  if percentage < 0 ∨ percentage > 100 then none
  else if percentage = 0 then some fun _ => 0
  else if percentage = 100 then
    some fun s => if getActualSize s = getReleasableSize s then getAlignedHighwaterMark s else 0
  else some fun s => if getReleasableSize s ≥ thr (getActualSize s) then getAlignedHighwaterMark s else 0

/-- The heuristics the library provides. -/
inductive BuiltIn : (State → Nat) → Prop where
  | blocks (n : Nat) : BuiltIn (blocksReleasable n)
  | blocksHwm (n : Nat) : BuiltIn (blocksReleasableHwm n)
  | percent (thr : Nat → Nat) (p : Int) (f : State → Nat) : percentReleasable thr p = some f → BuiltIn f
  | percentHwm (thr : Nat → Nat) (p : Int) (f : State → Nat) : percentReleasableHwm thr p = some f → BuiltIn f

theorem Inv.actual_le {a : Nat} {s : State} {O L : Held} (h : Inv a s O L) : s.actualBytes ≤ AMax := by
  have h1 := h.sizes_le
  rw [h.actual]
  have : (s.blocks.map bsize).sum = (s.blocks.flatten.map (·.size)).sum := by
    have : ∀ bs : List (List Chunk), (bs.map bsize).sum = (bs.flatten.map (·.size)).sum := by
      intro bs
      induction bs with
      | nil => rfl
      | cons b bs ih => simp [ih, bsize]
    exact this _
  omega

theorem builtIn_le {f : State → Nat} (hf : BuiltIn f) {a : Nat} {s : State} {O L : Held} (h : Inv a s O L) :
    f s ≤ AMax := by
  have h1 := h.actual_le
  have h2 := h.ahwmle
  cases hf with
  | blocks n => unfold blocksReleasable getActualSize; split <;> omega
  | blocksHwm n => unfold blocksReleasableHwm getAlignedHighwaterMark; split <;> omega
  | percent thr p f hp =>
    unfold percentReleasable getActualSize at hp
    split at hp
    · simp at hp
    split at hp
    · injection hp with hp; subst hp; simp
    split at hp
    · injection hp with hp; subst hp; simp only; split <;> omega
    · injection hp with hp; subst hp; simp only; split <;> omega
  | percentHwm thr p f hp =>
    unfold percentReleasableHwm getAlignedHighwaterMark at hp
    split at hp
    · simp at hp
    split at hp
    · injection hp with hp; subst hp; simp
    split at hp
    · injection hp with hp; subst hp; simp only; split <;> omega
    · injection hp with hp; subst hp; simp only; split <;> omega

/-- Built-in heuristics never suggest a size near the 64-bit limit. -/
theorem builtIn_heurOk {cfg : Cfg} (hf : BuiltIn cfg.heur) (ha : 2 * cfg.align ≤ AMax) : HeurOk cfg := by
  intro s O L h
  have := builtIn_le hf h
  have := AMax_add_AMax
  omega

/-- The heuristic fires only when two blocks are releasable or the whole pool is. -/
def Quiet (cfg : Cfg) : Prop :=
  ∀ s, cfg.heur s ≠ 0 → 2 ≤ getReleasableBlocks s ∨ getActualSize s = getReleasableSize s

/-- As `KeepUB`, but unbounded recursion is not tolerated. -/
def KeepTerm (L : Held) : Mode := ⟨fun b => b = .abort, fun q m => 0 < m ∧ ∀ l ∈ L, Disj l.1 l.2 q m⟩

theorem freeBlocks_sublist {O O' L : Held} (h : O'.Sublist O) : (freeBlocks O' L).Sublist (freeBlocks O L) :=
  h.filter _

theorem release_free {a : Nat} (ha : 0 < a) {s s' : State} {O L : Held} (h : Inv a s' O L) (hr : ReleasedAll s s') :
    freeBlocks O L = [] := by
  have h1 := Inv.relBlocks_eq h ha
  have h2 := h.relBlocks
  have h3 : s'.blocks.flatten.filter whole = [] := by
    rw [List.filter_eq_nil_iff]
    intro c hc
    obtain ⟨b, hb, hcb⟩ := List.mem_flatten.1 hc
    rw [hr.blocks] at hb
    have := (List.mem_filter.1 hb).2
    rw [List.all_eq_true] at this
    simpa using this c hcb
  rw [h3] at h2
  simp only [List.length_nil] at h2
  exact List.length_eq_zero_iff.1 (by omega)

theorem all_free {a : Nat} (ha : 0 < a) {s : State} {O L : Held} (h : Inv a s O L)
    (he : getActualSize s = getReleasableSize s) : freeBlocks O L = O := by
  unfold getActualSize getReleasableSize at he
  rw [Inv.actual_eq h ha, Inv.relBytes_eq h ha] at he
  have hpos : ∀ o ∈ O, 0 < o.2 - a := by
    intro o ho
    obtain ⟨b, hb, hu, _⟩ := Inv.block_of_held h ha ho
    have := Inv.bsize_pos h hb
    have e := congrArg Prod.snd hu
    simp only [usable] at e
    omega
  unfold freeBlocks at he ⊢
  generalize (fun o : Nat × Nat => L.all fun l => decide (Disj l.1 l.2 o.1 o.2)) = P at he ⊢
  clear h
  induction O with
  | nil => rfl
  | cons o O ih =>
    have hsub : ((O.filter P).map fun o => o.2 - a).sum ≤ (O.map fun o => o.2 - a).sum := by
      have := sum_map_filter_split (fun o : Nat × Nat => o.2 - a) P O
      omega
    have ho := hpos o (by simp)
    rw [List.filter_cons] at he ⊢
    split at he
    · simp only [List.map_cons, List.sum_cons] at he
      rw [if_pos ‹_›, ih (fun x hx => hpos x (by simp [hx])) (by omega)]
    · simp only [List.map_cons, List.sum_cons] at he
      omega

theorem freeCount {a : Nat} (ha : 0 < a) {s : State} {O L : Held} (h : Inv a s O L)
    (he : freeBlocks O L = O) : s.sizeMap.length = O.length := by
  have h1 := (Inv.free_perm h ha).length_eq
  have h2 := (Inv.usable_perm h ha).length_eq
  simp only [List.length_map] at h1 h2
  rw [he] at h1
  have h3 : s.blocks.filter isFree = s.blocks := by
    have : (s.blocks.filter isFree).length = s.blocks.length := by omega
    exact List.filter_eq_self.2 (List.length_filter_eq_length_iff.1 this)
  have h4 := h.sm.length_eq
  simp only [List.length_map] at h4
  have h5 : ∀ bs : List (List Chunk), (∀ b ∈ bs, isFree b = true) → (freeL bs.flatten).length = bs.length := by
    intro bs
    induction bs with
    | nil => intro _; rfl
    | cons b bs ih =>
      intro hb
      obtain ⟨c, rfl, hc⟩ := isFree_iff.1 (hb b (by simp))
      have := ih (fun x hx => hb x (by simp [hx]))
      unfold freeL at *
      simp only [List.flatten_cons, List.filter_append, List.length_append, this, List.length_cons, List.filter_cons, hc, if_true,
        List.filter_nil, List.length_nil]
      omega
  rw [h4, h5 _ (List.filter_eq_self.1 h3)]
  omega

theorem doCoalesce_term {cfg : Cfg} (hc : CfgOk cfg) (hq : Quiet cfg) {fuel : Nat} {s : State} {O L : Held}
    {sug : Nat} (h : Inv cfg.align s O L) (hs : sug + 2 * cfg.align ≤ W) :
    (doCoalesce cfg (fuel + 2) s sug).wp (KeepTerm L) O fun s' O' => Inv cfg.align s' O' L := by
  unfold doCoalesce
  split
  · refine wp_bind (wp_mono (wp_weaken (release_wp h) (fun _ hb => hb.elim) (fun _ _ hf => hf)) ?_)
    rintro s1 O1 ⟨h1, hra, _⟩
    have hfr := release_free hc.al h1 hra
    split
    · rename_i hlt
      have hreq : ReqOk cfg (sug - s1.actualBytes) := ⟨by omega, by omega⟩
      refine wp_bind (wp_mono (wp_weaken (allocate_wp h1 hc hreq) (fun _ hb => hb.elim) (fun _ _ hf => hf)) ?_)
      rintro ⟨r, s2⟩ O2 hpost
      cases r with
      | none => simp [wp, KeepTerm]
      | some p =>
        simp only [AllocPost] at hpost
        obtain ⟨hpost, ⟨O1', hsub, hO2⟩, _, _⟩ := hpost
        have hnd := hpost.live_fst_nodup
        simp only [List.map_cons, List.nodup_cons, List.mem_map, not_exists, not_and] at hnd
        have hdr := drop_cons_fresh (L := L) (p := p) (n := sug - s1.actualBytes) (fun r hr => fun he => hnd.1 r hr he)
        obtain ⟨s3, hs3, hi3⟩ := deallocCore_inv (ptr := p) (n := sug - s1.actualBytes) hpost (by simp)
        rw [hdr] at hi3
        have hle : (freeBlocks O2 L).length ≤ 1 := by
          have hz : freeBlocks O1' L = [] := by
            have := freeBlocks_sublist (L := L) hsub
            rw [hfr] at this
            exact List.sublist_nil.1 this
          rcases hO2 with rfl | ⟨q, m, rfl⟩
          · rw [hz]; simp
          · have : freeBlocks ((q, m) :: O1') L = if (L.all fun l => decide (Disj l.1 l.2 q m)) = true then (q, m) :: freeBlocks O1' L else freeBlocks O1' L := by
              unfold freeBlocks; rw [List.filter_cons]
            rw [this, hz]
            split <;> simp
        simp only [deallocWith, hs3]
        split
        · rename_i hne
          rcases hq s3 hne with h2 | h2
          · unfold getReleasableBlocks at h2
            rw [Inv.relBlocks_eq hi3 hc.al] at h2
            omega
          · have hall := all_free hc.al hi3 h2
            have hcount := freeCount hc.al hi3 hall
            rw [hall] at hle
            unfold doCoalesce
            rw [if_neg (by omega)]
            exact hi3
        · exact hi3
    · exact h1
  · exact h

end Umpire.QuickPool
