import Verif.Threads.Calls
/-!
# The invariant of the threads together
-/
set_option autoImplicit false
set_option linter.unusedSimpArgs false
namespace Umpire.Thr
open Umpire.Judy Umpire.Mgr

/-- No assumption about where strategies place blocks. -/
abbrev Mem (c : Cfg) (S : Sh) (live : List Rec) (un : List Blk) : Prop := MemOk (fun _ _ => True) (fun _ => False) c S.am S.w live un

def sgOf (S : Sh) (p : Nat) : Nat := (S.top p).headD 0

/-- The blocks of the records. -/
structure Cells (S : Sh) (live : List Rec) : Prop where
  cell : ∀ r ∈ live, ∃ b, S.top r.ptr = [b] ∧ S.cell b = r
  none : ∀ p, (∀ r ∈ live, r.ptr ≠ p) → S.top p = []

/-- Everything belongs to exactly one of the owners. -/
structure Split {O α : Type} (f : O → List α) (all : List α) : Prop where
  sub : ∀ o a, a ∈ f o → a ∈ all
  cov : ∀ a ∈ all, ∃ o, a ∈ f o
  one : ∀ o o' a, a ∈ f o → a ∈ f o' → o = o'

/-- `lv`: the registered records of each thread, and (`none`) of the box; `tr`: the blocks
each thread holds without their being registered. -/
structure Gh (T : Type) where
  lv : Option T → List Rec
  tr : T → List Blk
  live : List Rec
  un : List Blk

def ThrOk {T : Type} (c : Cfg) (tk : Nat → Nat → Prop) (S : MS T) (g : Gh T) (t : T) : Prop :=
  match S.thr t with
  | none => g.tr t = [] ∧ ∀ r, r ∈ g.lv (some t) ↔ r ∈ S.own t
  | some (cl, m) => wp c tk (target cl) m (g.lv (some t)) (g.tr t) (sgOf S.sh) (Done (S.own t) cl)

structure Inv {T : Type} (c : Cfg) (tk : Nat → Nat → Prop) (S : MS T) (g : Gh T) : Prop where
  mem : Mem c S.sh g.live g.un
  cells : Cells S.sh g.live
  lv : Split g.lv g.live
  tr : Split g.tr g.un
  box : ∀ r, r ∈ g.lv none ↔ r ∈ S.box
  thr : ∀ t, ThrOk c tk S g t
  keep : ∀ t r, r ∈ S.own t → (∀ cl m, S.thr t = some (cl, m) → r.ptr ≠ target cl) → r ∈ g.lv (some t)

section
variable {c : Cfg} {S : Sh} {live : List Rec} {un : List Blk}

theorem mem_unNodup (h : Mem c S live un) : (un.map (·.ptr)).Nodup := by
  have h1 := h.allNodup
  rw [List.map_append] at h1
  exact (List.nodup_append.1 h1).2.1

theorem live_inj (h : Mem c S live un) {r r' : Rec} (hr : r ∈ live) (hr' : r' ∈ live) (he : r.ptr = r'.ptr) : r = r' := by
  by_cases hn : r = r'
  · exact hn
  · have := (List.Perm.mem_iff (dropR_perm h.liveNodup hr)).2 hr'
    rcases List.mem_cons.1 this with h | h
    · exact h.symm
    · exact absurd he.symm (mem_dropR.1 h).2

theorem mem_dropB {p : Nat} {L : List Blk} {b : Blk} : b ∈ dropB p L ↔ b ∈ L ∧ b.ptr ≠ p := by
  unfold dropB
  rw [List.mem_filter]
  simp

theorem un_inj (h : Mem c S live un) {b b' : Blk} (hb : b ∈ un) (hb' : b' ∈ un) (he : b.ptr = b'.ptr) : b = b' := by
  have := (List.Perm.mem_iff (dropB_cons (mem_unNodup h) hb)).2 hb'
  rcases List.mem_cons.1 this with h | h
  · exact h.symm
  · exact absurd he.symm (mem_dropB.1 h).2

theorem live_un (h : Mem c S live un) {r : Rec} {b : Blk} (hr : r ∈ live) (hb : b ∈ un) : r.ptr ≠ b.ptr := by
  intro he
  have h1 := h.allNodup
  rw [List.map_append] at h1
  refine (List.nodup_append.1 h1).2.2 r.ptr ?_ b.ptr (List.mem_map_of_mem hb) he
  rw [List.map_map]
  exact List.mem_map.2 ⟨r, hr, blkOf_ptr r⟩

theorem live_contains (h : Mem c S live un) {r r' : Rec} {p : Nat} (hr : r ∈ live) (hr' : r' ∈ live) (h1 : Contains r p) (h2 : Contains r' p) : r = r' := by
  by_cases he : blkOf r = blkOf r'
  · apply live_inj h hr hr'
    have := congrArg Blk.ptr he
    rwa [blkOf_ptr, blkOf_ptr] at this
  · have := h.bdisj (h.mem_held hr) (h.mem_held hr') he
    have a1 := contains_blk h1
    have a2 := contains_blk h2
    unfold BDisj Disj at this
    omega

theorem cells_slot (h : Cells S live) {r : Rec} (hr : r ∈ live) : sgOf S r.ptr ∈ S.top r.ptr ∧ S.cell (sgOf S r.ptr) = r := by
  obtain ⟨b, h1, h2⟩ := h.cell r hr
  unfold sgOf
  rw [h1]
  exact ⟨List.mem_singleton.2 rfl, h2⟩

theorem cells_ptr (h : Cells S live) {p b : Nat} (hb : b ∈ S.top p) : (S.cell b).ptr = p := by
  by_cases hex : ∃ r ∈ live, r.ptr = p
  · obtain ⟨r, hr, rfl⟩ := hex
    obtain ⟨b', h1, h2⟩ := h.cell r hr
    rw [h1] at hb
    rw [List.mem_singleton.1 hb, h2]
  · rw [h.none p fun r hr he => hex ⟨r, hr, he⟩] at hb
    cases hb
end

section
variable {T : Type} [DecidableEq T] {c : Cfg} {tk : Nat → Nat → Prop}

theorem set_same {α : Type} (f : T → α) (t : T) (a : α) : set f t a t = a := by unfold set; rw [if_pos rfl]
theorem set_other {α : Type} (f : T → α) {t u : T} (a : α) (h : u ≠ t) : set f t a u = f u := by unfold set; rw [if_neg h]

/-- One owner changes what it has. -/
theorem Split.update {O α : Type} [DecidableEq O] {f : O → List α} {all all' : List α} (h : Split f all) {o : O} {l : List α}
    (h1 : ∀ a, a ∈ all' ↔ a ∈ l ∨ (a ∈ all ∧ a ∉ f o)) (h2 : ∀ a ∈ l, a ∈ f o ∨ a ∉ all) : Split (set f o l) all' := by
  constructor
  · intro u a ha
    by_cases hu : u = o
    · subst hu; rw [set_same] at ha; exact (h1 a).2 (Or.inl ha)
    · rw [set_other _ _ hu] at ha
      refine (h1 a).2 (Or.inr ⟨h.sub u a ha, fun hf => hu (h.one u o a ha hf)⟩)
  · intro a ha
    rcases (h1 a).1 ha with hl | ⟨hal, hn⟩
    · exact ⟨o, by rw [set_same]; exact hl⟩
    · obtain ⟨u, hu⟩ := h.cov a hal
      refine ⟨u, ?_⟩
      have : u ≠ o := by rintro rfl; exact hn hu
      rw [set_other _ _ this]; exact hu
  · intro u v a hu hv
    have key : ∀ w, w ≠ o → a ∈ f w → a ∉ l := by
      intro w hw ha hl
      rcases h2 a hl with h3 | h3
      · exact hw (h.one w o a ha h3)
      · exact h3 (h.sub w a ha)
    by_cases e1 : u = o <;> by_cases e2 : v = o
    · rw [e1, e2]
    · subst e1
      rw [set_same] at hu
      rw [set_other _ _ e2] at hv
      exact absurd hu (key v e2 hv)
    · subst e2
      rw [set_same] at hv
      rw [set_other _ _ e1] at hu
      exact absurd hv (key u e1 hu)
    · rw [set_other _ _ e1] at hu
      rw [set_other _ _ e2] at hv
      exact h.one u v a hu hv

theorem Split.ext {O α : Type} {f f' : O → List α} {all : List α} (h : Split f all) (he : ∀ o a, a ∈ f' o ↔ a ∈ f o) : Split f' all :=
  ⟨fun o a ha => h.sub o a ((he o a).1 ha), fun a ha => by obtain ⟨o, ho⟩ := h.cov a ha; exact ⟨o, (he o a).2 ho⟩,
    fun o o' a h1 h2 => h.one o o' a ((he o a).1 h1) ((he o' a).1 h2)⟩

/-- An action of `t` that changes only what belongs to `t`. -/
theorem Inv.step {S : MS T} {g : Gh T} (h : Inv c tk S g) {t : T} {cl : Call} {m m' : CP Nat} {sh : Sh} {lv' live' : List Rec} {tr' un' : List Blk}
    (ht : S.thr t = some (cl, m)) (hmem : Mem c sh live' un') (hcells : Cells sh live')
    (l1 : ∀ r, r ∈ live' ↔ r ∈ lv' ∨ (r ∈ g.live ∧ r ∉ g.lv (some t))) (l2 : ∀ r ∈ lv', r ∈ g.lv (some t) ∨ r ∉ g.live)
    (u1 : ∀ b, b ∈ un' ↔ b ∈ tr' ∨ (b ∈ g.un ∧ b ∉ g.tr t)) (u2 : ∀ b ∈ tr', b ∈ g.tr t ∨ b ∉ g.un)
    (hsg : ∀ r ∈ g.live, r ∉ g.lv (some t) → sh.top r.ptr = S.sh.top r.ptr)
    (hkeep : ∀ r ∈ g.lv (some t), r.ptr ≠ target cl → r ∈ lv')
    (hwp : wp c tk (target cl) m' lv' tr' (sgOf sh) (Done (S.own t) cl)) :
    Inv c tk { S with sh := sh, thr := set S.thr t (some (cl, m')) } { lv := set g.lv (some t) lv', tr := set g.tr t tr', live := live', un := un' } := by
  constructor
  · exact hmem
  · exact hcells
  · exact h.lv.update l1 l2
  · exact h.tr.update u1 u2
  · intro r
    show r ∈ set g.lv (some t) lv' none ↔ _
    rw [set_other _ _ (by simp)]
    exact h.box r
  · intro u
    unfold ThrOk
    dsimp only
    by_cases hu : u = t
    · subst hu
      rw [set_same, set_same, set_same]
      exact hwp
    · rw [set_other _ _ hu, set_other _ _ hu, set_other _ _ (show (some u : Option T) ≠ some t by simpa using hu)]
      have := h.thr u
      unfold ThrOk at this
      split
      · rename_i hn
        rw [hn] at this; exact this
      · rename_i cl' m'' hs
        rw [hs] at this
        refine wp.weaken this ?_ fun o lv tr f g _ hd => hd
        intro r hr
        have h1 : r ∉ g.lv (some t) := fun hf => hu (by simpa using h.lv.one _ _ r hr hf)
        unfold sgOf
        rw [hsg r (h.lv.sub _ r hr) h1]
  · intro u r hr hk
    dsimp only at hr hk ⊢
    by_cases hu : u = t
    · subst hu
      rw [set_same]
      have hne := hk cl m' (set_same _ _ _)
      exact hkeep r (h.keep u r hr fun cl' m'' he => by rw [ht] at he; injection he with he; injection he with h1 h2; subst h1; exact hne) hne
    · rw [set_other _ _ (show (some u : Option T) ≠ some t by simpa using hu)]
      exact h.keep u r hr fun cl' m'' he => hk cl' m'' (by rw [set_other _ _ hu]; exact he)

omit [DecidableEq T] in
theorem Inv.ownOk {S : MS T} {g : Gh T} (h : Inv c tk S g) (o : Option T) : OwnOk c (g.lv o) :=
  ⟨fun r hr => ⟨(h.mem.rec_lt (h.lv.sub _ r hr)).1, h.mem.tag r (h.lv.sub _ r hr)⟩,
    fun r hr r' hr' _ h1 h2 => live_contains h.mem (h.lv.sub _ r hr) (h.lv.sub _ r' hr') h1 h2⟩

theorem OwnOk.ext {own own' : List Rec} (h : OwnOk c own) (he : ∀ r, r ∈ own' ↔ r ∈ own) : OwnOk c own' :=
  ⟨fun r hr => h.ok r ((he r).1 hr), fun r hr r' hr' => h.inj r ((he r).1 hr) r' ((he r').1 hr')⟩

/-- A step that leaves the shared state and what belongs to whom alone. -/
theorem Inv.quiet {S : MS T} {g : Gh T} (h : Inv c tk S g) {t : T} {cl : Call} {m m' : CP Nat} {sh : Sh} (ht : S.thr t = some (cl, m))
    (hmem : Mem c sh g.live g.un) (h1 : sh.cell = S.sh.cell) (h2 : sh.top = S.sh.top)
    (hwp : wp c tk (target cl) m' (g.lv (some t)) (g.tr t) (sgOf S.sh) (Done (S.own t) cl)) :
    Inv c tk { S with sh := sh, thr := set S.thr t (some (cl, m')) } { lv := set g.lv (some t) (g.lv (some t)), tr := set g.tr t (g.tr t), live := g.live, un := g.un } := by
  have hsg : sgOf sh = sgOf S.sh := by funext p; unfold sgOf; rw [h2]
  refine h.step ht hmem ⟨fun r hr => ?_, fun p hp => ?_⟩ ?_ ?_ ?_ ?_ ?_ ?_ ?_
  · rw [h1, h2]; exact h.cells.cell r hr
  · rw [h2]; exact h.cells.none p hp
  · intro r
    constructor
    · intro hr
      by_cases hx : r ∈ g.lv (some t)
      · exact Or.inl hx
      · exact Or.inr ⟨hr, hx⟩
    · rintro (hr | hr)
      · exact h.lv.sub _ r hr
      · exact hr.1
  · intro r hr; exact Or.inl hr
  · intro b
    constructor
    · intro hr
      by_cases hx : b ∈ g.tr t
      · exact Or.inl hx
      · exact Or.inr ⟨hr, hx⟩
    · rintro (hr | hr)
      · exact h.tr.sub _ b hr
      · exact hr.1
  · intro b hb; exact Or.inl hb
  · intro r _ _; rw [h2]
  · intro r hr _; exact hr
  · rw [hsg]; exact hwp
end
end Umpire.Thr
