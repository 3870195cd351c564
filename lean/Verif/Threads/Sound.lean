import Verif.Threads.Inv
/-!
# Every step keeps the invariant
-/
set_option autoImplicit false
set_option linter.unusedSimpArgs false
namespace Umpire.Thr
open Umpire.Judy Umpire.Mgr

section
variable {T : Type} [DecidableEq T] {c : Cfg} {tk : Nat → Nat → Prop}

/-- The bytes of the allocations of everybody else. -/
def Others (g : Gh T) (t : T) (m m' : Nat → Nat) : Prop :=
  ∀ o, o ≠ some t → ∀ r ∈ g.lv o, ∀ q, r.ptr ≤ q → q < r.ptr + r.size → m' q = m q

omit [DecidableEq T] in
theorem others_agree {S : MS T} {g : Gh T} (h : Inv c tk S g) {t : T} {m : Nat → Nat} (ha : Agree S.sh.w.held S.sh.w.mem m) : Others g t S.sh.w.mem m := by
  intro o _ r hr q h1 h2
  refine ha (blkOf r) (h.mem.mem_held (h.lv.sub _ r hr)) q (by rw [blkOf_ptr]; exact h1) ?_
  have := (blkOf_size r).1
  rw [blkOf_ptr]; omega

omit [DecidableEq T] in
theorem others_drop {S : MS T} {g : Gh T} (h : Inv c tk S g) {t : T} {b : Blk} (hb : b ∈ g.un) {m : Nat → Nat} (ha : Agree (dropB b.ptr S.sh.w.held) S.sh.w.mem m) :
    Others g t S.sh.w.mem m := by
  intro o _ r hr q h1 h2
  refine ha (blkOf r) (mem_dropB.2 ⟨h.mem.mem_held (h.lv.sub _ r hr), ?_⟩) q (by rw [blkOf_ptr]; exact h1) ?_
  · rw [blkOf_ptr]; exact live_un h.mem (h.lv.sub _ r hr) hb
  · have := (blkOf_size r).1
    rw [blkOf_ptr]; omega

omit [DecidableEq T] in
theorem others_write {S : MS T} {g : Gh T} (h : Inv c tk S g) {t : T} {x : Rec} (hx : x ∈ g.lv (some t)) {p n : Nat} (hw : Within p n x.ptr x.size) {m : Nat → Nat}
    (hm : ∀ q, ¬(p ≤ q ∧ q < p + n) → m q = S.sh.w.mem q) : Others g t S.sh.w.mem m := by
  intro o ho r hr q h1 h2
  apply hm
  rintro ⟨h3, h4⟩
  have hne : r ≠ x := by rintro rfl; exact ho (h.lv.one _ _ r hr hx)
  refine hne (live_contains h.mem (h.lv.sub _ r hr) (h.lv.sub _ x hx) (p := q) ⟨h1, Or.inl h2⟩ ⟨?_, Or.inl ?_⟩)
  · have := hw.1; omega
  · have := hw.2; omega

theorem usable_of {S : Sh} {live : List Rec} {un : List Blk} (h : Mem c S live un) {r : Rec} (hr : r ∈ live) {p n : Nat} (hw : Within p n r.ptr r.size) :
    Usable S.w.held p n := by
  by_cases h0 : n = 0
  · exact Or.inl h0
  · have := hw.1
    have := hw.2
    refine Or.inr ⟨blkOf r, h.mem_held hr, ?_, ?_⟩
    · unfold blkOf; rw [if_neg (by omega)]; exact (h.tag r hr).1
    · have := (blkOf_size r).1
      unfold Within; rw [blkOf_ptr]; omega

theorem split_self {α : Type} (L f : List α) (h : ∀ a, a ∈ f → a ∈ L) (a : α) : a ∈ L ↔ a ∈ f ∨ (a ∈ L ∧ a ∉ f) := by
  constructor
  · intro hr
    by_cases hx : a ∈ f
    · exact Or.inl hx
    · exact Or.inr ⟨hr, hx⟩
  · rintro (hr | hr)
    · exact h a hr
    · exact hr.1

theorem split_cons {α : Type} (L f : List α) (h : ∀ a, a ∈ f → a ∈ L) (x a : α) : a ∈ x :: L ↔ a ∈ x :: f ∨ (a ∈ L ∧ a ∉ f) := by
  rw [List.mem_cons, List.mem_cons, or_assoc, ← split_self L f h a]

theorem act_ok {S : MS T} {g : Gh T} (h : Inv c tk S g) {t : T} {cl : Call} {a : Act} {k : a.Ans → CP Nat} (ht : S.thr t = some (cl, .act a k)) :
    ¬Bad tk S.sh a ∧ ∀ x sh, Does a x S.sh sh →
      (∃ g', Inv c tk { S with sh := sh, thr := set S.thr t (some (cl, k x)) } g') ∧ Others g t S.sh.w.mem sh.w.mem := by
  have hw : wp c tk (target cl) (.act a k) (g.lv (some t)) (g.tr t) (sgOf S.sh) (Done (S.own t) cl) := by
    have := h.thr t
    unfold ThrOk at this
    rw [ht] at this
    exact this
  unfold wp at hw
  have hl := h.lv.sub (some t)
  have hu := h.tr.sub t
  cases a with
  | ask s n =>
    obtain ⟨⟨w0, w1, w2⟩, w3, w4⟩ := hw
    refine ⟨fun hbad => hbad w0, fun x sh hd => ?_⟩
    cases hd with
    | @askOk _ _ p m _ hf ha =>
      refine ⟨⟨_, h.step (lv' := g.lv (some t)) (live' := g.live) (tr' := ⟨s, p, n⟩ :: g.tr t) (un' := ⟨s, p, n⟩ :: g.un) ht
        (h.mem.take hf w1 w2 trivial m) ⟨h.cells.cell, h.cells.none⟩ (split_self _ _ hl) (fun r hr => Or.inl hr) ?_ ?_ (fun r _ _ => rfl) (fun r hr _ => hr) ?_⟩,
        others_agree h ha⟩
      · exact split_cons _ _ hu _
      · intro b hb
        rcases List.mem_cons.1 hb with rfl | hb
        · refine Or.inr fun hbu => ?_
          have h1 := hf.2.2 (p, n) (List.mem_map.2 ⟨_, h.mem.un_held hbu, rfl⟩)
          unfold Disj at h1
          dsimp only at h1
          omega
        · exact Or.inl hb
      · refine w4 p hf.1 fun r hr => ?_
        have := hf.2.2 _ (List.mem_map.2 ⟨_, h.mem.mem_held (hl r hr), rfl⟩)
        dsimp only at this
        rwa [blkOf_ptr] at this
    | @askFail _ _ m _ ha =>
      exact ⟨⟨_, h.quiet (sh := { S.sh with w := ⟨S.sh.w.held, m⟩ }) ht (h.mem.mem m) rfl rfl w3⟩, others_agree h ha⟩
  | hand s p n =>
    obtain ⟨b, hb, rfl, rfl, w3, w4⟩ := hw
    have hbu := hu b hb
    refine ⟨fun hbad => hbad ⟨b, h.mem.un_held hbu, rfl, rfl, fun m hm => by rw [w3] at hm; injection hm⟩, fun x sh hd => ?_⟩
    cases hd with
    | @hand _ _ _ m _ hg ha =>
      have hp := dropB_cons (mem_unNodup h.mem) hbu
      have hm := (h.mem.permute (List.Perm.refl _) hp.symm).give m
      refine ⟨⟨_, h.step (lv' := g.lv (some t)) (live' := g.live) (tr' := dropB b.ptr (g.tr t)) (un' := dropB b.ptr g.un) ht
        hm ⟨h.cells.cell, h.cells.none⟩ (split_self _ _ hl) (fun r hr => Or.inl hr) ?_ ?_ (fun r _ _ => rfl) (fun r hr _ => hr) w4⟩,
        others_drop h hbu ha⟩
      · intro x
        rw [mem_dropB, mem_dropB]
        constructor
        · rintro ⟨h1, h2⟩
          by_cases hx : x ∈ g.tr t
          · exact Or.inl ⟨hx, h2⟩
          · exact Or.inr ⟨h1, hx⟩
        · rintro (⟨h1, h2⟩ | ⟨h1, h2⟩)
          · exact ⟨hu x h1, h2⟩
          · refine ⟨h1, fun he => h2 ?_⟩
            rw [un_inj h.mem h1 hbu he]; exact hb
      · intro x hx; exact Or.inl (mem_dropB.1 hx).1
  | regrow s p n => exact hw.elim
  | zeroQ p =>
    obtain ⟨b, hb, rfl, w2⟩ := hw
    have hbh := h.mem.un_held (hu b hb)
    have hbk := h.mem.blk b hbh
    refine ⟨id, fun x sh hd => ?_⟩
    cases hd with
    | @zeroQ _ x _ h1 h2 =>
      have hx : x = decide (b.own = zero) := by
        by_cases hz : b.own = zero
        · rw [decide_eq_true hz]; exact h1 ⟨b, hbh, hz, Nat.le_refl _, by omega⟩
        · rw [decide_eq_false hz]; exact h2 ⟨b, hbh, hz, Nat.le_refl _, by omega⟩
      subst hx
      exact ⟨⟨_, h.quiet ht h.mem rfl rfl w2⟩, others_agree h fun _ _ _ _ _ => rfl⟩
  | cpy d s n =>
    obtain ⟨w1, w2⟩ := hw
    constructor
    · intro hbad
      apply hbad
      rcases w1 with w1 | ⟨⟨rd, hrd, wd⟩, ⟨rs, hrs, ws⟩, hdis⟩
      · exact ⟨Or.inl w1, Or.inl w1, Or.inl w1⟩
      · exact ⟨usable_of h.mem (hl rd hrd) wd, usable_of h.mem (hl rs hrs) ws, Or.inr hdis⟩
    · intro x sh hd
      cases hd
      refine ⟨⟨_, h.quiet (sh := { S.sh with w := ⟨S.sh.w.held, copied S.sh.w.mem d s n⟩ }) ht (h.mem.mem _) rfl rfl w2⟩, ?_⟩
      rcases w1 with w1 | ⟨⟨rd, hrd, wd⟩, _⟩
      · subst w1
        refine others_agree h fun _ _ q _ _ => ?_
        show copied S.sh.w.mem d s 0 q = _
        unfold copied; rw [if_neg (by omega)]
      · refine others_write h hrd wd fun q hq => ?_
        show copied S.sh.w.mem d s n q = _
        unfold copied; rw [if_neg hq]
  | fill p v n =>
    obtain ⟨w1, w2⟩ := hw
    constructor
    · intro hbad
      apply hbad
      rcases w1 with w1 | ⟨rd, hrd, wd⟩
      · exact Or.inl w1
      · exact usable_of h.mem (hl rd hrd) wd
    · intro x sh hd
      cases hd
      refine ⟨⟨_, h.quiet (sh := { S.sh with w := ⟨S.sh.w.held, filled S.sh.w.mem p v n⟩ }) ht (h.mem.mem _) rfl rfl w2⟩, ?_⟩
      rcases w1 with w1 | ⟨rd, hrd, wd⟩
      · subst w1
        refine others_agree h fun _ _ q _ _ => ?_
        show filled S.sh.w.mem p v 0 q = _
        unfold filled; rw [if_neg (by omega)]
      · refine others_write h hrd wd fun q hq => ?_
        show filled S.sh.w.mem p v n q = _
        unfold filled; rw [if_neg hq]
  | stat s f =>
    refine ⟨id, fun x sh hd => ?_⟩
    cases hd
    exact ⟨⟨_, h.quiet (sh := { S.sh with st := _ }) ht h.mem rfl rfl hw⟩, others_agree h fun _ _ _ _ _ => rfl⟩
  | put p r =>
    obtain ⟨rfl, w1, w2, w3, w4⟩ := hw
    have hbu := hu _ w3
    refine ⟨id, fun x sh hd => ?_⟩
    cases hd with
    | @put _ _ b _ hb =>
      have hp := dropB_cons (mem_unNodup h.mem) hbu
      rw [blkOf_ptr] at hp
      have hm := (h.mem.permute (List.Perm.refl _) hp.symm).reg ⟨w1, w2⟩ fun hf => hf.elim
      have hnew : ∀ x ∈ g.live, x.ptr ≠ r.ptr := fun x hx => by have := live_un h.mem hx hbu; rwa [blkOf_ptr] at this
      refine ⟨⟨_, h.step (lv' := r :: g.lv (some t)) (live' := r :: g.live) (tr' := dropB r.ptr (g.tr t)) (un' := dropB r.ptr g.un) ht
        hm ⟨?_, ?_⟩ ?_ ?_ ?_ ?_ ?_ (fun x hx _ => List.mem_cons_of_mem _ hx) ?_⟩, others_agree h fun _ _ _ _ _ => rfl⟩
      · intro x hx
        show ∃ b', (if x.ptr = r.ptr then b :: S.sh.top x.ptr else S.sh.top x.ptr) = [b'] ∧ (if b' = b then r else S.sh.cell b') = x
        rcases List.mem_cons.1 hx with rfl | hx
        · rw [if_pos rfl, h.cells.none _ hnew]
          exact ⟨b, rfl, if_pos rfl⟩
        · rw [if_neg (hnew x hx)]
          obtain ⟨b', h1, h2⟩ := h.cells.cell x hx
          refine ⟨b', h1, ?_⟩
          have : b' ≠ b := by rintro rfl; exact hb x.ptr (by rw [h1]; exact List.mem_singleton.2 rfl)
          rw [if_neg this]; exact h2
      · intro q hq
        show (if q = r.ptr then b :: S.sh.top q else S.sh.top q) = []
        rw [if_neg fun he => hq r List.mem_cons_self he.symm]
        exact h.cells.none q fun x hx => hq x (List.mem_cons_of_mem _ hx)
      · exact split_cons _ _ hl _
      · intro x hx
        rcases List.mem_cons.1 hx with rfl | hx
        · exact Or.inr fun hxl => hnew x hxl rfl
        · exact Or.inl hx
      · intro x
        rw [mem_dropB, mem_dropB]
        constructor
        · rintro ⟨h1, h2⟩
          by_cases hx : x ∈ g.tr t
          · exact Or.inl ⟨hx, h2⟩
          · exact Or.inr ⟨h1, hx⟩
        · rintro (⟨h1, h2⟩ | ⟨h1, h2⟩)
          · exact ⟨hu x h1, h2⟩
          · refine ⟨h1, fun he => h2 ?_⟩
            rw [un_inj h.mem h1 hbu (by rw [blkOf_ptr]; exact he)]; exact w3
      · intro x hx; exact Or.inl (mem_dropB.1 hx).1
      · intro x hx _
        show (if x.ptr = r.ptr then b :: S.sh.top x.ptr else S.sh.top x.ptr) = _
        rw [if_neg (hnew x hx)]
      · have := w4 b
        refine wp.weaken this ?_ fun o lv tr f g _ hd => hd
        intro x hx
        show (if x.ptr = r.ptr then b else sgOf S.sh x.ptr) = (if x.ptr = r.ptr then b :: S.sh.top x.ptr else S.sh.top x.ptr).headD 0
        split
        · rfl
        · rfl
  | pull p =>
    obtain ⟨rfl, hw⟩ := hw
    rcases hw with ⟨r, hr, he, w1⟩ | ⟨⟨r, hr, hc, hne⟩, w1⟩
    · have hrl := hl r hr
      obtain ⟨a', h1, h2⟩ := h.mem.dereg hrl
      rw [he] at h1 h2
      constructor
      · intro hbad
        have hbad : S.sh.am.remove (target cl) = .ub := hbad
        rw [h1] at hbad; cases hbad
      · intro x sh hd
        cases hd with
        | @pullNone _ a'' _ hr' => rw [h1] at hr'; cases hr'
        | @pullOk _ a'' r' _ hr' =>
          rw [h1] at hr'
          injection hr' with e1 e2
          subst e1; subst e2
          refine ⟨⟨_, h.step (lv' := dropR (target cl) (g.lv (some t))) (live' := dropR (target cl) g.live) (tr' := blkOf r :: g.tr t) (un' := blkOf r :: g.un) ht
            h2 ⟨?_, ?_⟩ ?_ ?_ ?_ ?_ ?_ (fun x hx hxt => mem_dropR.2 ⟨hx, hxt⟩) ?_⟩, others_agree h fun _ _ _ _ _ => rfl⟩
          · intro x hx
            obtain ⟨h3, h4⟩ := mem_dropR.1 hx
            show ∃ b', (if x.ptr = target cl then (S.sh.top x.ptr).tail else S.sh.top x.ptr) = [b'] ∧ S.sh.cell b' = x
            rw [if_neg h4]
            exact h.cells.cell x h3
          · intro q hq
            show (if q = target cl then (S.sh.top q).tail else S.sh.top q) = []
            split
            · rename_i heq
              obtain ⟨b, h3, _⟩ := h.cells.cell r hrl
              rw [heq, ← he, h3]; rfl
            · rename_i heq
              refine h.cells.none q fun x hx hxq => hq x (mem_dropR.2 ⟨hx, fun h5 => heq (hxq.symm.trans h5)⟩) hxq
          · intro x
            rw [mem_dropR, mem_dropR]
            constructor
            · rintro ⟨h3, h4⟩
              by_cases hx : x ∈ g.lv (some t)
              · exact Or.inl ⟨hx, h4⟩
              · exact Or.inr ⟨h3, hx⟩
            · rintro (⟨h3, h4⟩ | ⟨h3, h4⟩)
              · exact ⟨hl x h3, h4⟩
              · refine ⟨h3, fun h5 => h4 ?_⟩
                rw [live_inj h.mem h3 hrl (h5.trans he.symm)]; exact hr
          · intro x hx; exact Or.inl (mem_dropR.1 hx).1
          · exact split_cons _ _ hu _
          · intro b hb
            rcases List.mem_cons.1 hb with rfl | hb
            · exact Or.inr fun hbu => live_un h.mem hrl hbu (blkOf_ptr r).symm
            · exact Or.inl hb
          · intro x hx hxn
            show (if x.ptr = target cl then (S.sh.top x.ptr).tail else S.sh.top x.ptr) = _
            rw [if_neg fun h5 => hxn (by rw [live_inj h.mem hx hrl (h5.trans he.symm)]; exact hr)]
          · refine wp.weaken w1 ?_ fun o lv tr f g _ hd => hd
            intro x hx
            show sgOf S.sh x.ptr = (if x.ptr = target cl then (S.sh.top x.ptr).tail else S.sh.top x.ptr).headD 0
            rw [if_neg (mem_dropR.1 hx).2]
            rfl
    · have hrl := hl r hr
      have hlt : target cl < 2 ^ 64 := by
        have := h.mem.rec_lt hrl
        have := hc.2
        omega
      obtain ⟨a', h1, h2⟩ := h.mem.dereg_none hlt fun x hx hxp => hne ((live_contains h.mem hrl hx hc (hxp ▸ contains_base x)) ▸ hxp)
      constructor
      · intro hbad
        have hbad : S.sh.am.remove (target cl) = .ub := hbad
        rw [h1] at hbad; cases hbad
      · intro x sh hd
        cases hd with
        | @pullOk _ a'' r' _ hr' => rw [h1] at hr'; cases hr'
        | @pullNone _ a'' _ hr' =>
          rw [h1] at hr'
          injection hr' with e1
          subst e1
          exact ⟨⟨_, h.quiet (sh := { S.sh with am := a' }) ht h2 rfl rfl w1⟩, others_agree h fun _ _ _ _ _ => rfl⟩
  | seek p =>
    have hs := find_same S.sh.am p
    have hq : ∀ x, wp c tk (target cl) (k x) (g.lv (some t)) (g.tr t) (sgOf S.sh) (Done (S.own t) cl) →
        (∃ g', Inv c tk { S with sh := { S.sh with am := (S.sh.am.findRecord p).1 }, thr := set S.thr t (some (cl, k x)) } g') ∧ Others g t S.sh.w.mem S.sh.w.mem :=
      fun x hx => ⟨⟨_, h.quiet (sh := { S.sh with am := (S.sh.am.findRecord p).1 }) ht (h.mem.bytes S.sh.w.mem hs.1 hs.2.1 hs.2.2) rfl rfl hx⟩,
        others_agree h fun _ _ _ _ _ => rfl⟩
    refine ⟨id, fun x sh hd => ?_⟩
    rcases hw with ⟨r, hr, hc, w0, w1⟩ | ⟨hlt, w1⟩
    · have hrl := hl r hr
      have hlt : p < 2 ^ 64 := by
        have := h.mem.rec_lt hrl
        have := hc.2
        omega
      have hf := h.mem.find_sound hlt
      cases hd with
      | @seekOk _ r' _ hr' =>
        have := live_contains h.mem (hf.1 r' hr').1 hrl (hf.1 r' hr').2 hc
        subst this
        exact hq _ w1
      | @seekNone _ _ hn =>
        refine hq _ (w0 fun he => ?_)
        rw [hf.2.1 r hrl he] at hn; cases hn
    · cases hd with
      | @seekOk _ r' _ hr' => exact hq _ (w1 _)
      | @seekNone _ _ hn => exact hq _ (w1 _)
  | look hd =>
    obtain ⟨w1, w2, w3⟩ := hw
    have hc := cells_slot h.cells (hl _ w1)
    rw [← w2] at hc
    refine ⟨fun hbad => hbad hc.1, fun x sh hd => ?_⟩
    cases hd
    rw [hc.2]
    exact ⟨⟨_, h.quiet ht h.mem rfl rfl w3⟩, others_agree h fun _ _ _ _ _ => rfl⟩
  | peek hd => exact hw.elim

omit [DecidableEq T] in
theorem inv_new : Inv c tk (MS.new T) { lv := fun _ => [], tr := fun _ => [], live := [], un := [] } where
  mem := (Ok.new (fun _ _ => True) (fun _ => False) c fun _ => 0).mem
  cells := ⟨fun r hr => (by cases hr), fun _ _ => rfl⟩
  lv := ⟨fun _ _ h => h, fun a h => (by cases h), fun _ _ _ h => (by cases h)⟩
  tr := ⟨fun _ _ h => h, fun a h => (by cases h), fun _ _ _ h => (by cases h)⟩
  box := fun _ => Iff.rfl
  thr := fun _ => ⟨rfl, fun _ => Iff.rfl⟩
  keep := fun _ _ h _ => h

/-- An allocation goes from one owner to another. -/
theorem Split.pass {O : Type} [DecidableEq O] {f : O → List Rec} {all : List Rec} (h : Split f all) {o o' : O} {r : Rec} (hne : o ≠ o') (hr : r ∈ f o) :
    Split (set (set f o ((f o).filter fun x => decide (x ≠ r))) o' (r :: f o')) all := by
  have hall := h.sub o r hr
  have h1 : Split (set f o ((f o).filter fun x => decide (x ≠ r))) (all.filter fun x => decide (x ≠ r)) := by
    refine h.update (fun a => ?_) fun a ha => Or.inl (List.mem_filter.1 ha).1
    rw [List.mem_filter, List.mem_filter, decide_eq_true_eq]
    constructor
    · rintro ⟨h1, h2⟩
      by_cases hx : a ∈ f o
      · exact Or.inl ⟨hx, h2⟩
      · exact Or.inr ⟨h1, hx⟩
    · rintro (⟨h1, h2⟩ | ⟨h1, h2⟩)
      · exact ⟨h.sub o a h1, h2⟩
      · exact ⟨h1, fun he => h2 (he ▸ hr)⟩
  have e : set f o ((f o).filter fun x => decide (x ≠ r)) o' = f o' := set_other _ _ (Ne.symm hne)
  refine h1.update (fun a => ?_) fun a ha => ?_
  · rw [e, List.mem_cons, List.mem_filter, decide_eq_true_eq]
    constructor
    · intro ha
      by_cases h2 : a = r
      · exact Or.inl (Or.inl h2)
      · by_cases h3 : a ∈ f o'
        · exact Or.inl (Or.inr h3)
        · exact Or.inr ⟨⟨ha, h2⟩, h3⟩
    · rintro ((h2 | h2) | h2)
      · exact h2 ▸ hall
      · exact h.sub o' a h2
      · exact h2.1.1
  · rw [e]
    rcases List.mem_cons.1 ha with rfl | ha
    · right
      rw [List.mem_filter]
      simp
    · exact Or.inl ha

theorem step_ok {S S' : MS T} {g : Gh T} (h : Inv c tk S g) {t : T} (hs : Step c (Pre c tk) t S S') :
    (∃ g', Inv c tk S' g') ∧ Others g t S.sh.w.mem S'.sh.w.mem := by
  cases hs with
  | @start cl _ hn hp =>
    refine ⟨⟨g, h.mem, h.cells, h.lv, h.tr, h.box, fun u => ?_, fun u r hr hk => ?_⟩, others_agree h fun _ _ _ _ _ => rfl⟩
    · have hu := h.thr u
      unfold ThrOk at hu ⊢
      dsimp only
      by_cases he : u = t
      · subst he
        rw [set_same]
        rw [hn] at hu
        dsimp only
        rw [hu.1]
        exact call_wp (OwnOk.ext (h.ownOk (some u)) fun r => (hu.2 r).symm) hu.2 hp
      · rw [set_other _ _ he]; exact hu
    · dsimp only at hr hk
      refine h.keep u r hr fun cl' m he => hk cl' m ?_
      by_cases hut : u = t
      · subst hut; rw [hn] at he; cases he
      · rw [set_other _ _ hut]; exact he
  | @act cl a k x _ sh ht hd => exact (act_ok h ht).2 x sh hd
  | @ret cl o _ ht =>
    have hw : Done (S.own t) cl o (g.lv (some t)) (g.tr t) (sgOf S.sh) := by
      have := h.thr t
      unfold ThrOk at this
      rw [ht] at this
      exact this
    refine ⟨⟨g, h.mem, h.cells, h.lv, h.tr, h.box, fun u => ?_, fun u r hr hk => ?_⟩, others_agree h fun _ _ _ _ _ => rfl⟩
    · have hu := h.thr u
      unfold ThrOk at hu ⊢
      dsimp only
      by_cases he : u = t
      · subst he
        rw [set_same, set_same]
        exact ⟨hw.2.2, hw.2.1⟩
      · rw [set_other _ _ he, set_other _ _ he]; exact hu
    · dsimp only at hr hk
      by_cases hut : u = t
      · subst hut
        rw [set_same] at hr
        exact (hw.2.1 r).2 hr
      · rw [set_other _ _ hut] at hr
        exact h.keep u r hr fun cl' m he => hk cl' m (by rw [set_other _ _ hut]; exact he)
  | @give r _ hn hr =>
    have hu := h.thr t
    unfold ThrOk at hu
    rw [hn] at hu
    have hr' := (hu.2 r).2 hr
    refine ⟨⟨{ g with lv := set (set g.lv (some t) ((g.lv (some t)).filter fun x => decide (x ≠ r))) none (r :: g.lv none) }, h.mem, h.cells,
      h.lv.pass (by simp) hr', h.tr, fun x => ?_, fun u => ?_, fun u x hx hk => ?_⟩, others_agree h fun _ _ _ _ _ => rfl⟩
    · dsimp only
      rw [set_same, List.mem_cons, List.mem_cons, h.box]
    · have hu' := h.thr u
      unfold ThrOk at hu' ⊢
      dsimp only
      by_cases he : u = t
      · subst he
        rw [hn, set_other _ _ (by simp), set_same, set_same]
        refine ⟨hu.1, fun x => ?_⟩
        rw [List.mem_filter, List.mem_filter, hu.2]
      · rw [set_other _ _ he, set_other _ _ (by simp), set_other _ _ (show (some u : Option T) ≠ some t by simpa using he)]
        exact hu'
    · dsimp only at hx hk ⊢
      by_cases hut : u = t
      · subst hut
        rw [set_same] at hx
        rw [set_other _ _ (by simp), set_same, List.mem_filter, hu.2]
        exact List.mem_filter.1 hx
      · rw [set_other _ _ hut] at hx
        rw [set_other _ _ (by simp), set_other _ _ (show (some u : Option T) ≠ some t by simpa using hut)]
        exact h.keep u x hx hk
  | @take r _ hn hr =>
    have hu := h.thr t
    unfold ThrOk at hu
    rw [hn] at hu
    have hr' := (h.box r).2 hr
    refine ⟨⟨{ g with lv := set (set g.lv none ((g.lv none).filter fun x => decide (x ≠ r))) (some t) (r :: g.lv (some t)) }, h.mem, h.cells,
      h.lv.pass (by simp) hr', h.tr, fun x => ?_, fun u => ?_, fun u x hx hk => ?_⟩, others_agree h fun _ _ _ _ _ => rfl⟩
    · dsimp only
      rw [set_other _ _ (by simp), set_same, List.mem_filter, List.mem_filter, h.box]
    · have hu' := h.thr u
      unfold ThrOk at hu' ⊢
      dsimp only
      by_cases he : u = t
      · subst he
        rw [hn, set_same, set_same]
        refine ⟨hu.1, fun x => ?_⟩
        rw [List.mem_cons, List.mem_cons, hu.2]
      · rw [set_other _ _ he, set_other _ _ (show (some u : Option T) ≠ some t by simpa using he), set_other _ _ (by simp)]
        exact hu'
    · dsimp only at hx hk ⊢
      by_cases hut : u = t
      · subst hut
        rw [set_same] at hx
        rw [set_same, List.mem_cons, hu.2]
        exact List.mem_cons.1 hx
      · rw [set_other _ _ hut] at hx
        rw [set_other _ _ (show (some u : Option T) ≠ some t by simpa using hut), set_other _ _ (by simp)]
        exact h.keep u x hx hk

  | @write r m _ hn hr hm =>
    have hu := h.thr t
    unfold ThrOk at hu
    rw [hn] at hu
    refine ⟨⟨g, h.mem.mem m, ⟨h.cells.cell, h.cells.none⟩, h.lv, h.tr, h.box, h.thr, h.keep⟩,
      others_write h ((hu.2 r).2 hr) ⟨Nat.le_refl _, Nat.le_refl _⟩ hm⟩

theorem reach_inv {S : MS T} (h : Reach c (Pre c tk) S) : ∃ g, Inv c tk S g := by
  induction h with
  | init => exact ⟨_, inv_new⟩
  | step _ hs ih =>
    obtain ⟨g, hg⟩ := ih
    exact (step_ok hg hs).1
  | @drift S m _ _ ih =>
    obtain ⟨g, hg⟩ := ih
    exact ⟨g, hg.mem.mem m, ⟨hg.cells.cell, hg.cells.none⟩, hg.lv, hg.tr, hg.box, hg.thr, hg.keep⟩
end
end Umpire.Thr
