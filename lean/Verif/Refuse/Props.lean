import Verif.Refuse.Step
import Verif.Manager.Props
/-!
# Properties of the facade when strategies refuse to take memory back: C86

The states considered are those that any sequence of calls can lead to from the start
(`Later Pl c RM.new ⟨[], m⟩ t rm w`).
-/
set_option autoImplicit false
set_option linter.unusedSimpArgs false
namespace Umpire.Refuse
open Umpire.Mgr Umpire.Judy

/-- The allocation `r` is known: looking up its first address finds it. -/
def Known (rm : RM) (r : Rec) : Prop := r.ptr < 2 ^ 64 ∧ (rm.amap.findRecord r.ptr).2 = some r

/-- No allocation is found at the address. -/
def Unknown (rm : RM) (q : Nat) : Prop := (rm.amap.findRecord q).2 = none

/-- The other allocations are known as before and keep their bytes. -/
def Spared (r : Rec) (rm : RM) (w : World) (rm' : RM) (w' : World) : Prop :=
  ∀ x, Known rm x → x ≠ r → Known rm' x ∧ ∀ i, i < x.size → w'.mem (x.ptr + i) = w.mem (x.ptr + i)

section
variable {Pl : Nat → Nat → Prop} {c : Cfg} {rm : RM} {w : World} {m : Nat → Nat} {t : List (Call × Option Nat)} {g : Ghost} {B : Nat → Prop}

theorem reached (hl : Later Pl c RM.new ⟨[], m⟩ t rm w) :
    ∃ g, Ok Pl (fun _ => False) c rm w g ∧ Story c [] t g.live ∧ Next c Ghost.new g :=
  later_ok (Ok.new Pl _ c m) (aligned_none Pl) hl

theorem known_iff (h : Ok Pl B c rm w g) (r : Rec) : Known rm r ↔ r ∈ g.live := by
  constructor
  · intro hk
    exact ((h.mem.find_sound hk.1).1 r hk.2).1
  · intro hr
    have hp : r.ptr < 2 ^ 64 := by have := h.mem.rec_lt hr; omega
    exact ⟨hp, (h.mem.find_sound hp).2.1 r hr rfl⟩

theorem unknown_of (h : Ok Pl B c rm w g) {q : Nat} (hq : q < 2 ^ 64) (hn : ∀ r ∈ g.live, ¬Contains r q) : Unknown rm q := by
  unfold Unknown
  cases hf : (rm.amap.findRecord q).2 with
  | none => rfl
  | some r => exact absurd ((h.mem.find_sound hq).1 r hf).2 (hn r ((h.mem.find_sound hq).1 r hf).1)

/-- **C86**: whatever the strategies refuse, no call has undefined behaviour (`copy` aside,
whose operands may overlap, C30): in particular a strategy is only handed blocks that it has
given out and not taken back. -/
theorem safe (hl : Later Pl c RM.new ⟨[], m⟩ t rm w) {e : Call} (hall : e.Allowed c rm w) (hc : ∀ d s n, e ≠ .copy d s n) :
    ¬(e.prog c rm).goes Pl w := by
  obtain ⟨g, h, _, _⟩ := reached hl
  exact (call_sure h (aligned_none Pl) hall hc).1

/-- **C86**: after any calls, refused or not, there is a list of allocations that follows
from the calls and their results as specified (`Story`).  Exactly these are known and
listed; they are disjoint and in memory given out; and the statistics of each allocator
other than `HOST` are their sizes and number. -/
theorem account_partial (hl : Later Pl c RM.new ⟨[], m⟩ t rm w) :
    ∃ L, Story c [] t L ∧
      (∀ r, Known rm r ↔ r ∈ L) ∧
      (∀ q, q < 2 ^ 64 → (∀ r ∈ L, ¬Contains r q) → Unknown rm q) ∧
      L.Pairwise (fun x y => Disj x.ptr (max x.size 1) y.ptr (max y.size 1)) ∧
      (∀ r ∈ L, (⟨if r.size = 0 then zero else r.tag, r.ptr, max r.size 1⟩ : Blk) ∈ w.held) ∧
      (∃ fuel, ∀ more s, (recordsOf s rm (fuel + more)).Perm (L.filter fun r => decide (r.tag = s))) ∧
      ∀ s, s ≠ c.host →
        (rm.st s).cur = ((L.filter fun r => decide (r.tag = s)).map (·.size)).sum ∧
        (rm.st s).count = (L.filter fun r => decide (r.tag = s)).length ∧ (rm.st s).cur ≤ (rm.st s).hwm := by
  obtain ⟨g, h, hst, hn⟩ := reached hl
  have eb : ∀ r : Rec, blkOf r = (⟨if r.size = 0 then zero else r.tag, r.ptr, max r.size 1⟩ : Blk) := by
    intro r
    unfold blkOf
    split
    · rename_i h0; rw [h0]; rfl
    · rename_i h0
      rw [show max r.size 1 = r.size by omega]
  refine ⟨g.live, hst, known_iff h, fun q hq hno => unknown_of h hq hno, ?_, ?_, ?_, ?_⟩
  · have hp : (g.live.map blkOf).Pairwise BDisj := by
      have := (h.mem.perm.pairwise_iff (fun {x y} (h : BDisj x y) => (Disj.symm h : BDisj y x))).1 h.mem.disj
      exact (List.pairwise_append.1 this).1
    rw [List.pairwise_map] at hp
    refine List.Pairwise.imp ?_ hp
    intro x y hd
    rw [eb x, eb y] at hd
    exact hd
  · intro r hr
    rw [← eb r]
    exact h.mem.mem_held hr
  · obtain ⟨fuel, hf⟩ := h.mem.leaks
    exact ⟨fuel, fun more s => (hf more s).1⟩
  · intro s hs
    have hx := h.stat.hwm s (hn.exact s hs rfl)
    have h1 := h.stat.cur s
    have h2 := h.stat.count s
    have h3 := h.bound s
    have hk : g.acct.kids s = [] := by rw [hn.kids]; rfl
    rw [hk, hx.1] at h1
    rw [hk, hx.2.1] at h2
    rw [hk] at h3
    simp only [List.sum_nil, List.length_nil, Nat.add_zero] at h1 h2 h3
    refine ⟨?_, h2, hx.2.2⟩
    show (rm.st s).cur = lsum s g.live
    omega

theorem spared {r : Rec} {g' : Ghost} {rm' : RM} {w' : World} (h : Ok Pl B c rm w g) (h' : Ok Pl B c rm' w' g') (hr : r ∈ g.live)
    (hsub : ∀ x ∈ g.live, x.ptr ≠ r.ptr → x ∈ g'.live) (hag : Agree (dropB r.ptr w.held) w.mem w'.mem) : Spared r rm w rm' w' := by
  intro x hx hne
  have hx' := (known_iff h x).1 hx
  have hp : x.ptr ≠ r.ptr := fun he => hne (nodup_map_inj h.mem.liveNodup hx' hr he)
  refine ⟨(known_iff h' x).2 (hsub x hx' hp), fun i hi => ?_⟩
  have h1 := blkOf_ptr x
  have h2 := (blkOf_size x).1
  exact hag (blkOf x) (List.mem_filter.2 ⟨h.mem.mem_held hx', decide_eq_true (by rw [h1]; exact hp)⟩) _ (by omega) (by omega)

theorem forgotten {r : Rec} {g' : Ghost} {rm' : RM} {w' : World} (h : Ok Pl B c rm w g) (h' : Ok Pl B c rm' w' g') (hr : r ∈ g.live)
    (hl : g'.live = dropR r.ptr g.live) {q : Nat} (hq : Contains r q) : Unknown rm' q := by
  have hlt := h.mem.rec_lt hr
  have h1 := hq.1
  have h2 := hq.2
  refine unknown_of h' (by omega) ?_
  rw [hl]
  intro x hx hc
  obtain ⟨hx1, hx2⟩ := List.mem_filter.1 hx
  have : x = r := apart_eq h.mem.apart hx1 hr hc hq
  subst this
  simp at hx2

/-- **C86**: `deallocate` of an allocation through its allocator.  Whether it returns or
throws, the allocation is forgotten, the statistics are reduced, and all others are as
before.  If it returns the memory is taken back; if it throws it may be held still. -/
theorem deallocate_refused (hl : Later Pl c RM.new ⟨[], m⟩ t rm w) {r : Rec} (hr : Known rm r) :
    Sure Pl (deallocate c r.tag r.ptr) rm w fun o rm' w' =>
      (∀ q, Contains r q → Unknown rm' q) ∧ Spared r rm w rm' w' ∧
      (rm'.st r.tag).count = (rm.st r.tag).count - 1 ∧ (∀ s, s ≠ r.tag → rm'.st s = rm.st s) ∧
      (r.tag ≠ c.host → (rm'.st r.tag).cur + r.size = (rm.st r.tag).cur) ∧
      (o = some () → w'.held = dropB r.ptr w.held) ∧
      (o = none → r.size ≠ 0 ∧ (w'.held = dropB r.ptr w.held ∨ w'.held = w.held)) := by
  obtain ⟨g, h, _, hn⟩ := reached hl
  have hr' := (known_iff h r).1 hr
  have hcur : ∀ st' : Nat → Stat, st' = bump rm.st r.tag (·.sub r.size) →
      (st' r.tag).count = (rm.st r.tag).count - 1 ∧ (∀ s, s ≠ r.tag → st' s = rm.st s) ∧ (r.tag ≠ c.host → (st' r.tag).cur + r.size = (rm.st r.tag).cur) := by
    intro st' hst
    subst hst
    refine ⟨by rw [bump_same]; rfl, fun s hs => bump_ne hs, fun hh => ?_⟩
    have hx := h.stat.hwm r.tag (hn.exact r.tag hh rfl)
    have h1 := h.stat.cur r.tag
    have h3 := h.bound r.tag
    have hk : g.acct.kids r.tag = [] := by rw [hn.kids]; rfl
    rw [hk, hx.1] at h1
    rw [hk] at h3
    simp only [List.sum_nil, Nat.add_zero] at h1 h3
    have h4 := lsum_perm (dropR_perm h.mem.liveNodup hr').symm r.tag
    rw [lsum_cons, if_pos rfl] at h4
    rw [bump_same]
    have h5 := sub_cur (rm.st r.tag) r.size
    omega
  apply deallocate_hit h hr'
  · intro m' rm' o hz hag h1 hst
    obtain ⟨e1, e2, e3⟩ := hcur rm'.st hst
    refine ⟨fun q hq => forgotten h h1 hr' rfl hq, spared h h1 hr' (fun x hx hp => List.mem_filter.2 ⟨hx, decide_eq_true hp⟩) hag, e1, e2, e3, fun _ => rfl, fun ho => ⟨fun h0 => ?_, Or.inl rfl⟩⟩
    rw [hz h0] at ho
    cases ho
  · intro m' rm' hz hag h1 hst
    obtain ⟨e1, e2, e3⟩ := hcur rm'.st hst
    exact ⟨fun q hq => forgotten h h1 hr' rfl hq, spared h h1 hr' (fun x hx hp => List.mem_filter.2 ⟨hx, decide_eq_true hp⟩) (agree_drop hag), e1, e2, e3, fun he => (by cases he),
      fun _ => ⟨hz, Or.inr rfl⟩⟩

/-- **C86**, refuted: "a deallocation that throws can be repeated".  A block of a tracked
allocator that is given out but not known stays so, whatever is called: it is never handed
back and never given out again, and deallocating it throws without the strategy being
asked. -/
theorem lost_forever_counterexample (hl : Later Pl c RM.new ⟨[], m⟩ t rm w) {b : Blk} (hb : b ∈ w.held) (ht : c.tracked b.own = true) (hz : b.own ≠ zero)
    (hu : Unknown rm b.ptr) {t' : List (Call × Option Nat)} {rm' : RM} {w' : World} (hl' : Later Pl c rm w t' rm' w') :
    b ∈ w'.held ∧ (∀ q, b.ptr ≤ q → q < b.ptr + b.size → Unknown rm' q) ∧
      ∀ s, s ≠ zero → c.tracked s = true → Sure Pl (deallocate c s b.ptr) rm' w' fun o _ w₂ => o = none ∧ w₂ = w' := by
  obtain ⟨g, h, _, _⟩ := reached hl
  have hbu : b ∈ g.un := by
    rcases List.mem_append.1 (h.mem.perm.mem_iff.1 hb) with h1 | h1
    · obtain ⟨r, hr, rfl⟩ := List.mem_map.1 h1
      have := ((known_iff h r).2 hr).2
      rw [blkOf_ptr] at hu
      unfold Unknown at hu
      rw [this] at hu
      cases hu
    · exact h1
  obtain ⟨g', h', _, hn⟩ := later_ok h (aligned_none Pl) hl'
  have hbu' := hn.un b hbu ht hz
  have hbh := h'.mem.un_held hbu'
  have hbk := h'.mem.blk b hbh
  have hne : ∀ r ∈ g'.live, r.ptr ≠ b.ptr := by
    intro r hr he
    have nd := h'.mem.allNodup
    rw [List.map_append, List.map_map] at nd
    refine (List.nodup_append.1 nd).2.2 b.ptr ?_ b.ptr (List.mem_map_of_mem hbu') rfl
    exact List.mem_map.2 ⟨r, hr, by show (blkOf r).ptr = b.ptr; rw [blkOf_ptr]; exact he⟩
  have hlt : b.ptr + b.size < 2 ^ 64 := by
    have : AMax < 2 ^ 64 := by decide
    omega
  refine ⟨hbh, fun q e1 e2 => ?_, fun s hs hts => ?_⟩
  · refine unknown_of h' (by omega) fun r hr hc => ?_
    have hc' := contains_blk hc
    have hd := h'.mem.bdisj (h'.mem.mem_held hr) hbh (fun he => hne r hr (by rw [← blkOf_ptr r, he]))
    unfold BDisj Disj at hd
    omega
  · exact deallocate_miss h' hts hbk.1 (by omega) (fun r hr he => hne r hr he.1) fun rm' _ _ => ⟨rfl, rfl⟩

/-- A strategy may refuse every block that is not empty. -/
theorem deallocate_can_refuse {r : Rec} (h : Ok Pl B c rm w g) (hr : r ∈ g.live) (h0 : r.size ≠ 0) :
    ∃ rm', (deallocate c r.tag r.ptr rm).run Pl w (none, rm') w := by
  have htag := h.mem.tag r hr
  have hbk := h.mem.mem_held hr
  have hown : (blkOf r) = ⟨r.tag, r.ptr, r.size⟩ := by unfold blkOf; rw [if_neg h0]
  obtain ⟨a', h1, h2⟩ := h.mem.dereg hr
  refine ⟨{ amap := a', st := bump rm.st r.tag (·.sub r.size) }, ?_⟩
  unfold deallocate
  rw [if_neg (h.mem.rec_lt hr).1, if_pos htag.2]
  refine ⟨(some r, { amap := a', st := bump rm.st r.tag (·.sub r.size) }), w, ?_, ?_⟩
  · refine run_bind (b := r) (rm1 := { rm with amap := a' }) (w1 := w) ?_ ?_
    · show MP.Run Pl (match rm.amap.remove r.ptr with
        | .ok a r => MP.ret (some r, { rm with amap := a })
        | .throws a => .ret (none, { rm with amap := a })
        | .ub => .fail) _ _ _
      rw [h1]
      exact .ret
    · rw [if_pos rfl]
      exact .ret
  · refine ⟨(some false, { amap := a', st := bump rm.st r.tag (·.sub r.size) }), w, .fromZero (b := false) ?_ (fun _ => rfl) .ret, ?_⟩
    · rintro ⟨x, hx, e0, e1, e2⟩
      have : x = blkOf r := by
        by_cases he : x = blkOf r
        · exact he
        · have hd := h.mem.bdisj hx hbk he
          have := blkOf_ptr r
          have := (blkOf_size r).2
          unfold BDisj Disj at hd
          omega
      subst this
      rw [hown] at e0
      exact absurd e0 htag.1
    · exact ⟨false, w, ⟨⟨_, hbk, by rw [hown], by rw [hown], fun m hm => by injection hm with hm; rw [← hm, hown]⟩, Or.inr ⟨rfl, rfl, agree_refl _ _⟩⟩, .ret⟩

theorem deallocateAny_can_refuse {r : Rec} (h : Ok Pl B c rm w g) (hr : r ∈ g.live) (h0 : r.size ≠ 0) :
    ∃ rm', (deallocateAny c r.ptr rm).run Pl w (none, rm') w := by
  obtain ⟨rm', h1⟩ := deallocate_can_refuse (h.seek r.ptr) hr h0
  exact ⟨rm', (some r.tag, _), w, run_bind (b := r) (find_can h hr) .ret, h1⟩

/-- **C86**: and this can happen to every allocation that is not empty. -/
theorem deallocate_loses_counterexample (hl : Later Pl c RM.new ⟨[], m⟩ t rm w) {r : Rec} (hr : Known rm r) (h0 : r.size ≠ 0) :
    ∃ rm', (deallocate c r.tag r.ptr rm).run Pl w (none, rm') w ∧ ⟨r.tag, r.ptr, r.size⟩ ∈ w.held ∧ c.tracked r.tag = true ∧ r.tag ≠ zero ∧ Unknown rm' r.ptr := by
  obtain ⟨g, h, _, _⟩ := reached hl
  have hr' := (known_iff h r).1 hr
  have htag := h.mem.tag r hr'
  have hown : (blkOf r) = ⟨r.tag, r.ptr, r.size⟩ := by unfold blkOf; rw [if_neg h0]
  obtain ⟨rm', hrun⟩ := deallocate_can_refuse h hr' h0
  refine ⟨rm', hrun, by rw [← hown]; exact h.mem.mem_held hr', htag.2, htag.1, ?_⟩
  exact ((deallocate_refused hl hr).2 _ _ _ hrun).1 r.ptr (contains_base r)

/-- The contents of `r`, at most `n` bytes, are at `q`. -/
def Copied (r : Rec) (n q : Nat) (w w' : World) : Prop := ∀ i, i < n → i < r.size → w'.mem (q + i) = w.mem (r.ptr + i)

/-- The allocation `r` has become `⟨q, n, s⟩`: the latter is known and has its contents, the
former is unknown, and all others are as before. -/
def Became (r : Rec) (q n s : Nat) (rm : RM) (w : World) (rm' : RM) (w' : World) : Prop :=
  Known rm' ⟨q, n, s⟩ ∧ Copied r n q w w' ∧ (∀ x, Contains r x → Unknown rm' x) ∧ Spared r rm w rm' w'

/-- Nothing has changed for the allocations. -/
def Unchanged (rm : RM) (w : World) (rm' : RM) (w' : World) : Prop :=
  w'.held = w.held ∧ ∀ x, Known rm x → Known rm' x ∧ ∀ i, i < x.size → w'.mem (x.ptr + i) = w.mem (x.ptr + i)

theorem became {r : Rec} {q n s : Nat} {g' : Ghost} {rm' : RM} {w' : World} (h : Ok Pl B c rm w g) (h' : Ok Pl B c rm' w' g') (hr : r ∈ g.live)
    (hl : g'.live = ⟨q, n, s⟩ :: dropR r.ptr g.live) (hf : Fresh q (cap n) (ranges w.held)) (hc : Carried w r q n w'.mem) :
    Became r q n s rm w rm' w' := by
  refine ⟨(known_iff h' _).2 (by rw [hl]; exact List.mem_cons_self), hc.1, fun x hx => ?_, ?_⟩
  · have hlt := h.mem.rec_lt hr
    have h1 := hx.1
    have h2 := hx.2
    refine unknown_of h' (by omega) ?_
    rw [hl]
    intro y hy hcy
    rcases List.mem_cons.1 hy with rfl | hy
    · have h3 := contains_blk hx
      have h4 := contains_blk hcy
      rw [blkOf_eq] at h4
      have h5 := hf.2.2 ((blkOf r).ptr, (blkOf r).size) (List.mem_map_of_mem (f := fun b : Blk => (b.ptr, b.size)) (h.mem.mem_held hr))
      unfold Disj at h5
      dsimp only at h4 h5
      omega
    · obtain ⟨y1, y2⟩ := List.mem_filter.1 hy
      have : y = r := apart_eq h.mem.apart y1 hr hcy hx
      subst this
      simp at y2
  · exact spared h h' hr (fun x hx hp => by rw [hl]; exact mem_replace hx hp) hc.2

theorem unchanged {rm' : RM} {m' : Nat → Nat} (h : Ok Pl B c rm w g) (h' : Ok Pl B c rm' ⟨w.held, m'⟩ g) (hag : Agree w.held w.mem m') : Unchanged rm w rm' ⟨w.held, m'⟩ := by
  refine ⟨rfl, fun x hx => ?_⟩
  have hx' := (known_iff h x).1 hx
  refine ⟨(known_iff h' x).2 hx', fun i hi => ?_⟩
  have h1 := blkOf_ptr x
  have h2 := (blkOf_size x).1
  exact hag (blkOf x) (h.mem.mem_held hx') _ (by omega) (by omega)

/-- The outcome of replacing `r` by `n` bytes of `s`: a result is where `r` is now; after an
exception all is as before, or `r` is somewhere else all the same. -/
def Outcome (r : Rec) (n s : Nat) (rm : RM) (w : World) (o : Option Nat) (rm' : RM) (w' : World) : Prop :=
  (∀ q, o = some q → Became r q n s rm w rm' w') ∧
  (o = none → Unchanged rm w rm' w' ∨ r.size ≠ 0 ∧ ∃ q, Became r q n s rm w rm' w')

theorem outcome_of {r : Rec} {s n sz : Nat} {D : R Unit} (h : Ok Pl B c rm w g) (ha : Aligned Pl B) (hs : s ≠ zero) (ht : c.tracked s = true)
    (hr : r ∈ g.live) (hsz : (if sz = 0 then r.size else sz) = min r.size n) (hD : Frees Pl B c r D) :
    Sure Pl (do let q ← R.up (allocate c s n); R.up (copy q r.ptr sz); D; return q : R Nat) rm w (Outcome r n s rm w) := by
  apply relocate_spec h ha hs ht hr hsz hD
  · intro q m' rm' o ho hf hc h1 _
    have hb : Became r q n s rm w rm' _ := became h h1 hr rfl hf hc
    refine ⟨fun q' he => ?_, fun he => ?_⟩
    · rcases ho with e | e
      · rw [e] at he; injection he with he; subst he; exact hb
      · rw [e.1] at he; cases he
    · rcases ho with e | e
      · rw [e] at he; cases he
      · exact Or.inr ⟨e.2, q, hb⟩
  · intro q m' rm' hz hf hc h1 _
    exact ⟨fun _ he => (by cases he), fun _ => Or.inr ⟨hz, q, became h h1 hr rfl hf hc⟩⟩
  · intro m' hag h1
    exact ⟨fun _ he => (by cases he), fun _ => Or.inl (unchanged h h1 hag)⟩

theorem outcome_seek {r : Rec} {n s : Nat} {o : Option Nat} {rm₁ rm' : RM} {w' : World} (hk : ∀ x, Known rm₁ x ↔ Known rm x)
    (h : Outcome r n s rm₁ w o rm' w') : Outcome r n s rm w o rm' w' := by
  have hsp : Spared r rm₁ w rm' w' → Spared r rm w rm' w' := fun h x hx => h x ((hk x).2 hx)
  have hb : ∀ q, Became r q n s rm₁ w rm' w' → Became r q n s rm w rm' w' := fun q h => ⟨h.1, h.2.1, h.2.2.1, hsp h.2.2.2⟩
  refine ⟨fun q hq => hb q (h.1 q hq), fun he => ?_⟩
  rcases h.2 he with h1 | ⟨h0, q, h1⟩
  · exact Or.inl ⟨h1.1, fun x hx => h1.2 x ((hk x).2 hx)⟩
  · exact Or.inr ⟨h0, q, hb q h1⟩

/-- **C86**: `reallocate` to a size other than zero of an allocation other than of `HOST`
(which uses `::realloc`, C32). -/
theorem reallocate_refused (hl : Later Pl c RM.new ⟨[], m⟩ t rm w) {r : Rec} {d n : Nat} (hr : Known rm r) (hn : n ≠ 0) (hh : r.tag ≠ c.host) :
    Sure Pl (reallocate c d r.ptr n) rm w (Outcome r n r.tag rm w) := by
  obtain ⟨g, h, _, _⟩ := reached hl
  have hr' := (known_iff h r).1 hr
  have htag := h.mem.tag r hr'
  unfold reallocate
  rw [if_neg (h.mem.rec_lt hr').1]
  apply sure_first
  apply find_base h hr'
  intro rm1 h1 _
  refine ⟨fun he => (by cases he), fun y he => ?_⟩
  injection he with he
  subst he
  unfold reallocImpl
  rw [if_neg (h.mem.rec_lt hr').1]
  apply sure_first
  apply find_base h1 hr'
  intro rm2 h2 _
  refine ⟨fun he => (by cases he), fun y he => ?_⟩
  injection he with he
  subst he
  rw [if_neg (by simp), if_neg hn, if_neg (by simp), if_neg hh]
  have hsz : (if (if r.size > n then n else r.size) = 0 then r.size else if r.size > n then n else r.size) = min r.size n := by
    by_cases h1 : r.size > n
    · rw [if_pos h1, if_neg hn]; omega
    · rw [if_neg h1]
      split <;> omega
  exact sure_mono (outcome_of h2 (aligned_none Pl) htag.1 htag.2 hr' hsz (frees_deallocate r)) fun o rm' w' ho =>
    outcome_seek (fun x => (known_iff h2 x).trans (known_iff h x).symm) ho

/-- **C86**: `move` to another allocator. -/
theorem move_refused (hl : Later Pl c RM.new ⟨[], m⟩ t rm w) {r : Rec} {s : Nat} (hr : Known rm r) (hs : s ≠ zero) (ht : c.tracked s = true) (hne : r.tag ≠ s) :
    Sure Pl (move c r.ptr s) rm w (Outcome r r.size s rm w) := by
  obtain ⟨g, h, _, _⟩ := reached hl
  have hr' := (known_iff h r).1 hr
  unfold move
  apply sure_first
  apply find_base h hr'
  intro rm1 h1 _
  refine ⟨fun he => (by cases he), fun y he => ?_⟩
  injection he with he
  subst he
  rw [if_neg hne, if_neg (by simp)]
  exact sure_mono (outcome_of h1 (aligned_none Pl) hs ht hr' (by simp) (frees_any r)) fun o rm' w' ho =>
    outcome_seek (fun x => (known_iff h1 x).trans (known_iff h x).symm) ho

theorem relocate_can_refuse {r : Rec} {s n sz q : Nat} {D : R Unit} (h : Ok Pl B c rm w g) (ha : Aligned Pl B) (hs : s ≠ zero) (ht : c.tracked s = true) (hr : r ∈ g.live)
    (hsz : (if sz = 0 then r.size else sz) ≤ n) (hf : Fresh q (cap n) (ranges w.held)) (hpl : Pl (if n = 0 then zero else s) q)
    (hD : ∀ rm w g, Ok Pl B c rm w g → r ∈ g.live → ∃ rm', (D rm).run Pl w (none, rm') w) :
    ∃ rm' w', ((do let q ← R.up (allocate c s n); R.up (copy q r.ptr sz); D; return q : R Nat) rm).run Pl w (none, rm') w' ∧ w'.held = blkOf ⟨q, n, s⟩ :: w.held := by
  obtain ⟨rm1, h1⟩ := allocate_can (c := c) (rm := rm) hf hpl
  have hg1 : g.alloc c s n q = g.reg ⟨q, n, s⟩ := by unfold Ghost.alloc; rw [if_pos ht]
  have hO := wpM_run (Q := fun o rm' w' => o = some q → Ok Pl B c rm' w' (g.reg ⟨q, n, s⟩))
    (allocate_spec (n := n) h ha hs (fun p m rm' _ _ _ hk _ he => by injection he with he; subst he; rw [hg1] at hk; exact hk) (fun _ _ _ he => by cases he)) h1 rfl
  have hr1 : r ∈ (g.reg ⟨q, n, s⟩).live := List.mem_cons_of_mem _ hr
  have hq1 : (⟨q, n, s⟩ : Rec) ∈ (g.reg ⟨q, n, s⟩).live := List.mem_cons_self
  obtain ⟨rm2, w2, h2, e2, hO2⟩ := copy_can hO hr1 hq1 hsz
  obtain ⟨rm3, h3⟩ := hD rm2 w2 _ hO2 hr1
  exact ⟨rm3, w2, ⟨(some q, rm1), _, h1, (some (), rm2), w2, h2, (none, rm3), w2, h3, .ret⟩, e2⟩

/-- After an exception with more blocks held than before the allocation is elsewhere. -/
theorem Outcome.moved {r : Rec} {n s : Nat} {rm' : RM} {w' : World} {b : Blk} (h : Outcome r n s rm w none rm' w') (hb : w'.held = b :: w.held) :
    ∃ q, Became r q n s rm w rm' w' := by
  rcases h.2 rfl with h1 | ⟨_, h1⟩
  · have h2 := congrArg List.length (h1.1.symm.trans hb)
    simp only [List.length_cons] at h2
    omega
  · exact h1

/-- **C86**, refuted: "a `reallocate` that throws leaves the allocation where it was".  Of
every allocation other than of `HOST` and not empty: the exception may come after the
contents were moved to an address nobody is told, and both blocks are held. -/
theorem reallocate_orphans_counterexample (hl : Later Pl c RM.new ⟨[], m⟩ t rm w) {r : Rec} {d n q : Nat} (hr : Known rm r) (h0 : r.size ≠ 0) (hn : n ≠ 0)
    (hh : r.tag ≠ c.host) (hf : Fresh q n (ranges w.held)) (hpl : Pl r.tag q) :
    ∃ rm' w', (reallocate c d r.ptr n rm).run Pl w (none, rm') w' ∧ (∃ q', Became r q' n r.tag rm w rm' w') ∧ ⟨r.tag, r.ptr, r.size⟩ ∈ w'.held := by
  obtain ⟨g, h, _, _⟩ := reached hl
  have hr' := (known_iff h r).1 hr
  have htag := h.mem.tag r hr'
  have hcap : Mgr.cap n = n := by unfold Mgr.cap; rw [if_neg hn]
  have hown : (blkOf r) = ⟨r.tag, r.ptr, r.size⟩ := by unfold blkOf; rw [if_neg h0]
  have h1 := h.seek r.ptr
  have h2 := h1.seek r.ptr
  obtain ⟨rm', w', hrun, hw⟩ := relocate_can_refuse (r := r) (s := r.tag) (n := n) (sz := if r.size > n then n else r.size) (q := q) (D := deallocate c r.tag r.ptr) h2 (aligned_none Pl) htag.1 htag.2 hr'
    (by
      by_cases h1 : r.size > n
      · rw [if_pos h1, if_neg hn]; omega
      · rw [if_neg h1]; split <;> omega)
    (by rw [hcap]; exact hf) (by rw [if_neg hn]; exact hpl) (fun _ _ _ hO hr => deallocate_can_refuse hO hr h0)
  have hrun' : (reallocate c d r.ptr n rm).run Pl w (none, rm') w' := by
    unfold reallocate
    rw [if_neg (h.mem.rec_lt hr').1]
    refine ⟨(some r, _), w, find_can h hr', ?_⟩
    show (reallocImpl c r.ptr n r.tag _).run Pl w (none, rm') w'
    unfold reallocImpl
    rw [if_neg (h.mem.rec_lt hr').1]
    refine ⟨(some r, _), w, find_can h1 hr', ?_⟩
    dsimp only
    rw [if_neg (by simp), if_neg hn, if_neg (by simp), if_neg hh]
    exact hrun
  refine ⟨rm', w', hrun', ((reallocate_refused hl hr hn hh).2 _ _ _ hrun').moved hw, ?_⟩
  rw [hw, ← hown]
  exact List.mem_cons_of_mem _ (h.mem.mem_held hr')

/-- **C86**, refuted for `move`. -/
theorem move_orphans_counterexample (hl : Later Pl c RM.new ⟨[], m⟩ t rm w) {r : Rec} {s q : Nat} (hr : Known rm r) (h0 : r.size ≠ 0) (hs : s ≠ zero)
    (ht : c.tracked s = true) (hne : r.tag ≠ s) (hf : Fresh q r.size (ranges w.held)) (hpl : Pl s q) :
    ∃ rm' w', (move c r.ptr s rm).run Pl w (none, rm') w' ∧ (∃ q', Became r q' r.size s rm w rm' w') ∧ ⟨r.tag, r.ptr, r.size⟩ ∈ w'.held := by
  obtain ⟨g, h, _, _⟩ := reached hl
  have hr' := (known_iff h r).1 hr
  have hcap : Mgr.cap r.size = r.size := by unfold Mgr.cap; rw [if_neg h0]
  have hown : (blkOf r) = ⟨r.tag, r.ptr, r.size⟩ := by unfold blkOf; rw [if_neg h0]
  have h1 := h.seek r.ptr
  obtain ⟨rm', w', hrun, hw⟩ := relocate_can_refuse (r := r) (s := s) (n := r.size) (sz := 0) (q := q) (D := deallocateAny c r.ptr) h1 (aligned_none Pl) hs ht hr'
    (by simp) (by rw [hcap]; exact hf) (by rw [if_neg h0]; exact hpl) (fun _ _ _ hO hr => deallocateAny_can_refuse hO hr h0)
  have hrun' : (move c r.ptr s rm).run Pl w (none, rm') w' := by
    unfold move
    refine ⟨(some r, _), w, find_can h hr', ?_⟩
    dsimp only
    rw [if_neg hne, if_neg (by simp)]
    exact hrun
  refine ⟨rm', w', hrun', ((move_refused hl hr hs ht hne).2 _ _ _ hrun').moved hw, ?_⟩
  rw [hw, ← hown]
  exact List.mem_cons_of_mem _ (h.mem.mem_held hr')

end

/-! ## The hypotheses can be met -/

/-- An allocation of 24 bytes from allocator 3, and room for more. -/
theorem reachable : ∃ rm w, Later (fun _ _ => True) Mgr.cfg RM.new ⟨[], fun _ => 0⟩ [(.alloc 3 24, some 4096)] rm w ∧ Known rm ⟨4096, 24, 3⟩ ∧ w.held = [⟨3, 4096, 24⟩] := by
  obtain ⟨rm', hr⟩ := allocate_can (Pl := fun _ _ => True) (c := Mgr.cfg) (rm := RM.new) (w := ⟨[], fun _ => 0⟩) (s := 3) (n := 24) (p := 4096)
    ⟨by decide, by decide, fun r hr => (by cases hr)⟩ trivial
  have hl : Later (fun _ _ => True) Mgr.cfg RM.new ⟨[], fun _ => 0⟩ [(.alloc 3 24, some 4096)] rm' ⟨[⟨3, 4096, 24⟩], fun _ => 0⟩ :=
    .call (e := .alloc 3 24) .start (by decide : (3 : Nat) ≠ zero) hr
  obtain ⟨L, h1, h2, _⟩ := account_partial hl
  refine ⟨_, _, hl, (h2 _).2 ?_, rfl⟩
  cases h1 with
  | call h1 hc =>
    cases h1
    rw [hc.1 4096 rfl]
    exact List.mem_cons_self

/-- A refused deallocation: after it, the block is held and not known
(`lost_forever_counterexample`). -/
example : ∃ rm w, Later (fun _ _ => True) Mgr.cfg RM.new ⟨[], fun _ => 0⟩ [(.free 3 4096, none), (.alloc 3 24, some 4096)] rm w ∧
    ⟨3, 4096, 24⟩ ∈ w.held ∧ Mgr.cfg.tracked 3 = true ∧ Unknown rm 4096 := by
  obtain ⟨rm, w, hl, hk, hw⟩ := reachable
  obtain ⟨rm', h1, h2, _, _, h5⟩ := deallocate_loses_counterexample hl hk (by decide)
  refine ⟨rm', w, .call (e := .free 3 4096) hl ⟨by decide, by decide, Or.inl rfl⟩ ⟨(none, rm'), w, h1, .ret⟩, h2, rfl, h5⟩

/-- Reallocation and moves to allocator 4 of the allocation. -/
example : Fresh 8192 48 (ranges [⟨3, 4096, 24⟩]) ∧ Fresh 8192 24 (ranges [⟨3, 4096, 24⟩]) ∧ (3 : Nat) ≠ Mgr.cfg.host ∧ Mgr.cfg.tracked 4 = true ∧ (4 : Nat) ≠ zero := by
  refine ⟨⟨by decide, by decide, fun r hr => ?_⟩, ⟨by decide, by decide, fun r hr => ?_⟩, by decide, by decide, by decide⟩ <;>
    · rcases List.mem_cons.1 hr with rfl | hr
      · unfold Disj; simp
      · cases hr

end Umpire.Refuse
