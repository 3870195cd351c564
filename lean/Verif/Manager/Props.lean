import Verif.Manager.Play
import Verif.Manager.Peak
import Verif.Manager.Can
/-!
# Properties of the facade layer: C23-C27, C30-C33

`Hist Pl c t rm w` (`Verif.Manager.Hist`) says that the calls `t` with their outcomes can
lead to the state `rm`, `w`.  `(ghost c t).live` lists the allocations that are live
according to the calls and their outcomes alone: what was allocated and not freed since.
-/
set_option autoImplicit false
set_option linter.unusedSimpArgs false
namespace Umpire.Mgr
open Umpire.Judy

/-- Whatever the strategies do, `m` has no undefined behaviour and its outcome
satisfies `Q`. -/
def Sure {β : Type} (Pl : Nat → Nat → Prop) (m : M β) (rm : RM) (w : World) (Q : Option β → RM → World → Prop) : Prop :=
  ¬MP.Goes Pl (m rm) w ∧ ∀ o rm' w', MP.Run Pl (m rm) w (o, rm') w' → Q o rm' w'

/-- The live allocations according to the calls made. -/
def liveOf (c : Cfg) (t : List Ev) : List Rec := (ghost c t).live

section
variable {Pl : Nat → Nat → Prop} {B : Nat → Prop} {c : Cfg} {rm : RM} {w : World} {t : List Ev}

theorem sure_of {β : Type} {m : M β} {Q : Option β → RM → World → Prop} (h : wpM Pl m rm w Q) : Sure Pl m rm w Q :=
  ⟨MP.wp_goes h, fun _ _ _ hr => wpM_run h hr⟩

theorem aligned_none (Pl : Nat → Nat → Prop) : Aligned Pl fun _ => False := fun _ _ _ h => h.elim

/-- The answers of `getSize`, `getAllocator(void*)` and `hasAllocator` for an address. -/
def Answers (Pl : Nat → Nat → Prop) (rm : RM) (w : World) (q : Nat) (o : Option Rec) : Prop :=
  Sure Pl (getSize q) rm w (fun a _ w' => a = o.map (·.size) ∧ w' = w) ∧
  Sure Pl (getOwner q) rm w (fun a _ w' => a = o.map (·.tag) ∧ w' = w) ∧
  Sure Pl (hasAllocator q) rm w (fun a _ w' => a = some o.isSome ∧ w' = w)

theorem find_wp {q : Nat} {o : Option Rec} {Q : Option Rec → RM → World → Prop} (h : (rm.amap.findRecord q).2 = o)
    (hq : Q o { rm with amap := (rm.amap.findRecord q).1 } w) : wpM Pl (find q) rm w Q := by subst h; exact hq

theorem answers_of {q : Nat} {o : Option Rec} (h : (rm.amap.findRecord q).2 = o) : Answers Pl rm w q o := by
  refine ⟨sure_of ?_, sure_of ?_, sure_of ?_⟩
  · apply wpM_bind
    refine find_wp h ?_
    cases o with
    | none => exact ⟨rfl, rfl⟩
    | some r => exact ⟨rfl, rfl⟩
  · apply wpM_bind
    refine find_wp h ?_
    cases o with
    | none => exact ⟨rfl, rfl⟩
    | some r => exact ⟨rfl, rfl⟩
  · exact ⟨by rw [← h], rfl⟩

theorem Ok.answers_base {g : Ghost} (h : Ok Pl B c rm w g) {r : Rec} (hr : r ∈ g.live) : Answers Pl rm w r.ptr (some r) :=
  answers_of ((h.mem.find_sound (by have := h.mem.rec_lt hr; omega)).2.1 r hr rfl)

theorem Ok.answers_in {g : Ghost} (h : Ok Pl B c rm w g) {r : Rec} (hr : r ∈ g.live) (hb : B (r.ptr / 256)) {q : Nat} (hq : Contains r q) :
    Answers Pl rm w q (some r) := by
  have hlt := h.mem.rec_lt hr
  have h1 := hq.1
  have h2 := hq.2
  exact answers_of ((h.mem.find_sound (by omega)).2.2 r hr hb hq)

theorem Ok.answers_none {g : Ghost} (h : Ok Pl B c rm w g) {q : Nat} (hq : q < 2 ^ 64) (hn : ∀ r ∈ g.live, ¬Contains r q) : Answers Pl rm w q none := by
  apply answers_of
  cases hf : (rm.amap.findRecord q).2 with
  | none => rfl
  | some r => exact absurd ((h.mem.find_sound hq).1 r hf).2 (hn r ((h.mem.find_sound hq).1 r hf).1)

/-! ## C23 -/

/-- **C23**, first address of an allocation, for every history: the size and the owner
are reported; addresses in no allocation are unknown. -/
theorem introspection_partial (hh : Hist Pl c t rm w) :
    (∀ r ∈ liveOf c t, Answers Pl rm w r.ptr (some r)) ∧
    ∀ q, q < 2 ^ 64 → (∀ r ∈ liveOf c t, ¬Contains r q) → Answers Pl rm w q none :=
  have h := hist_ok (aligned_none Pl) hh
  ⟨fun _ hr => h.answers_base hr, fun _ hq hn => h.answers_none hq hn⟩

/-- Strategies place blocks at multiples of eight outside of the 256-byte blocks `Z`, and
the zero-byte pool inside of them (its memory comes in pages of its own). -/
def Zoned (Pl : Nat → Nat → Prop) (Z : Nat → Prop) : Prop := ∀ s p, Pl s p → (s = zero ↔ Z (p / 256)) ∧ (s ≠ zero → 8 ∣ p)

/-- **C23**, every address of an allocation, when strategies return addresses that are
multiples of eight (as all memory resources and pools with the default alignment do). -/
theorem introspection_interior_partial {Z : Nat → Prop} (hz : Zoned Pl Z) (hh : Hist Pl c t rm w) :
    ∀ r ∈ liveOf c t, ∀ q, Contains r q → Answers Pl rm w q (some r) := by
  have ha : Aligned Pl fun b => ¬Z b := fun s p hp hb => (hz s p hp).2 fun h => hb ((hz s p hp).1.1 h)
  have h := hist_ok ha hh
  intro r hr q hq
  by_cases h0 : r.size = 0
  · have : q = r.ptr := by have := hq.1; have := hq.2; omega
    rw [this]; exact h.answers_base hr
  · refine h.answers_in hr ?_ hq
    have hb : blkOf r = ⟨r.tag, r.ptr, r.size⟩ := by unfold blkOf; rw [if_neg h0]
    have hp := h.mem.pl _ (h.mem.mem_held hr)
    rw [hb] at hp
    exact fun hZ => (h.mem.tag r hr).1 ((hz _ _ hp).1.2 hZ)

/-- **C23**, one call: an allocation that succeeds is reported as requested, and no live
allocation is affected. -/
theorem allocate_registers (hh : Hist Pl c t rm w) {s n : Nat} (hs : s ≠ zero) (ht : c.tracked s = true) :
    Sure Pl (allocate c s n) rm w fun o rm' w' => (∀ p, o = some p → Answers Pl rm' w' p (some ⟨p, n, s⟩)) ∧
      ∀ r ∈ liveOf c t, Answers Pl rm' w' r.ptr (some r) := by
  apply sure_of
  apply allocate_spec (hist_ok (aligned_none Pl) hh) (aligned_none Pl) hs
  · intro p m rm' _ _ _ h _
    unfold Ghost.alloc at h
    rw [if_pos ht] at h
    refine ⟨fun p' he => ?_, fun r hr => h.answers_base (List.mem_cons_of_mem _ hr)⟩
    injection he with he
    subst he
    exact h.answers_base (r := ⟨p, n, s⟩) List.mem_cons_self
  · intro m _ h
    exact ⟨fun p he => (by cases he), fun r hr => h.answers_base hr⟩

/-- **C23**, one call: deallocating a live allocation succeeds; its addresses are unknown
afterwards and all others are known as before. -/
theorem deallocate_forgets (hh : Hist Pl c t rm w) {r : Rec} (hr : r ∈ liveOf c t) :
    Sure Pl (deallocate c r.tag r.ptr) rm w fun o rm' w' => o = some () ∧ (∀ q, Contains r q → Answers Pl rm' w' q none) ∧
      ∀ x ∈ liveOf c t, x ≠ r → Answers Pl rm' w' x.ptr (some x) := by
  have h0 := hist_ok (aligned_none Pl) hh
  apply sure_of
  apply deallocate_hit h0 hr
  intro m rm' _ h _
  refine ⟨rfl, fun q hq => ?_, fun x hx hne => ?_⟩
  · have hlt := h0.mem.rec_lt hr
    have h1 := hq.1
    have h2 := hq.2
    refine h.answers_none (by omega) fun x hx hc => ?_
    obtain ⟨hx1, hx2⟩ := List.mem_filter.1 hx
    have : x = r := apart_eq h0.mem.apart hx1 hr hc hq
    subst this
    simp at hx2
  · refine h.answers_base (List.mem_filter.2 ⟨hx, decide_eq_true fun he => hne ?_⟩)
    exact nodup_map_inj h0.mem.liveNodup hx hr he

/-! ## C24 -/

/-- The sizes of the blocks that strategies on top of `s` hold. -/
def kidsOf (c : Cfg) (t : List Ev) (s : Nat) : List Nat := (ghost c t).acct.kids s

/-- The event is not one that makes the statistics of `s` deviate: a failed request of a
strategy on top of `s`, a strategy on top of `s` handing back a block with a size other
than its own, a reallocation (`s` being `HOST`). -/
def Faithful (c : Cfg) (s : Nat) : Ev → Prop
  | .kid s' _ false => s' ≠ s
  | .kidFree s' n m => s' = s → n = m
  | .realloc .. => s ≠ c.host
  | .reallocAny .. => s ≠ c.host
  | _ => True

theorem Ghost.exact_alloc (c : Cfg) (g : Ghost) (s n p : Nat) : (g.alloc c s n p).acct = g.acct := by
  unfold Ghost.alloc; split <;> rfl

theorem Ghost.exact_realloc {c : Cfg} {g : Ghost} {s x p n : Nat} {o : Option Nat} (hs : s ≠ c.host) (h : g.acct.exact s = true) :
    (g.realloc c x p n o).acct.exact s = true := by
  have hre : ∀ (r : Rec) q, (g.resized c r n q).acct.exact s = true := by
    intro r q
    unfold Ghost.resized
    dsimp only
    split
    · rename_i hc
      show upd _ _ _ s = true
      rw [upd_ne (by rw [hc.1]; exact hs)]; exact h
    · exact h
  have hun : ∀ (r : Rec), (g.unresized c r).acct.exact s = true := by
    intro r
    unfold Ghost.unresized
    split
    · rename_i hc
      show upd _ _ _ s = true
      rw [upd_ne (by rw [hc.1]; exact hs)]; exact h
    · exact h
  unfold Ghost.realloc
  split
  · cases o with
    | none => exact h
    | some q => dsimp only; rw [Ghost.exact_alloc]; exact h
  · cases at? g.live p with
    | none => exact h
    | some r =>
      dsimp only
      split
      · exact h
      · split
        · cases o with
          | none => exact h
          | some q => dsimp only; rw [Ghost.exact_alloc]; exact h
        · cases o with
          | none => exact hun r
          | some q => exact hre r q

theorem exact_step {c : Cfg} {s : Nat} {g : Ghost} {e : Ev} (ih : g.acct.exact s = true) (he : Faithful c s e) : (g.step c e).acct.exact s = true := by
  cases e with
  | alloc s' n o => cases o with
    | none => exact ih
    | some p => show (g.alloc c s' n p).acct.exact s = true; rw [Ghost.exact_alloc]; exact ih
  | free s' p ok => cases ok with
    | false => exact ih
    | true => show (if p = 0 then g else if c.tracked s' then g.free p else { g with un := dropB p g.un }).acct.exact s = true
              split
              · exact ih
              · split <;> exact ih
  | freeAny p ok => cases ok <;> exact ih
  | realloc s' p n o => exact Ghost.exact_realloc he ih
  | reallocAny d p n o =>
    show (if p = 0 then g.realloc c d p n o else _).acct.exact s = true
    split
    · exact Ghost.exact_realloc he ih
    · cases at? g.live p with
      | none => exact ih
      | some r => exact Ghost.exact_realloc he ih
  | move p s' o =>
    show (g.move p s' o).acct.exact s = true
    unfold Ghost.move
    cases o with
    | none => exact ih
    | some q =>
      dsimp only
      cases at? g.live p with
      | none => exact ih
      | some r => dsimp only; split <;> exact ih
  | copy d s' n ok => exact ih
  | memset p v n ok => exact ih
  | query p => exact ih
  | kid s' n ok => cases ok with
    | true => exact ih
    | false => show upd g.acct.exact s' false s = true; rw [upd_ne (Ne.symm he)]; exact ih
  | kidFree s' n m =>
    show upd g.acct.exact s' _ s = true
    by_cases hs : s = s'
    · subst hs
      rw [upd_same, ih, he rfl]
      simp
    · rw [upd_ne hs]; exact ih

theorem exact_of {c : Cfg} {s : Nat} {t : List Ev} (h : ∀ e ∈ t, Faithful c s e) : (ghost c t).acct.exact s = true := by
  induction t with
  | nil => rfl
  | cons e t ih => exact exact_step (ih fun x hx => h x (List.mem_cons_of_mem _ hx)) (h e List.mem_cons_self)

theorem cur_of (hh : Hist Pl c t rm w) (s : Nat) (hf : ∀ e ∈ t, Faithful c s e) :
    (rm.st s).cur = inUse c s t ∧ (rm.st s).cur ≤ (rm.st s).hwm := by
  have h := hist_ok (aligned_none Pl) hh
  have hx := h.stat.hwm s (exact_of hf)
  refine ⟨?_, hx.2.2⟩
  have h1 := h.stat.cur s
  have h2 := h.bound s
  rw [hx.1] at h1
  unfold lsum at h1 h2
  unfold inUse
  omega

theorem peak_step {e : Ev} {rm' : RM} {w' : World} (hh : Hist Pl c (e :: t) rm' w') (s : Nat) (hf : ∀ x ∈ e :: t, Faithful c s x)
    (ih : (rm.st s).hwm = peakOf c s t) (hl : Lift (rm.st s) (rm'.st s) (during c s t e)) : (rm'.st s).hwm = peakOf c s (e :: t) := by
  have h1 := cur_of hh s hf
  rw [hl.eq h1.2, ih, h1.1]
  rfl

theorem peak_of (hh : Hist Pl c t rm w) (s : Nat) (hf : ∀ e ∈ t, Faithful c s e) : (rm.st s).hwm = peakOf c s t := by
  have ha := aligned_none Pl
  induction hh with
  | new m => rfl
  | bytes m _ ih => exact ih hf
  | @alloc t rm w s' n o rm' w' hh hs hr ih =>
    have hf' := fun e he => hf e (List.mem_cons_of_mem _ he)
    exact peak_step (hh.alloc hs hr) s hf (ih hf') (wpM_run (allocate_lift (hist_ok ha hh) ha hs) hr)
  | @free t rm w s' p o rm' w' hh hs hp hg hr ih =>
    have hf' := fun e he => hf e (List.mem_cons_of_mem _ he)
    refine peak_step (hh.free hs hp hg hr) s hf (ih hf') ?_
    show Lift (rm.st s) (rm'.st s) 0
    by_cases ht : c.tracked s' = true
    · exact wpM_run (deallocate_lift (hist_ok ha hh) ht hp) hr
    · by_cases h0 : p = 0
      · subst h0
        refine wpM_run (Q := fun _ rm' _ => Lift (rm.st s) (rm'.st s) 0) (deallocate_null (Lift.same rfl)) hr
      · obtain ⟨b, hb, rfl, hob⟩ := (hg.resolve_left ht).resolve_left h0
        have hO := hist_ok ha hh
        have nd : ((ghost c t).un.map (·.ptr)).Nodup := by
          have := hO.mem.allNodup
          rw [List.map_append] at this
          exact (List.nodup_append.1 this).2.1
        exact wpM_run (Q := fun _ rm' _ => Lift (rm.st s) (rm'.st s) 0)
          (deallocate_untracked hO (by simpa using ht) (dropB_cons nd hb).symm hob fun m _ _ => Lift.same rfl) hr
  | @freeAny t rm w p o rm' w' hh hp hr ih =>
    have hf' := fun e he => hf e (List.mem_cons_of_mem _ he)
    exact peak_step (hh.freeAny hp hr) s hf (ih hf') (wpM_run (deallocateAny_lift (hist_ok ha hh) hp) hr)
  | @realloc t rm w s' p n o rm' w' hh hs hp hr ih =>
    have hf' := fun e he => hf e (List.mem_cons_of_mem _ he)
    have hx : s ≠ c.host := hf _ List.mem_cons_self
    exact peak_step (hh.realloc hs hp hr) s hf (ih hf') (wpM_run (reallocImpl_lift (hist_ok ha hh) ha hs hp hx (cur_of hh s hf').1) hr)
  | @reallocAny t rm w d p n o rm' w' hh hs hp hr ih =>
    have hf' := fun e he => hf e (List.mem_cons_of_mem _ he)
    have hx : s ≠ c.host := hf _ List.mem_cons_self
    exact peak_step (hh.reallocAny hs hp hr) s hf (ih hf') (wpM_run (reallocate_lift (hist_ok ha hh) ha hs hp hx (cur_of hh s hf').1) hr)
  | @move t rm w p s' o rm' w' hh hs ht hp hr ih =>
    have hf' := fun e he => hf e (List.mem_cons_of_mem _ he)
    exact peak_step (hh.move hs ht hp hr) s hf (ih hf') (wpM_run (move_lift (hist_ok ha hh) ha hs ht hp) hr)
  | @copy t rm w d s' n o rm' w' hh hd hs hr ih =>
    have hf' := fun e he => hf e (List.mem_cons_of_mem _ he)
    exact peak_step (hh.copy hd hs hr) s hf (ih hf') (Lift.same (by rw [copy_st hr]))
  | @memset t rm w p v n o rm' w' hh hp hr ih =>
    have hf' := fun e he => hf e (List.mem_cons_of_mem _ he)
    refine peak_step (hh.memset hp hr) s hf (ih hf') (wpM_run (Q := fun _ rm' _ => Lift (rm.st s) (rm'.st s) 0) (memset_spec (hist_ok ha hh) hp ?_ ?_) hr)
    · intro r rm' _ _ _ hst
      exact ⟨fun _ => Lift.same (by rw [hst]), fun _ => Lift.same (by rw [hst])⟩
    · intro rm' _ _ _ hst; exact Lift.same (by rw [hst])
  | @query t rm w p o rm' w' hh hp hr ih =>
    have hf' := fun e he => hf e (List.mem_cons_of_mem _ he)
    refine peak_step (hh.query hp hr) s hf (ih hf') (wpM_run (Q := fun _ rm' _ => Lift (rm.st s) (rm'.st s) 0) (find_spec (hist_ok ha hh) hp ?_ ?_) hr)
    · intro r rm' _ _ _ hst; exact Lift.same (by rw [hst])
    · intro rm' _ _ _ hst; exact Lift.same (by rw [hst])
  | @kid t rm w s' n ok o rm' w' hh hb hr ih =>
    have hf' := fun e he => hf e (List.mem_cons_of_mem _ he)
    refine peak_step (hh.kid (ok := ok) hb hr) s hf (ih hf') ?_
    cases hr
    exact Lift.bump_add ..
  | @kidFree t rm w s' n m o rm' w' hh hn hr ih =>
    have hf' := fun e he => hf e (List.mem_cons_of_mem _ he)
    refine peak_step (hh.kidFree hn hr) s hf (ih hf') ?_
    cases hr
    exact Lift.bump_sub ..

/-- **C24**, histories whose events are all `Faithful` for `s`: the current size is the
sum of the sizes of the live allocations of `s` (and of the blocks strategies on top of it
hold), the allocation count their number, and the high watermark the largest sum there has
been, after any call and, for reallocations, during it. -/
theorem statistics_partial (hh : Hist Pl c t rm w) (s : Nat) (hf : ∀ e ∈ t, Faithful c s e) :
    (rm.st s).cur = (((liveOf c t).filter fun r => decide (r.tag = s)).map (·.size)).sum + (kidsOf c t s).sum ∧
    (rm.st s).count = ((liveOf c t).filter fun r => decide (r.tag = s)).length + (kidsOf c t s).length ∧
    (rm.st s).hwm = peakOf c s t := by
  have h := hist_ok (aligned_none Pl) hh
  have hx := h.stat.hwm s (exact_of hf)
  refine ⟨(cur_of hh s hf).1, ?_, peak_of hh s hf⟩
  have h1 := h.stat.count s
  rw [hx.2.1] at h1
  exact h1

/-- **C24**: the high watermark is never exceeded, and it was reached: by the bytes in use
after some of the calls, or during one of the reallocations. -/
theorem watermark_partial (hh : Hist Pl c t rm w) (s : Nat) (hf : ∀ e ∈ t, Faithful c s e) :
    (∀ t₁ t₂, t = t₁ ++ t₂ → inUse c s t₂ ≤ (rm.st s).hwm) ∧
    ((∃ t₁ t₂, t = t₁ ++ t₂ ∧ (rm.st s).hwm = inUse c s t₂) ∨ ∃ t₁ e t₂, t = t₁ ++ e :: t₂ ∧ (rm.st s).hwm = during c s t₂ e) := by
  rw [peak_of hh s hf]
  clear hh hf
  induction t with
  | nil =>
    refine ⟨fun t₁ t₂ h => ?_, Or.inl ⟨[], [], rfl, rfl⟩⟩
    obtain ⟨_, rfl⟩ := List.append_eq_nil_iff.1 h.symm
    exact Nat.le_refl _
  | cons e t ih =>
    have hmax : peakOf c s (e :: t) = max (peakOf c s t) (max (inUse c s (e :: t)) (during c s t e)) := rfl
    refine ⟨fun t₁ t₂ h => ?_, ?_⟩
    · cases t₁ with
      | nil => rw [List.nil_append] at h; subst h; omega
      | cons e' t₁ =>
        injection h with _ h
        have := ih.1 t₁ t₂ h
        omega
    · by_cases h1 : peakOf c s (e :: t) = inUse c s (e :: t)
      · exact Or.inl ⟨[], e :: t, rfl, h1⟩
      · by_cases h2 : peakOf c s (e :: t) = during c s t e
        · exact Or.inr ⟨[], e, t, rfl, h2⟩
        · have h3 : peakOf c s (e :: t) = peakOf c s t := by omega
          rw [h3]
          rcases ih.2 with ⟨t₁, t₂, rfl, h⟩ | ⟨t₁, x, t₂, rfl, h⟩
          · exact Or.inl ⟨e :: t₁, t₂, rfl, h⟩
          · exact Or.inr ⟨e :: t₁, x, t₂, rfl, h⟩

/-- **C24**, every history: how far the statistics are off.  `drift` is a sum with one
term per event that is not `Faithful`. -/
theorem statistics_drift (hh : Hist Pl c t rm w) (s : Nat) :
    ((rm.st s).cur : Int) =
      (((((liveOf c t).filter fun r => decide (r.tag = s)).map (·.size)).sum + (kidsOf c t s).sum : Int) + (ghost c t).acct.drift s) % 2 ^ 64 ∧
    (rm.st s).count = ((liveOf c t).filter fun r => decide (r.tag = s)).length + (kidsOf c t s).length + (ghost c t).acct.cdrift s := by
  have h := hist_ok (aligned_none Pl) hh
  exact ⟨h.stat.cur s, h.stat.count s⟩

/-! ## C25 -/

/-- **C25**: deallocating through an allocator that did not allocate the pointer throws;
memory and statistics are untouched and all live allocations are known as before. -/
theorem wrong_deallocate (hh : Hist Pl c t rm w) {s p : Nat} (ht : c.tracked s = true) (hp : p < 2 ^ 64) (h0 : p ≠ 0)
    (hn : ∀ r ∈ liveOf c t, ¬(r.ptr = p ∧ r.tag = s)) :
    Sure Pl (deallocate c s p) rm w fun o rm' w' => o = none ∧ w' = w ∧ rm'.st = rm.st ∧ (∀ r ∈ liveOf c t, Answers Pl rm' w' r.ptr (some r)) ∧
      ∀ q, q < 2 ^ 64 → (∀ r ∈ liveOf c t, ¬Contains r q) → Answers Pl rm' w' q none := by
  apply sure_of
  apply deallocate_miss (hist_ok (aligned_none Pl) hh) ht h0 hp hn
  intro rm' h hst
  exact ⟨rfl, rfl, hst, fun r hr => h.answers_base hr, fun q hq hno => h.answers_none hq hno⟩

/-! ## C26 -/

/-- **C26**: a zero-byte allocation that succeeds gives an address that is not null and
belongs to no block held by anyone, with size 0; handing it back through the same
allocator succeeds, returns the byte to the zero-byte pool and leaves everything else
alone. -/
theorem zero_bytes (hh : Hist Pl c t rm w) {s : Nat} (hs : s ≠ zero) (ht : c.tracked s = true) :
    Sure Pl (allocate c s 0) rm w fun o rm' w' => ∀ p, o = some p →
      p ≠ 0 ∧ (∀ b ∈ w.held, ¬(b.ptr ≤ p ∧ p < b.ptr + b.size)) ∧ (∀ r ∈ liveOf c t, r.ptr ≠ p) ∧ Answers Pl rm' w' p (some ⟨p, 0, s⟩) ∧
      w'.held = ⟨zero, p, 1⟩ :: w.held ∧
      Sure Pl (deallocate c s p) rm' w' fun o' _ w'' => o' = some () ∧ w''.held = w.held := by
  have h0 := hist_ok (aligned_none Pl) hh
  apply sure_of
  apply allocate_spec h0 (aligned_none Pl) hs
  · intro p m rm' hf _ _ h _ p' he
    injection he with he
    subst he
    unfold Ghost.alloc at h
    rw [if_pos ht] at h
    have hc1 : cap 0 = 1 := rfl
    rw [hc1] at hf
    have hno : ∀ b ∈ w.held, ¬(b.ptr ≤ p ∧ p < b.ptr + b.size) := by
      intro b hb hin
      have := hf.2.2 (b.ptr, b.size) (List.mem_map_of_mem (f := fun b : Blk => (b.ptr, b.size)) hb)
      unfold Disj at this
      dsimp only at this
      omega
    refine ⟨hf.1, hno, fun r hr he => ?_, h.answers_base (r := ⟨p, 0, s⟩) List.mem_cons_self, rfl, ?_⟩
    · have h1 := blkOf_ptr r
      have h2 := (blkOf_size r).2
      exact hno _ (h0.mem.mem_held hr) (by omega)
    · apply sure_of
      refine deallocate_hit (r := ⟨p, 0, s⟩) h List.mem_cons_self fun m rm' _ _ _ => ⟨rfl, ?_⟩
      show dropB p (⟨zero, p, 1⟩ :: w.held) = w.held
      unfold dropB
      rw [List.filter_cons, if_neg (by simp), List.filter_eq_self]
      intro b hb
      apply decide_eq_true
      intro he
      have := (h0.mem.blk b hb).2.1
      exact hno b hb (by omega)
  · intro m _ _ p he
    cases he

/-- **C26**: `deallocate(nullptr)` does nothing. -/
theorem deallocate_nullptr (s : Nat) : Sure Pl (deallocate c s 0) rm w fun o rm' w' => o = some () ∧ rm' = rm ∧ w' = w :=
  sure_of (deallocate_null ⟨rfl, rfl, rfl⟩)

/-! ## C27 -/

theorem filter_split {α : Type} (p q : α → Bool) (hd : ∀ a, p a = true → q a = false) : ∀ L : List α,
    (L.filter p ++ L.filter q).Perm (L.filter fun a => p a || q a)
  | [] => List.Perm.refl _
  | a :: L => by
    have ih := filter_split p q hd L
    rw [List.filter_cons, List.filter_cons, List.filter_cons]
    cases hp : p a with
    | true => simp only [hd a hp, Bool.true_or, if_true, Bool.false_eq_true, if_false]; exact ih.cons a
    | false =>
      cases hq : q a with
      | true => simp only [Bool.false_or, if_true, Bool.false_eq_true, if_false]; exact List.perm_middle.trans (ih.cons a)
      | false => simp only [Bool.false_or, Bool.false_eq_true, if_false]; exact ih

theorem flatMap_byPtr (L : List Rec) : ∀ ks : List Nat, ks.Pairwise (· < ·) → (ks.flatMap (byPtr L)).Perm (L.filter fun r => decide (r.ptr ∈ ks))
  | [], _ => by
    have : L.filter (fun r => decide (r.ptr ∈ ([] : List Nat))) = [] := by rw [List.filter_eq_nil_iff]; simp
    rw [this]; exact List.Perm.refl _
  | k :: ks, h => by
    have h' := List.pairwise_cons.1 h
    rw [List.flatMap_cons]
    refine ((flatMap_byPtr L ks h'.2).append_left _).trans ?_
    unfold byPtr
    refine (filter_split _ _ ?_ L).trans ?_
    · intro a ha
      have ha := of_decide_eq_true ha
      apply decide_eq_false
      intro hm
      have := h'.1 _ hm
      omega
    · rw [show (fun a : Rec => decide (a.ptr = k) || decide (a.ptr ∈ ks)) = fun r => decide (r.ptr ∈ k :: ks) by
        funext a; simp [List.mem_cons]]

theorem MemOk.leaks {w : World} {live : List Rec} {un : List Blk} (h : MemOk Pl B c rm.amap w live un) : ∃ fuel, ∀ more s,
    (recordsOf s rm (fuel + more)).Perm (live.filter fun r => decide (r.tag = s)) ∧ (recordsOf s rm (fuel + more)).Nodup := by
  have h0 : byPtr live 0 = [] := byPtr_nil fun r hr => (h.rec_lt hr).1
  obtain ⟨ks, h1, h2, _, fuel, h3⟩ := iterate_of h.tab h0
  refine ⟨fuel, fun more s => ?_⟩
  have hp : (recordsOf s rm (fuel + more)).Perm (live.filter fun r => decide (r.tag = s)) := by
    unfold recordsOf
    rw [h3]
    refine List.Perm.filter _ ((flatMap_byPtr _ ks h1).trans ?_)
    have : live.filter (fun r => decide (r.ptr ∈ ks)) = live := by
      rw [List.filter_eq_self]
      intro r hr
      apply decide_eq_true
      rw [h2]
      intro he
      have : r ∈ byPtr live r.ptr := List.mem_filter.2 ⟨hr, by simp⟩
      rw [he] at this
      cases this
    rw [this]
  refine ⟨hp, hp.nodup_iff.2 (List.Sublist.nodup List.filter_sublist ?_)⟩
  have := h.liveNodup
  unfold List.Nodup at this ⊢
  rw [List.pairwise_map] at this
  exact this.imp fun {a b} hne (he : a = b) => hne (congrArg Rec.ptr he)

/-- **C27**: iterating over the allocation map ends, and the records of allocator `s` it
lists are the live allocations of `s`, each once. -/
theorem leaks_exact (hh : Hist Pl c t rm w) : ∃ fuel, ∀ more s,
    (recordsOf s rm (fuel + more)).Perm ((liveOf c t).filter fun r => decide (r.tag = s)) ∧ (recordsOf s rm (fuel + more)).Nodup :=
  (hist_ok (aligned_none Pl) hh).mem.leaks

/-! ## C30 -/

/-- An address at which the lookup of `r` is certain: its first, or any in the part of the
address space where blocks are aligned. -/
def Findable (B : Nat → Prop) (r : Rec) (q : Nat) : Prop := Contains r q ∧ (q = r.ptr ∨ B (r.ptr / 256))

theorem Ok.found {g : Ghost} (h : Ok Pl B c rm w g) {r x : Rec} {q : Nat} (hr : r ∈ g.live) (hf : Findable B r q) (hx : x ∈ g.live) (hc : Contains x q) : x = r :=
  apart_eq h.mem.apart hx hr hc hf.1

theorem Ok.not_missing {g : Ghost} (_ : Ok Pl B c rm w g) {r : Rec} {q : Nat} (hr : r ∈ g.live) (hf : Findable B r q)
    (h1 : ∀ r ∈ g.live, r.ptr ≠ q) (h2 : ∀ r ∈ g.live, B (r.ptr / 256) → ¬Contains r q) : False := by
  rcases hf.2 with he | hb
  · exact h1 r hr he.symm
  · exact h2 r hr hb hf.1

/-- How many bytes `copy(d, s, n)` is about. -/
def copyLen (rs : Rec) (s n : Nat) : Nat := if n = 0 then rs.ptr + rs.size - s else n

/-- **C30**, provided that the source range lies in its allocation and does not overlap
the destination range (the code checks neither): a copy that does not fit the destination
throws and changes nothing; otherwise the destination bytes are the source bytes and no
other byte changes. -/
theorem copy_partial (ha : Aligned Pl B) (hh : Hist Pl c t rm w) {rs rd : Rec} {d s n : Nat} (hrs : rs ∈ liveOf c t) (hrd : rd ∈ liveOf c t)
    (hfs : Findable B rs s) (hfd : Findable B rd d) (hsrc : s + copyLen rs s n ≤ rs.ptr + rs.size)
    (hdis : copyLen rs s n = 0 ∨ Disj d (copyLen rs s n) s (copyLen rs s n)) :
    Sure Pl (copy d s n) rm w fun o rm' w' => rm'.st = rm.st ∧ w'.held = w.held ∧
      (d + copyLen rs s n ≤ rd.ptr + rd.size → o = some () ∧
        ∀ q, w'.mem q = if d ≤ q ∧ q < d + copyLen rs s n then w.mem (s + (q - d)) else w.mem q) ∧
      (rd.ptr + rd.size < d + copyLen rs s n → o = none ∧ w'.mem = w.mem) := by
  have h := hist_ok ha hh
  have b1 := h.mem.rec_lt hrs
  have b2 := h.mem.rec_lt hrd
  have c1 := hfs.1.1
  have c2 := hfs.1.2
  have c3 := hfd.1.1
  have c4 := hfd.1.2
  apply sure_of
  apply copy_spec h (by omega) (by omega)
  · intro rs' rd' rm' hrs' hcs hrd' hcd h' hst
    have e1 := h.found hrs hfs hrs' hcs
    have e2 := h.found hrd hfd hrd' hcd
    subst e1; subst e2
    have e3 : (if n = 0 then rs'.size - (s - rs'.ptr) else n) = copyLen rs' s n := by
      unfold copyLen; split <;> omega
    dsimp only
    rw [e3]
    refine ⟨fun hle => ⟨hsrc, hdis, hst, rfl, fun _ => ⟨rfl, fun q => rfl⟩, fun hlt => by omega⟩, fun hlt => ⟨hst, rfl, fun hle => ?_, fun _ => ⟨rfl, rfl⟩⟩⟩
    omega
  · intro rm' h' _ hno
    rcases hno with hno | hno
    · exact (h.not_missing hrs hfs hno.1 hno.2).elim
    · exact (h.not_missing hrd hfd hno.1 hno.2).elim

/-- **C30**: a source or destination outside of all allocations is rejected. -/
theorem copy_unknown (hh : Hist Pl c t rm w) {d s n : Nat} (hd : d < 2 ^ 64) (hs : s < 2 ^ 64)
    (hno : (∀ r ∈ liveOf c t, ¬Contains r s) ∨ ∀ r ∈ liveOf c t, ¬Contains r d) :
    Sure Pl (copy d s n) rm w fun o rm' w' => o = none ∧ w' = w ∧ rm'.st = rm.st := by
  have h := hist_ok (aligned_none Pl) hh
  apply sure_of
  apply copy_spec h hd hs
  · intro rs rd rm' hrs hcs hrd hcd _ _
    rcases hno with hno | hno
    · exact absurd hcs (hno rs hrs)
    · exact absurd hcd (hno rd hrd)
  · intro rm' _ hst _
    exact ⟨rfl, rfl, hst⟩

/-! ## C31 -/

/-- **C31**: `memset` on an address of an allocation. -/
theorem memset_partial (ha : Aligned Pl B) (hh : Hist Pl c t rm w) {r : Rec} {p n : Nat} (v : Int) (hr : r ∈ liveOf c t) (hf : Findable B r p) :
    Sure Pl (memset p v n) rm w fun o rm' w' => rm'.st = rm.st ∧ w'.held = w.held ∧
      (p + n ≤ r.ptr + r.size → o = some () ∧
        ∀ q, w'.mem q = if p ≤ q ∧ (if n = 0 then q < r.ptr + r.size else q < p + n) then (v % 256).toNat else w.mem q) ∧
      (r.ptr + r.size < p + n → o = none ∧ w'.mem = w.mem) := by
  have h := hist_ok ha hh
  have b1 := h.mem.rec_lt hr
  have c1 := hf.1.1
  have c2 := hf.1.2
  apply sure_of
  apply memset_spec h (by omega)
  · intro r' rm' hr' hc' h' hst
    have e1 := h.found hr hf hr' hc'
    subst e1
    dsimp only
    refine ⟨fun hle => ⟨hst, rfl, fun _ => ⟨rfl, fun q => ?_⟩, fun hlt => ?_⟩, fun hlt => ⟨hst, rfl, fun hle => ?_, fun _ => ⟨rfl, rfl⟩⟩⟩
    · show filled _ _ _ _ q = _
      unfold filled
      by_cases hn : n = 0
      · simp only [if_pos hn]
        by_cases hq : p ≤ q ∧ q < r'.ptr + r'.size
        · rw [if_pos hq, if_pos (by omega)]; rfl
        · rw [if_neg hq, if_neg (by omega)]
      · simp only [if_neg hn]; rfl
    · split at hle <;> omega
    · split at hlt <;> omega
  · intro rm' h1 h2 _ _
    exact (h.not_missing hr hf h1 h2).elim

/-- **C31**: whatever the address, `memset` never writes outside of one live allocation. -/
theorem memset_safe (hh : Hist Pl c t rm w) {p n : Nat} (v : Int) (hp : p < 2 ^ 64) :
    Sure Pl (memset p v n) rm w fun o _ w' => w'.held = w.held ∧ (o = none → w'.mem = w.mem) ∧
      (o = some () → ∃ r ∈ liveOf c t, Contains r p ∧ p + n ≤ r.ptr + r.size ∧ ∀ q, ¬(p ≤ q ∧ q < r.ptr + r.size) → w'.mem q = w.mem q) := by
  have h := hist_ok (aligned_none Pl) hh
  apply sure_of
  apply memset_spec h hp
  · intro r rm' hr hc _ _
    dsimp only
    have c1 := hc.1
    have c2 := hc.2
    refine ⟨fun hle => ⟨rfl, fun he => (by cases he), fun _ => ⟨r, hr, hc, ?_, fun q hq => ?_⟩⟩, fun hlt => ⟨rfl, fun _ => rfl, fun he => by cases he⟩⟩
    · split at hle <;> omega
    · show filled _ _ _ _ q = _
      unfold filled
      split at hle <;> rename_i hn <;> simp only [hn, if_true, if_false] <;> rw [if_neg (by omega)]
  · intro rm' _ _ _ _
    exact ⟨rfl, fun _ => rfl, fun he => by cases he⟩

/-! ## C32 -/

/-- The other live allocations are as before: known, and their bytes unchanged. -/
def Others (Pl : Nat → Nat → Prop) (L : List Rec) (p : Nat) (w : World) (rm' : RM) (w' : World) : Prop :=
  ∀ x ∈ L, x.ptr ≠ p → Answers Pl rm' w' x.ptr (some x) ∧ ∀ i, i < x.size → w'.mem (x.ptr + i) = w.mem (x.ptr + i)

theorem Ok.others {g g' : Ghost} {p : Nat} {rm' : RM} {w' : World} (h : Ok Pl B c rm w g) (h' : Ok Pl B c rm' w' g')
    (hsub : ∀ x ∈ g.live, x.ptr ≠ p → x ∈ g'.live) (hag : Agree (dropB p w.held) w.mem w'.mem) : Others Pl g.live p w rm' w' := by
  intro x hx hne
  refine ⟨h'.answers_base (hsub x hx hne), fun i hi => ?_⟩
  have h1 := blkOf_ptr x
  have h2 := (blkOf_size x).1
  refine hag (blkOf x) (List.mem_filter.2 ⟨h.mem.mem_held hx, decide_eq_true (by rw [h1]; exact hne)⟩) _ ?_ ?_ <;> omega

theorem agree_drop {H : List Blk} {m m' : Nat → Nat} {p : Nat} (h : Agree H m m') : Agree (dropB p H) m m' :=
  fun b hb => h b (List.mem_filter.1 hb).1

theorem mem_replace {L : List Rec} {x y : Rec} {p : Nat} (hx : x ∈ L) (hne : x.ptr ≠ p) : x ∈ y :: dropR p L :=
  List.mem_cons_of_mem _ (List.mem_filter.2 ⟨hx, decide_eq_true hne⟩)

theorem Ok.replaced {g g' : Ghost} {r : Rec} {q n s : Nat} {rm' : RM} {w' : World} (h : Ok Pl B c rm w g) (h' : Ok Pl B c rm' w' g')
    (hg : g'.live = ⟨q, n, s⟩ :: dropR r.ptr g.live) (hr : r ∈ g.live) {x : Nat} (hx : Contains r x) (hn : ¬Contains ⟨q, n, s⟩ x) : Answers Pl rm' w' x none := by
  have hlt := h.mem.rec_lt hr
  have h1 := hx.1
  have h2 := hx.2
  refine h'.answers_none (by omega) ?_
  rw [hg]
  intro y hy hc
  rcases List.mem_cons.1 hy with rfl | hy
  · exact hn hc
  · obtain ⟨y1, y2⟩ := List.mem_filter.1 hy
    have : y = r := apart_eq h.mem.apart y1 hr hc hx
    subst this
    simp at y2

/-- **C32**: reallocating a live allocation to a size other than zero.  If it succeeds, the
first bytes are kept, the new pointer is known with the new size and the same owner, the
old addresses are unknown (unless they belong to the new range), and all other allocations
keep their records and bytes.  If it fails, and the memory is not `HOST` memory obtained
by a request for more than zero bytes, everything is as before. -/
theorem reallocate_partial (hh : Hist Pl c t rm w) {r : Rec} {d n : Nat} (hr : r ∈ liveOf c t) (hn : n ≠ 0) :
    Sure Pl (reallocate c d r.ptr n) rm w fun o rm' w' =>
      (∀ q, o = some q → (∀ i, i < n → i < r.size → w'.mem (q + i) = w.mem (r.ptr + i)) ∧ Answers Pl rm' w' q (some ⟨q, n, r.tag⟩) ∧
        (∀ x, Contains r x → ¬Contains ⟨q, n, r.tag⟩ x → Answers Pl rm' w' x none) ∧ Others Pl (liveOf c t) r.ptr w rm' w') ∧
      (o = none → Others Pl (liveOf c t) r.ptr w rm' w' ∧
        (¬(r.tag = c.host ∧ r.size ≠ 0) → w'.held = w.held ∧ Answers Pl rm' w' r.ptr (some r) ∧ ∀ i, i < r.size → w'.mem (r.ptr + i) = w.mem (r.ptr + i))) := by
  have h := hist_ok (aligned_none Pl) hh
  apply sure_of
  unfold reallocate
  rw [if_neg (h.mem.rec_lt hr).1]
  apply wpM_bind
  apply find_base h hr
  intro rm1 h1 _
  dsimp only
  unfold reallocImpl
  rw [if_neg (h.mem.rec_lt hr).1]
  apply wpM_bind
  apply find_base h1 hr
  intro rm2 h2 _
  dsimp only
  rw [if_neg (by simp), if_neg hn, if_neg (by simp)]
  apply realloc_spec h2 (aligned_none Pl) hr hn
  · intro q m rm' _ hc h3 _
    refine ⟨fun q' he => ?_, fun he => by cases he⟩
    injection he with he
    subst he
    exact ⟨hc.1, h3.answers_base (r := ⟨q, n, r.tag⟩) List.mem_cons_self, fun x hx hno => h.replaced h3 rfl hr hx hno,
      h.others h3 (fun x hx hne => mem_replace hx hne) hc.2⟩
  · intro m rm' hag _ h3
    refine ⟨fun q he => (by cases he), fun _ => ⟨?_, fun hno => ?_⟩⟩
    · refine h.others h3 (fun x hx hne => ?_) (agree_drop hag)
      unfold Ghost.unresized
      split
      · exact List.mem_filter.2 ⟨hx, decide_eq_true hne⟩
      · exact hx
    · unfold Ghost.unresized at h3
      rw [if_neg hno] at h3
      refine ⟨rfl, h3.answers_base hr, fun i hi => ?_⟩
      have e1 := blkOf_ptr r
      have e2 := (blkOf_size r).1
      exact hag _ (h.mem.mem_held hr) _ (by omega) (by omega)

/-- **C32**: reallocating a live allocation to zero bytes frees it and gives a zero-byte
allocation of the same allocator. -/
theorem reallocate_zero (hh : Hist Pl c t rm w) {r : Rec} {d : Nat} (hr : r ∈ liveOf c t) :
    Sure Pl (reallocate c d r.ptr 0) rm w fun o rm' w' => Others Pl (liveOf c t) r.ptr w rm' w' ∧
      (∀ q, o = some q → Answers Pl rm' w' q (some ⟨q, 0, r.tag⟩)) ∧ ∀ x, Contains r x → o ≠ some x → Answers Pl rm' w' x none := by
  have h := hist_ok (aligned_none Pl) hh
  have hlt := h.mem.rec_lt hr
  apply sure_of
  unfold reallocate
  rw [if_neg (h.mem.rec_lt hr).1]
  apply wpM_bind
  apply find_base h hr
  intro rm1 h1 _
  dsimp only
  unfold reallocImpl
  rw [if_neg (h.mem.rec_lt hr).1]
  apply wpM_bind
  apply find_base h1 hr
  intro rm2 h2 _
  dsimp only
  rw [if_neg (by simp), if_pos rfl]
  apply wpM_bind
  apply deallocate_hit h2 hr
  intro m rm3 hag h3 _
  dsimp only
  have hgone : ∀ y ∈ dropR r.ptr (liveOf c t), ∀ x, Contains r x → ¬Contains y x := by
    intro y hy x hx hc
    obtain ⟨y1, y2⟩ := List.mem_filter.1 hy
    have : y = r := apart_eq h.mem.apart y1 hr hc hx
    subst this
    simp at y2
  apply allocate_spec h3 (aligned_none Pl) (h.mem.tag r hr).1
  · intro q m' rm4 _ _ hag' h4 _
    unfold Ghost.alloc at h4
    rw [if_pos (h.mem.tag r hr).2] at h4
    refine ⟨h.others h4 (fun x hx hne => mem_replace hx hne) ?_, fun q' he => ?_, fun x hx hne => ?_⟩
    · intro b hb x h1 h2
      exact (hag' b hb x h1 h2).trans (hag b hb x h1 h2)
    · injection he with he
      subst he
      exact h4.answers_base (r := ⟨q, 0, r.tag⟩) List.mem_cons_self
    · have e1 := hx.1
      have e2 := hx.2
      refine h4.answers_none (by omega) fun y hy hc => ?_
      rcases List.mem_cons.1 hy with rfl | hy
      · have e3 := hc.1
        have e4 := hc.2
        dsimp only at e3 e4
        exact hne (congrArg some (by omega))
      · exact hgone y hy x hx hc
  · intro m' hag' h4
    refine ⟨h.others h4 (fun x hx hne => List.mem_filter.2 ⟨hx, decide_eq_true hne⟩) ?_, fun q' he => (by cases he), fun x hx _ => ?_⟩
    · intro b hb x h1 h2
      exact (hag' b hb x h1 h2).trans (hag b hb x h1 h2)
    · have e1 := hx.1
      have e2 := hx.2
      exact h4.answers_none (by omega) fun y hy hc => hgone y hy x hx hc

/-- **C32**: reallocating the null pointer is allocating. -/
theorem reallocate_null (d n : Nat) : reallocate c d 0 n = allocate c d n ∧ reallocImpl c 0 n d = allocate c d n := ⟨rfl, rfl⟩

/-- **C32**: reallocation with an allocator is rejected, without any effect, unless the
address is the first of a live allocation of that allocator. -/
theorem reallocate_rejects (hh : Hist Pl c t rm w) {s p n : Nat} (hp : p < 2 ^ 64) (h0 : p ≠ 0) (hno : ∀ r ∈ liveOf c t, ¬(r.ptr = p ∧ r.tag = s)) :
    Sure Pl (reallocImpl c p n s) rm w fun o rm' w' => o = none ∧ w' = w ∧ rm'.st = rm.st ∧ ∀ r ∈ liveOf c t, Answers Pl rm' w' r.ptr (some r) := by
  have h := hist_ok (aligned_none Pl) hh
  apply sure_of
  unfold reallocImpl
  rw [if_neg h0]
  apply wpM_bind
  apply find_spec h hp
  · intro r rm1 hr hc h1 hst
    dsimp only
    by_cases ht : r.tag = s
    · subst ht
      have hne : p ≠ r.ptr := fun he => hno r hr ⟨he.symm, rfl⟩
      rw [if_neg (by simp)]
      by_cases hn : n = 0
      · rw [if_pos hn]
        apply wpM_bind
        apply deallocate_miss h1 (h.mem.tag r hr).2 h0 hp hno
        intro rm2 h2 hst2
        exact ⟨rfl, rfl, hst2.trans hst, fun x hx => h2.answers_base hx⟩
      · rw [if_neg hn, if_pos hne]
        exact ⟨rfl, rfl, hst, fun x hx => h1.answers_base hx⟩
    · rw [if_pos ht]
      exact ⟨rfl, rfl, hst, fun x hx => h1.answers_base hx⟩
  · intro rm1 _ _ h1 hst
    exact ⟨rfl, rfl, hst, fun x hx => h1.answers_base hx⟩

/-- **C32**: so is reallocation without an allocator of an address that is not the first of
a live allocation. -/
theorem reallocate_any_rejects (hh : Hist Pl c t rm w) {d p n : Nat} (hp : p < 2 ^ 64) (h0 : p ≠ 0) (hno : ∀ r ∈ liveOf c t, r.ptr ≠ p) :
    Sure Pl (reallocate c d p n) rm w fun o rm' w' => o = none ∧ w' = w ∧ rm'.st = rm.st ∧ ∀ r ∈ liveOf c t, Answers Pl rm' w' r.ptr (some r) := by
  have h := hist_ok (aligned_none Pl) hh
  apply sure_of
  unfold reallocate
  rw [if_neg h0]
  apply wpM_bind
  apply find_spec h hp
  · intro r rm1 hr hc h1 hst
    dsimp only
    unfold reallocImpl
    rw [if_neg h0]
    apply wpM_bind
    apply find_spec h1 hp
    · intro r' rm2 hr' hc' h2 hst2
      have hne : p ≠ r'.ptr := fun he => hno r' hr' he.symm
      have : r' = r := apart_eq h.mem.apart hr' hr hc' hc
      subst this
      dsimp only
      rw [if_neg (by simp)]
      by_cases hn : n = 0
      · rw [if_pos hn]
        apply wpM_bind
        apply deallocate_miss h2 (h.mem.tag r' hr).2 h0 hp (fun x hx he => hno x hx he.1)
        intro rm3 h3 hst3
        exact ⟨rfl, rfl, hst3.trans (hst2.trans hst), fun x hx => h3.answers_base hx⟩
      · rw [if_neg hn, if_pos hne]
        exact ⟨rfl, rfl, hst2.trans hst, fun x hx => h2.answers_base hx⟩
    · intro rm2 _ _ h2 hst2
      exact ⟨rfl, rfl, hst2.trans hst, fun x hx => h2.answers_base hx⟩
  · intro rm1 _ _ h1 hst
    exact ⟨rfl, rfl, hst, fun x hx => h1.answers_base hx⟩

/-! ## C33 -/

/-- **C33**: moving a live allocation to another (tracked) allocator.  If it succeeds, the
result is an allocation of the target with the same size and contents, and the old
addresses are unknown; if not, everything is as before. -/
theorem move_partial (hh : Hist Pl c t rm w) {r : Rec} {s : Nat} (hs : s ≠ zero) (ht : c.tracked s = true) (hr : r ∈ liveOf c t) (hne : r.tag ≠ s) :
    Sure Pl (move c r.ptr s) rm w fun o rm' w' => Others Pl (liveOf c t) r.ptr w rm' w' ∧
      (∀ q, o = some q → (∀ i, i < r.size → w'.mem (q + i) = w.mem (r.ptr + i)) ∧ Answers Pl rm' w' q (some ⟨q, r.size, s⟩) ∧
        ∀ x, Contains r x → Answers Pl rm' w' x none) ∧
      (o = none → w'.held = w.held ∧ rm'.st = rm.st ∧ Answers Pl rm' w' r.ptr (some r) ∧ ∀ i, i < r.size → w'.mem (r.ptr + i) = w.mem (r.ptr + i)) := by
  have h := hist_ok (aligned_none Pl) hh
  have e1 := blkOf_ptr r
  have e2 := (blkOf_size r).1
  apply sure_of
  apply move_spec h (aligned_none Pl) hs ht hr hne
  · intro q m rm' hf hc h3 _
    refine ⟨h.others h3 (fun x hx hne => mem_replace hx hne) hc.2, fun q' he => ?_, fun he => by cases he⟩
    injection he with he
    subst he
    refine ⟨fun i hi => hc.1 i hi hi, h3.answers_base (r := ⟨q, r.size, s⟩) List.mem_cons_self, fun x hx => h.replaced h3 rfl hr hx fun hc => ?_⟩
    have h4 := contains_blk hx
    have h5 := contains_blk hc
    rw [blkOf_eq] at h5
    dsimp only at h5
    have := hf.2.2 ((blkOf r).ptr, (blkOf r).size) (List.mem_map_of_mem (f := fun b : Blk => (b.ptr, b.size)) (h.mem.mem_held hr))
    unfold Disj at this
    dsimp only at this
    omega
  · intro m rm' hst hag h3
    refine ⟨h.others h3 (fun x hx _ => hx) (agree_drop hag), fun q he => (by cases he), fun _ => ⟨rfl, hst, h3.answers_base hr, fun i hi => ?_⟩⟩
    exact hag _ (h.mem.mem_held hr) _ (by omega) (by omega)

/-- **C33**: moving an allocation to the allocator it belongs to returns the pointer and
changes nothing. -/
theorem move_same (hh : Hist Pl c t rm w) {r : Rec} (hr : r ∈ liveOf c t) :
    Sure Pl (move c r.ptr r.tag) rm w fun o rm' w' => o = some r.ptr ∧ w' = w ∧ rm'.st = rm.st ∧ ∀ x ∈ liveOf c t, Answers Pl rm' w' x.ptr (some x) := by
  have h := hist_ok (aligned_none Pl) hh
  apply sure_of
  unfold move
  apply wpM_bind
  apply find_base h hr
  intro rm1 h1 hst
  dsimp only
  rw [if_pos rfl]
  exact ⟨rfl, rfl, hst, fun x hx => h1.answers_base hx⟩

/-- **C33**: other addresses are rejected, unless they are inside an allocation of the
target (see `move_interior_counterexample`). -/
theorem move_rejects_partial (hh : Hist Pl c t rm w) {s p : Nat} (hp : p < 2 ^ 64) (hno : ∀ r ∈ liveOf c t, r.ptr ≠ p)
    (hs : ∀ r ∈ liveOf c t, Contains r p → r.tag ≠ s) :
    Sure Pl (move c p s) rm w fun o rm' w' => o = none ∧ w' = w ∧ rm'.st = rm.st ∧ ∀ x ∈ liveOf c t, Answers Pl rm' w' x.ptr (some x) := by
  have h := hist_ok (aligned_none Pl) hh
  apply sure_of
  unfold move
  apply wpM_bind
  apply find_spec h hp
  · intro r rm1 hr hc h1 hst
    dsimp only
    rw [if_neg (hs r hr hc), if_pos (fun he => hno r hr he.symm)]
    exact ⟨rfl, rfl, hst, fun x hx => h1.answers_base hx⟩
  · intro rm1 _ _ h1 hst
    exact ⟨rfl, rfl, hst, fun x hx => h1.answers_base hx⟩

end

/-! ## Calls fail only if strategies refuse

The theorems above say what holds when a call fails.  The programs are deterministic apart
from the answers of the strategies, so the following says that a valid call succeeds
whenever the strategy provides memory. -/

theorem cap_max (n : Nat) : cap n = max n 1 := by unfold cap; split <;> omega

section
variable {Pl : Nat → Nat → Prop} {c : Cfg} {rm : RM} {w : World} {t : List Ev}

/-- **C23**, **C26**: `allocate` returns what the strategy gives, for zero bytes what the
zero-byte pool gives. -/
theorem allocate_succeeds {s n p : Nat} (hf : Fresh p (max n 1) (ranges w.held)) (hpl : Pl (if n = 0 then zero else s) p) :
    ∃ rm' w', MP.Run Pl (allocate c s n rm) w (some p, rm') w' := by
  rw [← cap_max] at hf
  obtain ⟨rm', h⟩ := allocate_can (c := c) (rm := rm) hf hpl
  exact ⟨rm', _, h⟩

/-- **C32**: `reallocate` of a live allocation returns the new block the strategy (for
zero bytes the zero-byte pool, on `HOST` also `::realloc`) gives. -/
theorem reallocate_succeeds (hh : Hist Pl c t rm w) {r : Rec} {d n q : Nat} (hr : r ∈ liveOf c t) (hf : Fresh q (max n 1) (ranges w.held))
    (hpl : Pl (if n = 0 then zero else r.tag) q) : ∃ rm' w', MP.Run Pl (reallocate c d r.ptr n rm) w (some q, rm') w' := by
  have h := hist_ok (aligned_none Pl) hh
  have h1 := h.seek r.ptr
  have h2 := h1.seek r.ptr
  have main : ∃ rm' w', MP.Run Pl (reallocImpl c r.ptr n r.tag { rm with amap := (rm.amap.findRecord r.ptr).1 }) w (some q, rm') w' := by
    unfold reallocImpl
    rw [if_neg (h.mem.rec_lt hr).1]
    by_cases hn : n = 0
    · subst hn
      obtain ⟨rm3, h3⟩ := deallocate_can h2 hr
      obtain ⟨rm4, h4⟩ := allocate_can (Pl := Pl) (c := c) (rm := rm3) (w := ⟨dropB r.ptr w.held, w.mem⟩) (s := r.tag) (n := 0) (p := q) (fresh_drop hf) hpl
      refine ⟨rm4, ⟨blkOf ⟨q, 0, r.tag⟩ :: dropB r.ptr w.held, w.mem⟩, run_bind (b := r) (find_can h1 hr) ?_⟩
      rw [if_neg (by simp), if_pos rfl]
      exact run_bind h3 h4
    · rw [if_neg hn] at hpl
      rw [Nat.max_eq_left (by omega)] at hf
      obtain ⟨rm3, w3, h3⟩ := realloc_can h2 (aligned_none Pl) hr hn hf hpl
      refine ⟨rm3, w3, run_bind (b := r) (find_can h1 hr) ?_⟩
      rw [if_neg (by simp), if_neg hn, if_neg (by simp)]
      exact h3
  obtain ⟨rm', w', h3⟩ := main
  refine ⟨rm', w', ?_⟩
  unfold reallocate
  rw [if_neg (h.mem.rec_lt hr).1]
  exact run_bind (b := r) (find_can h hr) h3

/-- **C33**: `move` of a live allocation to another (tracked) allocator returns the new
block the strategy gives. -/
theorem move_succeeds (hh : Hist Pl c t rm w) {r : Rec} {s q : Nat} (hs : s ≠ zero) (ht : c.tracked s = true) (hr : r ∈ liveOf c t) (hne : r.tag ≠ s)
    (hf : Fresh q (max r.size 1) (ranges w.held)) (hpl : Pl (if r.size = 0 then zero else s) q) :
    ∃ rm' w', MP.Run Pl (move c r.ptr s rm) w (some q, rm') w' := by
  have h := hist_ok (aligned_none Pl) hh
  rw [← cap_max] at hf
  obtain ⟨rm3, w3, h3⟩ := relocate_can (sz := 0) (D := deallocateAny c r.ptr) (h.seek r.ptr) (aligned_none Pl) hs ht hr (by rw [if_pos rfl]; omega) hf hpl
    (fun rm w g hO hr => by obtain ⟨rm', h1⟩ := deallocateAny_can hO hr; exact ⟨rm', _, h1⟩)
  refine ⟨rm3, w3, run_bind (b := r) (find_can h hr) ?_⟩
  rw [if_neg hne, if_neg (by simp)]
  exact h3

/-- **C23**: `deallocate` of a live allocation through its allocator, and through the
resource manager, completes. -/
theorem deallocate_succeeds (hh : Hist Pl c t rm w) {r : Rec} (hr : r ∈ liveOf c t) :
    (∃ rm' w', MP.Run Pl (deallocate c r.tag r.ptr rm) w (some (), rm') w') ∧ ∃ rm' w', MP.Run Pl (deallocateAny c r.ptr rm) w (some (), rm') w' := by
  have h := hist_ok (aligned_none Pl) hh
  obtain ⟨rm1, h1⟩ := deallocate_can h hr
  obtain ⟨rm2, h2⟩ := deallocateAny_can h hr
  exact ⟨⟨rm1, _, h1⟩, rm2, _, h2⟩

end

/-! ## Examples and counterexamples -/

/-- Strategy 2 is `HOST`; strategy 5 is not tracked. -/
def cfg : Cfg := ⟨fun s => decide (s ≠ 5), 2⟩
def anyPl : Nat → Nat → Bool := fun _ _ => true

/-- Strategies at multiples of eight, the zero-byte pool in a page of its own. -/
def zonePl : Nat → Nat → Bool := fun s p => if s = zero then decide (p / 256 = 16) else decide (p % 8 = 0 ∧ p / 256 ≠ 16)

/-- What is looked at in the runs below. -/
def look (s : Nat) (x : St) : List Rec × List Blk × Nat × Nat × Nat := ((liveOf cfg x.t), x.w.held, (x.rm.st s).cur, (x.rm.st s).count, (x.rm.st s).hwm)

/-- A history with live allocations of two allocators, one of them of zero bytes, with a
move, a reallocation and failures; all its states satisfy `Zoned`. -/
example : ∃ x : St, Hist (fun s p => zonePl s p = true) cfg x.t x.rm x.w ∧
    look 3 x = ([⟨8192, 24, 3⟩, ⟨4096, 0, 3⟩], [⟨3, 8192, 24⟩, ⟨1, 4096, 1⟩], 24, 2, 40) :=
  told_hist (ks := [(.alloc 3 40, [none]), (.alloc 3 40, [some 16384]), (.alloc 3 0, [some 4096]), (.free 2 16384, []), (.move 16384 2, [some 32768]),
    (.free 3 32768, []), (.reallocAny 3 32768 24, [some 32768]), (.memset 32776 7 0, []), (.move 32768 3, [some 8192]), (.copy 8200 8192 8, [])]) (by decide +kernel)

example : Zoned (fun s p => zonePl s p = true) (fun b => b = 16) := by
  intro s p hp
  unfold zonePl at hp
  by_cases hs : s = zero
  · rw [if_pos hs] at hp
    exact ⟨⟨fun _ => of_decide_eq_true hp, fun _ => hs⟩, fun h => absurd hs h⟩
  · rw [if_neg hs] at hp
    have hp := of_decide_eq_true hp
    exact ⟨⟨fun h => absurd h hs, fun h => absurd h hp.2⟩, fun _ => by omega⟩

/-- What the theorems on successful calls ask of the strategy, in the state reached above. -/
example : Fresh 65536 (max 24 1) (ranges [⟨3, 8192, 24⟩, ⟨1, 4096, 1⟩]) ∧ zonePl 2 65536 = true ∧ zonePl zero 4100 = true := by
  refine ⟨⟨by decide, by decide, fun x hx => ?_⟩, by decide, by decide⟩
  rcases List.mem_cons.1 hx with rfl | hx
  · decide
  · rcases List.mem_cons.1 hx with rfl | hx
    · decide
    · cases hx

/-- The events of a history without host reallocation and failed requests of strategies
are `Faithful`, for instance these. -/
example : ∀ e ∈ [Ev.realloc 3 4096 24 (some 8192), .kid 2 64 true, .kidFree 2 64 64, .alloc 3 8 none], Faithful cfg 3 e := by
  simp [Faithful, cfg]

/-- A history with a high watermark reached during a reallocation: 40 bytes become 24. -/
example : ∃ x : St, Hist (fun s p => anyPl s p = true) cfg x.t x.rm x.w ∧ (∀ e ∈ x.t, Faithful cfg 3 e) ∧ peakOf cfg 3 x.t = 64 ∧ (x.rm.st 3).hwm = 64 := by
  obtain ⟨x, h1, h2⟩ := told_hist (f := fun x => (peakOf cfg 3 x.t, (x.rm.st 3).hwm, x.t.all fun e => match e with
      | .kid .. => false | .kidFree .. => false | _ => true)) (pl := anyPl) (c := cfg)
    (ks := [(.alloc 3 40, [some 4096]), (.reallocAny 2 4096 24, [some 8192]), (.free 3 8192, [])]) (a := (64, 64, true)) (by decide +kernel)
  injection h2 with h2 h3
  injection h3 with h3 h4
  refine ⟨x, h1, fun e he => ?_, h2, h3⟩
  have := List.all_eq_true.1 h4 e he
  cases e <;> first | trivial | (show (3 : Nat) ≠ 2; decide) | cases this

/-- **C24** fails across reallocations on `HOST`: allocate 8 bytes, reallocate to 100, free:
nothing is live and the current size is 2^64 - 92; the high watermark is 8 although 100
bytes were in use. -/
theorem statistics_reallocate_counterexample : ∃ x : St, Hist (fun s p => anyPl s p = true) cfg x.t x.rm x.w ∧
    look 2 x = ([], [], 2 ^ 64 - 92, 0, 8) :=
  told_hist (ks := [(.alloc 2 8, [some 4096]), (.reallocAny 2 4096 100, [some 8192]), (.free 2 8192, [])]) (by decide +kernel)

/-- **C24** fails across failed requests that strategies make to their parents: nothing is
live and the current size is 64. -/
theorem statistics_failure_counterexample : ∃ x : St, Hist (fun s p => anyPl s p = true) cfg x.t x.rm x.w ∧
    look 2 x = ([], [], 64, 1, 64) ∧ kidsOf cfg x.t 2 = [] := by
  obtain ⟨x, h1, h2⟩ := told_hist (f := fun x => (look 2 x, kidsOf cfg x.t 2)) (pl := anyPl) (c := cfg) (ks := [(.kid 2 64 false, [])])
    (a := (([], [], 64, 1, 64), [])) (by decide +kernel)
  exact ⟨x, h1, (Prod.ext_iff.1 h2).1, (Prod.ext_iff.1 h2).2⟩

/-- **C32** fails when `::realloc` does: the old block is still held, but it is not known
any more and cannot be freed. -/
theorem reallocate_failure_counterexample : ∃ x : St, Hist (fun s p => anyPl s p = true) cfg x.t x.rm x.w ∧
    look 2 x = ([], [⟨2, 4096, 8⟩], 8, 1, 8) ∧
    Sure (fun s p => anyPl s p = true) (deallocate cfg 2 4096) x.rm x.w fun o _ w' => o = none ∧ w' = x.w := by
  obtain ⟨x, h1, h2⟩ := told_hist (f := look 2) (pl := anyPl) (c := cfg) (ks := [(.alloc 2 8, [some 4096]), (.reallocAny 2 4096 100, [none])])
    (a := ([], [⟨2, 4096, 8⟩], 8, 1, 8)) (by decide +kernel)
  refine ⟨x, h1, h2, ?_⟩
  have hl : liveOf cfg x.t = [] := (Prod.ext_iff.1 h2).1
  have := wrong_deallocate h1 (s := 2) (p := 4096) rfl (by decide) (by decide) (by rw [hl]; intro r hr; cases hr)
  exact ⟨this.1, fun o rm' w' hr => ⟨(this.2 o rm' w' hr).1, (this.2 o rm' w' hr).2.1⟩⟩

/-- **C33** fails for an address inside of an allocation of the target: it is returned. -/
theorem move_interior_counterexample : ∃ x : St, Hist (fun s p => zonePl s p = true) cfg x.t x.rm x.w ∧
    liveOf cfg x.t = [⟨8192, 64, 3⟩] ∧ x.t.head? = some (.move 8200 3 (some 8200)) := by
  obtain ⟨x, h1, h2⟩ := told_hist (f := fun x => (liveOf cfg x.t, match x.t with | .move p s o :: _ => some (p, s, o) | _ => none)) (pl := zonePl) (c := cfg)
    (ks := [(.alloc 3 64, [some 8192]), (.move 8200 3, [])]) (a := ([⟨8192, 64, 3⟩], some (8200, 3, some 8200))) (by decide +kernel)
  refine ⟨x, h1, (Prod.ext_iff.1 h2).1, ?_⟩
  have h3 := (Prod.ext_iff.1 h2).2
  dsimp only at h3
  cases hx : x.t with
  | nil => rw [hx] at h3; cases h3
  | cons e t =>
    rw [hx] at h3
    cases e <;> first | (injection h3 with h3; injection h3 with a b; injection b with b d; subst a; subst b; subst d; rfl) | cases h3

/-- **C33** fails for a target that is not tracked: `move` throws, and the block obtained
from the target is never given back. -/
theorem move_untracked_counterexample : ∃ (x : St) (rm' : RM) (w' : World), Hist (fun s p => anyPl s p = true) cfg x.t x.rm x.w ∧
    liveOf cfg x.t = [⟨8192, 64, 3⟩] ∧ MP.Run (fun s p => anyPl s p = true) (move cfg 8192 5 x.rm) x.w (none, rm') w' ∧
    w'.held = [⟨5, 16384, 64⟩, ⟨3, 8192, 64⟩] := by
  obtain ⟨x, h1, h2⟩ := told_hist (f := fun x => (liveOf cfg x.t, (exec anyPl [some 16384] (move cfg 8192 5 x.rm) x.w).map fun y => (y.1.1, y.2.held)))
    (pl := anyPl) (c := cfg) (ks := [(.alloc 3 64, [some 8192])]) (a := ([⟨8192, 64, 3⟩], some (none, [⟨5, 16384, 64⟩, ⟨3, 8192, 64⟩]))) (by decide +kernel)
  have h3 := (Prod.ext_iff.1 h2).2
  dsimp only at h3
  cases he : exec anyPl [some 16384] (move cfg 8192 5 x.rm) x.w with
  | none => rw [he] at h3; cases h3
  | some y =>
    rw [he] at h3
    obtain ⟨⟨o, rm'⟩, w'⟩ := y
    injection h3 with h3
    injection h3 with h3 h4
    refine ⟨x, rm', w', h1, (Prod.ext_iff.1 h2).1, ?_, h4⟩
    have := exec_run _ he
    dsimp only at h3
    rw [h3] at this
    exact this

/-- Does the scripted run of `m` end with an invalid `memcpy`? -/
def badCopy (m : M Unit) (x : St) : Bool :=
  match m x.rm with
  | .memcpy d s n _ => !decide (Usable x.w.held d n ∧ Usable x.w.held s n ∧ (n = 0 ∨ Disj d n s n))
  | _ => false

theorem goes_of {pl : Nat → Nat → Bool} {m : M Unit} {x : St} (h : badCopy m x = true) : MP.Goes (fun s p => pl s p = true) (m x.rm) x.w := by
  unfold badCopy at h
  split at h
  · rename_i d s n k he
    rw [he]
    apply MP.Goes.badCopy
    intro hp
    rw [decide_eq_true hp] at h
    cases h
  · cases h

/-- **C30** fails: a length that exceeds the source allocation is not rejected; bytes beyond
it are read. -/
theorem copy_overrun_counterexample : ∃ x : St, Hist (fun s p => zonePl s p = true) cfg x.t x.rm x.w ∧
    liveOf cfg x.t = [⟨16384, 64, 3⟩, ⟨8192, 8, 3⟩] ∧ MP.Goes (fun s p => zonePl s p = true) (copy 16384 8192 64 x.rm) x.w := by
  obtain ⟨x, h1, h2⟩ := told_hist (f := fun x => (liveOf cfg x.t, badCopy (copy 16384 8192 64) x)) (pl := zonePl) (c := cfg)
    (ks := [(.alloc 3 8, [some 8192]), (.alloc 3 64, [some 16384])]) (a := ([⟨16384, 64, 3⟩, ⟨8192, 8, 3⟩], true)) (by decide +kernel)
  exact ⟨x, h1, (Prod.ext_iff.1 h2).1, goes_of (Prod.ext_iff.1 h2).2⟩

/-- **C30** fails: source and destination ranges inside one allocation may overlap, which
`std::memcpy` does not allow. -/
theorem copy_overlap_counterexample : ∃ x : St, Hist (fun s p => zonePl s p = true) cfg x.t x.rm x.w ∧
    liveOf cfg x.t = [⟨8192, 64, 3⟩] ∧ MP.Goes (fun s p => zonePl s p = true) (copy 8200 8192 16 x.rm) x.w := by
  obtain ⟨x, h1, h2⟩ := told_hist (f := fun x => (liveOf cfg x.t, badCopy (copy 8200 8192 16) x)) (pl := zonePl) (c := cfg)
    (ks := [(.alloc 3 64, [some 8192])]) (a := ([⟨8192, 64, 3⟩], true)) (by decide +kernel)
  exact ⟨x, h1, (Prod.ext_iff.1 h2).1, goes_of (Prod.ext_iff.1 h2).2⟩

end Umpire.Mgr
