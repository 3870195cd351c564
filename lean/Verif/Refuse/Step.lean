import Verif.Refuse.Inv
/-!
# What calls with refusing strategies do to the allocations
-/
set_option autoImplicit false
set_option linter.unusedSimpArgs false
namespace Umpire.Refuse
open Umpire.Mgr Umpire.Judy

/-! ## Specification: the allocations of the tracked allocators -/

/-- `L` without the allocation that starts at `p`. -/
def without (p : Nat) (L : List Rec) : List Rec := L.filter fun r => decide (r.ptr ≠ p)

/-- An allocation of `n` bytes through `s`. -/
def Obtains (c : Cfg) (L : List Rec) (s n : Nat) (o : Option Nat) (L' : List Rec) : Prop :=
  (∀ p, o = some p → L' = if c.tracked s then ⟨p, n, s⟩ :: L else L) ∧ (o = none → L' = L)

/-- The allocation `r` is replaced by one of `n` bytes from `s`.  If that throws, all is as
before, or the old memory was refused: then the new allocation exists without anybody
having been told its address. -/
def Replaces (L : List Rec) (r : Rec) (s n : Nat) (o : Option Nat) (L' : List Rec) : Prop :=
  (∀ q, o = some q → L' = ⟨q, n, s⟩ :: without r.ptr L) ∧
  (o = none → L' = L ∨ r.size ≠ 0 ∧ ∃ q, L' = ⟨q, n, s⟩ :: without r.ptr L)

/-- Reallocation of `r` to `n` bytes.  To zero bytes: the old allocation is gone in any case.
With `::realloc`: if that fails, the allocation is forgotten. -/
def Resizes (c : Cfg) (L : List Rec) (r : Rec) (n : Nat) (o : Option Nat) (L' : List Rec) : Prop :=
  if n = 0 then (∀ q, o = some q → L' = ⟨q, 0, r.tag⟩ :: without r.ptr L) ∧ (o = none → L' = without r.ptr L)
  else if r.tag = c.host ∧ r.size ≠ 0 then (∀ q, o = some q → L' = ⟨q, n, r.tag⟩ :: without r.ptr L) ∧ (o = none → L' = without r.ptr L)
  else Replaces L r r.tag n o L'

/-- What a call with result `o` makes of the allocations `L`. -/
def Change (c : Cfg) (L : List Rec) (e : Call) (o : Option Nat) (L' : List Rec) : Prop :=
  match e with
  | .alloc s n => Obtains c L s n o L'
  | .free s p =>
    L' = (if c.tracked s then L.filter fun r => !decide (r.ptr = p ∧ r.tag = s) else L) ∧
    (c.tracked s = true → p ≠ 0 → (∀ r ∈ L, ¬(r.ptr = p ∧ r.tag = s)) → o = none) ∧
    ∀ r ∈ L, r.ptr = p → r.tag = s → r.size = 0 → o ≠ none
  | .freeAny p =>
    L' = without p L ∧ ((∀ r ∈ L, r.ptr ≠ p) → o = none) ∧ ∀ r ∈ L, r.ptr = p → r.size = 0 → o ≠ none
  | .realloc s p n =>
    (p = 0 → Obtains c L s n o L') ∧
    (p ≠ 0 → (∀ r ∈ L, ¬(r.ptr = p ∧ r.tag = s)) → o = none ∧ L' = L) ∧
    ∀ r ∈ L, r.ptr = p → r.tag = s → Resizes c L r n o L'
  | .reallocAny d p n =>
    (p = 0 → Obtains c L d n o L') ∧
    (p ≠ 0 → (∀ r ∈ L, r.ptr ≠ p) → o = none ∧ L' = L) ∧
    ∀ r ∈ L, r.ptr = p → Resizes c L r n o L'
  | .move p s =>
    ((∀ r ∈ L, r.ptr ≠ p) → L' = L) ∧
    ∀ r ∈ L, r.ptr = p → (r.tag = s → o = some p ∧ L' = L) ∧ (r.tag ≠ s → Replaces L r s r.size o L')
  | .copy .. => L' = L
  | .memset .. => L' = L
  | .query _ => L' = L

/-- From the allocations `L` the calls `t` (newest first) with their results can lead to
`L'`. -/
inductive Story (c : Cfg) (L : List Rec) : List (Call × Option Nat) → List Rec → Prop where
  | start : Story c L [] L
  | call {t L₁ e o L₂} : Story c L t L₁ → Change c L₁ e o L₂ → Story c L ((e, o) :: t) L₂

/-! ## The model follows it -/

/-- What stays: blocks of tracked strategies that are held without being registered, and the
accounts of strategies other than `HOST`. -/
structure Next (c : Cfg) (g g' : Ghost) : Prop where
  un : ∀ b ∈ g.un, c.tracked b.own = true → b.own ≠ zero → b ∈ g'.un
  kids : g'.acct.kids = g.acct.kids
  exact : ∀ s, s ≠ c.host → g.acct.exact s = true → g'.acct.exact s = true

theorem Next.refl (c : Cfg) (g : Ghost) : Next c g g := ⟨fun _ h _ _ => h, rfl, fun _ _ h => h⟩
theorem Next.trans {c : Cfg} {g g₁ g₂ : Ghost} (h : Next c g g₁) (h' : Next c g₁ g₂) : Next c g g₂ :=
  ⟨fun b hb ht hz => h'.un b (h.un b hb ht hz) ht hz, h'.kids.trans h.kids, fun s hs he => h'.exact s hs (h.exact s hs he)⟩

section
variable {Pl : Nat → Nat → Prop} {B : Nat → Prop} {c : Cfg} {rm : RM} {w : World} {g : Ghost}

/-- The call leads to a state described by a ghost `g'` that the specification allows. -/
def After (Pl : Nat → Nat → Prop) (B : Nat → Prop) (c : Cfg) (g : Ghost) (C : Option Nat → List Rec → Prop) (o : Option Nat) (rm' : RM) (w' : World) : Prop :=
  ∃ g', Ok Pl B c rm' w' g' ∧ C o g'.live ∧ Next c g g'

theorem next_un (hl : List Rec) (b : Blk) : Next c g { g with live := hl, un := b :: g.un } :=
  ⟨fun _ h _ _ => List.mem_cons_of_mem _ h, rfl, fun _ _ h => h⟩
theorem next_live (hl : List Rec) : Next c g { g with live := hl } := ⟨fun _ h _ _ => h, rfl, fun _ _ h => h⟩

theorem dropR_eq (p : Nat) (L : List Rec) : dropR p L = without p L := rfl

theorem without_none {p : Nat} {L : List Rec} (h : ∀ r ∈ L, r.ptr ≠ p) : without p L = L := by
  unfold without
  rw [List.filter_eq_self]
  intro r hr
  exact decide_eq_true (h r hr)

theorem filter_hit {L : List Rec} {r : Rec} (nd : (L.map (·.ptr)).Nodup) (hr : r ∈ L) :
    L.filter (fun x => !decide (x.ptr = r.ptr ∧ x.tag = r.tag)) = without r.ptr L := by
  unfold without
  apply List.filter_congr
  intro x hx
  rw [Bool.eq_iff_iff]
  simp only [Bool.not_eq_true', decide_eq_false_iff_not, decide_eq_true_eq]
  constructor
  · intro h he
    have : x = r := nodup_map_inj nd hx hr he
    subst this
    exact h ⟨rfl, rfl⟩
  · intro h he
    exact h he.1

theorem filter_miss {L : List Rec} {p s : Nat} (h : ∀ r ∈ L, ¬(r.ptr = p ∧ r.tag = s)) :
    L.filter (fun x => !decide (x.ptr = p ∧ x.tag = s)) = L := by
  rw [List.filter_eq_self]
  intro x hx
  simp only [Bool.not_eq_true', decide_eq_false_iff_not]
  exact h x hx

theorem obtains_of {s n : Nat} (h : Ok Pl B c rm w g) (ha : Aligned Pl B) (hs : s ≠ zero) :
    wpM Pl (allocate c s n) rm w (After Pl B c g (Obtains c g.live s n)) := by
  apply allocate_spec h ha hs
  · intro p m rm' _ _ _ h1 _
    refine ⟨_, h1, ⟨fun q hq => ?_, fun he => (by cases he)⟩, ?_⟩
    · injection hq with hq
      subst hq
      unfold Ghost.alloc
      by_cases ht : c.tracked s = true
      · rw [if_pos ht, if_pos ht]; rfl
      · rw [if_neg ht, if_neg ht]; rfl
    · unfold Ghost.alloc
      split
      · exact next_live _
      · exact next_un _ _
  · intro m _ h1
    exact ⟨g, h1, ⟨fun _ he => (by cases he), fun _ => rfl⟩, Next.refl c g⟩

/-- Deallocation followed by the result 0. -/
theorem free_of {s p : Nat} (h : Ok Pl B c rm w g) (hall : (Call.free s p).Allowed c rm w) :
    Sure Pl ((Call.free s p).prog c) rm w (After Pl B c g (Change c g.live (.free s p))) := by
  obtain ⟨hs, hp, hq⟩ := hall
  apply sure_bind
  by_cases h0 : p = 0
  · subst h0
    have hno : ∀ r ∈ g.live, ¬(r.ptr = 0 ∧ r.tag = s) := fun r hr he => (h.mem.rec_lt hr).1 he.1
    refine sure_pure ⟨fun he => (by cases he), fun _ _ => sure_pure ⟨g, h, ⟨?_, fun _ h0 => absurd rfl h0, fun _ _ _ _ _ he => (by cases he)⟩, Next.refl c g⟩⟩
    rw [filter_miss hno]
    split <;> rfl
  by_cases ht : c.tracked s = true
  · by_cases hit : ∃ r ∈ g.live, r.ptr = p ∧ r.tag = s
    · obtain ⟨r, hr, rfl, rfl⟩ := hit
      have eL : (if c.tracked r.tag then g.live.filter fun x => !decide (x.ptr = r.ptr ∧ x.tag = r.tag) else g.live) = dropR r.ptr g.live := by
        rw [if_pos ht, filter_hit h.mem.liveNodup hr]; rfl
      have hrec : ∀ x ∈ g.live, x.ptr = r.ptr → x = r := fun x hx he => nodup_map_inj h.mem.liveNodup hx hr he
      apply deallocate_hit h hr
      · intro m rm' o hz _ h1 _
        refine ⟨fun he => ?_, fun _ _ => sure_pure ?_⟩
        · refine ⟨_, h1, ⟨eL.symm, fun _ _ hno => absurd ⟨rfl, rfl⟩ (hno r hr), fun x hx hxp _ hx0 => ?_⟩, next_live _⟩
          have := hrec x hx hxp
          subst this
          rw [hz hx0] at he
          cases he
        · exact ⟨_, h1, ⟨eL.symm, fun _ _ hno => absurd ⟨rfl, rfl⟩ (hno r hr), fun _ _ _ _ _ he => (by cases he)⟩, next_live _⟩
      · intro m rm' hz _ h1 _
        refine ⟨fun _ => ?_, fun _ he => (by cases he)⟩
        refine ⟨_, h1, ⟨eL.symm, fun _ _ hno => absurd ⟨rfl, rfl⟩ (hno r hr), fun x hx hxp _ hx0 => ?_⟩, next_un _ _⟩
        have := hrec x hx hxp
        subst this
        exact absurd hx0 hz
    · have hno : ∀ r ∈ g.live, ¬(r.ptr = p ∧ r.tag = s) := fun r hr he => hit ⟨r, hr, he⟩
      apply deallocate_miss h ht h0 hp hno
      intro rm' h1 _
      refine ⟨fun _ => ⟨g, h1, ⟨?_, fun _ _ _ => rfl, fun x hx e1 e2 => absurd ⟨e1, e2⟩ (hno x hx)⟩, Next.refl c g⟩, fun _ he => (by cases he)⟩
      rw [filter_miss hno]
      split <;> rfl
  · obtain ⟨hn, b, hb, rfl, hob⟩ := (hq.resolve_left ht).resolve_left h0
    have hbl : ∀ r ∈ g.live, r.ptr ≠ b.ptr := by
      intro r hr he
      have := (h.mem.find_sound hp).2.1 r hr he
      rw [hn] at this
      cases this
    have hbu : b ∈ g.un := by
      rcases List.mem_append.1 (h.mem.perm.mem_iff.1 hb) with h1 | h1
      · obtain ⟨r, hr, he⟩ := List.mem_map.1 h1
        exact absurd (by rw [← he, blkOf_ptr]) (hbl r hr)
      · exact h1
    have nd : (g.un.map (·.ptr)).Nodup := by
      have := h.mem.allNodup
      rw [List.map_append] at this
      exact (List.nodup_append.1 this).2.1
    have hno : ∀ x ∈ g.live, x.ptr = b.ptr → x.tag = s → x.size = 0 → ∀ o : Option Nat, o ≠ none := fun x hx e => absurd e (hbl x hx)
    have htf : c.tracked s = false := by simpa using ht
    have hch : ∀ (g' : Ghost) (o : Option Nat), g'.live = g.live → Change c g.live (.free s b.ptr) o g'.live := by
      intro g' o he
      refine ⟨?_, fun ht' => absurd ht' ht, fun x hx e1 e2 e3 => hno x hx e1 e2 e3 o⟩
      rw [if_neg ht, he]
    apply deallocate_untracked h htf (dropB_cons nd hbu).symm hob
    · intro m o _ h1
      have hnx : Next c g { g with un := dropB b.ptr g.un } := by
        refine ⟨fun x hx hxt hxz => ?_, rfl, fun _ _ h => h⟩
        refine List.mem_filter.2 ⟨hx, decide_eq_true fun he => ?_⟩
        have : x = b := nodup_map_inj nd hx hbu he
        subst this
        rcases hob with e | e
        · exact hxz e
        · rw [e, htf] at hxt; cases hxt
      exact ⟨fun _ => ⟨_, h1, hch _ _ rfl, hnx⟩, fun _ _ => sure_pure ⟨_, h1, hch _ _ rfl, hnx⟩⟩
    · intro m _ _ h1
      exact ⟨fun _ => ⟨g, h1, hch _ _ rfl, Next.refl c g⟩, fun _ he => (by cases he)⟩

theorem freeAny_of {p : Nat} (h : Ok Pl B c rm w g) (hp : p < 2 ^ 64) :
    Sure Pl ((Call.freeAny p).prog c) rm w (After Pl B c g (Change c g.live (.freeAny p))) := by
  apply sure_bind
  by_cases hit : ∃ r ∈ g.live, r.ptr = p
  · obtain ⟨r, hr, rfl⟩ := hit
    have hrec : ∀ x ∈ g.live, x.ptr = r.ptr → x = r := fun x hx he => nodup_map_inj h.mem.liveNodup hx hr he
    apply frees_any r _ _ _ _ h hr
    · intro m rm' o hz _ h1 _
      refine ⟨fun he => ?_, fun _ _ => sure_pure ?_⟩
      · refine ⟨_, h1, ⟨rfl, fun hno => absurd rfl (hno r hr), fun x hx hxp hx0 => ?_⟩, next_live _⟩
        have := hrec x hx hxp
        subst this
        rw [hz hx0] at he
        cases he
      · exact ⟨_, h1, ⟨rfl, fun hno => absurd rfl (hno r hr), fun _ _ _ _ he => (by cases he)⟩, next_live _⟩
    · intro m rm' hz _ h1 _
      refine ⟨fun _ => ⟨_, h1, ⟨rfl, fun hno => absurd rfl (hno r hr), fun x hx hxp hx0 => ?_⟩, next_un _ _⟩, fun _ he => (by cases he)⟩
      have := hrec x hx hxp
      subst this
      exact absurd hx0 hz
  · have hno : ∀ r ∈ g.live, r.ptr ≠ p := fun r hr he => hit ⟨r, hr, he⟩
    have fin : ∀ rm', Ok Pl B c rm' w g → After Pl B c g (Change c g.live (.freeAny p)) none rm' w := fun rm' h1 =>
      ⟨g, h1, ⟨(without_none hno).symm, fun _ => rfl, fun x hx e => absurd e (hno x hx)⟩, Next.refl c g⟩
    unfold deallocateAny getOwner
    apply sure_first
    apply wpM_bind
    apply find_spec h hp
    · intro r rm1 hr hc h1 _
      show (_ → _) ∧ _
      refine ⟨fun he => (by cases he), fun y he => ?_⟩
      injection he with he
      subst he
      apply deallocate_miss h1 (h.mem.tag r hr).2 _ hp (fun x hx hxp => hno x hx hxp.1)
      · intro rm' h2 _
        exact ⟨fun _ => fin rm' h2, fun _ he => (by cases he)⟩
      · have := (h.mem.rec_lt hr).1
        have := hc.1
        omega
    · intro rm1 _ _ h1 _
      exact ⟨fun _ => ⟨fun _ => fin rm1 h1, fun _ he => (by cases he)⟩, fun _ he => (by cases he)⟩

theorem replaces_of {r : Rec} {s n sz : Nat} {D : R Unit} (h : Ok Pl B c rm w g) (ha : Aligned Pl B) (hs : s ≠ zero) (ht : c.tracked s = true)
    (hr : r ∈ g.live) (hsz : (if sz = 0 then r.size else sz) = min r.size n) (hD : Frees Pl B c r D) :
    Sure Pl (do let q ← R.up (allocate c s n); R.up (copy q r.ptr sz); D; return q : R Nat) rm w (After Pl B c g (Replaces g.live r s n)) := by
  apply relocate_spec h ha hs ht hr hsz hD
  · intro q m rm' o ho _ _ h1 _
    refine ⟨_, h1, ⟨fun q' he => ?_, fun he => ?_⟩, next_live _⟩
    · rcases ho with e | e
      · rw [e] at he; injection he with he; subst he; rfl
      · rw [e.1] at he; cases he
    · rcases ho with e | e
      · rw [e] at he; cases he
      · exact Or.inr ⟨e.2, q, rfl⟩
  · intro q m rm' hz _ _ h1 _
    exact ⟨_, h1, ⟨fun _ he => (by cases he), fun _ => Or.inr ⟨hz, q, rfl⟩⟩, next_un _ _⟩
  · intro m _ h1
    exact ⟨g, h1, ⟨fun _ he => (by cases he), fun _ => Or.inl rfl⟩, Next.refl c g⟩

theorem resizes_of {r : Rec} {n : Nat} (h : Ok Pl B c rm w g) (ha : Aligned Pl B) (hr : r ∈ g.live) :
    Sure Pl (reallocImpl c r.ptr n r.tag) rm w (After Pl B c g (Resizes c g.live r n)) := by
  have htag := h.mem.tag r hr
  unfold reallocImpl
  rw [if_neg (h.mem.rec_lt hr).1]
  apply sure_first
  apply find_base h hr
  intro rm1 h1 _
  refine ⟨fun he => (by cases he), fun y he => ?_⟩
  injection he with he
  subst he
  rw [if_neg (by simp)]
  unfold Resizes
  by_cases hn : n = 0
  · rw [if_pos hn]
    simp only [if_pos hn]
    subst hn
    have fin : ∀ rm' w' g', Ok Pl B c rm' w' g' → g'.live = dropR r.ptr g.live → Next c g g' →
        wpM Pl (allocate c r.tag 0) rm' w' (After Pl B c g fun o L' => (∀ q, o = some q → L' = ⟨q, 0, r.tag⟩ :: without r.ptr g.live) ∧ (o = none → L' = without r.ptr g.live)) := by
      intro rm' w' g' h2 hl hnx
      refine wpM_mono (obtains_of (n := 0) h2 ha htag.1) ?_
      rintro o rm2 w2 ⟨g2, h3, ho, hnx2⟩
      refine ⟨g2, h3, ⟨fun q hq => ?_, fun he => ?_⟩, hnx.trans hnx2⟩
      · have := ho.1 q hq
        rw [if_pos htag.2, hl] at this
        exact this
      · have := ho.2 he
        rw [hl] at this
        exact this
    apply sure_bind
    apply deallocate_hit h1 hr
    · intro m rm' o _ _ h2 _
      refine ⟨fun _ => ⟨_, h2, ⟨fun _ he => (by cases he), fun _ => rfl⟩, next_live _⟩, fun _ _ => sure_up (fin _ _ _ h2 rfl (next_live _))⟩
    · intro m rm' _ _ h2 _
      exact ⟨fun _ => ⟨_, h2, ⟨fun _ he => (by cases he), fun _ => rfl⟩, next_un _ _⟩, fun _ he => (by cases he)⟩
  · rw [if_neg hn, if_neg (by simp)]
    simp only [if_neg hn]
    have hsz : (if (if r.size > n then n else r.size) = 0 then r.size else if r.size > n then n else r.size) = min r.size n := by
      by_cases h1 : r.size > n
      · rw [if_pos h1, if_neg hn]; omega
      · rw [if_neg h1]
        split <;> omega
    by_cases hb : r.tag = c.host ∧ r.size ≠ 0
    · rw [if_pos hb.1]
      simp only [if_pos hb]
      unfold hostRealloc
      rw [if_neg hb.2]
      apply sure_up
      have hnx : ∀ g' : Ghost, g'.un = g.un ∨ (∃ b, g'.un = b :: g.un) → g'.acct.kids = g.acct.kids → (∀ s, s ≠ c.host → g.acct.exact s = true → g'.acct.exact s = true) → Next c g g' := by
        intro g' hu hk he
        refine ⟨fun b hb _ _ => ?_, hk, he⟩
        rcases hu with e | ⟨x, e⟩
        · rw [e]; exact hb
        · rw [e]; exact List.mem_cons_of_mem _ hb
      apply hostRealloc_big h1 ha hr hn hb.2 hb.1
      · intro q m rm' _ _ _ h2
        refine ⟨_, h2, ⟨fun q' he => ?_, fun he => (by cases he)⟩, hnx _ (Or.inl rfl) ?_ ?_⟩
        · injection he with he; subst he; rfl
        · unfold Ghost.resized; rw [if_pos hb]; rfl
        · intro s hs hx
          unfold Ghost.resized
          rw [if_pos hb]
          show Mgr.upd _ _ _ s = true
          rw [Mgr.upd_ne (by rw [hb.1]; exact hs)]; exact hx
      · intro rm' _ h2
        unfold Ghost.unresized at h2
        rw [if_pos hb] at h2
        refine ⟨_, h2, ⟨fun _ he => (by cases he), fun _ => rfl⟩, hnx _ (Or.inr ⟨_, rfl⟩) rfl ?_⟩
        intro s hs hx
        show Mgr.upd _ _ _ s = true
        rw [Mgr.upd_ne (by rw [hb.1]; exact hs)]; exact hx
    · simp only [if_neg hb]
      by_cases hh : r.tag = c.host
      · rw [if_pos hh]
        have hz : r.size = 0 := Classical.byContradiction fun e => hb ⟨hh, e⟩
        unfold hostRealloc
        rw [if_pos hz]
        exact replaces_of h1 ha htag.1 htag.2 hr hsz (frees_deallocate r)
      · rw [if_neg hh]
        exact replaces_of h1 ha htag.1 htag.2 hr hsz (frees_deallocate r)

/-- A pointer that starts no allocation of `s`. -/
theorem realloc_miss {s p n : Nat} (h : Ok Pl B c rm w g) (hp : p < 2 ^ 64) (h0 : p ≠ 0) (hno : ∀ r ∈ g.live, ¬(r.ptr = p ∧ r.tag = s))
    {Q : Option Nat → RM → World → Prop} (hok : ∀ rm', Ok Pl B c rm' w g → Q none rm' w) : Sure Pl (reallocImpl c p n s) rm w Q := by
  unfold reallocImpl
  rw [if_neg h0]
  apply sure_first
  apply find_spec h hp
  · intro r rm1 hr hc h1 _
    refine ⟨fun he => (by cases he), fun y he => ?_⟩
    injection he with he
    subst he
    by_cases ht : r.tag = s
    · rw [if_neg (by simpa using ht)]
      subst ht
      have hne : p ≠ r.ptr := fun he => hno r hr ⟨he.symm, rfl⟩
      by_cases hn : n = 0
      · rw [if_pos hn]
        apply sure_bind
        apply deallocate_miss h1 (h.mem.tag r hr).2 h0 hp hno
        intro rm' h2 _
        exact ⟨fun _ => hok rm' h2, fun _ he => (by cases he)⟩
      · rw [if_neg hn, if_pos hne]
        exact sure_throw (hok rm1 h1)
    · rw [if_pos ht]
      exact sure_throw (hok rm1 h1)
  · intro rm1 _ _ h1 _
    exact ⟨fun _ => hok rm1 h1, fun _ he => (by cases he)⟩

theorem realloc_of {s p n : Nat} (h : Ok Pl B c rm w g) (ha : Aligned Pl B) (hs : s ≠ zero) (hp : p < 2 ^ 64) :
    Sure Pl (reallocImpl c p n s) rm w (After Pl B c g (Change c g.live (.realloc s p n))) := by
  by_cases h0 : p = 0
  · subst h0
    have hno : ∀ r ∈ g.live, r.ptr ≠ 0 := fun r hr => (h.mem.rec_lt hr).1
    refine sure_mono (sure_up (obtains_of (n := n) h ha hs)) ?_
    rintro o rm' w' ⟨g', h1, h2, h3⟩
    exact ⟨g', h1, ⟨fun _ => h2, fun e => absurd rfl e, fun r hr e => absurd e (hno r hr)⟩, h3⟩
  · by_cases hit : ∃ r ∈ g.live, r.ptr = p ∧ r.tag = s
    · obtain ⟨r, hr, rfl, rfl⟩ := hit
      refine sure_mono (resizes_of (n := n) h ha hr) ?_
      rintro o rm' w' ⟨g', h1, h2, h3⟩
      refine ⟨g', h1, ⟨fun e => absurd e h0, fun _ hno => absurd ⟨rfl, rfl⟩ (hno r hr), fun x hx e _ => ?_⟩, h3⟩
      have : x = r := nodup_map_inj h.mem.liveNodup hx hr e
      subst this
      exact h2
    · have hno : ∀ r ∈ g.live, ¬(r.ptr = p ∧ r.tag = s) := fun r hr he => hit ⟨r, hr, he⟩
      exact realloc_miss h hp h0 hno fun rm' h1 => ⟨g, h1, ⟨fun e => absurd e h0, fun _ _ => ⟨rfl, rfl⟩, fun x hx e1 e2 => absurd ⟨e1, e2⟩ (hno x hx)⟩, Next.refl c g⟩

theorem reallocAny_of {d p n : Nat} (h : Ok Pl B c rm w g) (ha : Aligned Pl B) (hs : d ≠ zero) (hp : p < 2 ^ 64) :
    Sure Pl (reallocate c d p n) rm w (After Pl B c g (Change c g.live (.reallocAny d p n))) := by
  unfold reallocate
  by_cases h0 : p = 0
  · rw [if_pos h0]
    have hno : ∀ r ∈ g.live, r.ptr ≠ p := fun r hr => by rw [h0]; exact (h.mem.rec_lt hr).1
    refine sure_mono (realloc_of (n := n) h ha hs hp) ?_
    rintro o rm' w' ⟨g', h1, h2, h3⟩
    exact ⟨g', h1, ⟨fun _ => h2.1 h0, fun e => absurd h0 e, fun r hr e => absurd e (hno r hr)⟩, h3⟩
  · rw [if_neg h0]
    by_cases hit : ∃ r ∈ g.live, r.ptr = p
    · obtain ⟨r, hr, rfl⟩ := hit
      apply sure_first
      apply find_base h hr
      intro rm1 h1 _
      refine ⟨fun he => (by cases he), fun y he => ?_⟩
      injection he with he
      subst he
      refine sure_mono (resizes_of (n := n) h1 ha hr) ?_
      rintro o rm' w' ⟨g', h1, h2, h3⟩
      refine ⟨g', h1, ⟨fun e => absurd e h0, fun _ hno => absurd rfl (hno r hr), fun x hx e => ?_⟩, h3⟩
      have : x = r := nodup_map_inj h.mem.liveNodup hx hr e
      subst this
      exact h2
    · have hno : ∀ r ∈ g.live, r.ptr ≠ p := fun r hr he => hit ⟨r, hr, he⟩
      have fin : ∀ rm', Ok Pl B c rm' w g → After Pl B c g (Change c g.live (.reallocAny d p n)) none rm' w := fun rm' h1 =>
        ⟨g, h1, ⟨fun e => absurd e h0, fun _ _ => ⟨rfl, rfl⟩, fun x hx e1 => absurd e1 (hno x hx)⟩, Next.refl c g⟩
      apply sure_first
      apply find_spec h hp
      · intro r rm1 hr hc h1 _
        refine ⟨fun he => (by cases he), fun y he => ?_⟩
        injection he with he
        subst he
        exact realloc_miss h1 hp h0 (fun x hx e => hno x hx e.1) fin
      · intro rm1 _ _ h1 _
        exact ⟨fun _ => fin rm1 h1, fun _ he => (by cases he)⟩

theorem move_of {p s : Nat} (h : Ok Pl B c rm w g) (ha : Aligned Pl B) (hs : s ≠ zero) (ht : c.tracked s = true) (hp : p < 2 ^ 64) :
    Sure Pl (move c p s) rm w (After Pl B c g (Change c g.live (.move p s))) := by
  unfold move
  by_cases hit : ∃ r ∈ g.live, r.ptr = p
  · obtain ⟨r, hr, rfl⟩ := hit
    have hrec : ∀ x ∈ g.live, x.ptr = r.ptr → x = r := fun x hx he => nodup_map_inj h.mem.liveNodup hx hr he
    apply sure_first
    apply find_base h hr
    intro rm1 h1 _
    refine ⟨fun he => (by cases he), fun y he => ?_⟩
    injection he with he
    subst he
    by_cases hrs : r.tag = s
    · rw [if_pos hrs]
      refine sure_pure ⟨g, h1, ⟨fun hno => absurd rfl (hno r hr), fun x hx e => ?_⟩, Next.refl c g⟩
      have := hrec x hx e
      subst this
      exact ⟨fun _ => ⟨rfl, rfl⟩, fun e => absurd hrs e⟩
    · rw [if_neg hrs, if_neg (by simp)]
      refine sure_mono (replaces_of h1 ha hs ht hr (by simp) (frees_any r)) ?_
      rintro o rm' w' ⟨g', h2, h3, h4⟩
      refine ⟨g', h2, ⟨fun hno => absurd rfl (hno r hr), fun x hx e => ?_⟩, h4⟩
      have := hrec x hx e
      subst this
      exact ⟨fun e => absurd e hrs, fun _ => h3⟩
  · have hno : ∀ r ∈ g.live, r.ptr ≠ p := fun r hr he => hit ⟨r, hr, he⟩
    have fin : ∀ rm' o, Ok Pl B c rm' w g → After Pl B c g (Change c g.live (.move p s)) o rm' w := fun rm' o h1 =>
      ⟨g, h1, ⟨fun _ => rfl, fun x hx e1 => absurd e1 (hno x hx)⟩, Next.refl c g⟩
    apply sure_first
    apply find_spec h hp
    · intro r rm1 hr hc h1 _
      refine ⟨fun he => (by cases he), fun y he => ?_⟩
      injection he with he
      subst he
      by_cases hrs : r.tag = s
      · rw [if_pos hrs]
        exact sure_pure (fin rm1 _ h1)
      · rw [if_neg hrs, if_pos (fun he => hno r hr he.symm)]
        exact sure_throw (fin rm1 _ h1)
    · intro rm1 _ _ h1 _
      exact ⟨fun _ => fin rm1 _ h1, fun _ he => (by cases he)⟩

theorem memset_of {p n : Nat} {v : Int} (h : Ok Pl B c rm w g) (hp : p < 2 ^ 64) :
    Sure Pl ((Call.memset p v n).prog c) rm w (After Pl B c g (Change c g.live (.memset p v n))) := by
  apply sure_first
  have fin : ∀ rm' w' (o : Option Unit), Ok Pl B c rm' w' g → (o = none → After Pl B c g (Change c g.live (.memset p v n)) none rm' w') ∧
      ∀ b, o = some b → Sure Pl (pure 0) rm' w' (After Pl B c g (Change c g.live (.memset p v n))) :=
    fun rm' w' o h1 => ⟨fun _ => ⟨g, h1, rfl, Next.refl c g⟩, fun _ _ => sure_pure ⟨g, h1, rfl, Next.refl c g⟩⟩
  apply memset_spec h hp
  · intro r rm' _ _ h1 _
    exact ⟨fun _ => fin _ _ _ (h1.memw _), fun _ => fin _ _ _ h1⟩
  · intro rm' _ _ h1 _
    exact fin _ _ _ h1

theorem query_of {p : Nat} (h : Ok Pl B c rm w g) (hp : p < 2 ^ 64) :
    Sure Pl ((Call.query p).prog c) rm w (After Pl B c g (Change c g.live (.query p))) := by
  apply sure_first
  apply find_spec h hp
  · intro r rm' _ _ h1 _
    exact ⟨fun he => (by cases he), fun _ _ => sure_pure ⟨g, h1, rfl, Next.refl c g⟩⟩
  · intro rm' _ _ h1 _
    exact ⟨fun _ => ⟨g, h1, rfl, Next.refl c g⟩, fun _ he => (by cases he)⟩

/-- Every call but `copy`, which may have overlapping operands (C30). -/
theorem call_sure {e : Call} (h : Ok Pl B c rm w g) (ha : Aligned Pl B) (hall : e.Allowed c rm w) (hc : ∀ d s n, e ≠ .copy d s n) :
    Sure Pl (e.prog c) rm w (After Pl B c g (Change c g.live e)) := by
  cases e with
  | alloc s n => exact sure_up (obtains_of h ha hall)
  | free s p => exact free_of h hall
  | freeAny p => exact freeAny_of h hall
  | realloc s p n => exact realloc_of h ha hall.1 hall.2
  | reallocAny d p n => exact reallocAny_of h ha hall.1 hall.2
  | move p s => exact move_of h ha hall.1 hall.2.1 hall.2.2
  | copy d s n => exact absurd rfl (hc d s n)
  | memset p v n => exact memset_of h hall
  | query p => exact query_of h hall

theorem call_run {e : Call} {o : Option Nat} {rm' : RM} {w' : World} (h : Ok Pl B c rm w g) (ha : Aligned Pl B) (hall : e.Allowed c rm w)
    (hr : (e.prog c rm).run Pl w (o, rm') w') : After Pl B c g (Change c g.live e) o rm' w' := by
  by_cases hc : ∀ d s n, e ≠ .copy d s n
  · exact (call_sure h ha hall hc).2 o rm' w' hr
  · obtain ⟨d, s, n, rfl⟩ : ∃ d s n, e = .copy d s n := by
      apply Classical.byContradiction
      intro hno
      exact hc fun d s n he => hno ⟨d, s, n, he⟩
    obtain ⟨⟨o1, rm1⟩, w1, h1, h2⟩ := hr
    have hO := copy_run h h1
    cases o1 with
    | none => cases h2; exact ⟨g, hO, rfl, Next.refl c g⟩
    | some b => cases h2; exact ⟨g, hO, rfl, Next.refl c g⟩

theorem later_ok {t : List (Call × Option Nat)} {rm' : RM} {w' : World} (h : Ok Pl B c rm w g) (ha : Aligned Pl B) (hl : Later Pl c rm w t rm' w') :
    ∃ g', Ok Pl B c rm' w' g' ∧ Story c g.live t g'.live ∧ Next c g g' := by
  induction hl with
  | start => exact ⟨g, h, .start, Next.refl c g⟩
  | call _ hall hr ih =>
    obtain ⟨g1, h1, s1, n1⟩ := ih
    obtain ⟨g2, h2, c2, n2⟩ := call_run h1 ha hall hr
    exact ⟨g2, h2, .call s1 c2, n1.trans n2⟩
  | bytes m _ ih =>
    obtain ⟨g1, h1, s1, n1⟩ := ih
    exact ⟨g1, h1.memw m, s1, n1⟩

end
end Umpire.Refuse
