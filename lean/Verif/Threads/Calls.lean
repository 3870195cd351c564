import Verif.Threads.Logic
/-!
# Every call does what `Fits` and `after` say
-/
set_option autoImplicit false
set_option linter.unusedSimpArgs false
namespace Umpire.Thr
open Umpire.Judy Umpire.Mgr

/-- What holds of the allocations of a thread. -/
structure OwnOk (c : Cfg) (own : List Rec) : Prop where
  ok : ∀ r ∈ own, r.ptr ≠ 0 ∧ r.tag ≠ zero ∧ c.tracked r.tag = true
  inj : ∀ r ∈ own, ∀ r' ∈ own, ∀ p, Contains r p → Contains r' p → r = r'

/-- The end of a call. -/
def Done (own : List Rec) (cl : Call) : Post Nat := fun o lv tr _ =>
  Fits own cl o ∧ (∀ r, r ∈ lv ↔ r ∈ after own cl o) ∧ tr = []

section
variable {c : Cfg} {tk : Nat → Nat → Prop} {own lv : List Rec} {sg : Nat → Nat} {tg : Nat}

theorem OwnOk.base (h : OwnOk c own) {r r' : Rec} (hr : r ∈ own) (hr' : r' ∈ own) (he : r.ptr = r'.ptr) : r = r' :=
  h.inj r hr r' hr' r.ptr (contains_base r) (he ▸ contains_base r')

theorem OwnOk.find (h : OwnOk c own) {r : Rec} (hr : r ∈ own) : own.find? (fun x => decide (x.ptr = r.ptr)) = some r := by
  cases hf : own.find? (fun x => decide (x.ptr = r.ptr)) with
  | none => exact absurd (List.find?_eq_none.1 hf r hr) (by simp)
  | some x =>
    have hx := List.mem_of_find?_eq_some hf
    have he := List.find?_some hf
    rw [h.base hx hr (by simpa using he)]

theorem mem_dropR {p : Nat} {L : List Rec} {r : Rec} : r ∈ dropR p L ↔ r ∈ L ∧ r.ptr ≠ p := by
  unfold dropR
  rw [List.mem_filter]
  simp

theorem same_drop (hl : ∀ r, r ∈ lv ↔ r ∈ own) (p : Nat) (r : Rec) : r ∈ dropR p lv ↔ r ∈ dropR p own := by
  rw [mem_dropR, mem_dropR, hl]

theorem back_drop (ho : OwnOk c own) (hl : ∀ r, r ∈ lv ↔ r ∈ own) {r : Rec} (hr : r ∈ own) (x : Rec) : x ∈ r :: dropR r.ptr lv ↔ x ∈ own := by
  rw [List.mem_cons, mem_dropR, hl]
  constructor
  · rintro (rfl | h)
    · exact hr
    · exact h.1
  · intro hx
    by_cases he : x.ptr = r.ptr
    · exact Or.inl (ho.base hx hr he)
    · exact Or.inr ⟨hx, he⟩

theorem alloc_call (hl : ∀ r, r ∈ lv ↔ r ∈ own) {s n : Nat} (hp : Pre c tk own (.alloc s n)) :
    wp c tk tg (code c (.alloc s n)) lv [] sg (Done own (.alloc s n)) := by
  refine allocate_wp hp.1 hp.2.1 hp.2.2 ⟨fun h => (by cases h), hl, rfl⟩ fun p sl h0 _ => ⟨?_, fun r => ?_, rfl⟩
  · intro h; injection h with h; exact h0 h
  · show r ∈ _ :: lv ↔ r ∈ _ :: own
    rw [List.mem_cons, List.mem_cons, hl]

theorem Contains.pos {r : Rec} {p : Nat} (h : Contains r p) (h0 : r.ptr ≠ 0) : p ≠ 0 := by have := h.1; omega

/-- `deallocate` of something owned, wrapped in a call without a result. -/
theorem dealloc_own (ho : OwnOk c own) (hl : ∀ r, r ∈ lv ↔ r ∈ own) {s p : Nat} {r : Rec} (ht : c.tracked s = true) (hr : r ∈ own) (hc : Contains r p)
    {Q : Post Unit} (h1 : r.ptr = p → r.tag = s → Q (some ()) (dropR p lv) [] sg)
    (h2 : ¬(r.ptr = p ∧ r.tag = s) → ∀ lv' sg', (∀ x, x ∈ lv' ↔ x ∈ own) → Q none lv' [] sg') : wp c tk p (deallocate c s p) lv [] sg Q := by
  have hk := ho.ok r hr
  by_cases hb : r.ptr = p
  · subst hb
    by_cases he : r.tag = s
    · subst he
      exact deallocate_hit_wp hk.2.2 hk.2.1 hk.1 rfl ((hl r).2 hr) (h1 rfl rfl)
    · exact deallocate_wrong_wp ht hk.2.2 hk.2.1 hk.1 rfl ((hl r).2 hr) he fun sl => h2 (fun h => he h.2) _ _ (back_drop ho hl hr)
  · exact deallocate_inside_wp ht (Contains.pos hc hk.1) rfl ((hl r).2 hr) hc hb (h2 (fun h => hb h.1) _ _ hl)

theorem free_call (ho : OwnOk c own) (hl : ∀ r, r ∈ lv ↔ r ∈ own) {s p : Nat} (hp : Pre c tk own (.free s p)) :
    wp c tk p (code c (.free s p)) lv [] sg (Done own (.free s p)) := by
  show wp c tk p (deallocate c s p >>= fun _ => pure 0) lv [] sg _
  apply wp_bind
  rcases hp.2 with h0 | ⟨r, hr, hc⟩
  · subst h0
    show Done own (.free s 0) (some 0) lv [] sg
    refine ⟨?_, ?_, rfl⟩
    · show (_ ↔ _); simp
    · intro r
      show r ∈ lv ↔ r ∈ dropR 0 own
      rw [mem_dropR, hl]
      exact ⟨fun h => ⟨h, (ho.ok r h).1⟩, fun h => h.1⟩
  · refine dealloc_own ho hl hp.1 hr hc ?_ ?_
    · intro h1 h2
      exact ⟨⟨fun _ => Or.inr ⟨r, hr, h1, h2⟩, fun _ => rfl⟩, same_drop hl p, rfl⟩
    · intro hn lv' sg' hl'
      refine ⟨⟨fun h => (by cases h), ?_⟩, hl', rfl⟩
      rintro (h0 | ⟨r', hr', h1, h2⟩)
      · exact absurd h0 (Contains.pos hc (ho.ok r hr).1)
      · have := ho.inj r hr r' hr' p hc (h1 ▸ contains_base r')
        subst this
        exact absurd ⟨h1, h2⟩ hn

theorem size_call (ho : OwnOk c own) (hl : ∀ r, r ∈ lv ↔ r ∈ own) {p : Nat} (hp : Pre c tk own (.size p)) :
    wp c tk tg (code c (.size p)) lv [] sg (Done own (.size p)) := by
  obtain ⟨r, hr, hc⟩ := hp
  refine see_wp ((hl r).2 hr) hc ?_ fun hne => ?_
  · refine ⟨fun r' hr' hc' => ?_, hl, rfl⟩
    rw [ho.inj r hr r' hr' p hc hc']; exact Or.inl rfl
  · refine ⟨fun r' hr' hc' => ?_, hl, rfl⟩
    rw [← ho.inj r hr r' hr' p hc hc']; exact Or.inr ⟨rfl, hne⟩

theorem owner_call (ho : OwnOk c own) (hl : ∀ r, r ∈ lv ↔ r ∈ own) {p : Nat} (hp : Pre c tk own (.owner p)) :
    wp c tk tg (code c (.owner p)) lv [] sg (Done own (.owner p)) := by
  obtain ⟨r, hr, hc⟩ := hp
  refine see_wp ((hl r).2 hr) hc ?_ fun hne => ?_
  · refine ⟨fun r' hr' hc' => ?_, hl, rfl⟩
    rw [ho.inj r hr r' hr' p hc hc']; exact Or.inl rfl
  · refine ⟨fun r' hr' hc' => ?_, hl, rfl⟩
    rw [← ho.inj r hr r' hr' p hc hc']; exact Or.inr ⟨rfl, hne⟩

theorem getOwner_wp {p : Nat} {r : Rec} {Q : Post Nat} {tr : List Blk} (hr : r ∈ lv) (hc : Contains r p) (h1 : Q (some r.tag) lv tr sg)
    (h2 : r.ptr ≠ p → Q none lv tr sg) : wp c tk tg (getOwner p) lv tr sg Q := see_wp hr hc h1 h2

theorem freeAny_wp (ho : OwnOk c own) (hl : ∀ r, r ∈ lv ↔ r ∈ own) {p : Nat} {r : Rec} (hr : r ∈ own) (hc : Contains r p) {Q : Post Unit}
    (h1 : r.ptr = p → Q (some ()) (dropR p lv) [] sg) (h2 : r.ptr ≠ p → ∀ lv' sg', (∀ x, x ∈ lv' ↔ x ∈ own) → Q none lv' [] sg') :
    wp c tk p (deallocateAny c p) lv [] sg Q := by
  unfold deallocateAny
  apply wp_bind
  refine getOwner_wp ((hl r).2 hr) hc ?_ fun hne => h2 hne _ _ hl
  exact dealloc_own ho hl (ho.ok r hr).2.2 hr hc (fun hb _ => h1 hb) fun hn => h2 fun hb => hn ⟨hb, rfl⟩

theorem freeAny_call (ho : OwnOk c own) (hl : ∀ r, r ∈ lv ↔ r ∈ own) {p : Nat} (hp : Pre c tk own (.freeAny p)) :
    wp c tk p (code c (.freeAny p)) lv [] sg (Done own (.freeAny p)) := by
  obtain ⟨r, hr, hc⟩ := hp
  show wp c tk p (deallocateAny c p >>= fun _ => pure 0) lv [] sg _
  apply wp_bind
  refine freeAny_wp ho hl hr hc (fun hb => ?_) fun hb lv' sg' hl' => ?_
  · exact ⟨⟨fun _ => ⟨r, hr, hb⟩, fun _ => rfl⟩, same_drop hl p, rfl⟩
  · refine ⟨⟨fun h => (by cases h), ?_⟩, hl', rfl⟩
    rintro ⟨r', hr', h1⟩
    have := ho.inj r hr r' hr' p hc (h1 ▸ contains_base r')
    subst this
    exact absurd h1 hb

theorem has_call (hl : ∀ r, r ∈ lv ↔ r ∈ own) {p : Nat} (hp : Pre c tk own (.has p)) :
    wp c tk tg (code c (.has p)) lv [] sg (Done own (.has p)) := by
  show wp c tk tg (hasAllocator p >>= fun b => pure (if b then 1 else 0)) lv [] sg _
  apply wp_bind
  by_cases hex : ∃ r ∈ own, r.ptr = p
  · obtain ⟨r, hr, rfl⟩ := hex
    refine Or.inl ⟨r, (hl r).2 hr, contains_base r, fun h => absurd rfl h, ?_⟩
    exact ⟨⟨Or.inr rfl, fun _ _ _ => rfl⟩, hl, rfl⟩
  · refine Or.inr ⟨hp, fun x => ?_⟩
    have hno : ∀ r ∈ own, r.ptr ≠ p := fun r hr he => hex ⟨r, hr, he⟩
    match (x : Option (Rec × Nat)) with
    | none => exact ⟨⟨Or.inl rfl, fun r hr he => absurd he (hno r hr)⟩, hl, rfl⟩
    | some y => exact ⟨⟨Or.inr rfl, fun r hr he => absurd he (hno r hr)⟩, hl, rfl⟩

theorem copy_call (ho : OwnOk c own) (hl : ∀ r, r ∈ lv ↔ r ∈ own) {d s n : Nat} (hp : Pre c tk own (.copy d s n)) :
    wp c tk tg (code c (.copy d s n)) lv [] sg (Done own (.copy d s n)) := by
  obtain ⟨rd, hd, rs, hs, cd, cs, hok⟩ := hp
  show wp c tk tg (copy d s n >>= fun _ => pure 0) lv [] sg _
  apply wp_bind
  refine copy_wp ((hl rd).2 hd) ((hl rs).2 hs) cd cs hok (fun h => ?_) fun h => ?_
  · refine ⟨fun rd' hd' rs' hs' cd' cs' => ?_, hl, rfl⟩
    rw [← ho.inj rd hd rd' hd' d cd cd', ← ho.inj rs hs rs' hs' s cs cs']
    exact ⟨fun h => (by cases h), fun _ => h⟩
  · refine ⟨fun rd' hd' rs' hs' cd' cs' => ?_, hl, rfl⟩
    rw [← ho.inj rd hd rd' hd' d cd cd', ← ho.inj rs hs rs' hs' s cs cs']
    exact ⟨fun _ => h, fun h => (by cases h)⟩

theorem memset_call (ho : OwnOk c own) (hl : ∀ r, r ∈ lv ↔ r ∈ own) {p n : Nat} {v : Int} (hp : Pre c tk own (.memset p v n)) :
    wp c tk tg (code c (.memset p v n)) lv [] sg (Done own (.memset p v n)) := by
  obtain ⟨r, hr, hc⟩ := hp
  show wp c tk tg (memset p v n >>= fun _ => pure 0) lv [] sg _
  apply wp_bind
  refine memset_wp ((hl r).2 hr) hc (fun h => ?_) fun h => ?_
  · refine ⟨fun r' hr' hc' => ?_, hl, rfl⟩
    rw [← ho.inj r hr r' hr' p hc hc']
    exact ⟨fun h => (by cases h), fun _ => h⟩
  · refine ⟨fun r' hr' hc' => ?_, hl, rfl⟩
    rw [← ho.inj r hr r' hr' p hc hc']
    exact ⟨fun _ => h, fun h => (by cases h)⟩

/-- A new allocation beside what is owned. -/
theorem OwnOk.cons (ho : OwnOk c own) {p n s : Nat} (h0 : p ≠ 0) (hs : s ≠ zero) (ht : c.tracked s = true)
    (hd : ∀ r ∈ own, Disj p (Mgr.cap n) r.ptr (blkOf r).size) : OwnOk c (⟨p, n, s⟩ :: own) := by
  have key : ∀ r ∈ own, ∀ q, Contains ⟨p, n, s⟩ q → Contains r q → False := by
    intro r hr q h1 h2
    have a1 := contains_blk h1
    have a2 := contains_blk h2
    rw [blkOf_eq] at a1
    rw [blkOf_ptr] at a2
    have := hd r hr
    unfold Disj at this
    dsimp only at a1
    omega
  constructor
  · intro r hr
    rcases List.mem_cons.1 hr with rfl | hr
    · exact ⟨h0, hs, ht⟩
    · exact ho.ok r hr
  · intro r hr r' hr' q h1 h2
    rcases List.mem_cons.1 hr with rfl | hr <;> rcases List.mem_cons.1 hr' with rfl | hr'
    · rfl
    · exact (key r' hr' q h1 h2).elim
    · exact (key r hr q h2 h1).elim
    · exact ho.inj r hr r' hr' q h1 h2

theorem OwnOk.drop (ho : OwnOk c own) (p : Nat) : OwnOk c (dropR p own) :=
  ⟨fun r hr => ho.ok r (mem_dropR.1 hr).1, fun r hr r' hr' => ho.inj r (mem_dropR.1 hr).1 r' (mem_dropR.1 hr').1⟩

theorem new_ne {n : Nat} {p : Nat} {r : Rec} (hd : Disj p (Mgr.cap n) r.ptr (blkOf r).size) : p ≠ r.ptr := by
  have := (blkOf_size r).2
  have := cap_pos n
  unfold Disj at hd
  omega

/-- Allocate, copy the common part, give up the old allocation. -/
theorem replace_wp (ho : OwnOk c own) (hl : ∀ r, r ∈ lv ↔ r ∈ own) {r : Rec} (hr : r ∈ own) {s n m : Nat} (hs : s ≠ zero) (ht : c.tracked s = true) (hk : Asked tk s n)
    (hm : upTo m r r.ptr ≤ r.size ∧ upTo m r r.ptr ≤ n) {free : CP Unit}
    (hfree : ∀ own' lv' sg' (Q : Post Unit), OwnOk c own' → (∀ x, x ∈ lv' ↔ x ∈ own') → r ∈ own' → Q (some ()) (dropR r.ptr lv') [] sg' →
      wp c tk r.ptr free lv' [] sg' Q)
    {Q : Post Nat} (h0 : Q none lv [] sg)
    (h1 : ∀ q lv' sg', q ≠ 0 → q ≠ r.ptr → (∀ x, x ∈ lv' ↔ x ∈ (⟨q, n, s⟩ : Rec) :: dropR r.ptr own) → Q (some q) lv' [] sg') :
    wp c tk r.ptr (do let q ← allocate c s n; copy q r.ptr m; free; return q) lv [] sg Q := by
  apply wp_bind
  refine allocate_wp hs ht hk h0 fun q sl hq0 hd => ?_
  have hd' : ∀ x ∈ own, Disj q (Mgr.cap n) x.ptr (blkOf x).size := fun x hx => hd x ((hl x).2 hx)
  have ho' := ho.cons (n := n) hq0 hs ht hd'
  have hl' : ∀ x, x ∈ (⟨q, n, s⟩ : Rec) :: lv ↔ x ∈ (⟨q, n, s⟩ : Rec) :: own := fun x => by rw [List.mem_cons, List.mem_cons, hl]
  have hne := new_ne (hd' r hr)
  show wp c tk r.ptr (copy q r.ptr m >>= fun _ => free >>= fun _ => pure q) _ _ _ _
  apply wp_bind
  refine copy_wp (rd := ⟨q, n, s⟩) (rs := r) List.mem_cons_self (List.mem_cons_of_mem _ ((hl r).2 hr)) (contains_base _) (contains_base r) ?_ ?_ ?_
  · intro _
    refine ⟨by have := hm.1; omega, Or.inr ?_⟩
    have := hd' r hr
    have h2 := (blkOf_size r).1
    have h3 := le_cap n
    have h4 := hm
    unfold Disj at this ⊢
    omega
  · intro h
    rcases h (by dsimp only; have := hm.2; omega) with h | h
    · exact absurd rfl h
    · exact absurd rfl h
  · intro _
    show wp c tk r.ptr (free >>= fun _ => pure q) _ _ _ _
    apply wp_bind
    refine hfree _ _ _ _ ho' hl' (List.mem_cons_of_mem _ hr) ?_
    refine h1 q _ _ hq0 hne fun x => ?_
    rw [same_drop hl' r.ptr x, mem_dropR, List.mem_cons, List.mem_cons, mem_dropR]
    constructor
    · rintro ⟨h | h, hx⟩
      · exact Or.inl h
      · exact Or.inr ⟨h, hx⟩
    · rintro (h | h)
      · subst h; exact ⟨Or.inl rfl, hne⟩
      · exact ⟨Or.inr h.1, h.2⟩

theorem move_call (ho : OwnOk c own) (hl : ∀ r, r ∈ lv ↔ r ∈ own) {p s : Nat} (hp : Pre c tk own (.move p s)) :
    wp c tk p (code c (.move p s)) lv [] sg (Done own (.move p s)) := by
  obtain ⟨hs, ht, r, hr, rfl, ha⟩ := hp
  have hk := ho.ok r hr
  show wp c tk r.ptr (find r.ptr >>= fun h => look h >>= _) lv [] sg _
  refine see_wp ((hl r).2 hr) (contains_base r) ?_ fun hne => absurd rfl hne
  apply wp_ite
  · intro he
    refine ⟨⟨fun h => ?_, fun _ _ _ _ => rfl⟩, fun x => ?_, rfl⟩
    · injection h with h; exact hk.1 h
    · show x ∈ lv ↔ x ∈ (match own.find? (fun y => decide (y.ptr = r.ptr)) with | some y => _ | none => _)
      rw [ho.find hr]
      dsimp only
      rw [if_pos he]; exact hl x
  · intro he
    apply wp_ite
    · intro h; exact absurd rfl h
    · intro _
      refine replace_wp ho hl hr hs ht (ha he) ⟨?_, ?_⟩ ?_ ?_ ?_
      · unfold upTo; rw [if_pos rfl]; omega
      · unfold upTo; rw [if_pos rfl]; omega
      · intro own' lv' sg' Q ho' hl' hr' h
        exact freeAny_wp ho' hl' hr' (contains_base r) (fun _ => h) fun hne => absurd rfl hne
      · refine ⟨⟨fun h => (by cases h), fun r' hr' h1 h2 => ?_⟩, hl, rfl⟩
        have := ho.base hr' hr h1
        subst this
        exact absurd h2 he
      · intro q lv' sg' h0 hne hl'
        refine ⟨⟨fun h => ?_, fun r' hr' h1 h2 => ?_⟩, fun x => ?_, rfl⟩
        · injection h with h; exact h0 h
        · have := ho.base hr' hr h1
          subst this
          exact absurd h2 he
        · show x ∈ lv' ↔ x ∈ (match own.find? (fun y => decide (y.ptr = r.ptr)) with | some y => _ | none => _)
          rw [ho.find hr]
          dsimp only
          rw [if_neg he]; exact hl' x

theorem after_realloc (ho : OwnOk c own) {r : Rec} (hr : r ∈ own) (h0 : r.ptr ≠ 0) (dflt n q : Nat) :
    after own (.realloc dflt r.ptr n) (some q) = ⟨q, n, r.tag⟩ :: dropR r.ptr own := by
  show (if r.ptr = 0 then _ else match own.find? (fun y => decide (y.ptr = r.ptr)) with | some y => _ | none => _) = _
  rw [if_neg h0, ho.find hr]

theorem realloc_call (ho : OwnOk c own) (hl : ∀ r, r ∈ lv ↔ r ∈ own) {dflt p n : Nat} (hp : Pre c tk own (.realloc dflt p n)) :
    wp c tk p (code c (.realloc dflt p n)) lv [] sg (Done own (.realloc dflt p n)) := by
  show wp c tk p (reallocate c dflt p n) lv [] sg _
  unfold reallocate
  rcases hp with ⟨rfl, hs, ht, ha⟩ | ⟨r, hr, rfl, hh, ha⟩
  · rw [if_pos rfl]
    unfold reallocImpl
    rw [if_pos rfl]
    refine allocate_wp hs ht ha ⟨fun h => (by cases h), fun x => ?_, rfl⟩ fun p sl h0 _ => ⟨?_, fun r => ?_, rfl⟩
    · show x ∈ lv ↔ x ∈ (if n = 0 then dropR 0 own else own)
      split
      · rw [mem_dropR, hl]
        exact ⟨fun h => ⟨h, (ho.ok x h).1⟩, fun h => h.1⟩
      · exact hl x
    · intro h; injection h with h; exact h0 h
    · show r ∈ _ :: lv ↔ r ∈ (⟨p, n, dflt⟩ : Rec) :: own
      rw [List.mem_cons, List.mem_cons, hl]
  · have hk := ho.ok r hr
    rw [if_neg hk.1]
    apply wp_bind
    refine getOwner_wp ((hl r).2 hr) (contains_base r) ?_ fun hne => absurd rfl hne
    show wp c tk r.ptr (reallocImpl c r.ptr n r.tag) lv [] sg _
    unfold reallocImpl
    rw [if_neg hk.1]
    apply wp_bind
    refine find_wp ((hl r).2 hr) (contains_base r) ?_ fun hne => absurd rfl hne
    show wp c tk r.ptr (look (r, sg r.ptr) >>= _) lv [] sg _
    apply wp_bind
    refine look_wp ((hl r).2 hr) ?_
    apply wp_ite
    · intro h; exact absurd rfl h
    intro _
    have hfail : ∀ sg', n ≠ 0 → Done own (.realloc dflt r.ptr n) none lv [] sg' := by
      intro sg' hn
      refine ⟨fun h => (by cases h), fun x => ?_, rfl⟩
      show x ∈ lv ↔ x ∈ (if n = 0 then dropR r.ptr own else own)
      rw [if_neg hn]; exact hl x
    have hdone : ∀ q lv' sg', q ≠ 0 → q ≠ r.ptr → (∀ x, x ∈ lv' ↔ x ∈ (⟨q, n, r.tag⟩ : Rec) :: dropR r.ptr own) →
        Done own (.realloc dflt r.ptr n) (some q) lv' [] sg' := by
      intro q lv' sg' h0 _ hl'
      refine ⟨fun h => ?_, fun x => ?_, rfl⟩
      · injection h with h; exact h0 h
      · rw [after_realloc ho hr hk.1]; exact hl' x
    have hfree : ∀ own' lv' sg' (Q : Post Unit), OwnOk c own' → (∀ x, x ∈ lv' ↔ x ∈ own') → r ∈ own' → Q (some ()) (dropR r.ptr lv') [] sg' →
        wp c tk r.ptr (deallocate c r.tag r.ptr) lv' [] sg' Q := fun own' lv' sg' Q ho' hl' hr' h =>
      dealloc_own ho' hl' hk.2.2 hr' (contains_base r) (fun _ _ => h) fun hn => absurd ⟨rfl, rfl⟩ hn
    have hm : upTo (if r.size > n then n else r.size) r r.ptr ≤ r.size ∧ (n ≠ 0 → upTo (if r.size > n then n else r.size) r r.ptr ≤ n) := by
      unfold upTo
      by_cases h1 : r.size > n
      · rw [if_pos h1]
        by_cases h2 : n = 0
        · rw [if_pos h2]; exact ⟨by omega, fun hn => absurd h2 hn⟩
        · rw [if_neg h2]; exact ⟨by omega, fun _ => Nat.le_refl _⟩
      · rw [if_neg h1]
        split <;> exact ⟨by omega, fun _ => by omega⟩
    apply wp_ite
    · intro hn
      apply wp_bind
      refine hfree own lv sg _ ho hl hr ?_
      show wp c tk r.ptr (allocate c r.tag n) _ _ _ _
      refine allocate_wp hk.2.1 hk.2.2 ha ⟨fun h => (by cases h), fun x => ?_, rfl⟩ fun p sl h0 _ => ⟨?_, fun x => ?_, rfl⟩
      · show x ∈ dropR r.ptr lv ↔ x ∈ (if n = 0 then dropR r.ptr own else own)
        rw [if_pos hn]; exact same_drop hl r.ptr x
      · intro h; injection h with h; exact h0 h
      · rw [after_realloc ho hr hk.1, List.mem_cons, List.mem_cons, same_drop hl r.ptr x]
    intro hn
    apply wp_ite
    · intro h; exact absurd rfl h
    intro _
    apply wp_ite
    · intro hhost
      have hz : r.size = 0 := (hh hhost).resolve_left hn
      unfold hostRealloc
      apply wp_bind
      refine look_wp ((hl r).2 hr) ?_
      show wp c tk r.ptr (if r.size = 0 then _ else _) _ _ _ _
      rw [if_pos hz]
      exact replace_wp ho hl hr hk.2.1 hk.2.2 ha ⟨hm.1, hm.2 hn⟩ hfree (hfail _ hn) hdone
    · intro _
      unfold genericRealloc
      apply wp_bind
      refine look_wp ((hl r).2 hr) ?_
      exact replace_wp ho hl hr hk.2.1 hk.2.2 ha ⟨hm.1, hm.2 hn⟩ hfree (hfail _ hn) hdone

/-- Every call that is allowed. -/
theorem call_wp (ho : OwnOk c own) (hl : ∀ r, r ∈ lv ↔ r ∈ own) {cl : Call} (hp : Pre c tk own cl) :
    wp c tk (target cl) (code c cl) lv [] sg (Done own cl) := by
  cases cl with
  | alloc s n => exact alloc_call hl hp
  | free s p => exact free_call ho hl hp
  | freeAny p => exact freeAny_call ho hl hp
  | size p => exact size_call ho hl hp
  | owner p => exact owner_call ho hl hp
  | has p => exact has_call hl hp
  | copy d s n => exact copy_call ho hl hp
  | memset p v n => exact memset_call ho hl hp
  | realloc d p n => exact realloc_call ho hl hp
  | move p s => exact move_call ho hl hp
end
end Umpire.Thr
