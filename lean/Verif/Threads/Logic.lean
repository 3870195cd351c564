import Verif.Threads.Spec
/-!
# Reasoning about one thread among others

`wp` describes what a thread does in terms of what belongs to it: `lv`, the registered
records it owns, `tr`, the blocks it has got from a strategy or taken out of the map, and
`sg`, the blocks in which the records are kept.
-/
set_option autoImplicit false
set_option linter.unusedSimpArgs false
namespace Umpire.Thr
open Umpire.Judy Umpire.Mgr

abbrev Post (β : Type) := Option β → List Rec → List Blk → (Nat → Nat) → Prop

/-- One action; `tg` is the only address whose record the thread may take out. -/
def Next (c : Cfg) (tk : Nat → Nat → Prop) (tg : Nat) (lv : List Rec) (tr : List Blk) (sg : Nat → Nat) : (a : Act) → (a.Ans → List Rec → List Blk → (Nat → Nat) → Prop) → Prop
  | .ask s n, K => (tk s n ∧ 1 ≤ n ∧ (s = zero → n = 1)) ∧ K none lv tr sg ∧
      ∀ p, p ≠ 0 → (∀ r ∈ lv, Disj p n r.ptr (blkOf r).size) → K (some p) lv (⟨s, p, n⟩ :: tr) sg
  | .hand s p n, K => ∃ b ∈ tr, b.own = s ∧ b.ptr = p ∧ n = some b.size ∧ K () lv (dropB p tr) sg
  | .regrow _ _ _, _ => False
  | .zeroQ p, K => ∃ b ∈ tr, b.ptr = p ∧ K (decide (b.own = zero)) lv tr sg
  | .cpy d s n, K => (n = 0 ∨ ((∃ r ∈ lv, Within d n r.ptr r.size) ∧ (∃ r ∈ lv, Within s n r.ptr r.size) ∧ Disj d n s n)) ∧ K () lv tr sg
  | .fill p _ n, K => (n = 0 ∨ ∃ r ∈ lv, Within p n r.ptr r.size) ∧ K () lv tr sg
  | .stat _ _, K => K () lv tr sg
  | .put p r, K => p = r.ptr ∧ r.tag ≠ zero ∧ c.tracked r.tag = true ∧ blkOf r ∈ tr ∧ ∀ sl, K () (r :: lv) (dropB p tr) (Mgr.upd sg p sl)
  | .pull p, K => p = tg ∧ ((∃ r ∈ lv, r.ptr = p ∧ K (some r) (dropR p lv) (blkOf r :: tr) sg) ∨ ((∃ r ∈ lv, Contains r p ∧ r.ptr ≠ p) ∧ K none lv tr sg))
  | .seek p, K => (∃ r ∈ lv, Contains r p ∧ (r.ptr ≠ p → K none lv tr sg) ∧ K (some (r, sg r.ptr)) lv tr sg) ∨
      (p < 2 ^ 64 ∧ (∀ x, K x lv tr sg))
  | .look h, K => h.1 ∈ lv ∧ h.2 = sg h.1.ptr ∧ K h.1 lv tr sg
  | .peek _, _ => False

def wp {β : Type} (c : Cfg) (tk : Nat → Nat → Prop) (tg : Nat) : CP β → List Rec → List Blk → (Nat → Nat) → Post β → Prop
  | .ret o, lv, tr, sg, Q => Q o lv tr sg
  | .act a k, lv, tr, sg, Q => Next c tk tg lv tr sg a fun x lv' tr' sg' => wp c tk tg (k x) lv' tr' sg' Q

def SameOn (lv : List Rec) (f g : Nat → Nat) : Prop := ∀ r ∈ lv, f r.ptr = g r.ptr

section
variable {c : Cfg} {tk : Nat → Nat → Prop} {tg : Nat} {lv : List Rec} {tr : List Blk} {sg sg' : Nat → Nat} {β γ : Type}

theorem Next.weaken {a : Act} {K K' : a.Ans → List Rec → List Blk → (Nat → Nat) → Prop} (h : Next c tk tg lv tr sg a K) (hs : SameOn lv sg sg')
    (hk : ∀ x lv' tr' f g, SameOn lv' f g → K x lv' tr' f → K' x lv' tr' g) : Next c tk tg lv tr sg' a K' := by
  cases a with
  | ask s n => exact ⟨h.1, hk _ _ _ _ _ hs h.2.1, fun p hp hd => hk _ _ _ _ _ hs (h.2.2 p hp hd)⟩
  | hand s p n =>
    obtain ⟨b, hb, h1, h2, h3, h4⟩ := h
    exact ⟨b, hb, h1, h2, h3, hk _ _ _ _ _ hs h4⟩
  | regrow s p n => exact h
  | zeroQ p =>
    obtain ⟨b, hb, h1, h2⟩ := h
    exact ⟨b, hb, h1, hk _ _ _ _ _ hs h2⟩
  | cpy d s n => exact ⟨h.1, hk _ _ _ _ _ hs h.2⟩
  | fill p v n => exact ⟨h.1, hk _ _ _ _ _ hs h.2⟩
  | stat s f => exact hk _ _ _ _ _ hs h
  | put p r =>
    refine ⟨h.1, h.2.1, h.2.2.1, h.2.2.2.1, fun sl => hk _ _ _ _ _ ?_ (h.2.2.2.2 sl)⟩
    intro x hx
    unfold Mgr.upd
    split
    · rfl
    · rename_i hne
      rcases List.mem_cons.1 hx with rfl | hx
      · exact absurd h.1.symm hne
      · exact hs x hx
  | pull p =>
    refine ⟨h.1, ?_⟩
    rcases h.2 with ⟨r, hr, h1, h2⟩ | ⟨h1, h2⟩
    · exact Or.inl ⟨r, hr, h1, hk _ _ _ _ _ (fun x hx => hs x (List.mem_filter.1 hx).1) h2⟩
    · exact Or.inr ⟨h1, hk _ _ _ _ _ hs h2⟩
  | seek p =>
    rcases h with ⟨r, hr, h1, h2, h3⟩ | ⟨h1, h2⟩
    · refine Or.inl ⟨r, hr, h1, fun hn => hk _ _ _ _ _ hs (h2 hn), ?_⟩
      rw [← hs r hr]
      exact hk _ _ _ _ _ hs h3
    · exact Or.inr ⟨h1, fun x => hk _ _ _ _ _ hs (h2 x)⟩
  | look h' => exact ⟨h.1, h.2.1.trans (hs _ h.1), hk _ _ _ _ _ hs h.2.2⟩
  | peek h' => exact h

theorem wp.weaken {m : CP β} : ∀ {lv : List Rec} {tr : List Blk} {sg sg' : Nat → Nat} {Q Q' : Post β}, wp c tk tg m lv tr sg Q → SameOn lv sg sg' →
    (∀ o lv' tr' f g, SameOn lv' f g → Q o lv' tr' f → Q' o lv' tr' g) → wp c tk tg m lv tr sg' Q' := by
  induction m with
  | ret o => intro lv tr sg sg' Q Q' h hs hq; exact hq _ _ _ _ _ hs h
  | act a k ih => intro lv tr sg sg' Q Q' h hs hq; exact Next.weaken h hs fun x lv' tr' f g hfg hK => ih x hK hfg hq

theorem wp.mono {m : CP β} : ∀ {lv : List Rec} {tr : List Blk} {sg : Nat → Nat} {Q Q' : Post β}, wp c tk tg m lv tr sg Q →
    (∀ o lv' tr' f, Q o lv' tr' f → Q' o lv' tr' f) → wp c tk tg m lv tr sg Q' := by
  induction m with
  | ret o => intro lv tr sg Q Q' h hq; exact hq _ _ _ _ h
  | act a k ih =>
    intro lv tr sg Q Q' h hq
    have key : ∀ x lv' tr' f, wp c tk tg (k x) lv' tr' f Q → wp c tk tg (k x) lv' tr' f Q' := fun x _ _ _ h => ih x h hq
    unfold wp at h ⊢
    cases a with
    | ask s n => exact ⟨h.1, key _ _ _ _ h.2.1, fun p hp hd => key _ _ _ _ (h.2.2 p hp hd)⟩
    | hand s p n =>
      obtain ⟨b, hb, h1, h2, h3, h4⟩ := h
      exact ⟨b, hb, h1, h2, h3, key _ _ _ _ h4⟩
    | regrow s p n => exact h
    | zeroQ p =>
      obtain ⟨b, hb, h1, h2⟩ := h
      exact ⟨b, hb, h1, key _ _ _ _ h2⟩
    | cpy d s n => exact ⟨h.1, key _ _ _ _ h.2⟩
    | fill p v n => exact ⟨h.1, key _ _ _ _ h.2⟩
    | stat s f => exact key _ _ _ _ h
    | put p r => exact ⟨h.1, h.2.1, h.2.2.1, h.2.2.2.1, fun sl => key _ _ _ _ (h.2.2.2.2 sl)⟩
    | pull p =>
      refine ⟨h.1, ?_⟩
      rcases h.2 with ⟨r, hr, h1, h2⟩ | ⟨h1, h2⟩
      · exact Or.inl ⟨r, hr, h1, key _ _ _ _ h2⟩
      · exact Or.inr ⟨h1, key _ _ _ _ h2⟩
    | seek p =>
      rcases h with ⟨r, hr, h1, h2, h3⟩ | ⟨h1, h2⟩
      · exact Or.inl ⟨r, hr, h1, fun hn => key _ _ _ _ (h2 hn), key _ _ _ _ h3⟩
      · exact Or.inr ⟨h1, fun x => key _ _ _ _ (h2 x)⟩
    | look h' => exact ⟨h.1, h.2.1, key _ _ _ _ h.2.2⟩
    | peek h' => exact h

/-- What comes after. -/
def Then (c : Cfg) (tk : Nat → Nat → Prop) (tg : Nat) (f : β → CP γ) (Q : Post γ) : Post β := fun o lv tr sg =>
  match o with
  | none => Q none lv tr sg
  | some b => wp c tk tg (f b) lv tr sg Q

theorem wp_bind_iff {m : CP β} {f : β → CP γ} : ∀ {lv : List Rec} {tr : List Blk} {sg : Nat → Nat} {Q : Post γ},
    wp c tk tg (m >>= f) lv tr sg Q = wp c tk tg m lv tr sg (Then c tk tg f Q) := by
  induction m with
  | ret o =>
    intro lv tr sg Q
    cases o <;> rfl
  | act a k ih =>
    intro lv tr sg Q
    show Next c tk tg lv tr sg a (fun x lv' tr' sg' => wp c tk tg ((k x).bind f) lv' tr' sg' Q) = Next c tk tg lv tr sg a _
    congr 1
    funext x lv' tr' sg'
    exact ih x

theorem wp_bind {m : CP β} {f : β → CP γ} {Q : Post γ} (h : wp c tk tg m lv tr sg (Then c tk tg f Q)) : wp c tk tg (m >>= f) lv tr sg Q := by
  rw [wp_bind_iff]; exact h

theorem wp_ite {q : Prop} [Decidable q] {m m' : CP β} {Q : Post β} (h1 : q → wp c tk tg m lv tr sg Q) (h2 : ¬q → wp c tk tg m' lv tr sg Q) :
    wp c tk tg (if q then m else m') lv tr sg Q := by
  split
  · rename_i h; exact h1 h
  · rename_i h; exact h2 h

theorem wp_pure {b : β} {Q : Post β} (h : Q (some b) lv tr sg) : wp c tk tg (pure b) lv tr sg Q := h
theorem wp_throw {Q : Post β} (h : Q none lv tr sg) : wp c tk tg (CP.throw : CP β) lv tr sg Q := h

theorem find_wp {p : Nat} {r : Rec} {Q : Post (Rec × Nat)} (hr : r ∈ lv) (hc : Contains r p) (h1 : Q (some (r, sg r.ptr)) lv tr sg)
    (h2 : r.ptr ≠ p → Q none lv tr sg) : wp c tk tg (find p) lv tr sg Q := Or.inl ⟨r, hr, hc, h2, h1⟩

theorem look_wp {r : Rec} {Q : Post Rec} (hr : r ∈ lv) (h1 : Q (some r) lv tr sg) : wp c tk tg (look (r, sg r.ptr)) lv tr sg Q := ⟨hr, rfl, h1⟩

/-- `find` and reading the record. -/
theorem see_wp {p : Nat} {r : Rec} {f : Rec → CP γ} {Q : Post γ} (hr : r ∈ lv) (hc : Contains r p) (h1 : wp c tk tg (f r) lv tr sg Q)
    (h2 : r.ptr ≠ p → Q none lv tr sg) : wp c tk tg (find p >>= fun h => look h >>= f) lv tr sg Q := by
  apply wp_bind
  refine find_wp hr hc ?_ h2
  show wp c tk tg (look (r, sg r.ptr) >>= f) lv tr sg Q
  apply wp_bind
  exact look_wp hr h1

theorem contains_base (r : Rec) : Contains r r.ptr := ⟨Nat.le_refl _, Or.inr rfl⟩

theorem dropB_self (b : Blk) : dropB b.ptr [b] = [] := by simp [dropB]

theorem allocate_wp {s n : Nat} {Q : Post Nat} (hs : s ≠ zero) (ht : c.tracked s = true) (hk : Asked tk s n) (h0 : Q none lv [] sg)
    (h1 : ∀ p sl, p ≠ 0 → (∀ r ∈ lv, Disj p (Mgr.cap n) r.ptr (blkOf r).size) → Q (some p) (⟨p, n, s⟩ :: lv) [] (Mgr.upd sg p sl)) :
    wp c tk tg (allocate c s n) lv [] sg Q := by
  unfold allocate
  apply wp_bind
  have key : ∀ p, p ≠ 0 → (∀ r ∈ lv, Disj p (Mgr.cap n) r.ptr (blkOf r).size) →
      wp c tk tg (if c.tracked s = true then inspReg p n s >>= fun _ => pure p else pure p) lv [blkOf ⟨p, n, s⟩] sg Q := by
    intro p hp hd
    rw [if_pos ht]
    apply wp_bind
    unfold inspReg
    apply wp_bind
    show wp c tk tg (register p ⟨p, n, s⟩) lv _ sg _
    unfold register
    rw [if_neg hp]
    refine ⟨rfl, hs, ht, List.mem_singleton.2 rfl, fun sl => ?_⟩
    have : dropB p [blkOf ⟨p, n, s⟩] = [] := by
      have := dropB_self (blkOf ⟨p, n, s⟩); rwa [blkOf_ptr] at this
    rw [this]
    exact h1 p sl hp hd
  by_cases hn : n = 0
  · have e : getBlock s n = .act (.ask zero 1) fun x => .ret x := by unfold getBlock; rw [if_pos hn]
    rw [e]
    unfold Asked at hk
    rw [if_pos hn] at hk
    refine ⟨⟨hk, Nat.le_refl _, fun _ => rfl⟩, h0, fun p hp hd => ?_⟩
    have := key p hp (by rw [Mgr.cap, if_pos hn]; exact hd)
    rw [blkOf_eq, if_pos hn, Mgr.cap, if_pos hn] at this
    exact this
  · have e : getBlock s n = .act (.ask s n) fun x => .ret x := by unfold getBlock; rw [if_neg hn]
    rw [e]
    unfold Asked at hk
    rw [if_neg hn] at hk
    refine ⟨⟨hk, by omega, fun h => absurd h hs⟩, h0, fun p hp hd => ?_⟩
    have := key p hp (by rw [Mgr.cap, if_neg hn]; exact hd)
    rw [blkOf_eq, if_neg hn, Mgr.cap, if_neg hn] at this
    exact this

theorem giveBack_wp {r : Rec} {s : Nat} {Q : Post Unit} (hz : r.tag ≠ zero) (he : r.tag = s) (h1 : Q (some ()) lv [] sg) :
    wp c tk tg (giveBack s r.ptr (some r.size)) lv [blkOf r] sg Q := by
  subst he
  unfold giveBack
  apply wp_bind
  refine ⟨blkOf r, List.mem_singleton.2 rfl, blkOf_ptr r, ?_⟩
  show wp c tk tg (if decide ((blkOf r).own = zero) = true then doHand zero r.ptr (some 1) else doHand r.tag r.ptr (some r.size)) _ _ _ _
  have hd : dropB r.ptr [blkOf r] = [] := by
    have := dropB_self (blkOf r); rwa [blkOf_ptr] at this
  by_cases h0 : r.size = 0
  · have e : blkOf r = ⟨zero, r.ptr, 1⟩ := by unfold blkOf; rw [if_pos h0]
    rw [if_pos (by rw [e]; rfl)]
    refine ⟨blkOf r, List.mem_singleton.2 rfl, by rw [e], blkOf_ptr r, by rw [e], ?_⟩
    rw [hd]; exact h1
  · have e : blkOf r = ⟨r.tag, r.ptr, r.size⟩ := by unfold blkOf; rw [if_neg h0]
    rw [if_neg (by rw [e]; simpa using hz)]
    refine ⟨blkOf r, List.mem_singleton.2 rfl, by rw [e], blkOf_ptr r, by rw [e], ?_⟩
    rw [hd]; exact h1

theorem deallocate_hit_wp {r : Rec} {Q : Post Unit} (ht : c.tracked r.tag = true) (hz : r.tag ≠ zero) (h0 : r.ptr ≠ 0) (hg : r.ptr = tg)
    (hr : r ∈ lv) (h1 : Q (some ()) (dropR r.ptr lv) [] sg) : wp c tk tg (deallocate c r.tag r.ptr) lv [] sg Q := by
  unfold deallocate
  rw [if_neg h0, if_pos ht]
  apply wp_bind
  unfold inspDereg
  apply wp_bind
  refine ⟨hg, Or.inl ⟨r, hr, rfl, ?_⟩⟩
  show wp c tk tg (if r.tag = r.tag then _ else _) _ _ _ _
  rw [if_pos rfl]
  exact giveBack_wp hz rfl h1

theorem deallocate_wrong_wp {r : Rec} {s : Nat} {Q : Post Unit} (ht : c.tracked s = true) (ht' : c.tracked r.tag = true) (hz : r.tag ≠ zero) (h0 : r.ptr ≠ 0)
    (hg : r.ptr = tg) (hr : r ∈ lv) (hne : r.tag ≠ s) (h1 : ∀ sl, Q none (r :: dropR r.ptr lv) [] (Mgr.upd sg r.ptr sl)) :
    wp c tk tg (deallocate c s r.ptr) lv [] sg Q := by
  unfold deallocate
  rw [if_neg h0, if_pos ht]
  apply wp_bind
  unfold inspDereg
  apply wp_bind
  refine ⟨hg, Or.inl ⟨r, hr, rfl, ?_⟩⟩
  show wp c tk tg (if r.tag = s then _ else _) _ _ _ _
  rw [if_neg hne]
  apply wp_bind
  unfold register
  rw [if_neg h0]
  refine ⟨rfl, hz, ht', List.mem_singleton.2 rfl, fun sl => ?_⟩
  have hd : dropB r.ptr [blkOf r] = [] := by
    have := dropB_self (blkOf r); rwa [blkOf_ptr] at this
  rw [hd]
  exact h1 sl

theorem deallocate_inside_wp {r : Rec} {s p : Nat} {Q : Post Unit} (ht : c.tracked s = true) (h0 : p ≠ 0) (hg : p = tg) (hr : r ∈ lv) (hc : Contains r p)
    (hne : r.ptr ≠ p) (h1 : Q none lv [] sg) : wp c tk tg (deallocate c s p) lv [] sg Q := by
  unfold deallocate
  rw [if_neg h0, if_pos ht]
  apply wp_bind
  unfold inspDereg
  apply wp_bind
  exact ⟨hg, Or.inr ⟨⟨r, hr, hc, hne⟩, h1⟩⟩

theorem copy_wp {d s n : Nat} {rd rs : Rec} {Q : Post Unit} (hd : rd ∈ lv) (hs : rs ∈ lv) (cd : Contains rd d) (cs : Contains rs s)
    (hok : upTo n rs s ≤ rd.size - (d - rd.ptr) → s + upTo n rs s ≤ rs.ptr + rs.size ∧ (upTo n rs s = 0 ∨ Disj d (upTo n rs s) s (upTo n rs s)))
    (h0 : (upTo n rs s ≤ rd.size - (d - rd.ptr) → rd.ptr ≠ d ∨ rs.ptr ≠ s) → Q none lv tr sg)
    (h1 : upTo n rs s ≤ rd.size - (d - rd.ptr) → Q (some ()) lv tr sg) : wp c tk tg (copy d s n) lv tr sg Q := by
  unfold copy
  apply wp_bind
  refine find_wp hs cs ?_ fun hne => h0 fun _ => Or.inr hne
  show wp c tk tg (find d >>= _) lv tr sg Q
  apply wp_bind
  refine find_wp hd cd ?_ fun hne => h0 fun _ => Or.inl hne
  show wp c tk tg (look (rs, sg rs.ptr) >>= _) lv tr sg Q
  apply wp_bind
  refine look_wp hs ?_
  show wp c tk tg (look (rd, sg rd.ptr) >>= _) lv tr sg Q
  apply wp_bind
  refine look_wp hd ?_
  show wp c tk tg (if upTo n rs s > rd.size - (d - rd.ptr) then CP.throw else doCpy d s (upTo n rs s)) lv tr sg Q
  apply wp_ite
  · intro hgt
    exact h0 fun hle => absurd hle (Nat.not_le.2 hgt)
  · intro hle
    have hle := Nat.not_lt.1 hle
    refine ⟨?_, h1 hle⟩
    have hk := hok hle
    rcases hk.2 with h | h
    · exact Or.inl h
    · by_cases hz : upTo n rs s = 0
      · exact Or.inl hz
      · refine Or.inr ⟨⟨rd, hd, cd.1, ?_⟩, ⟨rs, hs, cs.1, hk.1⟩, h⟩
        have := cd.1
        have := cd.2
        omega

theorem memset_wp {p n : Nat} {v : Int} {r : Rec} {Q : Post Unit} (hr : r ∈ lv) (hc : Contains r p)
    (h0 : (upTo n r p ≤ r.size - (p - r.ptr) → r.ptr ≠ p) → Q none lv tr sg)
    (h1 : upTo n r p ≤ r.size - (p - r.ptr) → Q (some ()) lv tr sg) : wp c tk tg (memset p v n) lv tr sg Q := by
  unfold memset
  refine see_wp hr hc ?_ fun hne => h0 fun _ => hne
  show wp c tk tg (if upTo n r p > r.size - (p - r.ptr) then CP.throw else doFill p (byteOf v) (upTo n r p)) lv tr sg Q
  apply wp_ite
  · intro hgt
    exact h0 fun hle => absurd hle (Nat.not_le.2 hgt)
  · intro hle
    have hle := Nat.not_lt.1 hle
    refine ⟨?_, h1 hle⟩
    by_cases hz : upTo n r p = 0
    · exact Or.inl hz
    · refine Or.inr ⟨r, hr, hc.1, ?_⟩
      have := hc.1
      have := hc.2
      omega
end
end Umpire.Thr
