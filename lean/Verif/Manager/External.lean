import Verif.Manager.Props
/-!
# Memory of the user that is registered with Umpire

`umpire::register_external_allocation` enters a record for memory that no strategy gave
out, `deregister_external_allocation` takes it out again (src/umpire/Umpire.cpp:263-288).

Such memory is a block held with an owner `u` of its own that is no strategy: it never
answers requests (`¬Pl u p`), and handing the block back to any strategy is undefined
behaviour.  The proofs compare with a world in which the block belongs to the strategy
named in its record (`asif`).
-/
set_option autoImplicit false
set_option linter.unusedSimpArgs false
namespace Umpire.Mgr
open Umpire.Judy

/-- `register_external_allocation` (src/umpire/Umpire.cpp:263-276) with a record whose
`ptr` is the pointer given; the event is left out. -/
def registerExternal (p : Nat) (r : Rec) : M Unit := register p r

/-- `deregister_external_allocation` (src/umpire/Umpire.cpp:278-288). -/
def deregisterExternal (p : Nat) : M Rec := deregister p

/-! ## Single calls -/

/-- One call of `Hist`, with its outcome. -/
inductive Step (Pl : Nat → Nat → Prop) (c : Cfg) (g : Ghost) (rm : RM) (w : World) : Ev → RM → World → Prop where
  | alloc {s n o rm' w'} : s ≠ zero → MP.Run Pl (allocate c s n rm) w (o, rm') w' → Step Pl c g rm w (.alloc s n o) rm' w'
  | free {s p} {o : Option Unit} {rm' w'} : s ≠ zero → p < 2 ^ 64 →
      (c.tracked s = true ∨ p = 0 ∨ ∃ b ∈ g.un, b.ptr = p ∧ (b.own = zero ∨ b.own = s)) →
      MP.Run Pl (deallocate c s p rm) w (o, rm') w' → Step Pl c g rm w (.free s p o.isSome) rm' w'
  | freeAny {p} {o : Option Unit} {rm' w'} : p < 2 ^ 64 → MP.Run Pl (deallocateAny c p rm) w (o, rm') w' → Step Pl c g rm w (.freeAny p o.isSome) rm' w'
  | realloc {s p n o rm' w'} : s ≠ zero → p < 2 ^ 64 → MP.Run Pl (reallocImpl c p n s rm) w (o, rm') w' → Step Pl c g rm w (.realloc s p n o) rm' w'
  | reallocAny {d p n o rm' w'} : d ≠ zero → p < 2 ^ 64 → MP.Run Pl (reallocate c d p n rm) w (o, rm') w' → Step Pl c g rm w (.reallocAny d p n o) rm' w'
  | move {p s o rm' w'} : s ≠ zero → c.tracked s = true → p < 2 ^ 64 → MP.Run Pl (Mgr.move c p s rm) w (o, rm') w' → Step Pl c g rm w (.move p s o) rm' w'
  | copy {d s n} {o : Option Unit} {rm' w'} : d < 2 ^ 64 → s < 2 ^ 64 → MP.Run Pl (Mgr.copy d s n rm) w (o, rm') w' → Step Pl c g rm w (.copy d s n o.isSome) rm' w'
  | memset {p v n} {o : Option Unit} {rm' w'} : p < 2 ^ 64 → MP.Run Pl (Mgr.memset p v n rm) w (o, rm') w' → Step Pl c g rm w (.memset p v n o.isSome) rm' w'
  | query {p o rm' w'} : p < 2 ^ 64 → MP.Run Pl (find p rm) w (o, rm') w' → Step Pl c g rm w (.query p) rm' w'
  | kid {s n ok o rm' w'} : (g.acct.kids s).sum + n < AMax → MP.Run Pl (childAllocate s n rm) w (o, rm') w' → Step Pl c g rm w (.kid s n ok) rm' w'
  | kidFree {s n m o rm' w'} : n ∈ g.acct.kids s → MP.Run Pl (childDeallocate s m rm) w (o, rm') w' → Step Pl c g rm w (.kidFree s n m) rm' w'

/-- `Hist` is made of such calls. -/
theorem Hist.step {Pl : Nat → Nat → Prop} {c : Cfg} {t : List Ev} {rm rm' : RM} {w w' : World} {e : Ev} (h : Hist Pl c t rm w)
    (hs : Step Pl c (ghost c t) rm w e rm' w') : Hist Pl c (e :: t) rm' w' := by
  cases hs with
  | alloc h1 hr => exact h.alloc h1 hr
  | free h1 h2 h3 hr => exact h.free h1 h2 h3 hr
  | freeAny h1 hr => exact h.freeAny h1 hr
  | realloc h1 h2 hr => exact h.realloc h1 h2 hr
  | reallocAny h1 h2 hr => exact h.reallocAny h1 h2 hr
  | move h1 h2 h3 hr => exact h.move h1 h2 h3 hr
  | copy h1 h2 hr => exact h.copy h1 h2 hr
  | memset h1 hr => exact h.memset h1 hr
  | query h1 hr => exact h.query h1 hr
  | kid h1 hr => exact h.kid h1 hr
  | kidFree h1 hr => exact h.kidFree h1 hr

section
variable {Pl : Nat → Nat → Prop} {B : Nat → Prop} {c : Cfg} {rm : RM} {w : World} {g : Ghost}

theorem deallocate_ok {s p : Nat} (ih : Ok Pl B c rm w g) (hp : p < 2 ^ 64)
    (hg : c.tracked s = true ∨ p = 0 ∨ ∃ b ∈ g.un, b.ptr = p ∧ (b.own = zero ∨ b.own = s)) :
    wpM Pl (deallocate c s p) rm w fun o rm' w' => Ok Pl B c rm' w' (g.step c (.free s p o.isSome)) := by
  by_cases h0 : p = 0
  · subst h0
    exact deallocate_null ih
  · by_cases ht : c.tracked s = true
    · by_cases hit : ∃ r ∈ g.live, r.ptr = p ∧ r.tag = s
      · obtain ⟨r, hr', rfl, rfl⟩ := hit
        apply deallocate_hit ih hr'
        intro m rm' _ h _
        show Ok Pl B c _ _ (if r.ptr = 0 then _ else if _ then _ else _)
        rw [if_neg h0, if_pos ht]
        exact h
      · exact deallocate_miss ih ht h0 hp (fun r hr' he => hit ⟨r, hr', he⟩) fun rm' h _ => h
    · obtain ⟨b, hb, rfl, hob⟩ := (hg.resolve_left ht).resolve_left h0
      have nd : (g.un.map (·.ptr)).Nodup := by
        have := ih.mem.allNodup
        rw [List.map_append] at this
        exact (List.nodup_append.1 this).2.1
      apply deallocate_untracked ih (by simpa using ht) (dropB_cons nd hb).symm hob
      intro m _ h
      show Ok Pl B c _ _ (if b.ptr = 0 then _ else if _ then _ else _)
      rw [if_neg h0, if_neg ht]
      exact h

/-- What a call leaves behind, in terms of its outcome. -/
theorem step_ok {e : Ev} {rm' : RM} {w' : World} (ha : Aligned Pl B) (ih : Ok Pl B c rm w g) (hs : Step Pl c g rm w e rm' w') :
    Ok Pl B c rm' w' (g.step c e) := by
  cases hs with
  | @alloc s n o _ _ hs hr =>
    refine wpM_run (Q := fun o rm' w' => Ok Pl B c rm' w' (g.step c (.alloc s n o))) (allocate_spec ih ha hs ?_ ?_) hr
    · intro p m rm' _ _ _ h _; exact h
    · intro m _ h; exact h
  | free hs hp hg hr => exact wpM_run (deallocate_ok ih hp hg) hr
  | @freeAny p o _ _ hp hr =>
    refine wpM_run (Q := fun o rm' w' => Ok Pl B c rm' w' (g.step c (.freeAny p o.isSome))) ?_ hr
    refine wpM_mono (deallocateAny_ok ih hp) ?_
    intro o rm' w' h
    cases o with
    | none => exact h
    | some _ => exact h
  | realloc hs hp hr => exact wpM_run (reallocImpl_ok ih ha hs hp) hr
  | reallocAny hs hp hr => exact wpM_run (reallocate_ok ih ha hs hp) hr
  | move hs ht hp hr => exact wpM_run (move_ok ih ha hs ht hp) hr
  | copy _ _ hr => exact copy_run ih hr
  | @memset p v n o _ _ hp hr =>
    refine wpM_run (Q := fun _ rm' w' => Ok Pl B c rm' w' g) (memset_spec ih hp ?_ ?_) hr
    · intro r rm' _ _ h _
      exact ⟨fun _ => h.memw _, fun _ => h⟩
    · intro rm' _ _ h _; exact h
  | @query p o _ _ hp hr =>
    refine wpM_run (Q := fun _ rm' w' => Ok Pl B c rm' w' g) (find_spec ih hp ?_ ?_) hr
    · intro r rm' _ _ h _; exact h
    · intro rm' _ _ h _; exact h
  | @kid s n ok o _ _ hb hr =>
    cases hr
    cases ok with
    | true =>
      refine ⟨ih.mem, ih.stat.kid s n, fun x => ?_⟩
      show ((upd g.acct.kids s (n :: g.acct.kids s)) x).sum < AMax
      by_cases hx : x = s
      · subst hx; rw [upd_same, List.sum_cons]; omega
      · rw [upd_ne hx]; exact ih.kids x
    | false => exact ⟨ih.mem, ih.stat.kidFail s n, ih.kids⟩
  | @kidFree s n m o _ _ hn hr =>
    cases hr
    refine ⟨ih.mem, ih.stat.kidFree hn (ih.bound s), fun x => ?_⟩
    show ((upd g.acct.kids s (g.acct.kids s |>.erase n)) x).sum < AMax
    by_cases hx : x = s
    · subst hx
      rw [upd_same]
      have := sum_erase hn
      have := ih.kids x
      omega
    · rw [upd_ne hx]; exact ih.kids x
end

/-! ## Two programs that do the same -/

/-- `p` and `p'` make the same requests; blocks requested are not empty; what is handed back
satisfies `D`; the results are related by `R`. -/
inductive Sim {α β : Type} (D : Nat → Prop) (R : α → β → Prop) : MP α → MP β → Prop where
  | ret {a b} : R a b → Sim D R (.ret a) (.ret b)
  | fail : Sim D R .fail .fail
  | alloc {s n k k'} : 1 ≤ n → (∀ r, Sim D R (k r) (k' r)) → Sim D R (.alloc s n k) (.alloc s n k')
  | dealloc {s p n k k'} : D p → Sim D R k k' → Sim D R (.dealloc s p n k) (.dealloc s p n k')
  | realloc {s p n k k'} : D p → 1 ≤ n → (∀ r, Sim D R (k r) (k' r)) → Sim D R (.realloc s p n k) (.realloc s p n k')
  | fromZero {p k k'} : (∀ b, Sim D R (k b) (k' b)) → Sim D R (.fromZero p k) (.fromZero p k')
  | memcpy {d s n k k'} : Sim D R k k' → Sim D R (.memcpy d s n k) (.memcpy d s n k')
  | memset {p v n k k'} : Sim D R k k' → Sim D R (.memset p v n k) (.memset p v n k')

theorem Sim.bind {α β γ δ : Type} {D : Nat → Prop} {R : α → β → Prop} {S : γ → δ → Prop} {p : MP α} {p' : MP β} {f : α → MP γ} {f' : β → MP δ}
    (h : Sim D R p p') (hf : ∀ a b, R a b → Sim D S (f a) (f' b)) : Sim D S (p.bind f) (p'.bind f') := by
  induction h with
  | ret hr => exact hf _ _ hr
  | fail => exact .fail
  | alloc hn _ ih => exact .alloc hn ih
  | dealloc hd _ ih => exact .dealloc hd ih
  | realloc hd hn _ ih => exact .realloc hd hn ih
  | fromZero _ ih => exact .fromZero ih
  | memcpy _ ih => exact .memcpy ih
  | memset _ ih => exact .memset ih

/-- The current sizes differ by `x`. -/
def Rel (x : Nat → Int) (st st' : Nat → Stat) : Prop :=
  ∀ s, (st s).cur < 18446744073709551616 ∧ ((st' s).cur : Int) = ((st s).cur + x s) % 18446744073709551616

/-- The same outcome, the same allocation map, and related statistics. -/
def Rel2 {β : Type} (x : Nat → Int) (a b : Option β × RM) : Prop := a.1 = b.1 ∧ a.2.amap = b.2.amap ∧ Rel x a.2.st b.2.st

/-- What `m` does is independent of the statistics. -/
def Indep {β : Type} (D : Nat → Prop) (x : Nat → Int) (m : M β) : Prop :=
  ∀ rm rm' : RM, rm.amap = rm'.amap → Rel x rm.st rm'.st → Sim D (Rel2 x) (m rm) (m rm')

section
variable {D : Nat → Prop} {x : Nat → Int} {β γ : Type}

theorem indep_pure (b : β) : Indep D x (pure b : M β) := fun _ _ h1 h2 => .ret ⟨rfl, h1, h2⟩
theorem indep_throw : Indep D x (M.throw : M β) := fun _ _ h1 h2 => .ret ⟨rfl, h1, h2⟩

theorem indep_bind {m : M β} {f : β → M γ} (hm : Indep D x m) (hf : ∀ b, Indep D x (f b)) : Indep D x (m >>= f) := by
  intro rm rm' h1 h2
  refine (hm rm rm' h1 h2).bind ?_
  rintro ⟨o, r⟩ ⟨o', r'⟩ ⟨e1, e2, e3⟩
  dsimp only at e1 e2 e3 ⊢
  subst e1
  cases o with
  | none => exact .ret ⟨rfl, e2, e3⟩
  | some b => exact hf b r r' e2 e3

theorem indep_alloc {s n : Nat} (hn : 1 ≤ n) : Indep D x (stratAlloc s n) := fun _ _ h1 h2 => .alloc hn fun _ => .ret ⟨rfl, h1, h2⟩
theorem indep_dealloc {s p : Nat} {n : Option Nat} (hd : D p) : Indep D x (stratDealloc s p n) := fun _ _ h1 h2 => .dealloc hd (.ret ⟨rfl, h1, h2⟩)
theorem indep_fromZero (p : Nat) : Indep D x (isFromZero p) := fun _ _ h1 h2 => .fromZero fun _ => .ret ⟨rfl, h1, h2⟩
theorem indep_realloc {s p n : Nat} (hd : D p) (hn : 1 ≤ n) : Indep D x (cRealloc s p n) := fun _ _ h1 h2 => .realloc hd hn fun _ => .ret ⟨rfl, h1, h2⟩
theorem indep_memcpy (d s n : Nat) : Indep D x (cMemcpy d s n) := fun _ _ h1 h2 => .memcpy (.ret ⟨rfl, h1, h2⟩)
theorem indep_memset (p v n : Nat) : Indep D x (cMemset p v n) := fun _ _ h1 h2 => .memset (.ret ⟨rfl, h1, h2⟩)

theorem w64_lt' (n : Nat) : w64 n < 18446744073709551616 := Nat.mod_lt _ (by decide)

theorem rel_add {st st' : Nat → Stat} {s n : Nat} (h : Rel x st st') : Rel x (bump st s (·.add n)) (bump st' s (·.add n)) := by
  intro t
  by_cases hs : t = s
  · subst hs
    rw [bump_same, bump_same]
    have h1 := add_cur (st t) n
    have h2 := add_cur (st' t) n
    have h3 := (h t).2
    exact ⟨w64_lt' _, by omega⟩
  · rw [bump_ne hs, bump_ne hs]; exact h t

theorem rel_sub {st st' : Nat → Stat} {s n : Nat} (h : Rel x st st') : Rel x (bump st s (·.sub n)) (bump st' s (·.sub n)) := by
  intro t
  by_cases hs : t = s
  · subst hs
    rw [bump_same, bump_same]
    have h1 := sub_cur (st t) n
    have h2 := sub_cur (st' t) n
    have h3 := (h t).2
    exact ⟨w64_lt' _, by omega⟩
  · rw [bump_ne hs, bump_ne hs]; exact h t

theorem indep_add (s n : Nat) : Indep D x (setStat s (·.add n)) := fun _ _ h1 h2 => .ret ⟨rfl, h1, rel_add h2⟩
theorem indep_sub (s n : Nat) : Indep D x (setStat s (·.sub n)) := fun _ _ h1 h2 => .ret ⟨rfl, h1, rel_sub h2⟩

theorem indep_register (p : Nat) (r : Rec) : Indep D x (register p r) := by
  intro rm rm' h1 h2
  unfold register
  by_cases h0 : p = 0
  · rw [if_pos h0, if_pos h0]; exact .ret ⟨rfl, h1, h2⟩
  · rw [if_neg h0, if_neg h0]; exact .ret ⟨rfl, by show rm.amap.insert p r = rm'.amap.insert p r; rw [h1], h2⟩

theorem indep_deregister (p : Nat) : Indep D x (deregister p) := by
  intro rm rm' h1 h2
  unfold deregister
  rw [← h1]
  cases rm.amap.remove p with
  | ok a r => exact .ret ⟨rfl, rfl, h2⟩
  | throws a => exact .ret ⟨rfl, rfl, h2⟩
  | ub => exact .fail

theorem indep_find (p : Nat) : Indep D x (find p) := by
  intro rm rm' h1 h2
  unfold find
  rw [← h1]
  exact .ret ⟨rfl, rfl, h2⟩

theorem indep_inspReg (p n s : Nat) : Indep D x (inspReg p n s) := indep_bind (indep_add s n) fun _ => indep_register _ _

theorem indep_inspDereg (p s : Nat) : Indep D x (inspDereg p s) := by
  refine indep_bind (indep_deregister p) fun r => ?_
  split
  · exact indep_bind (indep_sub _ _) fun _ => indep_pure _
  · exact indep_bind (indep_register _ _) fun _ => indep_throw

theorem indep_allocate (c : Cfg) (s n : Nat) : Indep D x (allocate c s n) := by
  refine indep_bind ?_ fun p => ?_
  · unfold getBlock
    split
    · exact indep_alloc (Nat.le_refl 1)
    · exact indep_alloc (by omega)
  · split
    · exact indep_bind (indep_inspReg _ _ _) fun _ => indep_pure _
    · exact indep_pure _

theorem indep_giveBack {s p : Nat} {n : Option Nat} (hd : D p) : Indep D x (giveBack s p n) := by
  refine indep_bind (indep_fromZero p) fun b => ?_
  split
  · exact indep_dealloc hd
  · exact indep_dealloc hd

theorem indep_deallocate {c : Cfg} {s p : Nat} (hd : D p) : Indep D x (deallocate c s p) := by
  unfold deallocate
  split
  · exact indep_pure _
  · split
    · exact indep_bind (indep_inspDereg p s) fun r => indep_giveBack hd
    · exact indep_giveBack hd

theorem indep_deallocateAny {c : Cfg} {p : Nat} (hd : D p) : Indep D x (deallocateAny c p) :=
  indep_bind (indep_bind (indep_find p) fun _ => indep_pure _) fun _ => indep_deallocate hd

theorem indep_copy (d s n : Nat) : Indep D x (copy d s n) := by
  refine indep_bind (indep_find _) fun rs => indep_bind (indep_find _) fun rd => ?_
  dsimp only
  generalize (if n = 0 then rs.size - (s - rs.ptr) else n) = len
  split
  · exact indep_throw
  · exact indep_memcpy _ _ _

theorem indep_memset' (p : Nat) (v : Int) (n : Nat) : Indep D x (memset p v n) := by
  refine indep_bind (indep_find _) fun r => ?_
  dsimp only
  generalize (if n = 0 then r.size - (p - r.ptr) else n) = len
  split
  · exact indep_throw
  · exact indep_memset _ _ _

theorem indep_hostRealloc {c : Cfg} {p n : Nat} {r : Rec} (hd : D p) (hn : n ≠ 0) : Indep D x (hostRealloc c p r n) := by
  unfold hostRealloc
  split
  · exact indep_bind (indep_allocate _ _ _) fun q => indep_bind (indep_copy _ _ _) fun _ => indep_bind (indep_deallocate hd) fun _ => indep_pure _
  · refine indep_bind (indep_deregister _) fun _ => indep_bind (indep_realloc hd (by omega)) fun o => ?_
    cases o with
    | none => exact indep_throw
    | some q => exact indep_bind (indep_register _ _) fun _ => indep_pure _

theorem indep_genericRealloc {c : Cfg} {p n : Nat} {r : Rec} (hd : D p) : Indep D x (genericRealloc c p r n) :=
  indep_bind (indep_allocate _ _ _) fun _ => indep_bind (indep_copy _ _ _) fun _ => indep_bind (indep_deallocate hd) fun _ => indep_pure _

theorem indep_reallocImpl {c : Cfg} {p n s : Nat} (hd : D p) : Indep D x (reallocImpl c p n s) := by
  unfold reallocImpl
  split
  · exact indep_allocate _ _ _
  · refine indep_bind (indep_find _) fun r => ?_
    split
    · exact indep_throw
    · split
      · exact indep_bind (indep_deallocate hd) fun _ => indep_allocate _ _ _
      · split
        · exact indep_throw
        · split
          · exact indep_hostRealloc hd ‹_›
          · exact indep_genericRealloc hd

theorem indep_reallocate {c : Cfg} {d p n : Nat} (hd : D p) : Indep D x (reallocate c d p n) := by
  unfold reallocate
  split
  · exact indep_reallocImpl hd
  · exact indep_bind (indep_find _) fun r => indep_reallocImpl hd

theorem indep_move {c : Cfg} {p s : Nat} (hd : D p) : Indep D x (move c p s) := by
  refine indep_bind (indep_find _) fun r => ?_
  split
  · exact indep_pure _
  · split
    · exact indep_throw
    · exact indep_bind (indep_allocate _ _ _) fun _ => indep_bind (indep_copy _ _ _) fun _ => indep_bind (indep_deallocateAny hd) fun _ => indep_pure _
end

/-! ## The world in which the strategies own the user's memory -/

/-- The strategy named in the record at `p`. -/
def tagAt (u : Nat) (E : List Rec) (p : Nat) : Nat := match at? E p with
  | some r => r.tag
  | none => u

def reown (u : Nat) (E : List Rec) (b : Blk) : Blk := if b.own = u then ⟨tagAt u E b.ptr, b.ptr, b.size⟩ else b

def asif (u : Nat) (E : List Rec) (w : World) : World := ⟨w.held.map (reown u E), w.mem⟩

/-- The records `E` name strategies other than the zero-byte pool and `u`. -/
def Named (u : Nat) (E : List Rec) : Prop := u ≠ zero ∧ ∀ r ∈ E, r.tag ≠ zero ∧ r.tag ≠ u

/-- Blocks held are disjoint and not empty, and `E` has a record for each block of `u`. -/
structure WOk (u : Nat) (E : List Rec) (w : World) : Prop where
  disj : w.held.Pairwise BDisj
  size : ∀ b ∈ w.held, 1 ≤ b.size
  users : ∀ b ∈ w.held, b.own = u → ∃ r ∈ E, r.ptr = b.ptr

section
variable {u : Nat} {E : List Rec}

theorem reown_ptr (b : Blk) : (reown u E b).ptr = b.ptr := by unfold reown; split <;> rfl
theorem reown_size (b : Blk) : (reown u E b).size = b.size := by unfold reown; split <;> rfl
theorem reown_other {b : Blk} (h : b.own ≠ u) : reown u E b = b := by unfold reown; rw [if_neg h]

theorem at_mem {L : List Rec} {p : Nat} {r : Rec} (h : at? L p = some r) : r ∈ L ∧ r.ptr = p := by
  unfold at? at h
  exact ⟨List.mem_of_find?_eq_some h, by simpa using List.find?_some h⟩

theorem at_isSome {L : List Rec} {r : Rec} (h : r ∈ L) : ∃ r', at? L r.ptr = some r' := by
  cases hf : at? L r.ptr with
  | some r' => exact ⟨r', rfl⟩
  | none =>
    unfold at? at hf
    rw [List.find?_eq_none] at hf
    exact absurd (hf r h) (by simp)

theorem reown_zero (hn : Named u E) (b : Blk) : (reown u E b).own = zero ↔ b.own = zero := by
  unfold reown
  split
  · rename_i he
    rw [he]
    show tagAt u E b.ptr = zero ↔ _
    unfold tagAt
    cases hf : at? E b.ptr with
    | none => exact Iff.rfl
    | some r => exact ⟨fun h => absurd h (hn.2 r (at_mem hf).1).1, fun h => absurd h hn.1⟩
  · exact Iff.rfl

/-- No block belongs to `u` there. -/
theorem reown_ne (hn : Named u E) {b : Blk} (hb : b.own = u → ∃ r ∈ E, r.ptr = b.ptr) : (reown u E b).own ≠ u := by
  unfold reown
  split
  · rename_i he
    obtain ⟨r, hr, hp⟩ := hb he
    obtain ⟨r', hr'⟩ := at_isSome hr
    show tagAt u E b.ptr ≠ u
    unfold tagAt
    rw [← hp, hr']
    exact (hn.2 r' (at_mem hr').1).2
  · assumption

theorem ranges_reown (H : List Blk) : ranges (H.map (reown u E)) = ranges H := by
  unfold ranges
  rw [List.map_map]
  apply List.map_congr_left
  intro b _
  show ((reown u E b).ptr, (reown u E b).size) = _
  rw [reown_ptr, reown_size]

theorem dropB_reown (p : Nat) (H : List Blk) : dropB p (H.map (reown u E)) = (dropB p H).map (reown u E) := by
  unfold dropB
  rw [List.filter_map]
  congr 1
  apply List.filter_congr
  intro b _
  show decide ((reown u E b).ptr ≠ p) = _
  rw [reown_ptr]

theorem agree_reown {H : List Blk} {m m' : Nat → Nat} : Agree (H.map (reown u E)) m m' ↔ Agree H m m' := by
  constructor
  · intro h b hb q h1 h2
    exact h _ (List.mem_map_of_mem hb) q (by rw [reown_ptr]; exact h1) (by rw [reown_ptr, reown_size]; exact h2)
  · intro h b hb q h1 h2
    obtain ⟨x, hx, rfl⟩ := List.mem_map.1 hb
    rw [reown_ptr] at h1
    rw [reown_ptr, reown_size] at h2
    exact h x hx q h1 h2

theorem moved_reown {H : List Blk} {p q n : Nat} {m m' : Nat → Nat} : MP.Moved (H.map (reown u E)) p q n m m' ↔ MP.Moved H p q n m m' := by
  constructor
  · intro h b hb h1 i hi hs
    exact h _ (List.mem_map_of_mem hb) (by rw [reown_ptr]; exact h1) i hi (by rw [reown_size]; exact hs)
  · intro h b hb h1 i hi hs
    obtain ⟨x, hx, rfl⟩ := List.mem_map.1 hb
    rw [reown_ptr] at h1
    rw [reown_size] at hs
    exact h x hx h1 i hi hs

theorem inZero_reown (hn : Named u E) {H : List Blk} {p : Nat} : InZero (H.map (reown u E)) p ↔ InZero H p := by
  constructor
  · rintro ⟨b, hb, h1, h2⟩
    obtain ⟨x, hx, rfl⟩ := List.mem_map.1 hb
    rw [reown_ptr, reown_size] at h2
    exact ⟨x, hx, (reown_zero hn x).1 h1, h2⟩
  · rintro ⟨x, hx, h1, h2⟩
    exact ⟨_, List.mem_map_of_mem hx, (reown_zero hn x).2 h1, by rw [reown_ptr, reown_size]; exact h2⟩

theorem inOther_reown (hn : Named u E) {H : List Blk} {p : Nat} : InOther (H.map (reown u E)) p ↔ InOther H p := by
  constructor
  · rintro ⟨b, hb, h1, h2⟩
    obtain ⟨x, hx, rfl⟩ := List.mem_map.1 hb
    rw [reown_ptr, reown_size] at h2
    exact ⟨x, hx, fun h => h1 ((reown_zero hn x).2 h), h2⟩
  · rintro ⟨x, hx, h1, h2⟩
    exact ⟨_, List.mem_map_of_mem hx, fun h => h1 ((reown_zero hn x).1 h), by rw [reown_ptr, reown_size]; exact h2⟩

theorem usable_reown (hn : Named u E) {H : List Blk} {p n : Nat} : Usable (H.map (reown u E)) p n ↔ Usable H p n := by
  unfold Usable
  refine or_congr Iff.rfl ⟨?_, ?_⟩
  · rintro ⟨b, hb, h1, h2⟩
    obtain ⟨x, hx, rfl⟩ := List.mem_map.1 hb
    rw [reown_ptr, reown_size] at h2
    exact ⟨x, hx, fun h => h1 ((reown_zero hn x).2 h), h2⟩
  · rintro ⟨x, hx, h1, h2⟩
    exact ⟨_, List.mem_map_of_mem hx, fun h => h1 ((reown_zero hn x).1 h), by rw [reown_ptr, reown_size]; exact h2⟩

theorem gives_reown {H : List Blk} {s p : Nat} {n : Option Nat} (hs : s ≠ u) (h : MP.Gives H s p n) : MP.Gives (H.map (reown u E)) s p n := by
  obtain ⟨b, hb, h1, h2⟩ := h
  refine ⟨b, ?_, h1, h2⟩
  have : reown u E b = b := reown_other (by rw [h1]; exact hs)
  rw [← this]
  exact List.mem_map_of_mem hb

theorem WOk.nodup {w : World} (h : WOk u E w) : (w.held.map (·.ptr)).Nodup := held_nodup h.disj h.size

theorem WOk.mem {w : World} (h : WOk u E w) (m : Nat → Nat) : WOk u E ⟨w.held, m⟩ := ⟨h.disj, h.size, h.users⟩

theorem WOk.drop {w : World} (h : WOk u E w) (p : Nat) (m : Nat → Nat) : WOk u E ⟨dropB p w.held, m⟩ :=
  ⟨h.disj.sublist List.filter_sublist, fun b hb => h.size b (List.mem_filter.1 hb).1, fun b hb => h.users b (List.mem_filter.1 hb).1⟩

theorem WOk.add {w : World} (h : WOk u E w) {s p n : Nat} (hs : s ≠ u) (hf : Fresh p n (ranges w.held)) (hn : 1 ≤ n) (m : Nat → Nat) :
    WOk u E ⟨⟨s, p, n⟩ :: w.held, m⟩ := by
  refine ⟨List.pairwise_cons.2 ⟨fun b hb => ?_, h.disj⟩, fun b hb => ?_, fun b hb ho => ?_⟩
  · exact hf.2.2 (b.ptr, b.size) (List.mem_map_of_mem (f := fun b : Blk => (b.ptr, b.size)) hb)
  · rcases List.mem_cons.1 hb with rfl | hb
    · exact hn
    · exact h.size b hb
  · rcases List.mem_cons.1 hb with rfl | hb
    · exact absurd ho hs
    · exact h.users b hb ho

/-- Handing back a block of a strategy leaves the blocks of `u` alone. -/
theorem WOk.kept {w : World} (h : WOk u E w) {s p : Nat} {n : Option Nat} (hg : MP.Gives w.held s p n) (hs : s ≠ u) (b : Blk) (ho : b.own = u) :
    b ∈ dropB p w.held ↔ b ∈ w.held := by
  refine ⟨fun hb => (List.mem_filter.1 hb).1, fun hb => List.mem_filter.2 ⟨hb, decide_eq_true fun he => ?_⟩⟩
  obtain ⟨x, hx, h1, h2, _⟩ := hg
  have : x = b := nodup_map_inj h.nodup hx hb (h2.trans he.symm)
  exact hs (by rw [← h1, this, ho])

/-- The blocks of `u` are the same. -/
def SameU (u : Nat) (w w' : World) : Prop := ∀ b : Blk, b.own = u → (b ∈ w'.held ↔ b ∈ w.held)

theorem SameU.refl (w : World) : SameU u w w := fun _ _ => Iff.rfl
theorem SameU.trans {w w1 w2 : World} (h1 : SameU u w w1) (h2 : SameU u w1 w2) : SameU u w w2 := fun b ho => (h2 b ho).trans (h1 b ho)

theorem sameU_add {w : World} {s p n : Nat} (hs : s ≠ u) (m : Nat → Nat) : SameU u w ⟨⟨s, p, n⟩ :: w.held, m⟩ := by
  intro b ho
  refine ⟨fun hb => ?_, List.mem_cons_of_mem _⟩
  rcases List.mem_cons.1 hb with rfl | hb
  · exact absurd ho hs
  · exact hb

variable {Pl : Nat → Nat → Prop} {α β : Type} {D : Nat → Prop} {R : α → β → Prop}

/-- What is handed back is none of `E`, or the other program has no undefined behaviour. -/
def Spared (Pl : Nat → Nat → Prop) (D : Nat → Prop) (u : Nat) (E : List Rec) (p' : MP β) (w : World) : Prop :=
  (∀ p, D p → ∀ r ∈ E, r.ptr ≠ p) ∨ ∃ Q, MP.wp Pl p' (asif u E w) Q

/-- The strategy a block is handed back to is not `u`. -/
theorem spared_ne {w : World} (hn : Named u E) (hw : WOk u E w) {s p : Nat} {n : Option Nat} (hd : D p) (hg : MP.Gives w.held s p n)
    (hx : (∀ p, D p → ∀ r ∈ E, r.ptr ≠ p) ∨ MP.Gives (w.held.map (reown u E)) s p n) : s ≠ u := by
  intro he
  subst he
  rcases hx with hx | hx
  · obtain ⟨b, hb, h1, h2, _⟩ := hg
    obtain ⟨r, hr, hp⟩ := hw.users b hb h1
    exact hx p hd r hr (hp.trans h2)
  · obtain ⟨b, hb, h1, _⟩ := hx
    obtain ⟨x, hx, rfl⟩ := List.mem_map.1 hb
    exact reown_ne hn (hw.users x hx) h1

/-- A run in the world is a run in the world in which the strategies own the memory of the
user. -/
theorem sim_run {p : MP α} {w : World} {a : α} {w' : World} (hu : ∀ q, ¬Pl u q) (hn : Named u E) (hr : MP.Run Pl p w a w') :
    ∀ {p' : MP β}, Sim D R p p' → WOk u E w → Spared Pl D u E p' w →
      ∃ b, R a b ∧ MP.Run Pl p' (asif u E w) b (asif u E w') ∧ WOk u E w' ∧ SameU u w w' := by
  induction hr with
  | ret => intro p' hs hw _; cases hs with | ret h => exact ⟨_, h, .ret, hw, .refl _⟩
  | @allocOk s n k w q m a w' h1 h2 h3 _ ih =>
    intro p' hs hw hx
    have hsu : s ≠ u := fun he => hu q (he ▸ h2)
    cases hs with
    | @alloc _ _ _ k' hn' hk =>
      have e : asif u E ⟨⟨s, q, n⟩ :: w.held, m⟩ = ⟨⟨s, q, n⟩ :: (asif u E w).held, m⟩ := by
        show World.mk (reown u E ⟨s, q, n⟩ :: _) _ = _
        rw [reown_other hsu]; rfl
      have h1' : Fresh q n (ranges (asif u E w).held) := by show Fresh q n (ranges (w.held.map _)); rw [ranges_reown]; exact h1
      have h3' : Agree (asif u E w).held (asif u E w).mem m := agree_reown.2 h3
      obtain ⟨b, r1, r2, r3, r4⟩ := ih (hk _) (hw.add hsu h1 hn' m) (hx.imp id fun ⟨Q, hq⟩ => ⟨Q, by rw [e]; exact hq.1 q m h1' h2 h3'⟩)
      rw [e] at r2
      exact ⟨b, r1, .allocOk h1' h2 h3' r2, r3, (sameU_add hsu m).trans r4⟩
  | allocFail h1 _ ih =>
    intro p' hs hw hx
    cases hs with
    | alloc hn' hk =>
      obtain ⟨b, r1, r2, r3, r4⟩ := ih (hk _) (hw.mem _) (hx.imp id fun ⟨Q, hq⟩ => ⟨Q, hq.2 _ (agree_reown.2 h1)⟩)
      exact ⟨b, r1, .allocFail (agree_reown.2 h1) r2, r3, r4⟩
  | @dealloc s q n k w m a w' h1 h2 _ ih =>
    intro p' hs hw hx
    cases hs with
    | @dealloc _ _ _ _ k' hd hk =>
      have hsu : s ≠ u := spared_ne hn hw hd h1 (hx.imp id fun ⟨Q, hq⟩ => hq.1)
      have e : asif u E ⟨dropB q w.held, m⟩ = ⟨dropB q (asif u E w).held, m⟩ := by
        show World.mk _ _ = World.mk (dropB q (w.held.map _)) _
        rw [dropB_reown]
      have h2' : Agree (dropB q (asif u E w).held) (asif u E w).mem m := by
        show Agree (dropB q (w.held.map _)) _ _
        rw [dropB_reown]; exact agree_reown.2 h2
      obtain ⟨b, r1, r2, r3, r4⟩ := ih hk (hw.drop q m) (hx.imp id fun ⟨Q, hq⟩ => ⟨Q, by rw [e]; exact hq.2 m h2'⟩)
      rw [e] at r2
      exact ⟨b, r1, .dealloc (gives_reown hsu h1) h2' r2, r3, SameU.trans (fun b ho => hw.kept h1 hsu b ho) r4⟩
  | @reallocOk s q n k w q' m a w' h1 h2 h3 h4 h5 _ ih =>
    intro p' hs hw hx
    have hsu : s ≠ u := fun he => hu q' (he ▸ h3)
    cases hs with
    | @realloc _ _ _ _ k' hd hn' hk =>
      have e : asif u E ⟨⟨s, q', n⟩ :: dropB q w.held, m⟩ = ⟨⟨s, q', n⟩ :: dropB q (asif u E w).held, m⟩ := by
        show World.mk (reown u E ⟨s, q', n⟩ :: _) _ = World.mk (_ :: dropB q (w.held.map _)) _
        rw [reown_other hsu, dropB_reown]
      have h2' : Fresh q' n (ranges (dropB q (asif u E w).held)) := by
        show Fresh q' n (ranges (dropB q (w.held.map _))); rw [dropB_reown, ranges_reown]; exact h2
      have h4' : Agree (dropB q (asif u E w).held) (asif u E w).mem m := by
        show Agree (dropB q (w.held.map _)) _ _
        rw [dropB_reown]; exact agree_reown.2 h4
      have h5' : MP.Moved (asif u E w).held q q' n (asif u E w).mem m := moved_reown.2 h5
      obtain ⟨b, r1, r2, r3, r4⟩ := ih (hk _) ((hw.drop q m).add hsu h2 hn' m) (hx.imp id fun ⟨Q, hq⟩ => ⟨Q, by rw [e]; exact hq.2.1 q' m h2' h3 h4' h5'⟩)
      rw [e] at r2
      exact ⟨b, r1, .reallocOk (gives_reown hsu h1) h2' h3 h4' h5' r2, r3,
        SameU.trans (SameU.trans (fun b ho => hw.kept h1 hsu b ho) (sameU_add (w := ⟨dropB q w.held, m⟩) hsu m)) r4⟩
  | @reallocFail s q n k w a w' h1 _ ih =>
    intro p' hs hw hx
    cases hs with
    | @realloc _ _ _ _ k' hd hn' hk =>
      have hsu : s ≠ u := spared_ne hn hw hd h1 (hx.imp id fun ⟨Q, hq⟩ => hq.1)
      obtain ⟨b, r1, r2, r3, r4⟩ := ih (hk _) hw (hx.imp id fun ⟨Q, hq⟩ => ⟨Q, hq.2.2⟩)
      exact ⟨b, r1, .reallocFail (gives_reown hsu h1) r2, r3, r4⟩
  | fromZero h1 h2 _ ih =>
    intro p' hs hw hx
    cases hs with
    | fromZero hk =>
      have h1' := fun h => h1 ((inZero_reown hn).1 h)
      have h2' := fun h => h2 ((inOther_reown hn).1 h)
      obtain ⟨b, r1, r2, r3, r4⟩ := ih (hk _) hw (hx.imp id fun ⟨Q, hq⟩ => ⟨Q, hq _ h1' h2'⟩)
      exact ⟨b, r1, .fromZero h1' h2' r2, r3, r4⟩
  | memcpy _ ih =>
    intro p' hs hw hx
    cases hs with
    | memcpy hk =>
      obtain ⟨b, r1, r2, r3, r4⟩ := ih hk (hw.mem _) (hx.imp id fun ⟨Q, hq⟩ => ⟨Q, hq.2⟩)
      exact ⟨b, r1, .memcpy r2, r3, r4⟩
  | memset _ ih =>
    intro p' hs hw hx
    cases hs with
    | memset hk =>
      obtain ⟨b, r1, r2, r3, r4⟩ := ih hk (hw.mem _) (hx.imp id fun ⟨Q, hq⟩ => ⟨Q, hq.2⟩)
      exact ⟨b, r1, .memset r2, r3, r4⟩

/-- A block handed back that is none of `E`. -/
theorem gives_back {H : List Blk} {s p : Nat} {n : Option Nat} (hU : ∀ b ∈ H, b.own = u → ∃ r ∈ E, r.ptr = b.ptr) (hp : ∀ r ∈ E, r.ptr ≠ p)
    (h : MP.Gives (H.map (reown u E)) s p n) : MP.Gives H s p n := by
  obtain ⟨b, hb, h1, h2, h3⟩ := h
  obtain ⟨x, hx, rfl⟩ := List.mem_map.1 hb
  rw [reown_ptr] at h2
  by_cases ho : x.own = u
  · obtain ⟨r, hr, hrp⟩ := hU x hx ho
    exact absurd (hrp.trans h2) (hp r hr)
  · rw [reown_other ho] at h1 h3
    exact ⟨x, hx, h1, h2, h3⟩

/-- As long as none of `E` is handed back, there is no undefined behaviour in the world
unless there is some in the world in which the strategies own the memory of the user. -/
theorem sim_goes {p : MP α} {w : World} (hu : ∀ q, ¬Pl u q) (hn : Named u E) (hD : ∀ p, D p → ∀ r ∈ E, r.ptr ≠ p) (hg : MP.Goes Pl p w) :
    ∀ {p' : MP β}, Sim D R p p' → WOk u E w → MP.Goes Pl p' (asif u E w) := by
  induction hg with
  | fail => intro p' hs _; cases hs; exact .fail
  | @allocOk s n k w q m h1 h2 h3 _ ih =>
    intro p' hs hw
    have hsu : s ≠ u := fun he => hu q (he ▸ h2)
    cases hs with
    | alloc hn' hk =>
      have e : asif u E ⟨⟨s, q, n⟩ :: w.held, m⟩ = ⟨⟨s, q, n⟩ :: (asif u E w).held, m⟩ := by
        show World.mk (reown u E ⟨s, q, n⟩ :: _) _ = _
        rw [reown_other hsu]; rfl
      have h1' : Fresh q n (ranges (asif u E w).held) := by show Fresh q n (ranges (w.held.map _)); rw [ranges_reown]; exact h1
      have r2 := ih (hk _) (hw.add hsu h1 hn' m)
      rw [e] at r2
      exact .allocOk h1' h2 (agree_reown.2 h3) r2
  | allocFail h1 _ ih =>
    intro p' hs hw
    cases hs with
    | alloc hn' hk => exact .allocFail (agree_reown.2 h1) (ih (hk _) (hw.mem _))
  | badFree hb =>
    intro p' hs hw
    cases hs with
    | dealloc hd hk => exact .badFree fun h => hb (gives_back hw.users (hD _ hd) h)
  | @dealloc s q n k w m h1 h2 _ ih =>
    intro p' hs hw
    cases hs with
    | dealloc hd hk =>
      have hsu : s ≠ u := spared_ne hn hw hd h1 (Or.inl hD)
      have e : asif u E ⟨dropB q w.held, m⟩ = ⟨dropB q (asif u E w).held, m⟩ := by
        show World.mk _ _ = World.mk (dropB q (w.held.map _)) _
        rw [dropB_reown]
      have h2' : Agree (dropB q (asif u E w).held) (asif u E w).mem m := by
        show Agree (dropB q (w.held.map _)) _ _
        rw [dropB_reown]; exact agree_reown.2 h2
      have r2 := ih hk (hw.drop q m)
      rw [e] at r2
      exact .dealloc (gives_reown hsu h1) h2' r2
  | badRealloc hb =>
    intro p' hs hw
    cases hs with
    | realloc hd hn' hk => exact .badRealloc fun h => hb (gives_back hw.users (hD _ hd) h)
  | @reallocOk s q n k w q' m h1 h2 h3 h4 h5 _ ih =>
    intro p' hs hw
    have hsu : s ≠ u := fun he => hu q' (he ▸ h3)
    cases hs with
    | realloc hd hn' hk =>
      have e : asif u E ⟨⟨s, q', n⟩ :: dropB q w.held, m⟩ = ⟨⟨s, q', n⟩ :: dropB q (asif u E w).held, m⟩ := by
        show World.mk (reown u E ⟨s, q', n⟩ :: _) _ = World.mk (_ :: dropB q (w.held.map _)) _
        rw [reown_other hsu, dropB_reown]
      have h2' : Fresh q' n (ranges (dropB q (asif u E w).held)) := by
        show Fresh q' n (ranges (dropB q (w.held.map _))); rw [dropB_reown, ranges_reown]; exact h2
      have h4' : Agree (dropB q (asif u E w).held) (asif u E w).mem m := by
        show Agree (dropB q (w.held.map _)) _ _
        rw [dropB_reown]; exact agree_reown.2 h4
      have r2 := ih (hk _) ((hw.drop q m).add hsu h2 hn' m)
      rw [e] at r2
      exact .reallocOk (gives_reown hsu h1) h2' h3 h4' (moved_reown.2 h5) r2
  | @reallocFail s q n k w h1 _ ih =>
    intro p' hs hw
    cases hs with
    | realloc hd hn' hk =>
      have hsu : s ≠ u := spared_ne hn hw hd h1 (Or.inl hD)
      exact .reallocFail (gives_reown hsu h1) (ih (hk _) hw)
  | fromZero h1 h2 _ ih =>
    intro p' hs hw
    cases hs with
    | fromZero hk => exact .fromZero (fun h => h1 ((inZero_reown hn).1 h)) (fun h => h2 ((inOther_reown hn).1 h)) (ih (hk _) hw)
  | badCopy hb =>
    intro p' hs hw
    cases hs with
    | memcpy hk => exact .badCopy fun h => hb ⟨(usable_reown hn).1 h.1, (usable_reown hn).1 h.2.1, h.2.2⟩
  | memcpy _ ih =>
    intro p' hs hw
    cases hs with
    | memcpy hk => exact .memcpy (ih hk (hw.mem _))
  | badSet hb =>
    intro p' hs hw
    cases hs with
    | memset hk => exact .badSet fun h => hb ((usable_reown hn).1 h)
  | memset _ ih =>
    intro p' hs hw
    cases hs with
    | memset hk => exact .memset (ih hk (hw.mem _))
end

end Umpire.Mgr
