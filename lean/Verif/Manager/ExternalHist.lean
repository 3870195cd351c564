import Verif.Manager.External
/-!
# Histories with memory of the user
-/
set_option autoImplicit false
set_option linter.unusedSimpArgs false
namespace Umpire.Mgr
open Umpire.Judy

/-- A call of `Hist`, or `register_external_allocation` with record `r`, or
`deregister_external_allocation(p)`. -/
inductive EvX where
  | call (e : Ev)
  | reg (r : Rec)
  | unreg (p : Nat)

/-- What the history says about the state: as in `Ghost`, where the memory of the user counts
as live, and the records of that memory. -/
structure GhostX where
  g : Ghost
  ext : List Rec

def GhostX.new : GhostX := ⟨Ghost.new, []⟩

def GhostX.step (c : Cfg) (x : GhostX) : EvX → GhostX
  | .call e => ⟨x.g.step c e, x.ext⟩
  | .reg r => ⟨x.g.reg r, r :: x.ext⟩
  | .unreg p => ⟨x.g.free p, dropR p x.ext⟩

def ghostX (c : Cfg) : List EvX → GhostX
  | [] => GhostX.new
  | e :: t => (ghostX c t).step c e

/-- The blocks held without the one of `u` at `p`. -/
def dropU (u p : Nat) (H : List Blk) : List Blk := H.filter fun b => decide (¬(b.own = u ∧ b.ptr = p))

/-- `HistX Pl c u t rm w`: the calls `t`, with these outcomes, can lead to `rm` and `w`, where
`u` owns the memory of the user that is registered.

The memory registered is not empty and disjoint from all blocks held; the record names a
tracked allocator other than the zero-byte pool, and an address at which its strategy
could place blocks.  What is deregistered is such memory, or nothing starts at the
address. -/
inductive HistX (Pl : Nat → Nat → Prop) (c : Cfg) (u : Nat) : List EvX → RM → World → Prop where
  | new (m : Nat → Nat) : HistX Pl c u [] RM.new ⟨[], m⟩
  | call {t rm w e rm' w'} : HistX Pl c u t rm w → Step Pl c (ghostX c t).g rm w e rm' w' → HistX Pl c u (.call e :: t) rm' w'
  | reg {t rm w r o rm' w'} : HistX Pl c u t rm w → 1 ≤ r.size → r.tag ≠ zero → r.tag ≠ u → c.tracked r.tag = true → Pl r.tag r.ptr →
      Fresh r.ptr r.size (ranges w.held) → MP.Run Pl (registerExternal r.ptr r rm) w (o, rm') w' →
      HistX Pl c u (.reg r :: t) rm' ⟨⟨u, r.ptr, r.size⟩ :: w'.held, w'.mem⟩
  | unreg {t rm w p o rm' w'} : HistX Pl c u t rm w → p < 2 ^ 64 → (∀ r ∈ (ghostX c t).g.live, r.ptr = p → r ∈ (ghostX c t).ext) →
      MP.Run Pl (deregisterExternal p rm) w (o, rm') w' → HistX Pl c u (.unreg p :: t) rm' ⟨dropU u p w'.held, w'.mem⟩
  | bytes {t rm w} (m : Nat → Nat) : HistX Pl c u t rm w → HistX Pl c u t rm ⟨w.held, m⟩

/-- The bytes of external memory registered for `s`. -/
def extOf (E : List Rec) (s : Nat) : Int := (lsum s E : Nat)

structure OkX (Pl : Nat → Nat → Prop) (B : Nat → Prop) (c : Cfg) (u : Nat) (rm : RM) (w : World) (x : GhostX) : Prop where
  ok : ∃ st, Rel (extOf x.ext) rm.st st ∧ Ok Pl B c ⟨rm.amap, st⟩ (asif u x.ext w) x.g
  ext : ∀ r ∈ x.ext, r ∈ x.g.live ∧ ⟨u, r.ptr, r.size⟩ ∈ w.held ∧ 1 ≤ r.size ∧ r.tag ≠ zero ∧ r.tag ≠ u
  users : ∀ b ∈ w.held, b.own = u → ∃ r ∈ x.ext, b = ⟨u, r.ptr, r.size⟩
  un : ∀ b ∈ x.g.un, ∀ r ∈ x.ext, b.ptr ≠ r.ptr
  nd : (x.ext.map (·.ptr)).Nodup

section
variable {Pl : Nat → Nat → Prop} {B : Nat → Prop} {c : Cfg} {u : Nat} {rm : RM} {w : World} {x : GhostX}

theorem OkX.named (hu : u ≠ zero) (h : OkX Pl B c u rm w x) : Named u x.ext := ⟨hu, fun r hr => (h.ext r hr).2.2.2⟩

theorem OkX.wok (h : OkX Pl B c u rm w x) : WOk u x.ext w := by
  obtain ⟨st, _, hO⟩ := h.ok
  refine ⟨?_, fun b hb => ?_, fun b hb ho => ?_⟩
  · have := hO.mem.disj
    unfold asif at this
    rw [List.pairwise_map] at this
    refine this.imp ?_
    intro a b hab
    unfold BDisj at hab ⊢
    rw [reown_ptr, reown_ptr, reown_size, reown_size] at hab
    exact hab
  · have := (hO.mem.blk _ (List.mem_map_of_mem (f := reown u x.ext) hb)).2.1
    rw [reown_size] at this
    exact this
  · obtain ⟨r, hr, rfl⟩ := h.users b hb ho
    exact ⟨r, hr, rfl⟩

theorem OkX.extNodup (h : OkX Pl B c u rm w x) {r r' : Rec} (hr : r ∈ x.ext) (hr' : r' ∈ x.ext) (he : r.ptr = r'.ptr) : r = r' := by
  obtain ⟨st, _, hO⟩ := h.ok
  exact nodup_map_inj hO.mem.liveNodup (h.ext r hr).1 (h.ext r' hr').1 he

theorem OkX.tagAt (h : OkX Pl B c u rm w x) {r : Rec} (hr : r ∈ x.ext) : tagAt u x.ext r.ptr = r.tag := by
  obtain ⟨r', hr'⟩ := at_isSome hr
  unfold Mgr.tagAt
  rw [hr']
  have := at_mem hr'
  rw [h.extNodup this.1 hr this.2]

/-- The block of external memory as it is in the other world. -/
theorem OkX.reown_ext (h : OkX Pl B c u rm w x) {r : Rec} (hr : r ∈ x.ext) : reown u x.ext ⟨u, r.ptr, r.size⟩ = blkOf r := by
  unfold reown
  rw [if_pos rfl]
  show Blk.mk (Mgr.tagAt u x.ext r.ptr) r.ptr r.size = _
  rw [h.tagAt hr]
  unfold blkOf
  have := (h.ext r hr).2.2.1
  rw [if_neg (by omega)]

theorem indep_run {β : Type} {D : Nat → Prop} {y : Nat → Int} {E : List Rec} {m : M β} {st : Nat → Stat} {o : Option β} {rm' : RM} {w' : World}
    (hu : ∀ q, ¬Pl u q) (hn : Named u E) (hw : WOk u E w) (hi : Indep D y m) (hst : Rel y rm.st st)
    (hr : MP.Run Pl (m rm) w (o, rm') w') (hsp : Spared Pl D u E (m ⟨rm.amap, st⟩) w) :
    ∃ st', MP.Run Pl (m ⟨rm.amap, st⟩) (asif u E w) (o, ⟨rm'.amap, st'⟩) (asif u E w') ∧ Rel y rm'.st st' ∧ WOk u E w' ∧ SameU u w w' := by
  obtain ⟨⟨o', r'⟩, ⟨e1, e2, e3⟩, h2, h3, h4⟩ := sim_run hu hn hr (hi rm ⟨rm.amap, st⟩ rfl hst) hw hsp
  dsimp only at e1 e2 e3
  refine ⟨r'.st, ?_, e3, h3, h4⟩
  rw [e1, e2]
  exact h2

/-- A call in the world is one in the other world. -/
theorem step_sim {e : Ev} {rm' : RM} {w' : World} {g : Ghost} {y : Nat → Int} {E : List Rec} {st : Nat → Stat} (ha : Aligned Pl B)
    (hu : ∀ q, ¬Pl u q) (hn : Named u E) (hw : WOk u E w) (hst : Rel y rm.st st) (hO : Ok Pl B c ⟨rm.amap, st⟩ (asif u E w) g)
    (hs : Step Pl c g rm w e rm' w') :
    ∃ st', Step Pl c g ⟨rm.amap, st⟩ (asif u E w) e ⟨rm'.amap, st'⟩ (asif u E w') ∧ Rel y rm'.st st' ∧ WOk u E w' ∧ SameU u w w' := by
  have hF : ∀ {β : Type} (p : MP β), Spared Pl (fun _ => False) u E p w := fun _ => Or.inl fun _ h => h.elim
  have hT : ∀ {β : Type} {m : M β} {Q : Option β → RM → World → Prop}, wpM Pl m ⟨rm.amap, st⟩ (asif u E w) Q → Spared Pl (fun _ => True) u E (m ⟨rm.amap, st⟩) w :=
    fun h => Or.inr ⟨_, h⟩
  cases hs with
  | alloc h1 hr =>
    obtain ⟨st', r1, r2⟩ := indep_run hu hn hw (indep_allocate c _ _) hst hr (hF _)
    exact ⟨st', .alloc h1 r1, r2⟩
  | free h1 h2 h3 hr =>
    obtain ⟨st', r1, r2⟩ := indep_run hu hn hw (indep_deallocate trivial) hst hr (hT (deallocate_ok hO h2 h3))
    exact ⟨st', .free h1 h2 h3 r1, r2⟩
  | freeAny h1 hr =>
    obtain ⟨st', r1, r2⟩ := indep_run hu hn hw (indep_deallocateAny trivial) hst hr (hT (deallocateAny_ok hO h1))
    exact ⟨st', .freeAny h1 r1, r2⟩
  | realloc h1 h2 hr =>
    obtain ⟨st', r1, r2⟩ := indep_run hu hn hw (indep_reallocImpl trivial) hst hr (hT (reallocImpl_ok hO ha h1 h2))
    exact ⟨st', .realloc h1 h2 r1, r2⟩
  | reallocAny h1 h2 hr =>
    obtain ⟨st', r1, r2⟩ := indep_run hu hn hw (indep_reallocate trivial) hst hr (hT (reallocate_ok hO ha h1 h2))
    exact ⟨st', .reallocAny h1 h2 r1, r2⟩
  | move h1 h2 h3 hr =>
    obtain ⟨st', r1, r2⟩ := indep_run hu hn hw (indep_move trivial) hst hr (hT (move_ok hO ha h1 h2 h3))
    exact ⟨st', .move h1 h2 h3 r1, r2⟩
  | copy h1 h2 hr =>
    obtain ⟨st', r1, r2⟩ := indep_run hu hn hw (indep_copy _ _ _) hst hr (hF _)
    exact ⟨st', .copy h1 h2 r1, r2⟩
  | memset h1 hr =>
    obtain ⟨st', r1, r2⟩ := indep_run hu hn hw (indep_memset' _ _ _) hst hr (hF _)
    exact ⟨st', .memset h1 r1, r2⟩
  | query h1 hr =>
    obtain ⟨st', r1, r2⟩ := indep_run hu hn hw (indep_find _) hst hr (hF _)
    exact ⟨st', .query h1 r1, r2⟩
  | kid h1 hr =>
    obtain ⟨st', r1, r2⟩ := indep_run hu hn hw (indep_add _ _) hst hr (hF _)
    exact ⟨st', .kid h1 r1, r2⟩
  | kidFree h1 hr =>
    obtain ⟨st', r1, r2⟩ := indep_run hu hn hw (indep_sub _ _) hst hr (hF _)
    exact ⟨st', .kidFree h1 r1, r2⟩

/-! ## Handing external memory back -/

theorem find_eq {a : AMap} {v : World} {live : List Rec} {un : List Blk} (h : MemOk Pl B c a v live un) {r : Rec} (hr : r ∈ live) :
    ∃ a', a.findRecord r.ptr = (a', some r) ∧ MemOk Pl B c a' v live un := by
  have hlt := h.rec_lt hr
  have h2 := (h.find_sound (q := r.ptr) (by omega)).2.1 r hr rfl
  exact ⟨(a.findRecord r.ptr).1, Prod.ext rfl h2, h.bytes v.mem (find_same _ _).1 (find_same _ _).2.1 (find_same _ _).2.2⟩

theorem run_find {β : Type} {a' : AMap} {p : Nat} {r : Rec} (h : rm.amap.findRecord p = (a', some r)) (f : Rec → M β) :
    (find p >>= f) rm = f r { rm with amap := a' } := by
  have e : find p rm = .ret (some r, { rm with amap := a' }) := by unfold find; rw [h]
  show M.bind (find p) f rm = _
  unfold M.bind
  rw [e]
  rfl

/-- Reallocating a block of `HOST` that is not empty. -/
theorem reallocImpl_host {v : World} {live : List Rec} {un : List Blk} (h : MemOk Pl B c rm.amap v live un) {r : Rec} {n : Nat} (hr : r ∈ live)
    (hn : n ≠ 0) (hh : r.tag = c.host) (hz : r.size ≠ 0) : ∃ k, reallocImpl c r.ptr n r.tag rm = .realloc r.tag r.ptr n k := by
  have h0 := (h.rec_lt hr).1
  obtain ⟨a1, f1, m1⟩ := find_eq h hr
  obtain ⟨a2, f2, _⟩ := m1.dereg hr
  have e : reallocImpl c r.ptr n r.tag rm = hostRealloc c r.ptr r n { rm with amap := a1 } := by
    unfold reallocImpl
    rw [if_neg h0, run_find f1]
    simp only [ne_eq, not_true_eq_false, if_false, if_neg hn, if_pos hh]
  rw [e]
  unfold hostRealloc
  rw [if_neg hz]
  have e2 : deregister r.ptr { rm with amap := a1 } = .ret (some r, { rm with amap := a2 }) := by
    show (match a1.remove r.ptr with | .ok a r => _ | .throws a => _ | .ub => _) = _
    rw [f2]
  refine ⟨?_, ?_⟩
  rotate_left
  · show M.bind (deregister r.ptr) _ _ = _
    unfold M.bind
    rw [e2]
    rfl

theorem reallocate_host {v : World} {live : List Rec} {un : List Blk} (h : MemOk Pl B c rm.amap v live un) {r : Rec} {d n : Nat} (hr : r ∈ live)
    (hn : n ≠ 0) (hh : r.tag = c.host) (hz : r.size ≠ 0) : ∃ k, reallocate c d r.ptr n rm = .realloc r.tag r.ptr n k := by
  have h0 := (h.rec_lt hr).1
  obtain ⟨a1, f1, m1⟩ := find_eq h hr
  unfold reallocate
  rw [if_neg h0, run_find f1]
  exact reallocImpl_host (rm := { rm with amap := a1 }) m1 hr hn hh hz

/-- No strategy has given out memory of the user. -/
theorem OkX.notGiven (h : OkX Pl B c u rm w x) {r : Rec} (hr : r ∈ x.ext) (n : Option Nat) : ¬MP.Gives w.held r.tag r.ptr n := by
  rintro ⟨b, hb, h1, h2, _⟩
  have he := h.ext r hr
  have : b = ⟨u, r.ptr, r.size⟩ := nodup_map_inj h.wok.nodup hb he.2.1 h2
  rw [this] at h1
  exact he.2.2.2.2 h1.symm

theorem OkX.no_realloc {α : Type} (h : OkX Pl B c u rm w x) {r : Rec} (hr : r ∈ x.ext) {n : Nat} {k : Option Nat → MP α} {a : α} {w' : World} :
    ¬MP.Run Pl (.realloc r.tag r.ptr n k) w a w' := by
  intro hr'
  cases hr' with
  | reallocOk h1 => exact h.notGiven hr _ h1
  | reallocFail h1 => exact h.notGiven hr _ h1

theorem alloc_un {g : Ghost} {s n p : Nat} {b : Blk} (h : b ∈ (g.alloc c s n p).un) : b ∈ g.un ∨ b.own = zero ∨ c.tracked b.own = false := by
  unfold Ghost.alloc at h
  by_cases ht : c.tracked s = true
  · rw [if_pos ht] at h; exact Or.inl h
  · rw [if_neg ht] at h
    rcases List.mem_cons.1 h with rfl | h
    · rw [blkOf_eq]
      by_cases hn : n = 0
      · right; left; rw [if_pos hn]
      · right; right; rw [if_neg hn]; simpa using ht
    · exact Or.inl h

/-- The reallocation in which a record of `HOST` gets lost. -/
def Lost (c : Cfg) (g : Ghost) (r : Rec) (e : Ev) : Prop :=
  r ∈ g.live ∧ r.tag = c.host ∧ r.size ≠ 0 ∧ ∃ n, n ≠ 0 ∧ (e = .realloc r.tag r.ptr n none ∨ ∃ d, e = .reallocAny d r.ptr n none)

theorem realloc_un {g : Ghost} {s p n : Nat} {o : Option Nat} {b : Blk} (h : b ∈ (g.realloc c s p n o).un) :
    (b ∈ g.un ∨ b.own = zero ∨ c.tracked b.own = false) ∨
    ∃ r, b = blkOf r ∧ r ∈ g.live ∧ r.tag = c.host ∧ r.size ≠ 0 ∧ n ≠ 0 ∧ r.tag = s ∧ r.ptr = p ∧ o = none := by
  unfold Ghost.realloc at h
  by_cases h0 : p = 0
  · rw [if_pos h0] at h
    cases o with
    | none => exact Or.inl (Or.inl h)
    | some q => exact Or.inl (alloc_un h)
  · rw [if_neg h0] at h
    cases ha : at? g.live p with
    | none => rw [ha] at h; exact Or.inl (Or.inl h)
    | some r =>
      rw [ha] at h
      dsimp only at h
      by_cases ht : r.tag ≠ s
      · rw [if_pos ht] at h; exact Or.inl (Or.inl h)
      · rw [if_neg ht] at h
        by_cases hn : n = 0
        · rw [if_pos hn] at h
          cases o with
          | none => exact Or.inl (Or.inl h)
          | some q => exact Or.inl (alloc_un (g := g.free p) h)
        · rw [if_neg hn] at h
          cases o with
          | some q => exact Or.inl (Or.inl h)
          | none =>
            dsimp only at h
            unfold Ghost.unresized at h
            split at h
            · rename_i hc
              rcases List.mem_cons.1 h with rfl | h
              · exact Or.inr ⟨r, rfl, (at_mem ha).1, hc.1, hc.2, hn, Decidable.not_not.1 ht, (at_mem ha).2, rfl⟩
              · exact Or.inl (Or.inl h)
            · exact Or.inl (Or.inl h)

/-- The blocks held without a record after a call. -/
theorem step_un {g : Ghost} {e : Ev} {b : Blk} (h : b ∈ (g.step c e).un) :
    (b ∈ g.un ∨ b.own = zero ∨ c.tracked b.own = false) ∨ ∃ r, b = blkOf r ∧ Lost c g r e := by
  cases e with
  | alloc s n o =>
    cases o with
    | none => exact Or.inl (Or.inl h)
    | some p => exact Or.inl (alloc_un h)
  | free s p ok =>
    cases ok with
    | false => exact Or.inl (Or.inl h)
    | true =>
      unfold Ghost.step at h
      dsimp only at h
      split at h
      · exact Or.inl (Or.inl h)
      · split at h
        · exact Or.inl (Or.inl h)
        · exact Or.inl (Or.inl (List.mem_filter.1 h).1)
  | freeAny p ok => cases ok <;> exact Or.inl (Or.inl h)
  | realloc s p n o =>
    rcases realloc_un h with h | ⟨r, h1, h2, h3, h4, h5, rfl, rfl, rfl⟩
    · exact Or.inl h
    · exact Or.inr ⟨r, h1, h2, h3, h4, n, h5, Or.inl rfl⟩
  | reallocAny d p n o =>
    unfold Ghost.step Ghost.reallocAny at h
    dsimp only at h
    split at h
    · rename_i h0
      rcases realloc_un h with h | ⟨r, h1, h2, h3, h4, h5, rfl, h6, rfl⟩
      · exact Or.inl h
      · exact Or.inr ⟨r, h1, h2, h3, h4, n, h5, Or.inr ⟨r.tag, by rw [h6]⟩⟩
    · cases ha : at? g.live p with
      | none => rw [ha] at h; exact Or.inl (Or.inl h)
      | some r =>
        rw [ha] at h
        rcases realloc_un h with h | ⟨r', h1, h2, h3, h4, h5, h7, h6, rfl⟩
        · exact Or.inl h
        · exact Or.inr ⟨r', h1, h2, h3, h4, n, h5, Or.inr ⟨d, by rw [h6]⟩⟩
  | move p s o =>
    left; left
    unfold Ghost.step Ghost.move at h
    dsimp only at h
    cases o with
    | none => exact h
    | some q =>
      dsimp only at h
      cases ha : at? g.live p with
      | none => rw [ha] at h; exact h
      | some r => rw [ha] at h; dsimp only at h; split at h <;> exact h
  | copy d s n ok => exact Or.inl (Or.inl h)
  | memset p v n ok => exact Or.inl (Or.inl h)
  | query p => exact Or.inl (Or.inl h)
  | kid s n ok => cases ok <;> exact Or.inl (Or.inl h)
  | kidFree s n m => exact Or.inl (Or.inl h)

/-- External memory is never lost in this way: there is no such run. -/
theorem OkX.not_lost (h : OkX Pl B c u rm w x) {e : Ev} {rm' : RM} {w' : World} {r : Rec} (hr : r ∈ x.ext) (hl : Lost c x.g r e)
    (hs : Step Pl c x.g rm w e rm' w') : False := by
  obtain ⟨st, _, hO⟩ := h.ok
  obtain ⟨h1, h2, h3, n, h4, h5⟩ := hl
  rcases h5 with rfl | ⟨d, rfl⟩
  · cases hs with
    | realloc _ _ hrun =>
      obtain ⟨k, hk⟩ := reallocImpl_host (rm := rm) hO.mem h1 h4 h2 h3
      rw [hk] at hrun
      exact h.no_realloc hr hrun
  · cases hs with
    | reallocAny _ _ hrun =>
      obtain ⟨k, hk⟩ := reallocate_host (d := d) (rm := rm) hO.mem h1 h4 h2 h3
      rw [hk] at hrun
      exact h.no_realloc hr hrun

theorem okX_call {e : Ev} {rm' : RM} {w' : World} (ha : Aligned Pl B) (hu : ∀ q, ¬Pl u q) (hz : u ≠ zero) (h : OkX Pl B c u rm w x)
    (hs : Step Pl c x.g rm w e rm' w') : OkX Pl B c u rm' w' (x.step c (.call e)) := by
  obtain ⟨st, hst, hO⟩ := h.ok
  obtain ⟨st', hs', hst', hw', hsame⟩ := step_sim ha hu (h.named hz) h.wok hst hO hs
  have hO' := step_ok ha hO hs'
  have hkeep : ∀ r ∈ x.ext, (⟨u, r.ptr, r.size⟩ : Blk) ∈ w'.held := fun r hr => (hsame _ rfl).2 (h.ext r hr).2.1
  have hheld : ∀ r ∈ x.ext, blkOf r ∈ (asif u x.ext w').held := by
    intro r hr
    rw [← h.reown_ext hr]
    exact List.mem_map_of_mem (hkeep r hr)
  have hun : ∀ b ∈ (x.g.step c e).un, ∀ r ∈ x.ext, b.ptr ≠ r.ptr := by
    intro b hb r hr he
    have hbr : b = blkOf r := nodup_map_inj hO'.mem.heldNodup (hO'.mem.un_held hb) (hheld r hr) (by rw [blkOf_ptr]; exact he)
    have hx := h.ext r hr
    have hown : b.own = r.tag := by rw [hbr]; unfold blkOf; rw [if_neg (by omega)]
    rcases step_un hb with (hb' | hb' | hb') | ⟨r', h1, hl⟩
    · exact h.un b hb' r hr he
    · exact hx.2.2.2.1 (hown.symm.trans hb')
    · rw [hown, (hO.mem.tag r hx.1).2] at hb'; cases hb'
    · have hp : r'.ptr = r.ptr := by rw [h1, blkOf_ptr] at he; exact he
      have : r' = r := nodup_map_inj hO.mem.liveNodup hl.1 hx.1 hp
      subst this
      exact h.not_lost hr hl hs
  refine ⟨⟨st', hst', hO'⟩, fun r hr => ?_, fun b hb ho => h.users b ((hsame b ho).1 hb) ho, hun, h.nd⟩
  have hx := h.ext r hr
  refine ⟨?_, hkeep r hr, hx.2.2⟩
  have := hO'.mem.perm.mem_iff.1 (hheld r hr)
  rcases List.mem_append.1 this with h1 | h1
  · obtain ⟨r', hr', he⟩ := List.mem_map.1 h1
    have e1 : r'.ptr = r.ptr := by rw [← blkOf_ptr r', he, blkOf_ptr]
    have e2 : blkOf r = ⟨r.tag, r.ptr, r.size⟩ := by unfold blkOf; rw [if_neg (by omega)]
    by_cases hz' : r'.size = 0
    · have e3 : blkOf r' = ⟨zero, r'.ptr, 1⟩ := by unfold blkOf; rw [if_pos hz']
      rw [e2, e3] at he
      injection he with he1
      exact absurd he1.symm hx.2.2.2.1
    · have e3 : blkOf r' = ⟨r'.tag, r'.ptr, r'.size⟩ := by unfold blkOf; rw [if_neg hz']
      rw [e2, e3] at he
      injection he with he1 he2 he3
      have : r' = r := by cases r'; cases r; simp only at he1 he2 he3; subst he1; subst he2; subst he3; rfl
      rw [← this]; exact hr'
  · exact absurd (blkOf_ptr r) (hun _ h1 r hr)

/-! ## Registering and deregistering -/

theorem at_cons {E : List Rec} {r : Rec} {p : Nat} (h : r.ptr ≠ p) : at? (r :: E) p = at? E p := by
  unfold at?
  rw [List.find?_cons_of_neg (by simpa using h)]

theorem at_drop {E : List Rec} {p q : Nat} (h : q ≠ p) : at? (dropR p E) q = at? E q := by
  unfold at? dropR
  rw [List.find?_filter]
  congr 1
  funext r
  by_cases hr : r.ptr = q
  · simp [hr, h]
  · simp [hr]

theorem extOf_cons (E : List Rec) (r : Rec) (s : Nat) : extOf (r :: E) s = (if r.tag = s then (r.size : Int) else 0) + extOf E s := by
  unfold extOf
  rw [lsum_cons]
  split <;> omega

theorem okX_reg {r : Rec} {o : Option Unit} {rm' : RM} {w' : World} (ha : Aligned Pl B) (h : OkX Pl B c u rm w x) (h1 : 1 ≤ r.size)
    (h2 : r.tag ≠ zero) (h3 : r.tag ≠ u) (h4 : c.tracked r.tag = true) (h5 : Pl r.tag r.ptr) (h6 : Fresh r.ptr r.size (ranges w.held))
    (hr : MP.Run Pl (registerExternal r.ptr r rm) w (o, rm') w') :
    o = some () ∧ rm'.st = rm.st ∧ w' = w ∧ OkX Pl B c u rm' ⟨⟨u, r.ptr, r.size⟩ :: w'.held, w'.mem⟩ (x.step c (.reg r)) := by
  obtain ⟨st, hst, hO⟩ := h.ok
  unfold registerExternal register at hr
  rw [if_neg h6.1] at hr
  cases hr
  refine ⟨rfl, rfl, rfl, ?_⟩
  have hne : ∀ b ∈ w.held, r.ptr ≠ b.ptr := fun b hb => fresh_ne h6 h1 hb (h.wok.size b hb)
  have hb : blkOf r = ⟨r.tag, r.ptr, r.size⟩ := by unfold blkOf; rw [if_neg (by omega)]
  have e : asif u (r :: x.ext) ⟨⟨u, r.ptr, r.size⟩ :: w.held, w.mem⟩ = ⟨blkOf r :: (asif u x.ext w).held, (asif u x.ext w).mem⟩ := by
    show World.mk (reown u (r :: x.ext) ⟨u, r.ptr, r.size⟩ :: _) w.mem = World.mk (_ :: w.held.map _) w.mem
    congr 2
    · unfold reown Mgr.tagAt at?
      rw [if_pos rfl, List.find?_cons_of_pos (by simp), hb]
    · apply List.map_congr_left
      intro b hbm
      unfold reown Mgr.tagAt
      rw [at_cons (hne b hbm)]
  have hf : Fresh r.ptr (cap r.size) (ranges (asif u x.ext w).held) := by
    show Fresh _ _ (ranges (w.held.map _))
    rw [ranges_reown]
    unfold cap
    rw [if_neg (by omega)]
    exact h6
  have hO' := (hO.alloc ha h2 hf (by rw [if_neg (by omega)]; exact h5) (asif u x.ext w).mem).1 h4
  refine ⟨⟨bump st r.tag (·.add r.size), fun s => ?_, ?_⟩, fun y hy => ?_, fun b hb' ho => ?_, fun b hb' y hy => ?_, ?_⟩
  · show (rm.st s).cur < _ ∧ ((bump st r.tag (·.add r.size) s).cur : Int) = ((rm.st s).cur + extOf (r :: x.ext) s) % _
    have hs := hst s
    refine ⟨hs.1, ?_⟩
    rw [extOf_cons]
    by_cases he : s = r.tag
    · subst he
      rw [bump_same, if_pos rfl]
      have := add_cur (st r.tag) r.size
      omega
    · rw [bump_ne he, if_neg (fun h => he h.symm)]
      have := hs.2
      omega
  · show Ok Pl B c _ (asif u (r :: x.ext) _) (x.g.reg r)
    rw [e]
    exact hO'
  · rcases List.mem_cons.1 hy with rfl | hy
    · exact ⟨List.mem_cons_self, List.mem_cons_self, h1, h2, h3⟩
    · have := h.ext y hy
      exact ⟨List.mem_cons_of_mem _ this.1, List.mem_cons_of_mem _ this.2.1, this.2.2⟩
  · rcases List.mem_cons.1 hb' with rfl | hb'
    · exact ⟨r, List.mem_cons_self, rfl⟩
    · obtain ⟨y, hy, he⟩ := h.users b hb' ho
      exact ⟨y, List.mem_cons_of_mem _ hy, he⟩
  · rcases List.mem_cons.1 hy with rfl | hy
    · have hbh := hO.mem.un_held hb'
      obtain ⟨z, hz, rfl⟩ := List.mem_map.1 hbh
      rw [reown_ptr]
      exact fun he => hne z hz he.symm
    · exact h.un b hb' y hy
  · show (r.ptr :: x.ext.map (·.ptr)).Nodup
    refine List.nodup_cons.2 ⟨fun hm => ?_, h.nd⟩
    obtain ⟨y, hy, he⟩ := List.mem_map.1 hm
    exact hne _ (h.ext y hy).2.1 he.symm

theorem dropR_none {L : List Rec} {p : Nat} (h : ∀ r ∈ L, r.ptr ≠ p) : dropR p L = L := by
  unfold dropR
  rw [List.filter_eq_self]
  intro r hr
  exact decide_eq_true (h r hr)

theorem mem_dropR {L : List Rec} {p : Nat} {r : Rec} : r ∈ dropR p L ↔ r ∈ L ∧ r.ptr ≠ p := by
  unfold dropR
  rw [List.mem_filter, decide_eq_true_eq]

theorem okX_unreg_hit {r : Rec} {o : Option Rec} {rm' : RM} {w' : World} (h : OkX Pl B c u rm w x) (hr : r ∈ x.ext)
    (hrun : MP.Run Pl (deregisterExternal r.ptr rm) w (o, rm') w') :
    o = some r ∧ rm'.st = rm.st ∧ w' = w ∧ OkX Pl B c u rm' ⟨dropU u r.ptr w'.held, w'.mem⟩ (x.step c (.unreg r.ptr)) := by
  obtain ⟨st, hst, hO⟩ := h.ok
  have hx := h.ext r hr
  obtain ⟨a', f1, m1⟩ := hO.mem.dereg hx.1
  unfold deregisterExternal deregister at hrun
  have f1' : rm.amap.remove r.ptr = .ok a' r := f1
  rw [f1'] at hrun
  cases hrun
  refine ⟨rfl, rfl, rfl, ?_⟩
  have hdrop : dropU u r.ptr w.held = dropB r.ptr w.held := by
    unfold dropU dropB
    apply List.filter_congr
    intro b hb
    apply decide_eq_decide.2
    refine ⟨fun hn he => hn ⟨?_, he⟩, fun hn he => hn he.2⟩
    have : b = ⟨u, r.ptr, r.size⟩ := nodup_map_inj h.wok.nodup hb hx.2.1 he
    rw [this]
  have e : asif u (dropR r.ptr x.ext) ⟨dropU u r.ptr w.held, w.mem⟩ = ⟨dropB r.ptr (asif u x.ext w).held, (asif u x.ext w).mem⟩ := by
    show World.mk ((dropU u r.ptr w.held).map _) _ = World.mk (dropB r.ptr (w.held.map _)) _
    rw [hdrop, dropB_reown]
    congr 1
    apply List.map_congr_left
    intro b hb
    have hb' := of_decide_eq_true (List.mem_filter.1 hb).2
    unfold reown Mgr.tagAt
    rw [at_drop hb']
  have hbp := blkOf_ptr r
  have m2 := m1.give (asif u x.ext w).mem
  rw [hbp] at m2
  refine ⟨⟨bump st r.tag (·.sub r.size), fun s => ?_, ?_⟩, fun y hy => ?_, fun b hb' ho => ?_, fun b hb' y hy => ?_, ?_⟩
  · show (rm.st s).cur < _ ∧ ((bump st r.tag (·.sub r.size) s).cur : Int) = ((rm.st s).cur + extOf (dropR r.ptr x.ext) s) % _
    have hs := hst s
    refine ⟨hs.1, ?_⟩
    have hp : extOf (r :: dropR r.ptr x.ext) s = extOf x.ext s := by
      unfold extOf
      rw [lsum_perm (dropR_perm h.nd hr)]
    rw [extOf_cons] at hp
    by_cases he : s = r.tag
    · subst he
      rw [bump_same]
      rw [if_pos rfl] at hp
      have := sub_cur (st r.tag) r.size
      omega
    · rw [bump_ne he]
      rw [if_neg (fun h => he h.symm)] at hp
      have := hs.2
      omega
  · show Ok Pl B c _ (asif u (dropR r.ptr x.ext) _) (x.g.free r.ptr)
    rw [e]
    exact ⟨m2, hO.stat.free hO.mem.liveNodup hx.1 (hO.bound r.tag), hO.kids⟩
  · have hy' := mem_dropR.1 hy
    have := h.ext y hy'.1
    refine ⟨mem_dropR.2 ⟨this.1, hy'.2⟩, List.mem_filter.2 ⟨this.2.1, decide_eq_true fun he => hy'.2 he.2⟩, this.2.2⟩
  · have hb2 := List.mem_filter.1 hb'
    obtain ⟨y, hy, he⟩ := h.users b hb2.1 ho
    refine ⟨y, mem_dropR.2 ⟨hy, fun hp => of_decide_eq_true hb2.2 ⟨ho, ?_⟩⟩, he⟩
    rw [he]; exact hp
  · exact h.un b hb' y (mem_dropR.1 hy).1
  · exact h.nd.sublist (List.filter_sublist.map _)

theorem okX_unreg_miss {p : Nat} {o : Option Rec} {rm' : RM} {w' : World} (h : OkX Pl B c u rm w x) (hp : p < 2 ^ 64) (hn : ∀ r ∈ x.g.live, r.ptr ≠ p)
    (hrun : MP.Run Pl (deregisterExternal p rm) w (o, rm') w') :
    o = none ∧ rm'.st = rm.st ∧ w' = w ∧ OkX Pl B c u rm' ⟨dropU u p w'.held, w'.mem⟩ (x.step c (.unreg p)) := by
  obtain ⟨st, hst, hO⟩ := h.ok
  obtain ⟨a', f1, m1⟩ := hO.mem.dereg_none hp hn
  unfold deregisterExternal deregister at hrun
  have f1' : rm.amap.remove p = .throws a' := f1
  rw [f1'] at hrun
  cases hrun
  have hne : ∀ r ∈ x.ext, r.ptr ≠ p := fun r hr => hn r (h.ext r hr).1
  have hdrop : dropU u p w.held = w.held := by
    unfold dropU
    rw [List.filter_eq_self]
    intro b hb
    apply decide_eq_true
    intro he
    obtain ⟨r, hr, rfl⟩ := h.users b hb he.1
    exact hne r hr he.2
  have e1 : dropR p x.ext = x.ext := dropR_none hne
  have e2 : x.g.free p = x.g := by unfold Ghost.free; rw [dropR_none hn]
  refine ⟨rfl, rfl, rfl, ?_⟩
  show OkX Pl B c u _ _ ⟨x.g.free p, dropR p x.ext⟩
  rw [e1, e2, hdrop]
  exact ⟨⟨st, hst, m1, hO.stat, hO.kids⟩, h.ext, h.users, h.un, h.nd⟩
end

/-- The invariant holds after every history. -/
theorem histX_ok {Pl : Nat → Nat → Prop} {B : Nat → Prop} {c : Cfg} {u : Nat} {t : List EvX} {rm : RM} {w : World} (ha : Aligned Pl B)
    (hu : ∀ q, ¬Pl u q) (hz : u ≠ zero) (hh : HistX Pl c u t rm w) : OkX Pl B c u rm w (ghostX c t) := by
  induction hh with
  | new m =>
    refine ⟨⟨fun _ => Stat.new, fun s => ⟨(by decide : 0 < 18446744073709551616), rfl⟩, Ok.new Pl B c m⟩, fun r hr => ?_, fun b hb => ?_, fun b hb => ?_, List.nodup_nil⟩
    · cases hr
    · cases hb
    · cases hb
  | call _ hs ih => exact okX_call ha hu hz ih hs
  | reg _ h1 h2 h3 h4 h5 h6 hr ih => exact (okX_reg ha ih h1 h2 h3 h4 h5 h6 hr).2.2.2
  | @unreg t rm w p o rm' w' _ hp hg hr ih =>
    by_cases hex : ∃ r ∈ (ghostX c t).g.live, r.ptr = p
    · obtain ⟨r, hr', rfl⟩ := hex
      exact (okX_unreg_hit ih (hg r hr' rfl) hr).2.2.2
    · exact (okX_unreg_miss ih hp (fun r hr' he => hex ⟨r, hr', he⟩) hr).2.2.2
  | bytes m _ ih =>
    obtain ⟨st, hst, hO⟩ := ih.ok
    exact ⟨⟨st, hst, hO.memw m⟩, ih.ext, ih.users, ih.un, ih.nd⟩

end Umpire.Mgr
