import Verif.Manager.Move
/-!
# Histories of the facade layer
-/
set_option autoImplicit false
set_option linter.unusedSimpArgs false
namespace Umpire.Mgr
open Umpire.Judy

/-- A call and its outcome.

* `alloc s n o`: `allocate(n)` through allocator `s`, returning `o` (`none`: it threw).
* `free s p ok`: `deallocate(p)` through `s`.
* `freeAny p ok`: `ResourceManager::deallocate(p)`.
* `realloc s p n o`: `ResourceManager::reallocate(p, n, s)`.
* `reallocAny d p n o`: `ResourceManager::reallocate(p, n)`, the default allocator being `d`.
* `move p s o`, `copy d s n ok`, `memset p v n ok` of `ResourceManager`.
* `query p`: `getSize`, `getAllocator(void*)` or `hasAllocator`.
* `kid s n ok`, `kidFree s n m`: a strategy on top of `s` obtains `n` bytes, or hands
  back a block of `n` bytes announcing `m`. -/
inductive Ev where
  | alloc (s n : Nat) (o : Option Nat)
  | free (s p : Nat) (ok : Bool)
  | freeAny (p : Nat) (ok : Bool)
  | realloc (s p n : Nat) (o : Option Nat)
  | reallocAny (d p n : Nat) (o : Option Nat)
  | move (p s : Nat) (o : Option Nat)
  | copy (d s n : Nat) (ok : Bool)
  | memset (p : Nat) (v : Int) (n : Nat) (ok : Bool)
  | query (p : Nat)
  | kid (s n : Nat) (ok : Bool)
  | kidFree (s n m : Nat)

/-- The allocation that starts at `p`. -/
def at? (L : List Rec) (p : Nat) : Option Rec := L.find? fun r => decide (r.ptr = p)

def Ghost.realloc (c : Cfg) (g : Ghost) (s p n : Nat) (o : Option Nat) : Ghost :=
  if p = 0 then match o with
    | some q => g.alloc c s n q
    | none => g
  else match at? g.live p with
    | none => g
    | some r =>
      if r.tag ≠ s then g
      else if n = 0 then match o with
        | some q => (g.free p).alloc c s 0 q
        | none => g.free p
      else match o with
        | some q => g.resized c r n q
        | none => g.unresized c r

def Ghost.reallocAny (c : Cfg) (g : Ghost) (d p n : Nat) (o : Option Nat) : Ghost :=
  if p = 0 then g.realloc c d p n o else match at? g.live p with
    | none => g
    | some r => g.realloc c r.tag p n o

def Ghost.move (g : Ghost) (p s : Nat) (o : Option Nat) : Ghost :=
  match o with
  | none => g
  | some q => match at? g.live p with
    | none => g
    | some r => if r.tag = s then g else { g with live := ⟨q, r.size, s⟩ :: dropR p g.live }

/-- What a call changes, as far as its outcome tells. -/
def Ghost.step (c : Cfg) (g : Ghost) : Ev → Ghost
  | .alloc s n (some p) => g.alloc c s n p
  | .alloc _ _ none => g
  | .free s p true => if p = 0 then g else if c.tracked s then g.free p else { g with un := dropB p g.un }
  | .free _ _ false => g
  | .freeAny p true => g.free p
  | .freeAny _ false => g
  | .realloc s p n o => g.realloc c s p n o
  | .reallocAny d p n o => g.reallocAny c d p n o
  | .move p s o => g.move p s o
  | .copy .. => g
  | .memset .. => g
  | .query _ => g
  | .kid s n true => { g with acct := g.acct.kid s n }
  | .kid s n false => { g with acct := g.acct.kidFail s n }
  | .kidFree s n m => { g with acct := g.acct.kidFree s n m }

/-- The history is the newest event first. -/
def ghost (c : Cfg) : List Ev → Ghost
  | [] => Ghost.new
  | e :: t => (ghost c t).step c e

/-- `Hist Pl c t rm w`: the calls `t`, with these outcomes, can lead to `rm` and `w`.

Calls go through allocators other than the zero-byte pool; pointers are addresses; only
blocks held may be handed back through an untracked allocator; memory is moved to
tracked allocators only (see `move_untracked_leaks`); the blocks a strategy gives to its
children are disjoint parts of the address space, hence their sizes add up to less than
`AMax`. -/
inductive Hist (Pl : Nat → Nat → Prop) (c : Cfg) : List Ev → RM → World → Prop where
  | new (m : Nat → Nat) : Hist Pl c [] RM.new ⟨[], m⟩
  | alloc {t rm w s n o rm' w'} : Hist Pl c t rm w → s ≠ zero → MP.Run Pl (allocate c s n rm) w (o, rm') w' → Hist Pl c (.alloc s n o :: t) rm' w'
  | free {t rm w s p} {o : Option Unit} {rm' w'} : Hist Pl c t rm w → s ≠ zero → p < 2 ^ 64 →
      (c.tracked s = true ∨ p = 0 ∨ ∃ b ∈ (ghost c t).un, b.ptr = p ∧ (b.own = zero ∨ b.own = s)) →
      MP.Run Pl (deallocate c s p rm) w (o, rm') w' → Hist Pl c (.free s p o.isSome :: t) rm' w'
  | freeAny {t rm w p} {o : Option Unit} {rm' w'} : Hist Pl c t rm w → p < 2 ^ 64 →
      MP.Run Pl (deallocateAny c p rm) w (o, rm') w' → Hist Pl c (.freeAny p o.isSome :: t) rm' w'
  | realloc {t rm w s p n o rm' w'} : Hist Pl c t rm w → s ≠ zero → p < 2 ^ 64 →
      MP.Run Pl (reallocImpl c p n s rm) w (o, rm') w' → Hist Pl c (.realloc s p n o :: t) rm' w'
  | reallocAny {t rm w d p n o rm' w'} : Hist Pl c t rm w → d ≠ zero → p < 2 ^ 64 →
      MP.Run Pl (reallocate c d p n rm) w (o, rm') w' → Hist Pl c (.reallocAny d p n o :: t) rm' w'
  | move {t rm w p s o rm' w'} : Hist Pl c t rm w → s ≠ zero → c.tracked s = true → p < 2 ^ 64 →
      MP.Run Pl (Mgr.move c p s rm) w (o, rm') w' → Hist Pl c (.move p s o :: t) rm' w'
  | copy {t rm w d s n} {o : Option Unit} {rm' w'} : Hist Pl c t rm w → d < 2 ^ 64 → s < 2 ^ 64 →
      MP.Run Pl (Mgr.copy d s n rm) w (o, rm') w' → Hist Pl c (.copy d s n o.isSome :: t) rm' w'
  | memset {t rm w p v n} {o : Option Unit} {rm' w'} : Hist Pl c t rm w → p < 2 ^ 64 →
      MP.Run Pl (Mgr.memset p v n rm) w (o, rm') w' → Hist Pl c (.memset p v n o.isSome :: t) rm' w'
  | query {t rm w p o rm' w'} : Hist Pl c t rm w → p < 2 ^ 64 → MP.Run Pl (find p rm) w (o, rm') w' → Hist Pl c (.query p :: t) rm' w'
  | kid {t rm w s n ok o rm' w'} : Hist Pl c t rm w → ((ghost c t).acct.kids s).sum + n < AMax →
      MP.Run Pl (childAllocate s n rm) w (o, rm') w' → Hist Pl c (.kid s n ok :: t) rm' w'
  | kidFree {t rm w s n m o rm' w'} : Hist Pl c t rm w → n ∈ (ghost c t).acct.kids s →
      MP.Run Pl (childDeallocate s m rm) w (o, rm') w' → Hist Pl c (.kidFree s n m :: t) rm' w'
  | bytes {t rm w} (m : Nat → Nat) : Hist Pl c t rm w → Hist Pl c t rm ⟨w.held, m⟩

section
variable {Pl : Nat → Nat → Prop} {B : Nat → Prop} {c : Cfg} {rm : RM} {w : World} {g : Ghost}

theorem at_some {L : List Rec} {r : Rec} (nd : (L.map (·.ptr)).Nodup) (hr : r ∈ L) : at? L r.ptr = some r := by
  unfold at?
  cases hf : L.find? fun x => decide (x.ptr = r.ptr) with
  | none =>
    have := List.find?_eq_none.1 hf r hr
    simp at this
  | some x =>
    have h1 := List.mem_of_find?_eq_some hf
    have h2 := List.find?_some hf
    rw [nodup_map_inj nd h1 hr (of_decide_eq_true h2)]

theorem at_none {L : List Rec} {p : Nat} (h : ∀ r ∈ L, r.ptr ≠ p) : at? L p = none := by
  unfold at?
  rw [List.find?_eq_none]
  intro r hr
  simpa using h r hr

/-- An address inside an allocation, but not its first, is not the first of another. -/
theorem Ok.interior (h : Ok Pl B c rm w g) {r : Rec} {p : Nat} (hr : r ∈ g.live) (hc : Contains r p) (hne : p ≠ r.ptr) : ∀ x ∈ g.live, x.ptr ≠ p := by
  intro x hx he
  have : x = r := apart_eq h.mem.apart hx hr (he ▸ contains_base x) hc
  subst this
  exact hne he.symm

theorem deallocateAny_ok {p : Nat} (h : Ok Pl B c rm w g) (hp : p < 2 ^ 64) :
    wpM Pl (deallocateAny c p) rm w fun o rm' w' => Ok Pl B c rm' w' (if o.isSome then g.free p else g) := by
  unfold deallocateAny getOwner
  apply wpM_bind
  apply wpM_bind
  apply find_spec h hp
  · intro r rm1 hr hc h1 _
    dsimp only
    apply wpM_pure
    dsimp only
    by_cases he : p = r.ptr
    · subst he
      exact deallocate_hit h1 hr fun m rm' _ h2 _ => h2
    · have hno := h.interior hr hc he
      refine deallocate_miss h1 (h.mem.tag r hr).2 ?_ hp (fun x hx hxp => hno x hx hxp.1) fun rm' h2 _ => h2
      have := (h.mem.rec_lt hr).1
      have := hc.1
      omega
  · intro rm1 _ _ h1 _
    exact h1

theorem reallocImpl_ok {s p n : Nat} (h : Ok Pl B c rm w g) (ha : Aligned Pl B) (hs : s ≠ zero) (hp : p < 2 ^ 64) :
    wpM Pl (reallocImpl c p n s) rm w fun o rm' w' => Ok Pl B c rm' w' (g.realloc c s p n o) := by
  unfold reallocImpl Ghost.realloc
  by_cases h0 : p = 0
  · rw [if_pos h0]
    simp only [if_pos h0]
    apply allocate_spec h ha hs
    · intro q m rm' _ _ _ h1 _; exact h1
    · intro m _ h1; exact h1
  · rw [if_neg h0]
    simp only [if_neg h0]
    apply wpM_bind
    apply find_spec h hp
    · intro r rm1 hr hc h1 _
      dsimp only
      by_cases he : p = r.ptr
      · subst he
        rw [at_some h.mem.liveNodup hr]
        dsimp only
        by_cases ht : r.tag = s
        · rw [if_neg (by simpa using ht)]
          simp only [if_neg (show ¬(r.tag ≠ s) by simpa using ht)]
          subst ht
          by_cases hn : n = 0
          · rw [if_pos hn]
            simp only [if_pos hn]
            apply wpM_bind
            apply deallocate_hit h1 hr
            intro m rm2 _ h2 _
            subst hn
            apply allocate_spec h2 ha hs
            · intro q m rm' _ _ _ h3 _; exact h3
            · intro m _ h3; exact h3
          · rw [if_neg hn]
            simp only [if_neg hn]
            rw [if_neg (by simp)]
            apply realloc_spec h1 ha hr hn
            · intro q m rm' _ _ h2 _; exact h2
            · intro m rm' _ _ h2; exact h2
        · rw [if_pos ht]
          simp only [if_pos ht]
          exact h1
      · have hno := h.interior hr hc he
        rw [at_none hno]
        dsimp only
        by_cases ht : r.tag = s
        · rw [if_neg (by simpa using ht)]
          by_cases hn : n = 0
          · rw [if_pos hn]
            apply wpM_bind
            exact deallocate_miss h1 (h.mem.tag r hr).2 h0 hp (fun x hx hxp => hno x hx hxp.1) fun rm' h2 _ => h2
          · rw [if_neg hn, if_pos he]
            exact h1
        · rw [if_pos ht]
          exact h1
    · intro rm1 hno _ h1 _
      dsimp only
      rw [at_none hno]
      exact h1

theorem reallocate_ok {d p n : Nat} (h : Ok Pl B c rm w g) (ha : Aligned Pl B) (hs : d ≠ zero) (hp : p < 2 ^ 64) :
    wpM Pl (reallocate c d p n) rm w fun o rm' w' => Ok Pl B c rm' w' (g.reallocAny c d p n o) := by
  unfold reallocate Ghost.reallocAny
  by_cases h0 : p = 0
  · rw [if_pos h0]
    simp only [if_pos h0]
    exact reallocImpl_ok h ha hs hp
  · rw [if_neg h0]
    simp only [if_neg h0]
    apply wpM_bind
    apply find_spec h hp
    · intro r rm1 hr hc h1 _
      dsimp only
      refine wpM_mono (reallocImpl_ok h1 ha (h.mem.tag r hr).1 hp) ?_
      intro o rm' w' h2
      by_cases he : p = r.ptr
      · subst he
        rw [at_some h.mem.liveNodup hr]
        exact h2
      · have hno := h.interior hr hc he
        unfold Ghost.realloc at h2
        rw [if_neg h0] at h2
        rw [at_none hno] at h2 ⊢
        exact h2
    · intro rm1 hno _ h1 _
      dsimp only
      rw [at_none hno]
      exact h1

theorem move_spec {r : Rec} {s : Nat} (h : Ok Pl B c rm w g) (ha : Aligned Pl B) (hs : s ≠ zero) (ht : c.tracked s = true) (hr : r ∈ g.live)
    (hne : r.tag ≠ s) {Q : Option Nat → RM → World → Prop}
    (hok : ∀ q m rm', Fresh q (cap r.size) (ranges w.held) → Carried w r q r.size m →
      Ok Pl B c rm' ⟨blkOf ⟨q, r.size, s⟩ :: dropB r.ptr w.held, m⟩ { g with live := ⟨q, r.size, s⟩ :: dropR r.ptr g.live } →
      rm'.st = bump (bump rm.st s (·.add r.size)) r.tag (·.sub r.size) → Q (some q) rm' ⟨blkOf ⟨q, r.size, s⟩ :: dropB r.ptr w.held, m⟩)
    (hfail : ∀ m rm', rm'.st = rm.st → Agree w.held w.mem m → Ok Pl B c rm' ⟨w.held, m⟩ g → Q none rm' ⟨w.held, m⟩) :
    wpM Pl (move c r.ptr s) rm w Q := by
  unfold move
  apply wpM_bind
  apply find_base h hr
  intro rm1 h1 hst
  dsimp only
  rw [if_neg hne, if_neg (by simp)]
  refine relocate_spec h1 ha hs ht hr ?_ (frees_any r) (fun q m rm' h2 h3 h4 h5 _ => hok q m rm' h2 h3 h4 (by rw [h5, hst])) ?_
  · rw [if_pos rfl]; omega
  · intro m hag h2
    exact hfail m rm1 hst hag h2

theorem move_ok {p s : Nat} (h : Ok Pl B c rm w g) (ha : Aligned Pl B) (hs : s ≠ zero) (ht : c.tracked s = true) (hp : p < 2 ^ 64) :
    wpM Pl (move c p s) rm w fun o rm' w' => Ok Pl B c rm' w' (g.move p s o) := by
  by_cases hb : ∃ r ∈ g.live, r.ptr = p ∧ r.tag ≠ s
  · obtain ⟨r, hr, rfl, hne⟩ := hb
    apply move_spec h ha hs ht hr hne
    · intro q m rm' _ _ h1 _
      unfold Ghost.move
      dsimp only
      rw [at_some h.mem.liveNodup hr]
      dsimp only
      rw [if_neg hne]
      exact h1
    · intro m rm' _ _ h1; exact h1
  · have hkeep : ∀ o, g.move p s o = g := by
      intro o
      unfold Ghost.move
      cases o with
      | none => rfl
      | some q =>
        dsimp only
        by_cases hex : ∃ r ∈ g.live, r.ptr = p
        · obtain ⟨r, hr, rfl⟩ := hex
          rw [at_some h.mem.liveNodup hr]
          dsimp only
          by_cases hrs : r.tag = s
          · rw [if_pos hrs]
          · exact absurd ⟨r, hr, rfl, hrs⟩ hb
        · rw [at_none fun r hr he => hex ⟨r, hr, he⟩]
    simp only [hkeep]
    unfold move
    apply wpM_bind
    apply find_spec h hp
    · intro r rm1 hr hc h1 _
      dsimp only
      by_cases hrs : r.tag = s
      · rw [if_pos hrs]; exact h1
      · rw [if_neg hrs]
        by_cases he : p = r.ptr
        · exact absurd ⟨r, hr, he.symm, hrs⟩ hb
        · rw [if_pos he]; exact h1
    · intro rm1 _ _ h1 _
      exact h1

/-- `copy` changes bytes only, whatever it is given. -/
theorem copy_run {d s n : Nat} {o : Option Unit} {rm' : RM} {w' : World} (h : Ok Pl B c rm w g) (hr : MP.Run Pl (copy d s n rm) w (o, rm') w') :
    Ok Pl B c rm' w' g := by
  have h1 := h.seek s
  have h2 := h1.seek d
  have e : copy d s n rm = match (rm.amap.findRecord s).2 with
      | none => .ret (none, { rm with amap := (rm.amap.findRecord s).1 })
      | some rs => match ((rm.amap.findRecord s).1.findRecord d).2 with
        | none => .ret (none, { rm with amap := ((rm.amap.findRecord s).1.findRecord d).1 })
        | some rd =>
          if (if n = 0 then rs.size - (s - rs.ptr) else n) > rd.size - (d - rd.ptr) then .ret (none, { rm with amap := ((rm.amap.findRecord s).1.findRecord d).1 })
          else .memcpy d s (if n = 0 then rs.size - (s - rs.ptr) else n) (.ret (some (), { rm with amap := ((rm.amap.findRecord s).1.findRecord d).1 })) := by
    unfold copy
    simp only [bind, M.bind, find, MP.bind]
    cases (rm.amap.findRecord s).2 with
    | none => rfl
    | some rs =>
      dsimp only
      cases ((rm.amap.findRecord s).1.findRecord d).2 with
      | none => rfl
      | some rd =>
        dsimp only
        generalize (if n = 0 then rs.size - (s - rs.ptr) else n) = len
        split <;> rfl
  rw [e] at hr
  cases hf : (rm.amap.findRecord s).2 with
  | none => rw [hf] at hr; cases hr; exact h1
  | some rs =>
    rw [hf] at hr
    dsimp only at hr
    cases hf' : ((rm.amap.findRecord s).1.findRecord d).2 with
    | none => rw [hf'] at hr; cases hr; exact h2
    | some rd =>
      rw [hf'] at hr
      dsimp only at hr
      by_cases hgt : (if n = 0 then rs.size - (s - rs.ptr) else n) > rd.size - (d - rd.ptr)
      · rw [if_pos hgt] at hr; cases hr; exact h2
      · rw [if_neg hgt] at hr
        cases hr with
        | memcpy hr => cases hr; exact h2.memw _

theorem hist_ok {t : List Ev} (ha : Aligned Pl B) (hh : Hist Pl c t rm w) : Ok Pl B c rm w (ghost c t) := by
  induction hh with
  | new m => exact Ok.new Pl B c m
  | @alloc t rm w s n o rm' w' _ hs hr ih =>
    refine wpM_run (Q := fun o rm' w' => Ok Pl B c rm' w' ((ghost c t).step c (.alloc s n o))) (allocate_spec ih ha hs ?_ ?_) hr
    · intro p m rm' _ _ _ h _; exact h
    · intro m _ h; exact h
  | @free t rm w s p o rm' w' _ hs hp hg hr ih =>
    refine wpM_run (Q := fun o rm' w' => Ok Pl B c rm' w' ((ghost c t).step c (.free s p o.isSome))) ?_ hr
    show wpM Pl (deallocate c s p) rm w fun o rm' w' => Ok Pl B c rm' w' ((ghost c t).step c (.free s p o.isSome))
    by_cases h0 : p = 0
    · subst h0
      exact deallocate_null ih
    · by_cases ht : c.tracked s = true
      · by_cases hit : ∃ r ∈ (ghost c t).live, r.ptr = p ∧ r.tag = s
        · obtain ⟨r, hr', rfl, rfl⟩ := hit
          apply deallocate_hit ih hr'
          intro m rm' _ h _
          show Ok Pl B c _ _ (if r.ptr = 0 then _ else if _ then _ else _)
          rw [if_neg h0, if_pos ht]
          exact h
        · exact deallocate_miss ih ht h0 hp (fun r hr' he => hit ⟨r, hr', he⟩) fun rm' h _ => h
      · obtain ⟨b, hb, rfl, hob⟩ := (hg.resolve_left ht).resolve_left h0
        have nd : ((ghost c t).un.map (·.ptr)).Nodup := by
          have := ih.mem.allNodup
          rw [List.map_append] at this
          exact (List.nodup_append.1 this).2.1
        apply deallocate_untracked ih (by simpa using ht) (dropB_cons nd hb).symm hob
        intro m _ h
        show Ok Pl B c _ _ (if b.ptr = 0 then _ else if _ then _ else _)
        rw [if_neg h0, if_neg ht]
        exact h
  | @freeAny t rm w p o rm' w' _ hp hr ih =>
    refine wpM_run (Q := fun o rm' w' => Ok Pl B c rm' w' ((ghost c t).step c (.freeAny p o.isSome))) ?_ hr
    refine wpM_mono (deallocateAny_ok ih hp) ?_
    intro o rm' w' h
    cases o with
    | none => exact h
    | some _ => exact h
  | realloc _ hs hp hr ih => exact wpM_run (reallocImpl_ok ih ha hs hp) hr
  | reallocAny _ hs hp hr ih => exact wpM_run (reallocate_ok ih ha hs hp) hr
  | move _ hs ht hp hr ih => exact wpM_run (move_ok ih ha hs ht hp) hr
  | copy _ _ _ hr ih => exact copy_run ih hr
  | @memset t rm w p v n o rm' w' _ hp hr ih =>
    refine wpM_run (Q := fun _ rm' w' => Ok Pl B c rm' w' (ghost c t)) (memset_spec ih hp ?_ ?_) hr
    · intro r rm' _ _ h _
      exact ⟨fun _ => h.memw _, fun _ => h⟩
    · intro rm' _ _ h _; exact h
  | @query t rm w p o rm' w' _ hp hr ih =>
    refine wpM_run (Q := fun _ rm' w' => Ok Pl B c rm' w' (ghost c t)) (find_spec ih hp ?_ ?_) hr
    · intro r rm' _ _ h _; exact h
    · intro rm' _ _ h _; exact h
  | @kid t rm w s n ok o rm' w' _ hb hr ih =>
    cases hr
    cases ok with
    | true =>
      refine ⟨ih.mem, ih.stat.kid s n, fun x => ?_⟩
      show ((upd (ghost c t).acct.kids s (n :: (ghost c t).acct.kids s)) x).sum < AMax
      by_cases hx : x = s
      · subst hx; rw [upd_same, List.sum_cons]; omega
      · rw [upd_ne hx]; exact ih.kids x
    | false => exact ⟨ih.mem, ih.stat.kidFail s n, ih.kids⟩
  | @kidFree t rm w s n m o rm' w' _ hn hr ih =>
    cases hr
    refine ⟨ih.mem, ih.stat.kidFree hn (ih.bound s), fun x => ?_⟩
    show ((upd (ghost c t).acct.kids s ((ghost c t).acct.kids s |>.erase n)) x).sum < AMax
    by_cases hx : x = s
    · subst hx
      rw [upd_same]
      have := sum_erase hn
      have := ih.kids x
      omega
    · rw [upd_ne hx]; exact ih.kids x
  | bytes m _ ih => exact ih.memw m

end
end Umpire.Mgr
