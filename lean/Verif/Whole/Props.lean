import Verif.Whole.Play
import Verif.Manager.Props
import Verif.Nest.Props
/-!
# The facade and the strategies together (C64)

`CHist c t rm S` (`Verif.Whole.Model`): the calls `t` with their outcomes, carried out by
the models of the strategies down to the memory resources, can lead to the state `rm` of
the `ResourceManager` and the states `S` of all strategies.  `liveOf c t` are the live
allocations according to the calls and outcomes alone.
-/
set_option autoImplicit false
set_option linter.unusedSimpArgs false
namespace Umpire.Whole
open Umpire.Prog Umpire.Nest Umpire.Mgr Umpire.Judy

variable {L : Lay} {c : Mgr.Cfg} {t : List Mgr.Ev} {rm : RM} {S : St L} {β : Type}

/-- `m` has no undefined behaviour, at any layer, and its outcome satisfies `Q`. -/
def FSure (m : M β) (rm : RM) (S : St L) (Q : Option β → RM → St L → Prop) : Prop :=
  ¬FGoes (m rm) S ∧ ∀ o rm' S', FRun (m rm) S (o, rm') S' → Q o rm' S'

/-- The answers of `getSize`, `getAllocator(void*)` and `hasAllocator` for an address. -/
def FAnswers (rm : RM) (S : St L) (q : Nat) (o : Option Rec) : Prop :=
  FSure (getSize q) rm S (fun a _ S' => a = o.map (·.size) ∧ S' = S) ∧
  FSure (getOwner q) rm S (fun a _ S' => a = o.map (·.tag) ∧ S' = S) ∧
  FSure (hasAllocator q) rm S (fun a _ S' => a = some o.isSome ∧ S' = S)

/-- The other live allocations are as before: known, and their bytes unchanged. -/
def FOthers (live : List Rec) (p : Nat) (S : St L) (rm' : RM) (S' : St L) : Prop :=
  ∀ x ∈ live, x.ptr ≠ p → FAnswers rm' S' x.ptr (some x) ∧ ∀ i, i < x.size → S'.mem (x.ptr + i) = S.mem (x.ptr + i)

/-- The strategies with an id have the same users as before. -/
def FSame (S S' : St L) : Prop := ∀ s x, L.place s = some x → ∀ u, u ∈ S'.user x ↔ u ∈ S.user x

/-- A `reallocate` that threw. -/
def Failed : Mgr.Ev → Prop
  | .realloc _ _ _ none => True
  | .reallocAny _ _ _ none => True
  | _ => False

theorem transfer (hL : L.Ok) (ht : ∀ s, c.tracked s = true) (h : CHist c t rm S) {m : M β} (hf : Fits L m rm) {Q : Option β → RM → St L → Prop}
    (hq : ∀ w, Hist anywhere c t rm w → Rel S w → Sure anywhere m rm w fun o rm' w' => ∀ S', Rel S' w' → Q o rm' S') : FSure m rm S Q := by
  obtain ⟨w, h1, h2⟩ := sim_hist hL ht h
  obtain ⟨h3, h4⟩ := hq w h1 h2
  refine ⟨fun hg => h3 (sim_goes hL hg h2 hf), fun o rm' S' hr => ?_⟩
  obtain ⟨w', h5, h6⟩ := sim_run hL hr h2
  exact h4 o rm' w' h5 S' h6

theorem pure_sure {m : M β} {y : Option β × RM} (hy : m rm = .ret y) {w : Mgr.World} {P : Option β → Prop}
    (h : Sure anywhere m rm w fun a _ w' => P a ∧ w' = w) : FSure m rm S fun a _ S' => P a ∧ S' = S := by
  have h2 := h.2
  refine ⟨fun hg => ?_, fun o rm' S' hr => ?_⟩
  · rw [hy] at hg; cases hg
  · rw [hy] at hr
    cases hr
    refine ⟨?_, rfl⟩
    exact (h2 o rm' w (by rw [hy]; exact .ret)).1

theorem ret_bind {β γ : Type} {m : M β} {f : β → M γ} {y : Option β × RM} (hy : m rm = .ret y) (hf : ∀ b rm', ∃ z, f b rm' = .ret z) :
    ∃ z, (m >>= f) rm = .ret z := by
  obtain ⟨o, rm'⟩ := y
  show ∃ z, (m rm).bind _ = .ret z
  rw [hy]
  cases o with
  | none => exact ⟨_, rfl⟩
  | some b => exact hf b rm'

theorem answers_whole {w : Mgr.World} {q : Nat} {o : Option Rec} (h : Answers anywhere rm w q o) (S : St L) : FAnswers rm S q o := by
  have hf : find q rm = .ret ((rm.amap.findRecord q).2, { rm with amap := (rm.amap.findRecord q).1 }) := rfl
  refine ⟨?_, ?_, ?_⟩
  · obtain ⟨z, hz⟩ : ∃ z, getSize q rm = .ret z := ret_bind hf fun b rm' => ⟨_, rfl⟩
    exact pure_sure hz h.1
  · obtain ⟨z, hz⟩ : ∃ z, getOwner q rm = .ret z := ret_bind hf fun b rm' => ⟨_, rfl⟩
    exact pure_sure hz h.2.1
  · exact pure_sure rfl h.2.2

theorem others_whole {w w' : Mgr.World} {live : List Rec} {p : Nat} {rm' : RM} {S' : St L} (h : Others anywhere live p w rm' w') (h1 : Rel S w)
    (h2 : Rel S' w') : FOthers live p S rm' S' := by
  intro x hx hne
  obtain ⟨a, b⟩ := h x hx hne
  rw [h1.mem, h2.mem] at b
  exact ⟨answers_whole a S', b⟩

theorem same_whole {w w' : Mgr.World} {S' : St L} (h : w'.held = w.held) (h1 : Rel S w) (h2 : Rel S' w') : FSame S S' := by
  intro s x hx u
  have e1 := h1.held ⟨s, u.1, u.2⟩
  have e2 := h2.held ⟨s, u.1, u.2⟩
  rw [h] at e2
  have e : ∀ T : St L, (∃ y, L.place s = some y ∧ (u.1, u.2) ∈ T.user y) ↔ u ∈ T.user x := by
    intro T
    constructor
    · rintro ⟨y, hy, hu⟩
      rw [hx] at hy
      injection hy with hy
      subst hy
      exact hu
    · exact fun hu => ⟨x, hx, hu⟩
  exact (e S').symm.trans (e2.symm.trans (e1.trans (e S)))

/-! ## What the strategies hold is what the calls say -/

theorem un_step (ht : ∀ s, c.tracked s = true) {g : Ghost} {e : Mgr.Ev} (hg : g.un = []) (he : ¬Failed e) : (g.step c e).un = [] := by
  have ha : ∀ g : Ghost, g.un = [] → ∀ s n p, (g.alloc c s n p).un = [] := by
    intro g hg s n p
    unfold Ghost.alloc
    rw [if_pos (ht s)]
    exact hg
  have hr : ∀ s p n q, (g.realloc c s p n (some q)).un = [] := by
    intro s p n q
    unfold Ghost.realloc
    split
    · exact ha g hg s n q
    · split
      · exact hg
      · split
        · exact hg
        · split
          · exact ha (g.free p) hg s 0 q
          · exact hg
  cases e with
  | alloc s n o =>
    cases o with
    | none => exact hg
    | some p => exact ha g hg s n p
  | free s p ok =>
    cases ok with
    | false => exact hg
    | true =>
      show (if p = 0 then g else if c.tracked s then g.free p else { g with un := dropB p g.un }).un = []
      rw [if_pos (ht s)]
      split <;> exact hg
  | freeAny p ok => cases ok <;> exact hg
  | realloc s p n o =>
    cases o with
    | none => exact absurd trivial he
    | some q => exact hr s p n q
  | reallocAny d p n o =>
    cases o with
    | none => exact absurd trivial he
    | some q =>
      show (g.reallocAny c d p n (some q)).un = []
      unfold Ghost.reallocAny
      split
      · exact hr d p n q
      · split
        · exact hg
        · exact hr _ p n q
  | move p s o =>
    show (g.move p s o).un = []
    unfold Ghost.move
    split
    · exact hg
    · split
      · exact hg
      · split <;> exact hg
  | copy => exact hg
  | memset => exact hg
  | query => exact hg
  | kid s n ok => cases ok <;> exact hg
  | kidFree => exact hg

theorem un_nil (ht : ∀ s, c.tracked s = true) : ∀ {t : List Mgr.Ev}, (∀ e ∈ t, ¬Failed e) → (ghost c t).un = []
  | [], _ => rfl
  | e :: _, h => un_step ht (un_nil ht fun x hx => h x (List.mem_cons_of_mem _ hx)) (h e List.mem_cons_self)

theorem live_user {w : Mgr.World} {g : Ghost} (h : Ok anywhere (fun _ => False) c rm w g) (hr : Rel S w) {r : Rec} (hm : r ∈ g.live) :
    ∃ x, L.place (if r.size = 0 then zero else r.tag) = some x ∧ (r.ptr, max r.size 1) ∈ S.user x := by
  obtain ⟨x, h1, h2⟩ := (hr.held _).1 (h.mem.mem_held hm)
  refine ⟨x, ?_, ?_⟩
  · rw [← h1]
    unfold blkOf
    split <;> rfl
  · have : ((blkOf r).ptr, (blkOf r).size) = (r.ptr, max r.size 1) := by
      unfold blkOf
      split
      · rename_i h0; rw [h0]; rfl
      · have : max r.size 1 = r.size := by omega
        rw [this]
    rwa [← this]

/-- **C64**: provided that no `reallocate` has failed (one that fails may lose the record of
memory, see C32), every layer has the same opinion about what is live: the users of the
strategy with id `s` have exactly the allocations that calls through the allocator `s`
returned and nothing has freed since; the users of the zero-byte pool have exactly the
addresses returned for requests of zero bytes. -/
theorem whole_ledger_partial (hL : L.Ok) (ht : ∀ s, c.tracked s = true) (h : CHist c t rm S) (hf : ∀ e ∈ t, ¬Failed e) :
    (∀ s x, s ≠ zero → L.place s = some x → ∀ p n, (p, n) ∈ S.user x ↔ 0 < n ∧ ⟨p, n, s⟩ ∈ liveOf c t) ∧
    (∀ x, L.place zero = some x → ∀ p n, (p, n) ∈ S.user x ↔ n = 1 ∧ ∃ s, ⟨p, 0, s⟩ ∈ liveOf c t) := by
  obtain ⟨w, h1, h2⟩ := sim_hist hL ht h
  have hk := hist_ok (aligned_none anywhere) h1
  have hh : ∀ b, b ∈ w.held ↔ ∃ r ∈ liveOf c t, blkOf r = b := by
    intro b
    rw [hk.mem.perm.mem_iff, un_nil ht hf, List.append_nil, List.mem_map]
    exact Iff.rfl
  have key : ∀ s x, L.place s = some x → ∀ p n, (p, n) ∈ S.user x ↔ ∃ r ∈ liveOf c t, blkOf r = ⟨s, p, n⟩ := by
    intro s x hx p n
    rw [← hh, h2.held]
    constructor
    · exact fun hu => ⟨x, hx, hu⟩
    · rintro ⟨y, hy, hu⟩
      have : L.place s = some y := hy
      rw [hx] at this
      injection this with this
      subst this
      exact hu
  constructor
  · intro s x hs hx p n
    rw [key s x hx]
    constructor
    · rintro ⟨⟨rp, rs, rt⟩, hr, hb⟩
      unfold blkOf at hb
      split at hb
      · injection hb with e1 e2 e3
        exact absurd e1.symm hs
      · rename_i h0
        injection hb with e1 e2 e3
        dsimp only at e1 e2 e3 h0
        subst e1; subst e2; subst e3
        exact ⟨by omega, hr⟩
    · rintro ⟨h0, hr⟩
      refine ⟨_, hr, ?_⟩
      unfold blkOf
      rw [if_neg (by dsimp only; omega)]
  · intro x hx p n
    rw [key zero x hx]
    constructor
    · rintro ⟨⟨rp, rs, rt⟩, hr, hb⟩
      unfold blkOf at hb
      split at hb
      · rename_i h0
        injection hb with e1 e2 e3
        dsimp only at e1 e2 e3 h0
        subst e2; subst e3; subst h0
        exact ⟨rfl, rt, hr⟩
      · injection hb with e1 e2 e3
        exact absurd e1 (hk.mem.tag _ hr).1
    · rintro ⟨rfl, s, hr⟩
      exact ⟨_, hr, rfl⟩

/-- **C64**: live allocations do not overlap, whatever strategies they come from; each lies
in memory that is held from the resource under its allocator (zero-byte ones in memory of
the resource without access permissions, of which nothing else is a part). -/
theorem whole_memory_partial (hL : L.Ok) (ht : ∀ s, c.tracked s = true) (h : CHist c t rm S) :
    (liveOf c t).Pairwise (fun a b => Disj a.ptr (max a.size 1) b.ptr (max b.size 1)) ∧
    (∀ r ∈ liveOf c t, r.ptr ≠ 0 ∧ r.ptr + r.size ≤ AMax) ∧
    (∀ r ∈ liveOf c t, r.size ≠ 0 → ∃ x, L.spot r.tag = some x ∧ ∃ o ∈ S.H (x.1 + 1), o.1 ≤ r.ptr ∧ r.ptr + r.size ≤ o.1 + o.2) ∧
    (∀ r ∈ liveOf c t, r.size = 0 → ∃ o ∈ S.H 0, o.1 ≤ r.ptr ∧ r.ptr < o.1 + o.2) ∧
    (∀ i k, i ≠ k → ∀ x ∈ S.H i, ∀ y ∈ S.H k, Disj x.1 x.2 y.1 y.2) := by
  obtain ⟨w, h1, h2⟩ := sim_hist hL ht h
  have hk := hist_ok (aligned_none anywhere) h1
  have hs := Sane.of hL h2.reach
  have hc : ∀ r ∈ liveOf c t, ∃ x, L.place (if r.size = 0 then zero else r.tag) = some x ∧
      ∃ o ∈ S.H x.1, Within r.ptr (max r.size 1) o.1 o.2 := by
    intro r hr
    obtain ⟨x, h3, h4⟩ := live_user hk h2 hr
    obtain ⟨o, h5, h6⟩ := hs.cov x _ h4
    exact ⟨x, h3, o, h5, h6⟩
  refine ⟨?_, fun r hr => ?_, fun r hr h0 => ?_, fun r hr h0 => ?_, hs.apart⟩
  · have hp : ((liveOf c t).map blkOf).Pairwise BDisj := by
      have := (hk.mem.perm.pairwise_iff (fun {x y} (h : BDisj x y) => (Disj.symm h : BDisj y x))).1 hk.mem.disj
      exact (List.pairwise_append.1 this).1
    rw [List.pairwise_map] at hp
    refine hp.imp fun {a b} hd => ?_
    have e : ∀ r : Rec, (blkOf r).ptr = r.ptr ∧ (blkOf r).size = max r.size 1 := by
      intro r
      unfold blkOf
      split
      · rename_i h0; rw [h0]; exact ⟨rfl, rfl⟩
      · exact ⟨rfl, by show r.size = _; omega⟩
    unfold BDisj at hd
    rwa [(e a).1, (e a).2, (e b).1, (e b).2] at hd
  · have hb := hk.mem.blk _ (hk.mem.mem_held hr)
    have e1 := blkOf_ptr r
    have e2 := (blkOf_size r).1
    exact ⟨by rw [← e1]; exact hb.1, by have := hb.2.2.1; omega⟩
  · obtain ⟨x, h3, o, h4, h5⟩ := hc r hr
    rw [if_neg h0] at h3
    unfold Lay.place at h3
    rw [if_neg (hk.mem.tag r hr).1] at h3
    cases hp : L.spot r.tag with
    | none => rw [hp] at h3; cases h3
    | some y =>
      rw [hp] at h3
      injection h3 with h3
      subst h3
      refine ⟨y, rfl, o, h4, ?_⟩
      unfold Within at h5
      omega
  · obtain ⟨x, h3, o, h4, h5⟩ := hc r hr
    rw [if_pos h0] at h3
    unfold Lay.place at h3
    rw [if_pos rfl] at h3
    injection h3 with h3
    subst h3
    refine ⟨o, h4, ?_⟩
    unfold Within at h5
    omega

/-! ## No call has undefined behaviour -/

theorem dealloc_safe {w : Mgr.World} (hh : Hist anywhere c t rm w) (ht : ∀ s, c.tracked s = true) {s p : Nat} (hp : p < 2 ^ 64) :
    Mgr.Sure anywhere (deallocate c s p) rm w fun _ _ _ => True := by
  by_cases h0 : p = 0
  · subst h0
    apply sure_of
    unfold deallocate
    rw [if_pos rfl]
    exact wpM_pure trivial
  · by_cases hx : ∃ r ∈ liveOf c t, r.ptr = p ∧ r.tag = s
    · obtain ⟨r, hr, rfl, rfl⟩ := hx
      exact ⟨(deallocate_forgets hh hr).1, fun _ _ _ _ => trivial⟩
    · exact ⟨(wrong_deallocate hh (ht s) hp h0 fun r hr he => hx ⟨r, hr, he⟩).1, fun _ _ _ _ => trivial⟩

theorem found_live {w : Mgr.World} (hh : Hist anywhere c t rm w) {p : Nat} (hp : p < 2 ^ 64) {P : Rec → Prop}
    (h : ∀ r ∈ liveOf c t, Contains r p → P r) : ∀ r, (rm.amap.findRecord p).2 = some r → P r := by
  intro r hr
  obtain ⟨h1, h2⟩ := ((hist_ok (aligned_none anywhere) hh).mem.find_sound hp).1 r hr
  exact h r h1 h2

/-- **C64**: whatever has happened before, none of these calls has undefined behaviour at any
layer: no strategy is handed memory it did not give out or a request it cannot handle, no
resource memory it did not give out, no memory is touched that nobody has.  (`copy` is
missing: its source range is not checked, see C30.) -/
theorem whole_safe_partial (hL : L.Ok) (ht : ∀ s, c.tracked s = true) (h : CHist c t rm S) :
    (∀ s n, s ≠ zero → L.Takes s n → ¬FGoes (allocate c s n rm) S) ∧
    (∀ s p, p < 2 ^ 64 → ¬FGoes (deallocate c s p rm) S) ∧
    (∀ p, p < 2 ^ 64 → ¬FGoes (deallocateAny c p rm) S) ∧
    (∀ s p n, s ≠ zero → p < 2 ^ 64 → L.Takes s n → ¬FGoes (reallocImpl c p n s rm) S) ∧
    (∀ d p n, d ≠ zero → p < 2 ^ 64 → L.Takes d n → (∀ r ∈ liveOf c t, Contains r p → L.Takes r.tag n) → ¬FGoes (reallocate c d p n rm) S) ∧
    (∀ p s, s ≠ zero → p < 2 ^ 64 → (∀ r ∈ liveOf c t, Contains r p → L.Takes s r.size) → ¬FGoes (move c p s rm) S) ∧
    (∀ p v n, p < 2 ^ 64 → ¬FGoes (memset p v n rm) S) := by
  obtain ⟨w0, hw0, -⟩ := sim_hist hL ht h
  refine ⟨fun s n hs hn => ?_, fun s p hp => ?_, fun p hp => ?_, fun s p n hs hp hn => ?_, fun d p n hd hp hn hr => ?_, fun p s hs hp hr => ?_, fun p v n hp => ?_⟩
  · exact (transfer (Q := fun _ _ _ => True) hL ht h (fits_allocate hn) fun w hw _ =>
      ⟨(allocate_registers hw hs (ht s)).1, fun _ _ _ _ _ _ => trivial⟩).1
  · exact (transfer (Q := fun _ _ _ => True) hL ht h (fits_deallocate (ht s)) fun w hw _ =>
      ⟨(dealloc_safe hw ht hp).1, fun _ _ _ _ _ _ => trivial⟩).1
  · exact (transfer (Q := fun _ _ _ => True) hL ht h (fits_deallocateAny ht) fun w hw _ =>
      ⟨MP.wp_goes (deallocateAny_ok (hist_ok (aligned_none anywhere) hw) hp), fun _ _ _ _ _ _ => trivial⟩).1
  · exact (transfer (Q := fun _ _ _ => True) hL ht h (fits_reallocImpl ht hn) fun w hw _ =>
      ⟨MP.wp_goes (reallocImpl_ok (hist_ok (aligned_none anywhere) hw) (aligned_none anywhere) hs hp), fun _ _ _ _ _ _ => trivial⟩).1
  · exact (transfer (Q := fun _ _ _ => True) hL ht h (fits_reallocate ht hn (found_live hw0 hp hr)) fun w hw _ =>
      ⟨MP.wp_goes (reallocate_ok (hist_ok (aligned_none anywhere) hw) (aligned_none anywhere) hd hp), fun _ _ _ _ _ _ => trivial⟩).1
  · exact (transfer (Q := fun _ _ _ => True) hL ht h (fits_move ht (found_live hw0 hp hr)) fun w hw _ =>
      ⟨MP.wp_goes (move_ok (hist_ok (aligned_none anywhere) hw) (aligned_none anywhere) hs (ht s) hp), fun _ _ _ _ _ _ => trivial⟩).1
  · exact (transfer (Q := fun _ _ _ => True) hL ht h fits_memset fun w hw _ =>
      ⟨(memset_safe hw v hp).1, fun _ _ _ _ _ _ => trivial⟩).1

/-! ## What the calls do -/

/-- **C64**: the size and owner of every live allocation are reported; addresses in none are
unknown. -/
theorem whole_introspection_partial (hL : L.Ok) (ht : ∀ s, c.tracked s = true) (h : CHist c t rm S) :
    (∀ r ∈ liveOf c t, FAnswers rm S r.ptr (some r)) ∧
    ∀ q, q < 2 ^ 64 → (∀ r ∈ liveOf c t, ¬Contains r q) → FAnswers rm S q none := by
  obtain ⟨w, h1, -⟩ := sim_hist hL ht h
  have hi := introspection_partial h1
  exact ⟨fun r hr => answers_whole (hi.1 r hr) S, fun q hq hn => answers_whole (hi.2 q hq hn) S⟩

/-- **C64**: an allocation that succeeds gives memory that overlaps no live allocation, is
known with its size and allocator, and is now the user's in the books of the strategy; the
bytes of all live allocations are as before. -/
theorem whole_allocate_partial (hL : L.Ok) (ht : ∀ s, c.tracked s = true) (h : CHist c t rm S) {s n : Nat} (hs : s ≠ zero) (hn : L.Takes s n) :
    FSure (allocate c s n) rm S fun o rm' S' =>
      (∀ r ∈ liveOf c t, FAnswers rm' S' r.ptr (some r) ∧ ∀ i, i < r.size → S'.mem (r.ptr + i) = S.mem (r.ptr + i)) ∧
      ∀ p, o = some p → FAnswers rm' S' p (some ⟨p, n, s⟩) ∧
        (∀ r ∈ liveOf c t, Disj p (max n 1) r.ptr (max r.size 1)) ∧
        (n ≠ 0 → ∃ x, L.place s = some x ∧ (p, n) ∈ S'.user x) := by
  refine transfer hL ht h (fits_allocate hn) fun w hw hr => ?_
  have hk := hist_ok (aligned_none anywhere) hw
  have hby : ∀ r ∈ liveOf c t, ∀ m, Agree w.held w.mem m → ∀ i, i < r.size → m (r.ptr + i) = w.mem (r.ptr + i) := by
    intro r hr m hag i hi
    have h1 := blkOf_ptr r
    have h2 := (blkOf_size r).1
    exact hag (blkOf r) (hk.mem.mem_held hr) _ (by omega) (by omega)
  apply sure_of
  apply allocate_spec hk (aligned_none anywhere) hs
  · intro p m rm' hfr _ hag h3 _ S' h4
    unfold Ghost.alloc at h3
    rw [if_pos (ht s)] at h3
    refine ⟨fun r hr' => ⟨answers_whole (h3.answers_base (List.mem_cons_of_mem _ hr')) S', ?_⟩, fun p' he => ?_⟩
    · rw [← h4.mem, ← hr.mem]
      exact hby r hr' m hag
    · injection he with he
      subst he
      refine ⟨answers_whole (h3.answers_base (r := ⟨p, n, s⟩) List.mem_cons_self) S', fun r hr' => ?_, fun h0 => ?_⟩
      · have h5 := hfr.2.2 ((blkOf r).ptr, (blkOf r).size) (List.mem_map_of_mem (f := fun b : Blk => (b.ptr, b.size)) (hk.mem.mem_held hr'))
        have h6 := blkOf_ptr r
        have h7 := blkOf_size r
        unfold Mgr.cap at h5
        unfold Disj at h5 ⊢
        dsimp only at h5
        split at h5 <;> omega
      · obtain ⟨x, h5, h6⟩ := live_user h3 h4 (r := ⟨p, n, s⟩) List.mem_cons_self
        rw [if_neg h0] at h5
        have e : max n 1 = n := by omega
        rw [e] at h6
        exact ⟨x, h5, h6⟩
  · intro m hag h3 S' h4
    refine ⟨fun r hr' => ⟨answers_whole (h3.answers_base hr') S', ?_⟩, fun p he => by cases he⟩
    rw [← h4.mem, ← hr.mem]
    exact hby r hr' m hag

/-- **C64**: deallocating a live allocation through its allocator succeeds.  The strategy takes
it back, its addresses are unknown from then on, and all other allocations keep their
records and bytes. -/
theorem whole_deallocate_partial (hL : L.Ok) (ht : ∀ s, c.tracked s = true) (h : CHist c t rm S) {r : Rec} (hr : r ∈ liveOf c t) :
    FSure (deallocate c r.tag r.ptr) rm S fun o rm' S' => o = some () ∧ FOthers (liveOf c t) r.ptr S rm' S' ∧
      (∀ q, Contains r q → FAnswers rm' S' q none) ∧
      ∀ s x, L.place s = some x → ∀ u, u ∈ S'.user x ↔ u ∈ S.user x ∧ u.1 ≠ r.ptr := by
  refine transfer hL ht h (fits_deallocate (ht _)) fun w hw hrel => ?_
  have hk := hist_ok (aligned_none anywhere) hw
  apply sure_of
  apply deallocate_hit hk hr
  intro m rm' hag h3 _ S' h4
  refine ⟨rfl, others_whole (hk.others h3 (fun x hx hne => List.mem_filter.2 ⟨hx, decide_eq_true hne⟩) hag) hrel h4, fun q hq => ?_, fun s x hx u => ?_⟩
  · have hlt := hk.mem.rec_lt hr
    have h1 := hq.1
    have h2 := hq.2
    refine answers_whole (h3.answers_none (by omega) fun y hy hc => ?_) S'
    obtain ⟨hx1, hx2⟩ := List.mem_filter.1 hy
    have : y = r := apart_eq hk.mem.apart hx1 hr hc hq
    subst this
    simp at hx2
  · have e1 := hrel.held ⟨s, u.1, u.2⟩
    have e2 := h4.held ⟨s, u.1, u.2⟩
    have e3 : (⟨s, u.1, u.2⟩ : Blk) ∈ dropB r.ptr w.held ↔ (⟨s, u.1, u.2⟩ : Blk) ∈ w.held ∧ u.1 ≠ r.ptr := by
      unfold dropB
      rw [List.mem_filter, decide_eq_true_iff]
    have e : ∀ T : St L, (∃ y, L.place s = some y ∧ (u.1, u.2) ∈ T.user y) ↔ u ∈ T.user x := by
      intro T
      constructor
      · rintro ⟨y, hy, hu⟩
        rw [hx] at hy
        injection hy with hy
        subst hy
        exact hu
      · exact fun hu => ⟨x, hx, hu⟩
    rw [← e S', ← e2, e3, e1]
    exact and_congr_left fun _ => e S

/-- **C64**: reallocating a live allocation.  If it succeeds the first bytes are kept; in any
case all other allocations keep their records and bytes.  If it fails, and the memory is not
`HOST` memory, everything is as before. -/
theorem whole_reallocate_partial (hL : L.Ok) (ht : ∀ s, c.tracked s = true) (h : CHist c t rm S) {r : Rec} {d n : Nat} (hr : r ∈ liveOf c t)
    (hn : n ≠ 0) (hd : L.Takes d n) (hT : L.Takes r.tag n) :
    FSure (reallocate c d r.ptr n) rm S fun o rm' S' => FOthers (liveOf c t) r.ptr S rm' S' ∧
      (∀ q, o = some q → (∀ i, i < n → i < r.size → S'.mem (q + i) = S.mem (r.ptr + i)) ∧ FAnswers rm' S' q (some ⟨q, n, r.tag⟩) ∧
        ∀ x, Contains r x → ¬Contains ⟨q, n, r.tag⟩ x → FAnswers rm' S' x none) ∧
      (o = none → ¬(r.tag = c.host ∧ r.size ≠ 0) →
        FSame S S' ∧ FAnswers rm' S' r.ptr (some r) ∧ ∀ i, i < r.size → S'.mem (r.ptr + i) = S.mem (r.ptr + i)) := by
  obtain ⟨w0, hw0, -⟩ := sim_hist hL ht h
  have hk := hist_ok (aligned_none anywhere) hw0
  have hlt := hk.mem.rec_lt hr
  have hf : Fits L (reallocate c d r.ptr n) rm := fits_reallocate ht hd <| found_live hw0 (by omega) fun x hx hc => by
    have : x = r := apart_eq hk.mem.apart hx hr hc (contains_base r)
    rw [this]
    exact hT
  refine transfer hL ht h hf fun w hw hrel => ?_
  obtain ⟨h1, h2⟩ := reallocate_partial (d := d) hw hr hn
  refine ⟨h1, fun o rm' w' hrun S' h4 => ?_⟩
  obtain ⟨h5, h6⟩ := h2 o rm' w' hrun
  rw [← h4.mem, ← hrel.mem]
  refine ⟨?_, fun q he => ?_, fun he hno => ?_⟩
  · cases o with
    | none => exact others_whole (h6 rfl).1 hrel h4
    | some q => exact others_whole (h5 q rfl).2.2.2 hrel h4
  · obtain ⟨a1, a2, a3, -⟩ := h5 q he
    exact ⟨a1, answers_whole a2 S', fun x hx hnx => answers_whole (a3 x hx hnx) S'⟩
  · obtain ⟨a1, a2, a3⟩ := (h6 he).2 hno
    exact ⟨same_whole a1 hrel h4, answers_whole a2 S', a3⟩

/-- **C64**: moving a live allocation to another allocator.  If it succeeds the result is an
allocation of the target with the same size and contents, and the old addresses are unknown;
if not, everything is as before. -/
theorem whole_move_partial (hL : L.Ok) (ht : ∀ s, c.tracked s = true) (h : CHist c t rm S) {r : Rec} {s : Nat} (hs : s ≠ zero) (hr : r ∈ liveOf c t)
    (hne : r.tag ≠ s) (hT : L.Takes s r.size) :
    FSure (move c r.ptr s) rm S fun o rm' S' => FOthers (liveOf c t) r.ptr S rm' S' ∧
      (∀ q, o = some q → (∀ i, i < r.size → S'.mem (q + i) = S.mem (r.ptr + i)) ∧ FAnswers rm' S' q (some ⟨q, r.size, s⟩) ∧
        ∀ x, Contains r x → FAnswers rm' S' x none) ∧
      (o = none → FSame S S' ∧ FAnswers rm' S' r.ptr (some r) ∧ ∀ i, i < r.size → S'.mem (r.ptr + i) = S.mem (r.ptr + i)) := by
  obtain ⟨w0, hw0, -⟩ := sim_hist hL ht h
  have hk := hist_ok (aligned_none anywhere) hw0
  have hlt := hk.mem.rec_lt hr
  have hf : Fits L (move c r.ptr s) rm := fits_move ht <| found_live hw0 (by omega) fun x hx hc => by
    have : x = r := apart_eq hk.mem.apart hx hr hc (contains_base r)
    rw [this]
    exact hT
  refine transfer hL ht h hf fun w hw hrel => ?_
  obtain ⟨h1, h2⟩ := move_partial hw hs (ht s) hr hne
  refine ⟨h1, fun o rm' w' hrun S' h4 => ?_⟩
  obtain ⟨h5, h6, h7⟩ := h2 o rm' w' hrun
  rw [← h4.mem, ← hrel.mem]
  refine ⟨others_whole h5 hrel h4, fun q he => ?_, fun he => ?_⟩
  · obtain ⟨a1, a2, a3⟩ := h6 q he
    exact ⟨a1, answers_whole a2 S', fun x hx => answers_whole (a3 x hx) S'⟩
  · obtain ⟨a1, -, a2, a3⟩ := h7 he
    exact ⟨same_whole a1 hrel h4, answers_whole a2 S', a3⟩

/-! ## A concrete case -/

/-- `HOST` (id 2) with a `QuickPool` (3), on which there is a `FixedPool` (4), and a
`MonotonicAllocationStrategy` (5) with a limited allocator (6) on it; `DEVICE` (7). -/
def hostArr : Arr :=
  .node (.forward Forward.named) (W - 1) (.par
    (.node (.quick exQuick 5) (W - 50) (.node (.fixed ⟨16, 4⟩) 16 .none))
    (.node (.mono 1000) 64 (.node (.limiter 32) 64 .none)))
def deviceArr : Arr := .node (.forward Forward.named) (W - 1) .none

def exForest : Nat → Arr
  | 0 => hostArr
  | 1 => deviceArr
  | _ => .none

def hostPos (q : Option ((Option (Option Empty)) ⊕ (Option (Option Empty)))) : (exForest 0).Pos := q
def devicePos (q : Option Empty) : (exForest 1).Pos := q

def exLay : Lay := ⟨exForest, fun
  | 2 => some ⟨0, hostPos none⟩
  | 3 => some ⟨0, hostPos (some (.inl none))⟩
  | 4 => some ⟨0, hostPos (some (.inl (some none)))⟩
  | 5 => some ⟨0, hostPos (some (.inr none))⟩
  | 6 => some ⟨0, hostPos (some (.inr (some none)))⟩
  | 7 => some ⟨1, devicePos none⟩
  | _ => none⟩

/-- The id of a place. -/
def exCode : (Σ r, (exForest r).Pos) → Nat
  | ⟨0, q⟩ => match (show Option ((Option (Option Empty)) ⊕ (Option (Option Empty))) from q) with
    | none => 2
    | some (.inl none) => 3
    | some (.inl (some _)) => 4
    | some (.inr none) => 5
    | some (.inr (some _)) => 6
  | ⟨_ + 1, _⟩ => 7

def exCfg : Mgr.Cfg := ⟨fun _ => true, 2⟩

theorem exLay_ok : exLay.Ok := by
  refine ⟨fun r => ?_, fun {s s' x} h h' => ?_, fun {s r q} h => ?_⟩
  · have hq : QHeur exQuick.heur AMax := ⟨Nat.le_refl _, fun s => .inl (Nat.zero_le _)⟩
    match r with
    | 0 =>
      exact ⟨Nat.le_refl _, ⟨⟨⟨by decide, by decide, by decide, by decide, by decide, AMax, hq, by decide⟩,
          ⟨⟨⟨by decide, by decide, by decide⟩, by decide, by decide⟩, trivial, .inl trivial⟩, .inl trivial⟩,
        ⟨⟨by decide, by decide⟩, ⟨Nat.le_refl _, trivial, .inl trivial⟩, .inl trivial⟩⟩, .inl trivial⟩
    | 1 => exact ⟨Nat.le_refl _, trivial, .inl trivial⟩
    | _ + 2 => trivial
  · have e : ∀ s x, exLay.spot s = some x → exCode x = s := by
      intro s x h
      unfold exLay at h
      dsimp only at h
      split at h <;> first | (cases h; done) | (injection h with h; subst h; rfl)
    rw [← e s x h, ← e s' x h']
  · unfold exLay at h
    dsimp only at h
    split at h <;> first | (cases h; done) | (injection h with h; cases h; trivial)

def hostCmd (o : NodeCmd PoolOp ((NodeCmd PoolOp (NodeCmd PoolOp Empty)) ⊕ (NodeCmd PoolOp (NodeCmd PoolOp Empty)))) : Call exLay :=
  .other 1 (show (exForest 0).sys.Cmd from o)
def deviceCmd (o : NodeCmd PoolOp Empty) : Call exLay := .other 2 (show (exForest 1).sys.Cmd from o)
def zeroCmd (o : NodeCmd PoolOp Empty) : Call exLay := .other 0 (show zeroArr.sys.Cmd from o)

/-- Everything is constructed; allocations through six allocators, one of zero bytes; wrong
calls; a reallocation, a move to the device, a copy, a `memset`. -/
def exCalls : List (Call exLay × List (List (Option Nat))) :=
  [(zeroCmd .make, [[some 65536]]), (hostCmd .make, []), (hostCmd (.down (.inl .make)), []), (hostCmd (.down (.inl (.down .make))), [[some 8192]]),
   (hostCmd (.down (.inr .make)), [[some 131072]]), (hostCmd (.down (.inr (.down .make))), []), (deviceCmd .make, []),
   (.alloc 2 100, [[some 4096]]), (.alloc 3 40, [[]]), (.alloc 4 16, [[]]), (.alloc 5 20, [[]]), (.alloc 6 12, [[]]),
   (.alloc 7 64, [[none]]), (.alloc 7 64, [[some 1048576]]), (.alloc 3 0, [[]]), (.free 4 8256, []), (.memset 8256 7 0, []),
   (.reallocAny 2 8256 64, [[], []]), (.move 4096 7, [[some 2097152], []]), (.copy 1048576 2097152 64, []), (.freeAny 131072, [[]])]


/-- What the calls lead to: the live allocations and the memory of the resources. -/
def exLive : List Rec := [⟨2097152, 100, 7⟩, ⟨8304, 64, 3⟩, ⟨65536, 0, 3⟩, ⟨1048576, 64, 7⟩, ⟨131092, 12, 6⟩, ⟨8192, 16, 4⟩]
def exHeld : List Held := [[(65536, 2048)], [(131072, 1000), (8192, 528)], [(2097152, 100), (1048576, 64)]]

def failedB : Mgr.Ev → Bool
  | .realloc _ _ _ none => true
  | .reallocAny _ _ _ none => true
  | _ => false

theorem not_failed {t : List Mgr.Ev} (h : t.any failedB = false) : ∀ e ∈ t, ¬Failed e := by
  intro e he hf
  have h1 := List.any_eq_false.1 h e he
  unfold Failed at hf
  split at hf <;> first | exact h1 rfl | exact hf

theorem exCalls_hist : ∃ y : Now exLay, CHist exCfg y.t y.rm y.S ∧
    (liveOf exCfg y.t, (List.range 3).map y.S.H, y.t.any failedB) = (exLive, exHeld, false) :=
  told_hist (R := [0, 1, 2]) (c := exCfg) (ks := exCalls) (by decide +kernel)

/-- The hypotheses of all theorems above hold for it. -/
example : ∃ y : Now exLay, exLay.Ok ∧ (∀ s, exCfg.tracked s = true) ∧ CHist exCfg y.t y.rm y.S ∧ (∀ e ∈ y.t, ¬Failed e) ∧
    liveOf exCfg y.t = exLive ∧ exLay.Takes 4 16 ∧ exLay.Takes 3 1000 ∧ exLay.Takes 7 1000 := by
  obtain ⟨y, h, he⟩ := exCalls_hist
  injection he with e1 e2
  injection e2 with e2 e3
  exact ⟨y, exLay_ok, fun _ => rfl, h, not_failed e3, e1, takes_of (by decide), takes_of (by decide), takes_of (by decide)⟩

/-- For instance, the users of the `QuickPool` have the 64 bytes, and deallocating them
succeeds. -/
example : ∃ y : Now exLay, CHist exCfg y.t y.rm y.S ∧ (8304, 64) ∈ y.S.user ⟨1, hostPos (some (.inl none))⟩ ∧
    ¬FGoes (deallocate exCfg 3 8304 y.rm) y.S ∧ ∀ o rm' S', FRun (deallocate exCfg 3 8304 y.rm) y.S (o, rm') S' → o = some () := by
  obtain ⟨y, h, he⟩ := exCalls_hist
  injection he with e1 e2
  injection e2 with e2 e3
  have hm : (⟨8304, 64, 3⟩ : Rec) ∈ liveOf exCfg y.t := by rw [e1]; decide
  have hd := whole_deallocate_partial exLay_ok (fun _ => rfl) h hm
  refine ⟨y, h, ?_, hd.1, fun o rm' S' hr => (hd.2 o rm' S' hr).1⟩
  exact ((whole_ledger_partial exLay_ok (fun _ => rfl) h (not_failed e3)).1 3 _ (by decide) rfl 8304 64).2 ⟨by decide, hm⟩

end Umpire.Whole
