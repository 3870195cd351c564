import Verif.Numa.Model
/-!
# C72: memory of a `NumaPolicy` is on its node
-/
set_option autoImplicit false
set_option linter.unusedSimpArgs false
namespace Umpire.Numa

/-! ## Specification: what a history of calls promises -/

/-- Size and allocator of the allocation at `p`, if there is one. -/
def alive : History → Nat → Option (Nat × Al)
  | [], _ => none
  | (.allocate a n, some q) :: h, p => if q = p then some (n, a) else alive h p
  | (.deallocate _ q, some _) :: h, p => if q = p then none else alive h p
  | _ :: h, p => alive h p

/-- The node the memory at `p` was last asked to be on: the node of the policy that
allocated it or of the last policy it was moved to.  After an exception in a move
nothing is promised. -/
def asked : History → Nat → Option Nat
  | [], _ => none
  | (.allocate a _, some q) :: h, p => if q = p then a.node else asked h p
  | (.move q a, some _) :: h, p => if q = p then a.node else asked h p
  | (.move q _, none) :: h, p => if q = p then none else asked h p
  | (.deallocate _ q, some _) :: h, p => if q = p then none else asked h p
  | _ :: h, p => asked h p

/-- Every allocation is where it was last asked to be, with all its bytes. -/
def Placed (m : Machine) (h : History) (S : St) : Prop :=
  ∀ p n a k, alive h p = some (n, a) → asked h p = some k →
    ∀ x, p ≤ x → x < p + n → S.bind (x / m.page) = some k

/-- Allocators that give whole pages: the resource, and policies over it. -/
inductive Paged : Al → Prop where
  | host : Paged .host
  | numa {i k : Nat} {base : Al} : Paged base → Paged (.numa i base k)

/-- The histories the claim holds for: a move names the first byte of an allocation,
and an allocation that is on another node is not moved back to the policy it came
from. -/
def Regular : History → Prop
  | [] => True
  | (.allocate _ _, _) :: h => Regular h
  | (.move p a, _) :: h => (∃ n o, alive h p = some (n, o) ∧ (o = a → asked h p = a.node)) ∧ Regular h
  | (.deallocate _ _, _) :: h => Regular h

/-- All memory comes from `HOST` or policies over it. -/
def OnPages : History → Prop
  | [] => True
  | (.allocate a _, _) :: h => Paged a ∧ OnPages h
  | _ :: h => OnPages h

/-! ## Invariant -/

structure Inv (h : History) (S : St) : Prop where
  pos : ∀ r ∈ S.recs, 0 < r.size
  lpos : ∀ r ∈ S.lost, 0 < r.2
  apart : S.used.Pairwise fun x y => Apart x.1 x.2 y.1 y.2
  alive : ∀ p n a, alive h p = some (n, a) ↔ (⟨p, n, a⟩ : Rec) ∈ S.recs

theorem apart_comm {p n q k : Nat} (h : Apart p n q k) : Apart q k p n := by
  rcases h with h | h
  · exact .inr h
  · exact .inl h

theorem used_mem {S : St} {r : Rec} (h : r ∈ S.recs) : (r.ptr, r.size) ∈ S.used :=
  List.mem_append_left _ (List.mem_map.2 ⟨r, h, rfl⟩)

theorem raw_inv {m : Machine} {H : List Rng} {n : Nat} {b b' : Binding} {a : Al} {r : Option Nat} {L : List Rng}
    (h : Raw m H n b a r b' L) :
    (∀ p, r = some p → Fresh p n H ∧ L = []) ∧ (L = [] ∨ r = none ∧ ∃ p, Fresh p n H ∧ L = [(p, n)]) := by
  induction h with
  | host _ hf _ => exact ⟨fun p hp => by cases hp; exact ⟨hf, rfl⟩, .inl rfl⟩
  | hostNo => exact ⟨fun p hp => (nomatch hp), .inl rfl⟩
  | other hf _ => exact ⟨fun p hp => by cases hp; exact ⟨hf, rfl⟩, .inl rfl⟩
  | otherNo => exact ⟨fun p hp => (nomatch hp), .inl rfl⟩
  | numaNo _ ih => exact ih
  | numa _ _ ih => exact ih
  | numaFail _ _ ih =>
    obtain ⟨hf, hl⟩ := ih.1 _ rfl
    exact ⟨fun p hp => (nomatch hp), .inr ⟨rfl, _, hf, by rw [hl]⟩⟩

theorem pair_of {R : Rec → Rec → Prop} (hsym : ∀ a b, R a b → R b a) : ∀ {l : List Rec}, l.Pairwise R →
    ∀ {r s : Rec}, r ∈ l → s ∈ l → r ≠ s → R r s
  | _ :: _, .cons h1 h2, r, s, hr, hs, hne => by
    rcases List.mem_cons.1 hr with rfl | hr'
    · rcases List.mem_cons.1 hs with rfl | hs'
      · exact absurd rfl hne
      · exact h1 s hs'
    · rcases List.mem_cons.1 hs with rfl | hs'
      · exact hsym _ _ (h1 r hr')
      · exact pair_of hsym h2 hr' hs' hne

/-- Two records that share a byte are the same. -/
theorem rec_unique {h : History} {S : St} (hi : Inv h S) {r s : Rec} (hr : r ∈ S.recs) (hs : s ∈ S.recs) {x : Nat}
    (h1 : r.ptr ≤ x ∧ x < r.ptr + r.size) (h2 : s.ptr ≤ x ∧ x < s.ptr + s.size) : r = s := by
  have hp := (List.pairwise_append.1 hi.apart).1
  rw [List.pairwise_map] at hp
  by_cases he : r = s
  · exact he
  · have := pair_of (fun _ _ h => apart_comm h) hp hr hs he
    simp only [Apart] at this
    omega

theorem ptr_unique {h : History} {S : St} (hi : Inv h S) {r s : Rec} (hr : r ∈ S.recs) (hs : s ∈ S.recs)
    (hp : r.ptr = s.ptr) : r = s := by
  have h1 := hi.pos r hr
  have h2 := hi.pos s hs
  exact rec_unique hi hr hs (x := r.ptr) ⟨Nat.le_refl _, by omega⟩ ⟨by omega, by omega⟩

theorem find_mem {S : St} {p : Nat} {r : Rec} (h : S.find p = some r) : r ∈ S.recs ∧ r.ptr ≤ p ∧ p < r.ptr + r.size := by
  refine ⟨List.mem_of_find?_eq_some h, ?_⟩
  simpa using List.find?_some h

theorem find_start {h : History} {S : St} (hi : Inv h S) {r : Rec} (hr : r ∈ S.recs) : S.find r.ptr = some r := by
  have hpos := hi.pos r hr
  cases hf : S.find r.ptr with
  | none =>
    have := List.find?_eq_none.1 hf r hr
    simp at this
    omega
  | some s =>
    obtain ⟨h1, h2, h3⟩ := find_mem hf
    rw [rec_unique hi hr h1 (x := r.ptr) ⟨Nat.le_refl _, by omega⟩ ⟨h2, h3⟩]

theorem step_inv {m : Machine} {h : History} {S T : St} {c : Call} {r : Option Nat} (hi : Inv h S)
    (hs : Step m S c r T) : Inv ((c, r) :: h) T := by
  cases hs with
  | @allocate a n p b L hn hr =>
    obtain ⟨hf, hl⟩ := (raw_inv hr).1 p rfl
    subst hl
    refine ⟨?_, hi.lpos, ?_, ?_⟩
    · intro x hx
      rcases List.mem_cons.1 hx with rfl | hx
      · exact hn
      · exact hi.pos x hx
    · exact List.pairwise_cons.2 ⟨fun x hx => hf x hx, hi.apart⟩
    · intro q k o
      simp only [Numa.alive, List.mem_cons, Rec.mk.injEq]
      by_cases hq : p = q
      · subst hq
        simp only [if_true, Option.some.injEq, Prod.mk.injEq, true_and]
        constructor
        · rintro ⟨rfl, rfl⟩; exact .inl ⟨rfl, rfl⟩
        · rintro (⟨rfl, rfl⟩ | hm)
          · exact ⟨rfl, rfl⟩
          · have h1 := hf _ (used_mem hm)
            have h2 : 0 < k := hi.pos _ hm
            simp only [Apart] at h1
            omega
      · rw [if_neg hq, hi.alive]
        constructor
        · exact .inr
        · rintro (⟨rfl, _⟩ | hm)
          · exact absurd rfl hq
          · exact hm
  | @allocateNo a n b L hn hr =>
    have hL := (raw_inv hr).2
    have hal : ∀ p n' a', Numa.alive ((.allocate a n, none) :: h) p = some (n', a') ↔ (⟨p, n', a'⟩ : Rec) ∈ S.recs :=
      fun p n' a' => hi.alive p n' a'
    rcases hL with rfl | ⟨-, p, hf, rfl⟩
    · exact ⟨hi.pos, hi.lpos, hi.apart, hal⟩
    · refine ⟨hi.pos, ?_, ?_, hal⟩
      · intro x hx
        rcases List.mem_cons.1 hx with rfl | hx
        · exact hn
        · exact hi.lpos x hx
      · have ha := List.pairwise_append.1 hi.apart
        refine List.pairwise_append.2 ⟨ha.1, List.pairwise_cons.2 ⟨fun x hx => hf x (List.mem_append_right _ hx), ha.2.1⟩, ?_⟩
        intro x hx y hy
        rcases List.mem_cons.1 hy with rfl | hy
        · exact apart_comm (hf x (List.mem_append_left _ hx))
        · exact ha.2.2 x hx y hy
  | unknown _ => exact ⟨hi.pos, hi.lpos, hi.apart, fun p n a => hi.alive p n a⟩
  | same _ => exact ⟨hi.pos, hi.lpos, hi.apart, fun p n a => hi.alive p n a⟩
  | noOp _ _ _ _ => exact ⟨hi.pos, hi.lpos, hi.apart, fun p n a => hi.alive p n a⟩
  | moved _ _ _ _ _ => exact ⟨hi.pos, hi.lpos, hi.apart, fun p n a => hi.alive p n a⟩
  | movedNo _ _ _ _ _ => exact ⟨hi.pos, hi.lpos, hi.apart, fun p n a => hi.alive p n a⟩
  | @deallocate a p r hr hp ho =>
    refine ⟨fun x hx => hi.pos x (List.mem_filter.1 hx).1, hi.lpos, ?_, ?_⟩
    · exact List.Pairwise.sublist (List.Sublist.append (List.Sublist.map _ List.filter_sublist) (List.Sublist.refl _)) hi.apart
    · intro q k o
      simp only [Numa.alive, List.mem_filter, decide_eq_true_eq]
      by_cases hq : p = q
      · subst hq; simp
      · rw [if_neg hq, hi.alive]
        exact ⟨fun hm => ⟨hm, fun he => hq he.symm⟩, fun hm => hm.1⟩
  | deallocateNo _ => exact ⟨hi.pos, hi.lpos, hi.apart, fun p n a => hi.alive p n a⟩

theorem reach_inv {m : Machine} {h : History} {S : St} (hr : Reach m h S) : Inv h S := by
  induction hr with
  | init b => exact ⟨by simp, by simp, List.Pairwise.nil, by simp [alive]⟩
  | step _ hs ih => exact step_inv ih hs

/-! ### Whole pages -/

/-- Nothing in use begins within a page. -/
def Whole (m : Machine) (S : St) : Prop := ∀ r ∈ S.used, r.1 % m.page = 0

theorem raw_paged {m : Machine} {H : List Rng} {n : Nat} {b b' : Binding} {a : Al} {r : Option Nat} {L : List Rng}
    (h : Raw m H n b a r b' L) (ha : Paged a) :
    (∀ p, r = some p → p % m.page = 0) ∧ (∀ x ∈ L, x.1 % m.page = 0) := by
  induction h with
  | host hp _ _ => exact ⟨fun p h => by cases h; exact hp, by simp⟩
  | hostNo => exact ⟨fun p h => (nomatch h), by simp⟩
  | other _ _ => cases ha
  | otherNo => cases ha
  | numaNo _ ih => cases ha with | numa ha => exact ih ha
  | numa _ _ ih => cases ha with | numa ha => exact ih ha
  | numaFail _ _ ih =>
    cases ha with
    | numa ha =>
      refine ⟨fun p h => (nomatch h), ?_⟩
      intro x hx
      rcases List.mem_cons.1 hx with rfl | hx
      · exact (ih ha).1 _ rfl
      · exact (ih ha).2 x hx

theorem step_whole {m : Machine} {S T : St} {c : Call} {r : Option Nat} (hw : Whole m S) (hs : Step m S c r T)
    (hp : ∀ a n, c = .allocate a n → Paged a) : Whole m T := by
  cases hs with
  | @allocate a n p b L hn hr =>
    have h1 := raw_paged hr (hp _ _ rfl)
    have hl := ((raw_inv hr).1 p rfl).2
    subst hl
    intro x hx
    rcases List.mem_cons.1 hx with rfl | hx
    · exact h1.1 p rfl
    · exact hw x hx
  | @allocateNo a n b L hn hr =>
    have h1 := raw_paged hr (hp _ _ rfl)
    intro x hx
    simp only [St.used, List.mem_append] at hx
    rcases hx with hx | hx | hx
    · exact hw x (List.mem_append_left _ hx)
    · exact h1.2 x hx
    · exact hw x (List.mem_append_right _ hx)
  | @deallocate a p r hr hp' ho =>
    intro x hx
    have : List.Sublist (St.used ⟨S.recs.filter (fun r => r.ptr ≠ p), S.lost, S.bind⟩) S.used :=
      List.Sublist.append (List.Sublist.map _ List.filter_sublist) (List.Sublist.refl _)
    exact hw x (this.subset hx)
  | unknown _ => exact hw
  | same _ => exact hw
  | noOp _ _ _ _ => exact hw
  | moved _ _ _ _ _ => exact hw
  | movedNo _ _ _ _ _ => exact hw
  | deallocateNo _ => exact hw

theorem reach_whole {m : Machine} {h : History} {S : St} (hr : Reach m h S) (hp : OnPages h) : Whole m S := by
  induction hr with
  | init b => intro x hx; cases hx
  | @step h S T c r _ hs ih =>
    cases c with
    | allocate a n => exact step_whole (ih hp.2) hs (fun _ _ he => by cases he; exact hp.1)
    | move p a => exact step_whole (ih hp) hs (fun _ _ he => nomatch he)
    | deallocate a p => exact step_whole (ih hp) hs (fun _ _ he => nomatch he)

/-- Ranges that are apart and begin at a page share no page. -/
theorem pages_apart {m : Machine} {p n q k i : Nat} (hp : p % m.page = 0) (hq : q % m.page = 0) 
    (ha : Apart p n q k) (h1 : onPage m p n i) (h2 : onPage m q k i) : False := by
  have key : ∀ {p n q k : Nat}, q % m.page = 0 → p + n ≤ q → onPage m p n i → onPage m q k i → False := by
    intro p n q k hq ha h1 h2
    obtain ⟨c, rfl⟩ := Nat.dvd_of_mod_eq_zero hq
    obtain ⟨h3, h4⟩ := h1
    obtain ⟨h5, h6⟩ := h2
    by_cases h0 : m.page = 0
    · rw [h0] at ha h4; simp at ha h4; omega
    · rw [Nat.mul_div_cancel_left _ (by omega)] at h5
      have := Nat.mul_le_mul_left m.page h5
      rw [Nat.mul_comm i] at h4
      omega
  rcases ha with ha | ha
  · exact key hq ha h1 h2
  · exact key hp ha h2 h1

theorem onPage_byte {m : Machine} {p n x : Nat} (h1 : p ≤ x) (h2 : x < p + n) : onPage m p n (x / m.page) :=
  ⟨Nat.div_le_div_right h1, by have := Nat.div_mul_le_self x m.page; omega⟩

theorem mbind_other {m : Machine} {p n k i : Nat} {b b' : Binding} {ok : Bool} (h : Mbind m p n k b ok b')
    (hi : ¬ onPage m p n i) : b' i = b i := by
  cases h with
  | unaligned _ => rfl
  | noNode _ => rfl
  | ok _ _ _ h => exact h i hi
  | fail _ _ h => exact h i hi

theorem mbind_aligned {m : Machine} {p n k : Nat} {b b' : Binding} {ok : Bool} (h : Mbind m p n k b ok b') :
    p % m.page = 0 ∨ b' = b := by
  cases h with
  | unaligned _ => exact .inr rfl
  | noNode _ => exact .inr rfl
  | ok h _ _ _ => exact .inl h
  | fail h _ _ => exact .inl h

/-- Binding a range leaves alone what is apart from it and begins at a page. -/
theorem mbind_apart {m : Machine} {p n k q l i : Nat} {b b' : Binding} {ok : Bool} (h : Mbind m p n k b ok b')
    (hq : q % m.page = 0) (ha : Apart p n q l) (hi : onPage m q l i) : b' i = b i := by
  rcases mbind_aligned h with hp | rfl
  · exact mbind_other h fun hi' => pages_apart hp hq ha hi' hi
  · rfl

/-- An allocation leaves the bindings of memory in use that begins at a page alone. -/
theorem raw_kept {m : Machine} {H : List Rng} {n : Nat} {b b' : Binding} {a : Al} {r : Option Nat} {L : List Rng}
    (h : Raw m H n b a r b' L) {x : Rng} (hx : x ∈ H) (hw : x.1 % m.page = 0) {i : Nat} (hi : onPage m x.1 x.2 i) :
    b' i = b i := by
  induction h with
  | host _ _ hk => exact hk i ⟨x, hx, hi⟩
  | hostNo => rfl
  | other _ hk => exact hk i ⟨x, hx, hi⟩
  | otherNo => rfl
  | numaNo _ ih => exact ih
  | numa hr hm ih => rw [mbind_apart hm hw (((raw_inv hr).1 _ rfl).1 x hx) hi, ih]
  | numaFail hr hm ih => rw [mbind_apart hm hw (((raw_inv hr).1 _ rfl).1 x hx) hi, ih]

theorem raw_node {m : Machine} {H : List Rng} {n : Nat} {b b' : Binding} {a : Al} {p k : Nat} {L : List Rng}
    (h : Raw m H n b a (some p) b' L) (ha : a.node = some k) : ∀ i, onPage m p n i → b' i = some k := by
  cases h with
  | host _ _ _ => cases ha
  | other _ _ => cases ha
  | numa hr hm =>
    cases ha
    cases hm with
    | ok _ _ h _ => exact h

theorem raw_aligned {m : Machine} {H : List Rng} {n : Nat} {b b' : Binding} {a : Al} {p k : Nat} {L : List Rng}
    (h : Raw m H n b a (some p) b' L) (ha : a.node = some k) : p % m.page = 0 := by
  cases h with
  | host _ _ _ => cases ha
  | other _ _ => cases ha
  | numa hr hm => cases hm with | ok h _ _ _ => exact h

/-- Memory asked to be on a node begins at a page. -/
theorem asked_aligned {m : Machine} {h : History} {S : St} (hr : Reach m h S) (hg : Regular h) {p k : Nat}
    (hk : asked h p = some k) : p % m.page = 0 := by
  induction hr with
  | init b => cases hk
  | @step h S T c r hr hs ih =>
    cases c with
    | allocate a n =>
      cases r with
      | none => exact ih hg hk
      | some q =>
        by_cases hq : q = p
        · subst hq
          simp only [asked, if_true] at hk
          cases hs with
          | allocate _ hraw => exact raw_aligned hraw hk
        · simp only [asked, if_neg hq] at hk
          exact ih hg hk
    | move q a =>
      obtain ⟨⟨n, o, hl, hb⟩, hg⟩ := hg
      by_cases hq : q = p
      · subst hq
        cases r with
        | none => simp [asked] at hk
        | some y =>
          simp only [asked, if_true] at hk
          cases hs with
          | same hf =>
            have hi := reach_inv hr
            rw [find_start hi ((hi.alive q n o).1 hl)] at hf
            cases hf
            exact ih hg ((hb rfl).trans hk)
          | moved _ _ _ _ hm => cases hm with | ok h _ _ _ => exact h
      · refine ih hg ?_
        cases r <;> simpa only [asked, if_neg hq] using hk
    | deallocate a q =>
      cases r with
      | none => exact ih hg hk
      | some y =>
        simp only [asked] at hk
        split at hk
        · cases hk
        · exact ih hg hk

/-! ## Theorems -/

/-- A move acts on its allocation only: a call of `move` with the first byte of an
allocation leaves all other allocations that begin at a page where they are. -/
theorem move_only {m : Machine} {h : History} {S T : St} {p : Nat} {a : Al} {r : Option Nat} (hr : Reach m h S)
    {n : Nat} {o : Al} (hl : alive h p = some (n, o)) (hs : Step m S (.move p a) r T)
    {q k : Nat} {o' : Al} (hq : alive h q = some (k, o')) (hne : q ≠ p) (hal : q % m.page = 0) :
    ∀ x, q ≤ x → x < q + k → T.bind (x / m.page) = S.bind (x / m.page) := by
  have hi := reach_inv hr
  have hm := (hi.alive p n o).1 hl
  have hmq := (hi.alive q k o').1 hq
  intro x h1 h2
  have hfs := find_start hi hm
  have key : ∀ {r : Rec} {j : Nat} {ok : Bool} {b : Binding}, S.find p = some r → Mbind m p r.size j S.bind ok b →
      b (x / m.page) = S.bind (x / m.page) := by
    intro r j ok b hf hb
    rw [hfs] at hf
    cases hf
    have hap := (List.pairwise_append.1 hi.apart).1
    rw [List.pairwise_map] at hap
    have := pair_of (fun _ _ h => apart_comm h) hap hm hmq (by intro he; cases he; exact hne rfl)
    exact mbind_apart hb hal this (onPage_byte h1 h2)
  cases hs with
  | unknown _ => rfl
  | same _ => rfl
  | noOp _ _ _ _ => rfl
  | moved hf _ _ _ hb => exact key hf hb
  | movedNo hf _ _ _ hb => exact key hf hb

/-- An allocation, also one that fails, leaves all allocations that begin at a page
where they are. -/
theorem allocate_only {m : Machine} {h : History} {S T : St} {n : Nat} {a : Al} {r : Option Nat} (hr : Reach m h S)
    (hs : Step m S (.allocate a n) r T) {q k : Nat} {o : Al} (hq : alive h q = some (k, o)) (hal : q % m.page = 0) :
    ∀ x, q ≤ x → x < q + k → T.bind (x / m.page) = S.bind (x / m.page) := by
  have hmq := ((reach_inv hr).alive q k o).1 hq
  intro x h1 h2
  cases hs with
  | allocate hn hraw => exact raw_kept hraw (used_mem hmq) hal (onPage_byte h1 h2)
  | allocateNo hn hraw => exact raw_kept hraw (used_mem hmq) hal (onPage_byte h1 h2)

/-- Allocations of `HOST` and of policies over it begin at a page. -/
theorem paged_aligned {m : Machine} {h : History} {S : St} (hr : Reach m h S) (hp : OnPages h) {p n : Nat} {a : Al}
    (hl : alive h p = some (n, a)) : p % m.page = 0 :=
  reach_whole hr hp _ (used_mem (((reach_inv hr).alive p n a).1 hl))

/-- In all regular histories every allocation is, with all its bytes, on the node it
was last asked to be on. -/
theorem placed_partial {m : Machine} {h : History} {S : St} (hr : Reach m h S) (hg : Regular h) : Placed m h S := by
  induction hr with
  | init b => intro p n a k hl; cases hl
  | @step h S T c r hr hs ih =>
    have hi := reach_inv hr
    intro p n a k hl hk x hx1 hx2
    cases c with
    | allocate a' n' =>
      have hreg : Regular h := hg
      cases r with
      | none =>
        have hl' : alive h p = some (n, a) := hl
        have hk' : asked h p = some k := hk
        rw [allocate_only hr hs hl' (asked_aligned hr hreg hk') x hx1 hx2]
        exact ih hreg p n a k hl' hk x hx1 hx2
      | some q =>
        by_cases hq : q = p
        · subst hq
          simp only [alive, asked, if_true, Option.some.injEq, Prod.mk.injEq] at hl hk
          obtain ⟨rfl, rfl⟩ := hl
          cases hs with
          | allocate hn hraw => exact raw_node hraw hk _ (onPage_byte hx1 hx2)
        · simp only [alive, asked, if_neg hq] at hl hk
          rw [allocate_only hr hs hl (asked_aligned hr hreg hk) x hx1 hx2]
          exact ih hreg p n a k hl hk x hx1 hx2
    | move q a' =>
      obtain ⟨⟨nq, o, hlq, hback⟩, hreg⟩ := hg
      have hl' : alive h p = some (n, a) := by cases r <;> exact hl
      by_cases hq : q = p
      · subst hq
        rw [hlq] at hl'
        cases hl'
        have hfs := find_start hi ((hi.alive q n a).1 hlq)
        cases r with
        | none => simp [asked] at hk
        | some y =>
          simp only [asked, if_true] at hk
          cases hs with
          | same hf =>
            rw [hfs] at hf
            cases hf
            exact ih hreg q n _ k hlq ((hback rfl).trans hk) x hx1 hx2
          | moved hf hne hnode _ hb =>
            rw [hfs] at hf
            cases hf
            rw [hnode] at hk
            cases hk
            cases hb with
            | ok _ _ hb _ => exact hb _ (onPage_byte hx1 hx2)
      · have hk' : asked h p = some k := by cases r <;> simpa only [asked, if_neg hq] using hk
        rw [move_only hr hlq hs hl' (fun he => hq he.symm) (asked_aligned hr hreg hk') x hx1 hx2]
        exact ih hreg p n a k hl' hk' x hx1 hx2
    | deallocate a' q =>
      cases r with
      | none =>
        cases hs with
        | deallocateNo _ => exact ih hg p n a k hl hk x hx1 hx2
      | some y =>
        cases hs with
        | deallocate _ _ _ =>
          simp only [alive, asked] at hl hk
          split at hl
          · cases hl
          · rename_i hq
            rw [if_neg hq] at hk
            exact ih hg p n a k hl hk x hx1 hx2

/-- `move` to a policy gives back the same address; every allocation keeps its
address, its size and its owner, whatever the move does. -/
theorem move_in_place {m : Machine} {S T : St} {p : Nat} {a : Al} {r : Option Nat} (hs : Step m S (.move p a) r T) :
    T.recs = S.recs ∧ T.lost = S.lost ∧ ∀ q, r = some q → q = p := by
  cases hs <;> refine ⟨rfl, rfl, ?_⟩ <;> intro q hq <;> cases hq <;> rfl

/-- A moved allocation still belongs to the allocator it came from: that one
deallocates it, every other one throws, also the one it was moved to. -/
theorem moved_owner {m : Machine} {h : History} {S T : St} {p n : Nat} {o a : Al} {r : Option Nat} (hr : Reach m h S)
    (hl : alive h p = some (n, o)) (hs : Step m S (.move p a) r T) (c : Al) :
    (∃ U, Step m T (.deallocate c p) (some p) U) ↔ c = o := by
  have hi := step_inv (reach_inv hr) hs
  have hm := (hi.alive p n o).1 (by cases r <;> exact hl)
  constructor
  · rintro ⟨U, hu⟩
    cases hu with
    | deallocate hr hp ho =>
      have := ptr_unique hi hr hm hp
      subst this
      exact ho.symm
  · rintro rfl
    exact ⟨_, .deallocate hm rfl rfl⟩

/-- The memory in use never overlaps, through all moves, failures and leaks. -/
theorem used_apart {m : Machine} {h : History} {S : St} (hr : Reach m h S) {p n q k : Nat} {a o : Al}
    (hp : alive h p = some (n, a)) (hq : alive h q = some (k, o)) (hne : p ≠ q) : Apart p n q k := by
  have hi := reach_inv hr
  have hap := (List.pairwise_append.1 hi.apart).1
  rw [List.pairwise_map] at hap
  exact pair_of (fun _ _ h => apart_comm h) hap ((hi.alive p n a).1 hp) ((hi.alive q k o).1 hq)
    (by intro he; cases he; exact hne rfl)

/-- Where an allocation by a policy over `HOST` leaves memory: the call succeeds and
one allocation is recorded, or it fails because the resource had no memory, or it
fails because the pages could not be bound, and then the memory stays allocated
with nothing recorded, so that it can never be released. -/
theorem policy_allocate {m : Machine} {S T : St} {i k n : Nat} {r : Option Nat}
    (hs : Step m S (.allocate (.numa i .host k) n) r T) :
    (∃ p, r = some p ∧ T.recs = ⟨p, n, .numa i .host k⟩ :: S.recs ∧ T.lost = S.lost ∧ m.usable k = true) ∨
    (r = none ∧ T.recs = S.recs ∧ T.lost = S.lost) ∨
    (∃ p, r = none ∧ T.recs = S.recs ∧ T.lost = (p, n) :: S.lost ∧ Fresh p n S.used) := by
  cases hs with
  | @allocate _ _ p _ _ hn hraw =>
    cases hraw with
    | numa hb hm =>
      cases hb with
      | host _ _ _ =>
        cases hm with
        | ok _ hu _ _ => exact .inl ⟨p, rfl, rfl, rfl, hu⟩
  | allocateNo hn hraw =>
    cases hraw with
    | numaNo hb => cases hb with | hostNo => exact .inr (.inl ⟨rfl, rfl, rfl⟩)
    | numaFail hb _ => cases hb with | host _ hf _ => exact .inr (.inr ⟨_, rfl, rfl, rfl, hf⟩)

/-- A move to a policy on a node of a HIP device always throws; so does a move from
one device to another.  Nothing changes. -/
theorem device_move_throws {m : Machine} {h : History} {S T : St} {p n : Nat} {o a : Al} {r : Option Nat}
    (hr : Reach m h S) (hl : alive h p = some (n, o)) (hne : o ≠ a) (ha : a.node ≠ none)
    (hd : a.plat m = .hip ∨ o.plat m = .hip ∨ (a.plat m ≠ .host ∧ o.plat m ≠ .host)) (hs : Step m S (.move p a) r T) :
    r = none ∧ T = S := by
  have hi := reach_inv hr
  have hfs := find_start hi ((hi.alive p n o).1 hl)
  have hno : hasMove (o.plat m) (a.plat m) = false := by
    cases h1 : o.plat m <;> cases h2 : a.plat m <;> simp_all [hasMove]
  cases hs with
  | unknown hf => rw [hfs] at hf; cases hf
  | same hf => rw [hfs] at hf; cases hf; exact absurd rfl hne
  | noOp _ _ _ _ => exact ⟨rfl, rfl⟩
  | moved hf _ _ hm _ => rw [hfs] at hf; cases hf; rw [hno] at hm; cases hm
  | movedNo hf _ _ hm _ => rw [hfs] at hf; cases hf; rw [hno] at hm; cases hm

/-- Which policies can be made: the node is not negative, the memory below is host
memory, and in a device build that is neither CUDA nor HIP the node has CPUs. -/
theorem make_iff (m : Machine) (i : Nat) (base : Al) (k : Int) (a : Al) :
    Al.make m i base k = some a ↔
      0 ≤ k ∧ base.plat m = .host ∧ (m.backend = .other → m.cpus k.toNat = true) ∧ a = .numa i base k.toNat := by
  unfold Al.make
  split
  · simp; omega
  · split
    · rename_i h; simp [h]
    · split
      · rename_i h
        simp [h.1, h.2]
      · rename_i h1 h2 h3
        have h3' : m.backend = .other → m.cpus k.toNat = true := by
          intro hb; cases hc : m.cpus k.toNat
          · exact absurd ⟨hb, hc⟩ h3
          · rfl
        simp only [Option.some.injEq]
        constructor
        · rintro rfl; exact ⟨by omega, by simpa using h2, h3', rfl⟩
        · rintro ⟨-, -, -, rfl⟩; rfl

/-- The platform of a policy that could be made: a device of the build exactly if it
is a device build and the node has no CPUs. -/
theorem policy_platform {m : Machine} {i : Nat} {base a : Al} {k : Int} (h : Al.make m i base k = some a) :
    (a.plat m = .host ↔ (m.backend = .none ∨ m.cpus k.toNat = true)) ∧
    (a.plat m = .cuda ↔ (m.backend = .cuda ∧ m.cpus k.toNat = false)) ∧
    (a.plat m = .hip ↔ (m.backend = .hip ∧ m.cpus k.toNat = false)) := by
  obtain ⟨-, -, h3, rfl⟩ := (make_iff m i base k a).1 h
  simp only [Al.plat]
  cases hb : m.backend <;> cases hc : m.cpus k.toNat <;> simp [hb, hc] at h3 ⊢

/-! ## What does not hold -/

/-- `mbind` that succeeds. -/
def bound (m : Machine) (p n k : Nat) (b : Binding) : Binding :=
  fun i => if p / m.page ≤ i ∧ i * m.page < p + n then some k else b i

theorem mbind_bound {m : Machine} {p n k : Nat} {b : Binding} (hp : p % m.page = 0) (hk : m.usable k = true) :
    Mbind m p n k b true (bound m p n k b) :=
  .ok hp hk (fun _ hi => if_pos hi) (fun _ hi => if_neg hi)

/-- A move can succeed: from host memory to a policy on a node that the system knows
and that is no HIP device, if the allocation begins at a page. -/
theorem move_possible {m : Machine} {h : History} {S : St} {p n k : Nat} {o a : Al} (hr : Reach m h S)
    (hl : alive h p = some (n, o)) (hp : p % m.page = 0) (ho : o.plat m = .host) (ha : a.node = some k)
    (hk : m.usable k = true) (hd : a.plat m ≠ .hip) : ∃ T, Step m S (.move p a) (some p) T := by
  have hi := reach_inv hr
  have hfs := find_start hi ((hi.alive p n o).1 hl)
  by_cases hne : o = a
  · subst hne; exact ⟨S, .same (r := ⟨p, n, o⟩) hfs⟩
  · refine ⟨_, .moved (r := ⟨p, n, o⟩) hfs hne ha ?_ (mbind_bound hp hk)⟩
    show hasMove (o.plat m) (a.plat m) = true
    rw [ho]
    cases h2 : a.plat m <;> simp_all [hasMove]

/-- Moving an allocation back to the policy it came from does nothing, wherever the
memory is by then. -/
theorem back_does_nothing {m : Machine} {h : History} {S T : St} {p n : Nat} {o : Al} {r : Option Nat}
    (hr : Reach m h S) (hl : alive h p = some (n, o)) (hs : Step m S (.move p o) r T) : r = some p ∧ T = S := by
  have hi := reach_inv hr
  have hfs := find_start hi ((hi.alive p n o).1 hl)
  cases hs with
  | unknown hf => rw [hfs] at hf; cases hf
  | same _ => exact ⟨rfl, rfl⟩
  | noOp hf hne _ _ => rw [hfs] at hf; cases hf; exact absurd rfl hne
  | moved hf hne _ _ _ => rw [hfs] at hf; cases hf; exact absurd rfl hne
  | movedNo hf hne _ _ _ => rw [hfs] at hf; cases hf; exact absurd rfl hne

/-- What a successful move with a pointer into an allocation does: it binds as many
bytes as the allocation has, from the pointer on, so beyond the end of the
allocation as far as the pointer is from its beginning. -/
theorem offset_move {m : Machine} {S T : St} {p k : Nat} {a : Al} {q : Nat} {r : Rec} (hf : S.find p = some r)
    (hne : r.owner ≠ a) (ha : a.node = some k) (hs : Step m S (.move p a) (some q) T) :
    ∀ x, p ≤ x → x < p + r.size → T.bind (x / m.page) = some k := by
  intro x h1 h2
  cases hs with
  | same hf' => rw [hf] at hf'; cases hf'; exact absurd rfl hne
  | moved hf' _ hk _ hb =>
    rw [hf] at hf'; cases hf'
    rw [ha] at hk; cases hk
    cases hb with
    | ok _ _ hb _ => exact hb _ (onPage_byte h1 h2)

/-- Two nodes with CPUs, pages of 4096 bytes. -/
def two : Machine := { page := 4096, usable := fun k => decide (k < 2), cpus := fun k => decide (k < 2), backend := .none }

/-- The policies of the examples. -/
def near : Al := .numa 1 .host 0
def far : Al := .numa 2 .host 1

example : Al.make two 1 .host 0 = some near ∧ Al.make two 2 .host 1 = some far := by decide

def start : St := ⟨[], [], fun _ => none⟩

/-- Two allocations of the near policy, of three pages each. -/
def allocated : St :=
  ⟨[⟨20480, 12288, near⟩, ⟨4096, 12288, near⟩], [],
    bound two 20480 12288 0 (bound two 4096 12288 0 fun _ => none)⟩

def allocatedBy : History := [(.allocate near 12288, some 20480), (.allocate near 12288, some 4096)]

theorem kept_refl (m : Machine) (H : List Rng) (b : Binding) : Kept m H b b := fun _ _ => rfl

theorem reach_allocated : Reach two allocatedBy allocated := by
  refine .step (.step (.init _) (.allocate (by decide) (.numa (.host (by decide) ?_ (kept_refl _ _ _))
    (mbind_bound (by decide) (by decide)))))
    (.allocate (by decide) (.numa (.host (by decide) ?_ (kept_refl _ _ _)) (mbind_bound (by decide) (by decide))))
  · intro r hr; cases hr
  · intro r hr
    simp only [St.used, List.map, List.cons_append, List.nil_append, List.append_nil, List.mem_singleton] at hr
    subst hr
    exact .inr (by decide)

/-- The first one moved to the far node. -/
def movedTo : St := { allocated with bind := bound two 4096 12288 1 allocated.bind }

def movedBy : History := (.move 4096 far, some 4096) :: allocatedBy

theorem reach_moved : Reach two movedBy movedTo :=
  .step reach_allocated (.moved (r := ⟨4096, 12288, near⟩) (k := 1) rfl (by decide) rfl rfl
    (mbind_bound (by decide) (by decide)))

/-- The hypotheses of `placed_partial` are met: one allocation is on each node. -/
example : Regular movedBy ∧ alive movedBy 4096 = some (12288, near) ∧ asked movedBy 4096 = some 1 ∧
    alive movedBy 20480 = some (12288, near) ∧ asked movedBy 20480 = some 0 := by
  refine ⟨⟨⟨12288, near, rfl, ?_⟩, trivial⟩, rfl, rfl, rfl, rfl⟩
  intro h; exact absurd h (by decide)

example : movedTo.bind (16383 / 4096) = some 1 ∧ movedTo.bind (20480 / 4096) = some 0 := by decide

/-- Memory moved to another policy and back is not where it was asked to be. -/
theorem back_counterexample : ∃ h S, Reach two h S ∧ OnPages h ∧ ¬ Placed two h S := by
  refine ⟨(.move 4096 near, some 4096) :: movedBy, movedTo,
    .step reach_moved (.same (r := ⟨4096, 12288, near⟩) rfl), ⟨.numa .host, .numa .host, trivial⟩, ?_⟩
  intro hp
  have := hp 4096 12288 near 0 rfl rfl 4096 (by decide) (by decide)
  exact absurd this (by decide)

/-- A move with a pointer into an allocation leaves the first part where it was and
takes along the allocation behind it: the second allocation, that nobody asked to
move, is then in part on the far node. -/
theorem offset_counterexample : ∃ h S, Reach two h S ∧ OnPages h ∧ ¬ Placed two h S ∧
    asked h 20480 = some 0 ∧ S.bind (20480 / 4096) = some 1 ∧ S.bind (4096 / 4096) = some 0 := by
  refine ⟨(.move 12288 far, some 12288) :: allocatedBy, { allocated with bind := bound two 12288 12288 1 allocated.bind },
    .step reach_allocated (.moved (r := ⟨4096, 12288, near⟩) (k := 1) rfl (by decide) rfl rfl
      (mbind_bound (by decide) (by decide))), ⟨.numa .host, .numa .host, trivial⟩, ?_, rfl, by decide, by decide⟩
  intro hp
  have := hp 20480 12288 near 0 rfl rfl 20480 (by decide) (by decide)
  exact absurd this (by decide)

/-- Memory of a pool that nobody asked to move is moved along with its neighbour: the
allocation of 64 bytes at 4160 is on the page of the allocation at 4096. -/
theorem neighbour_counterexample : ∃ h S, Reach two h S ∧ alive h 4160 = some (64, .other 0) ∧ asked h 4160 = none ∧
    alive h 4096 = some (64, .other 0) ∧ S.bind (4160 / 4096) = some 1 ∧
    ∃ h' S', h = (.move 4096 far, some 4096) :: h' ∧ Reach two h' S' ∧ S'.bind (4160 / 4096) = none := by
  have hr : Reach two [(.allocate (.other 0) 64, some 4160), (.allocate (.other 0) 64, some 4096)]
      ⟨[⟨4160, 64, .other 0⟩, ⟨4096, 64, .other 0⟩], [], fun _ => none⟩ := by
    refine .step (.step (.init _) (.allocate (by decide) (.other ?_ (kept_refl _ _ _))))
      (.allocate (by decide) (.other ?_ (kept_refl _ _ _)))
    · intro r hr; cases hr
    · intro r hr
      simp only [St.used, List.map, List.cons_append, List.nil_append, List.append_nil, List.mem_singleton] at hr
      subst hr
      exact .inr (by decide)
  refine ⟨_, _, .step hr (.moved (r := ⟨4096, 64, .other 0⟩) (k := 1) (a := far) rfl (by decide) rfl rfl
      (mbind_bound (by decide) (by decide))), rfl, rfl, rfl, by decide, _, _, rfl, hr, rfl⟩

/-- Every allocation by a policy on a node the system does not know, or of memory of a
pool that does not begin at a page, throws and leaves the memory allocated: no
allocation is recorded, and there is no limit to the memory lost in this way.  The
constructor accepts such policies. -/
theorem lost_counterexample (i k n N : Nat) (m : Machine) (hn : 0 < n) (hm : n ≤ m.page) (hb : m.backend = .none)
    (hk : m.usable k = false) : Al.make m i .host k = some (.numa i .host k) ∧
    ∃ h S, Reach m h S ∧ h = List.replicate N (.allocate (.numa i .host k) n, none) ∧ S.recs = [] ∧ S.lost.length = N := by
  refine ⟨by simp [Al.make, Al.plat, hb], ?_⟩
  suffices ∃ S, Reach m (List.replicate N (.allocate (.numa i .host k) n, none)) S ∧ S.recs = [] ∧ S.lost.length = N ∧
      ∀ r ∈ S.lost, r.1 + r.2 ≤ N * m.page by
    obtain ⟨S, h1, h2, h3, -⟩ := this
    exact ⟨_, S, h1, rfl, h2, h3⟩
  induction N with
  | zero => exact ⟨_, .init fun _ => none, rfl, rfl, by simp⟩
  | succ N ih =>
    obtain ⟨S, h1, h2, h3, h4⟩ := ih
    refine ⟨⟨S.recs, (N * m.page, n) :: S.lost, S.bind⟩, ?_, h2, by simp [h3], ?_⟩
    · exact .step h1 (.allocateNo hn (.numaFail (.host (Nat.mul_mod_left _ _) (by
        intro r hr
        simp only [St.used, h2, List.map_nil, List.nil_append] at hr
        exact .inr (h4 r hr)) (kept_refl _ _ _)) (.noNode hk)))
    · intro r hr
      rw [Nat.succ_mul]
      rcases List.mem_cons.1 hr with rfl | hr
      · simp only; omega
      · have := h4 r hr; omega

example : two.usable 5 = false ∧ two.backend = .none ∧ 64 ≤ two.page := by decide

/-- The same over a pool, for any address that does not begin a page. -/
theorem pool_policy_throws {m : Machine} {S T : St} {i j k n : Nat} {r : Option Nat}
    (hs : Step m S (.allocate (.numa i (.other j) k) n) r T) :
    (∀ p, r = some p → p % m.page = 0) ∧ (r = none → T.recs = S.recs ∧ (T.lost = S.lost ∨ ∃ p, T.lost = (p, n) :: S.lost)) := by
  cases hs with
  | allocate _ hraw => exact ⟨fun p hp => by cases hp; exact raw_aligned hraw rfl, fun h => (nomatch h)⟩
  | allocateNo _ hraw =>
    refine ⟨fun p hp => (nomatch hp), fun _ => ⟨rfl, ?_⟩⟩
    rcases (raw_inv hraw).2 with rfl | ⟨-, p, -, rfl⟩
    · exact .inl rfl
    · exact .inr ⟨p, rfl⟩

/-- Memory that was released keeps its node: a plain allocation of `HOST`, made when
no policy has memory any more, can be bound to a node. -/
theorem stale_counterexample : ∃ h S, Reach two h S ∧ h = [(.allocate .host 64, some 4096), (.deallocate far 4096, some 4096),
    (.allocate far 64, some 4096)] ∧ S.recs = [⟨4096, 64, .host⟩] ∧ S.bind (4096 / 4096) = some 1 := by
  refine ⟨_, _, .step (.step (.step (.init fun _ => none) (.allocate (by decide) (.numa (.host (by decide)
      (fun r hr => by cases hr) (kept_refl _ _ _)) (mbind_bound (by decide) (by decide)))))
      (.deallocate (r := ⟨4096, 64, far⟩) (by simp [far]) rfl rfl))
      (.allocate (by decide) (.host (by decide) ?_ (kept_refl _ _ _))), rfl, by decide, by decide⟩
  intro r hr
  simp [St.used] at hr

/-- A HIP build: node 1 is a device. -/
def gpu : Machine := { two with cpus := fun k => decide (k = 0), backend := .hip }

/-- The hypotheses of `device_move_throws` are met. -/
example : far.plat gpu = .hip ∧ Al.make gpu 2 .host 1 = some far ∧ far.node ≠ none ∧ gpu.usable 1 = true := by decide

end Umpire.Numa
