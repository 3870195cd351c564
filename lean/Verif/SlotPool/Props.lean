import Verif.SlotPool.Model
import Verif.Base.Lists
import Verif.QuickPool.Fit
/-!
# Properties of `SlotPool` (C14)
-/
set_option autoImplicit false
set_option linter.unusedSimpArgs false
namespace Umpire.SlotPool
open Umpire.Prog
open Umpire.QuickPool (drop_perm)

/-- A pool together with the ghost view of its two neighbours.  `lost` counts the
requests the parent has refused. -/
structure Sys where
  st : State
  held : Held
  live : Held
  lost : Nat
deriving DecidableEq, Repr

/-- One user operation that completes.  Requests are for at least one byte (the
library serves zero-byte requests elsewhere); only live allocations are
deallocated. -/
inductive Step : Sys → Sys → Prop where
  | alloc {S : Sys} {n p s' O'} : 0 < n → p ≠ 0 → Run (allocate S.st n) S.held (some p, s') O' →
      Step S ⟨s', O', (p, n) :: S.live, S.lost⟩
  | allocNull {S : Sys} {n s' O'} : 0 < n → Run (allocate S.st n) S.held (some 0, s') O' →
      Step S ⟨s', O', S.live, S.lost⟩
  | allocErr {S : Sys} {n s' O' t} : 0 < n → RunT (allocate S.st n) S.held t (none, s') O' →
      Step S ⟨s', O', S.live, S.lost + t.length⟩
  | dealloc {S : Sys} {p n} : (p, n) ∈ S.live → Step S ⟨deallocate p S.st, S.held, drop p S.live, S.lost⟩

/-- Everything a user can bring about with a pool of `k` slots. -/
inductive Reach (k : Nat) : Sys → Prop where
  | init : Reach k ⟨create k, [], [], 0⟩
  | step {S T : Sys} : Reach k S → Step S T → Reach k T

/-- Slots with memory. -/
def held (s : State) : Held := (s.filter fun x => x.ptr ≠ 0).map fun x => (x.ptr, x.len.natAbs)

/-- Slots handed out. -/
def live (s : State) : Held := (s.filter fun x => x.ptr ≠ 0 ∧ x.len < 0).map fun x => (x.ptr, x.len.natAbs)

/-- Invariant: the slots in use come first, then unused ones. -/
structure Inv (k : Nat) (s : State) (O L : Held) (lost : Nat) : Prop where
  shape : ∃ used m, s = used ++ List.replicate m ⟨0, 0⟩ ∧ used.length + m = k ∧
    (∀ x ∈ used, x.len ≠ 0 ∧ (x.ptr = 0 → x.len < 0)) ∧ (used.filter fun x => x.ptr = 0).length = lost
  held : O.Perm (held s)
  live : L.Perm (live s)
  disj : O.Disjoint
  bound : ∀ x ∈ s, x.len.natAbs < 2 ^ 63

theorem allocLoop_append {n : Nat} {a b : State} (h : ∀ x ∈ a, x.len ≠ n ∧ x.len ≠ 0) :
    allocLoop n (a ++ b) = (allocLoop n b).bind fun r => .ret (r.1, a ++ r.2) := by
  induction a with
  | nil =>
    simp only [List.nil_append]
    generalize allocLoop n b = p
    induction p with
    | ret a => rfl
    | fail b => rfl
    | alloc n k ih => simp only [Prog.bind]; congr; funext r; exact ih r
    | dealloc p n k ih => simp only [Prog.bind]; rw [← ih]
  | cons x a ih =>
    have hx := h x (by simp)
    simp only [List.cons_append, allocLoop]
    rw [if_neg hx.1, if_neg hx.2, ih fun y hy => h y (by simp [hy]), bind_assoc]
    rfl

theorem held_append (a b : State) : held (a ++ b) = held a ++ held b := by simp [held]
theorem live_append (a b : State) : live (a ++ b) = live a ++ live b := by simp [live]
theorem held_replicate (m : Nat) : held (List.replicate m ⟨0, 0⟩) = [] := by simp [held, List.filter_replicate]
theorem live_replicate (m : Nat) : live (List.replicate m ⟨0, 0⟩) = [] := by simp [live, List.filter_replicate]

/-- What `allocate` does, as a case distinction on the slots. -/
theorem allocate_cases {k : Nat} {s : State} {O L : Held} {lost n : Nat} (h : Inv k s O L lost) (hn : 0 < n) :
    (2 ^ 63 ≤ n ∧ allocate s n = .ret (none, s)) ∨
    (n < 2 ^ 63 ∧ ∃ a x b, s = a ++ x :: b ∧ x.ptr ≠ 0 ∧ x.len = (n : Int) ∧ (∀ y ∈ a, y.len ≠ (n : Int)) ∧
      allocate s n = .ret (some x.ptr, a ++ ⟨x.ptr, -n⟩ :: b)) ∨
    (n < 2 ^ 63 ∧ (∀ x ∈ s, x.len ≠ n) ∧ ∃ used m, s = used ++ ⟨0, 0⟩ :: List.replicate m ⟨0, 0⟩ ∧ used.length + m + 1 = k ∧
      (∀ x ∈ used, x.len ≠ 0 ∧ (x.ptr = 0 → x.len < 0)) ∧ (used.filter fun x => x.ptr = 0).length = lost ∧
      allocate s n = .alloc n fun
        | some p => .ret (some p, used ++ ⟨p, -n⟩ :: List.replicate m ⟨0, 0⟩)
        | none => .ret (none, used ++ ⟨0, -n⟩ :: List.replicate m ⟨0, 0⟩)) ∨
    (n < 2 ^ 63 ∧ (∀ x ∈ s, x.len ≠ n) ∧ s.length = k ∧ (∀ x ∈ s, x.len ≠ 0 ∧ (x.ptr = 0 → x.len < 0)) ∧
      (s.filter fun x => x.ptr = 0).length = lost ∧ allocate s n = .ret (some 0, s)) := by
  by_cases hb : 2 ^ 63 ≤ n
  · left; exact ⟨hb, by unfold allocate; rw [if_pos hb]⟩
  right
  have hlt : n < 2 ^ 63 := by omega
  obtain ⟨used, m, hs, hk, hu, hl⟩ := h.shape
  by_cases hex : ∃ x ∈ used, x.len = n
  · left
    have : ∃ a x b, used = a ++ x :: b ∧ x.len = (n : Int) ∧ ∀ y ∈ a, y.len ≠ (n : Int) := by
      clear hs hk hl hu
      induction used with
      | nil => obtain ⟨x, hx, _⟩ := hex; cases hx
      | cons y ys ih =>
        by_cases hy : y.len = n
        · exact ⟨[], y, ys, rfl, hy, by simp⟩
        · obtain ⟨x, hx, hxn⟩ := hex
          rcases List.mem_cons.1 hx with rfl | hx
          · exact absurd hxn hy
          · obtain ⟨a, z, b, h1, h2, h3⟩ := ih ⟨x, hx, hxn⟩
            refine ⟨y :: a, z, b, by rw [h1]; rfl, h2, ?_⟩
            intro w hw
            rcases List.mem_cons.1 hw with rfl | hw
            · exact hy
            · exact h3 w hw
    obtain ⟨a, x, b, h1, h2, h3⟩ := this
    have hx := hu x (by rw [h1]; simp)
    refine ⟨hlt, a, x, b ++ List.replicate m ⟨0, 0⟩, by rw [hs, h1]; simp, ?_, h2, h3, ?_⟩
    · intro hz; have := hx.2 hz; omega
    · unfold allocate
      rw [if_neg hb, hs, h1, List.append_assoc, allocLoop_append]
      · simp only [List.cons_append, allocLoop]
        rw [if_pos h2]
        simp [h2]
      · intro y hy; exact ⟨h3 y hy, (hu y (by rw [h1]; simp [hy])).1⟩
  · right
    have hno : ∀ x ∈ used, x.len ≠ n := fun x hx he => hex ⟨x, hx, he⟩
    have hnos : ∀ x ∈ s, x.len ≠ n := by
      intro x hx
      rw [hs] at hx
      rcases List.mem_append.1 hx with hx | hx
      · exact hno x hx
      · rw [List.eq_of_mem_replicate hx]; simp only; omega
    cases m with
    | succ m =>
      left
      refine ⟨hlt, hnos, used, m, by rw [hs]; rfl, by omega, hu, hl, ?_⟩
      unfold allocate
      rw [if_neg hb, hs, allocLoop_append fun y hy => ⟨hno y hy, (hu y hy).1⟩]
      simp only [List.replicate_succ, allocLoop]
      rw [if_neg (by omega), if_pos trivial]
      simp only [Prog.bind]
      congr
      funext r
      cases r <;> rfl
    | zero =>
      right
      simp only [List.replicate_zero, List.append_nil] at hs
      subst hs
      refine ⟨hlt, hnos, by omega, hu, hl, ?_⟩
      unfold allocate
      rw [if_neg hb]
      have := allocLoop_append (n := n) (a := s) (b := []) fun y hy => ⟨hno y hy, (hu y hy).1⟩
      rw [List.append_nil] at this
      rw [this]
      simp [allocLoop]

theorem toSize_pos {n : Int} (h : 0 < n) (hb : n.natAbs < 2 ^ 63) : toSize n = n.natAbs := by
  unfold toSize W
  rw [Int.emod_eq_of_lt (by omega) (by omega)]
  omega

theorem Inv.pos {k : Nat} {s : State} {O L : Held} {lost : Nat} (h : Inv k s O L lost) : ∀ r ∈ O, 0 < r.2 := by
  intro r hr
  obtain ⟨used, m, hs, hk, hu, hl⟩ := h.shape
  have := h.held.mem_iff.1 hr
  simp only [SlotPool.held, List.mem_map, List.mem_filter, decide_eq_true_eq] at this
  obtain ⟨x, ⟨hx, hx2⟩, rfl⟩ := this
  rw [hs] at hx
  rcases List.mem_append.1 hx with hx | hx
  · have := (hu x hx).1; simp only; omega
  · rw [List.eq_of_mem_replicate hx] at hx2; exact absurd rfl hx2

theorem Inv.keys {k : Nat} {s : State} {O L : Held} {lost : Nat} (h : Inv k s O L lost) : (O.map (·.1)).Nodup := by
  have hp := h.pos
  have hd := h.disj
  clear h
  rw [List.Nodup, List.pairwise_map]
  refine List.Pairwise.imp_of_mem ?_ hd
  intro x y hx hy hd
  have := hp x hx
  have := hp y hy
  unfold Disj at hd
  omega

theorem Inv.sub {k : Nat} {s : State} {O L : Held} {lost : Nat} (h : Inv k s O L lost) : ∀ l ∈ L, l ∈ O := by
  intro l hl
  have := h.live.mem_iff.1 hl
  rw [h.held.mem_iff]
  simp only [SlotPool.live, SlotPool.held, List.mem_map, List.mem_filter, decide_eq_true_eq] at this ⊢
  obtain ⟨x, ⟨h1, h2, _⟩, h3⟩ := this
  exact ⟨x, ⟨h1, h2⟩, h3⟩

theorem live_sublist (s : State) : (live s).Sublist (held s) := by
  unfold live held
  apply List.Sublist.map
  have : (s.filter fun x => decide (x.ptr ≠ 0 ∧ x.len < 0)) = (s.filter fun x => decide (x.ptr ≠ 0)).filter fun x => decide (x.len < 0) := by
    rw [List.filter_filter]
    congr
    funext x
    by_cases h1 : x.ptr = 0 <;> by_cases h2 : x.len < 0 <;> simp [h1, h2]
  rw [this]
  exact List.filter_sublist

theorem Inv.live_keys {k : Nat} {s : State} {O L : Held} {lost : Nat} (h : Inv k s O L lost) : (L.map (·.1)).Nodup := by
  rw [(h.live.map (·.1)).nodup_iff]
  have : ((SlotPool.held s).map (·.1)).Nodup := by rw [← (h.held.map (·.1)).nodup_iff]; exact h.keys
  exact this.sublist ((live_sublist s).map _)

theorem deallocate_split {p : Nat} {s : State} {x : Slot} (hx : x ∈ s) (hp : x.ptr = p)
    (hn : ((held s).map (·.1)).Nodup) (h0 : p ≠ 0) :
    ∃ a b, s = a ++ x :: b ∧ deallocate p s = a ++ ⟨x.ptr, -x.len⟩ :: b := by
  induction s with
  | nil => cases hx
  | cons y ys ih =>
    by_cases hy : y.ptr = p
    · have : y = x := by
        rcases List.mem_cons.1 hx with h | h
        · exact h.symm
        · exfalso
          have hy0 : y.ptr ≠ 0 := by rw [hy]; exact h0
          have : held (y :: ys) = (y.ptr, y.len.natAbs) :: held ys := by simp [held, hy0]
          rw [this, List.map_cons, List.nodup_cons] at hn
          apply hn.1
          simp only [held, List.mem_map, List.mem_filter]
          exact ⟨_, ⟨x, ⟨h, by simp [hp, h0]⟩, rfl⟩, by rw [hp, hy]⟩
      subst this
      refine ⟨[], ys, rfl, ?_⟩
      simp [deallocate, hy]
    · have hx' : x ∈ ys := by
        rcases List.mem_cons.1 hx with h | h
        · subst h; exact absurd hp hy
        · exact h
      have hn' : ((held ys).map (·.1)).Nodup := by
        refine hn.sublist (List.Sublist.map _ ?_)
        unfold held
        exact ((List.sublist_cons_self y ys).filter _).map _
      obtain ⟨a, b, h1, h2⟩ := ih hx' hn'
      refine ⟨y :: a, b, by rw [h1]; rfl, ?_⟩
      simp only [deallocate]
      rw [if_neg hy, h2]
      rfl

/-- Changing the sign of the length of one slot keeps everything about blocks. -/
theorem held_flip (a b : State) (x : Slot) : held (a ++ ⟨x.ptr, -x.len⟩ :: b) = held (a ++ x :: b) := by
  unfold held
  by_cases h : x.ptr = 0 <;> simp [h, List.filter_append, List.filter_cons]

/-- The shape survives exchanging a slot that has memory for a similar one. -/
theorem shape_flip {k lost : Nat} {a b : State} {x x' : Slot} (hp : x.ptr ≠ 0) (hp' : x'.ptr ≠ 0) (hl' : x'.len ≠ 0)
    (h : ∃ used m, a ++ x :: b = used ++ List.replicate m ⟨0, 0⟩ ∧ used.length + m = k ∧
      (∀ x ∈ used, x.len ≠ 0 ∧ (x.ptr = 0 → x.len < 0)) ∧ (used.filter fun x => x.ptr = 0).length = lost) :
    ∃ used m, a ++ x' :: b = used ++ List.replicate m ⟨0, 0⟩ ∧ used.length + m = k ∧
      (∀ x ∈ used, x.len ≠ 0 ∧ (x.ptr = 0 → x.len < 0)) ∧ (used.filter fun x => x.ptr = 0).length = lost := by
  obtain ⟨used, m, hs, hk, hu, hl⟩ := h
  -- the slot is in the used part
  have hx : ∃ c, used = a ++ x :: c ∧ b = c ++ List.replicate m ⟨0, 0⟩ := by
    rw [List.append_eq_append_iff] at hs
    rcases hs with ⟨c, h1, h2⟩ | ⟨c, h1, h2⟩
    · cases c with
      | nil =>
        simp only [List.append_nil, List.nil_append] at h1 h2
        exfalso
        cases m with
        | zero => cases h2
        | succ m => rw [List.replicate_succ] at h2; injection h2 with h2 _; subst h2; exact hp rfl
      | cons y c =>
        rw [List.cons_append] at h2
        injection h2 with h3 h4
        subst h3
        exact ⟨c, h1, h4⟩
    · exfalso
      cases c with
      | nil =>
        simp only [List.nil_append] at h2
        cases m with
        | zero => cases h2
        | succ m => rw [List.replicate_succ] at h2; injection h2 with h2 _; subst h2; exact hp rfl
      | cons y c =>
        have : x ∈ List.replicate m (⟨0, 0⟩ : Slot) := by rw [h2]; simp
        rw [List.eq_of_mem_replicate this] at hp
        exact hp rfl
  obtain ⟨c, rfl, rfl⟩ := hx
  refine ⟨a ++ x' :: c, m, by simp, by simpa using hk, ?_, ?_⟩
  · intro y hy
    rcases List.mem_append.1 hy with hy | hy
    · exact hu y (by simp [hy])
    · rcases List.mem_cons.1 hy with rfl | hy
      · exact ⟨hl', fun h => absurd h hp'⟩
      · exact hu y (by simp [hy])
  · rw [← hl]
    simp [List.filter_append, List.filter_cons, hp, hp']

theorem live_mid (a b : State) (x : Slot) : (live (a ++ x :: b)).Perm (live [x] ++ live (a ++ b)) := by
  rw [live_append, live_append, show x :: b = [x] ++ b from rfl, live_append, ← List.append_assoc, ← List.append_assoc]
  exact List.perm_append_comm.append_right _

theorem held_mid (a b : State) (x : Slot) : (held (a ++ x :: b)).Perm (held [x] ++ held (a ++ b)) := by
  rw [held_append, held_append, show x :: b = [x] ++ b from rfl, held_append, ← List.append_assoc, ← List.append_assoc]
  exact List.perm_append_comm.append_right _

/-- Outcome of `allocate`. -/
theorem allocate_inv {k : Nat} {s : State} {O L : Held} {lost n : Nat} (h : Inv k s O L lost) (hn : 0 < n)
    {r : Option Nat} {s' : State} {O' : Held} {t : List Ev} (hr : RunT (allocate s n) O t (r, s') O') :
    (2 ^ 63 ≤ n ∧ t = [] ∧ r = none ∧ s' = s ∧ O' = O) ∨
    (∃ p, t = [] ∧ r = some p ∧ p ≠ 0 ∧ (p, n) ∈ O ∧ (p, n) ∉ L ∧ O' = O ∧ Inv k s' O' ((p, n) :: L) lost) ∨
    (O.length + lost < k ∧ (∀ q, (q, n) ∈ O → (q, n) ∈ L) ∧ ∃ p, t = [.got p n] ∧ r = some p ∧ p ≠ 0 ∧ Fresh p n O ∧
      O' = (p, n) :: O ∧ Inv k s' O' ((p, n) :: L) lost) ∨
    (O.length + lost < k ∧ (∀ q, (q, n) ∈ O → (q, n) ∈ L) ∧ t = [.refused n] ∧ r = none ∧ O' = O ∧ Inv k s' O' L (lost + 1)) ∨
    (O.length + lost = k ∧ (∀ q, (q, n) ∈ O → (q, n) ∈ L) ∧ t = [] ∧ r = some 0 ∧ s' = s ∧ O' = O) := by
  have hfree : (∀ x ∈ s, x.len ≠ n) → ∀ q, (q, n) ∈ O → (q, n) ∈ L := by
    intro hno q hq
    rw [h.live.mem_iff]
    rw [h.held.mem_iff] at hq
    simp only [SlotPool.held, SlotPool.live, List.mem_map, List.mem_filter, decide_eq_true_eq] at hq ⊢
    obtain ⟨x, ⟨h1, h2⟩, h3⟩ := hq
    have := hno x h1
    injection h3 with h4 h5
    exact ⟨x, ⟨h1, h2, by omega⟩, by rw [h4, h5]⟩
  have hlen : ∀ u : State, (u.filter fun x => decide (x.ptr = 0)).length + (SlotPool.held u).length = u.length := by
    intro u
    unfold SlotPool.held
    rw [List.length_map]
    have := (List.filter_append_perm (fun x : Slot => decide (x.ptr = 0)) u).length_eq
    rw [List.length_append] at this
    simpa using this
  rcases allocate_cases h hn with ⟨h1, he⟩ | ⟨h1, a, x, b, hs, hx, hxn, hano, he⟩ | ⟨h1, hno, used, m, hs, hk, hu, hl, he⟩ |
      ⟨h1, hno, hk, hu, hl, he⟩
  · rw [he] at hr; cases hr
    exact .inl ⟨h1, rfl, rfl, rfl, rfl⟩
  · right; left
    rw [he] at hr; cases hr
    have hO : (x.ptr, n) ∈ O := by
      rw [h.held.mem_iff, hs]
      simp only [SlotPool.held, List.mem_map, List.mem_filter, decide_eq_true_eq]
      exact ⟨x, ⟨by simp, hx⟩, by rw [hxn]; simp⟩
    have hxl : live [x] = [] := by simp [live, hx, hxn]
    have hL : (x.ptr, n) ∉ L := by
      intro hL
      have h2 := h.live.mem_iff.1 hL
      have hk := h.keys
      rw [(h.held.map (·.1)).nodup_iff, hs, ((held_mid a b x).map _).nodup_iff] at hk
      simp only [SlotPool.held, List.filter_cons, hx, ne_eq, not_false_eq_true, decide_true, if_true, List.filter_nil,
        List.map_cons, List.map_nil, List.singleton_append, List.cons_append, List.nil_append, List.nodup_cons] at hk
      rw [hs, (live_mid a b x).mem_iff, hxl, List.nil_append] at h2
      simp only [SlotPool.live, List.mem_map, List.mem_filter, decide_eq_true_eq] at h2
      obtain ⟨y, ⟨hy1, hy2, _⟩, hy3⟩ := h2
      apply hk.1
      injection hy3 with hy4 _
      simp only [List.mem_map, List.mem_filter]
      exact ⟨(y.ptr, y.len.natAbs), ⟨y, ⟨hy1, by simp [hy2]⟩, rfl⟩, hy4⟩
    refine ⟨x.ptr, rfl, rfl, hx, hO, hL, rfl, ?_⟩
    have hfl : held (a ++ ⟨x.ptr, -(n : Int)⟩ :: b) = held s := by
      rw [hs, ← hxn]; exact held_flip a b x
    refine ⟨?_, ?_, ?_, h.disj, ?_⟩
    · have := h.shape
      rw [hs] at this
      exact shape_flip hx (by exact hx) (by simp only; omega) this
    · rw [hfl]; exact h.held
    · refine (List.Perm.cons _ h.live).trans ?_
      rw [hs]
      refine ((live_mid a b x).cons _).trans (List.Perm.trans ?_ (live_mid a b ⟨x.ptr, -n⟩).symm)
      rw [hxl]
      simp only [List.nil_append]
      have : live [⟨x.ptr, -(n : Int)⟩] = [(x.ptr, n)] := by
        unfold SlotPool.live
        rw [List.filter_cons_of_pos (by simp only [decide_eq_true_eq]; exact ⟨hx, by omega⟩)]
        simp
      rw [this]
      rfl
    · intro y hy
      rcases List.mem_append.1 hy with hy | hy
      · exact h.bound y (by rw [hs]; simp [hy])
      · rcases List.mem_cons.1 hy with rfl | hy
        · simp only; omega
        · exact h.bound y (by rw [hs]; simp [hy])
  · right; right
    have hO : O.length + lost < k := by
      have h2 := hlen used
      have h3 := h.held.length_eq
      rw [hs, held_append, show (⟨0, 0⟩ :: List.replicate m ⟨0, 0⟩ : State) = List.replicate (m + 1) ⟨0, 0⟩ from rfl,
        held_replicate, List.append_nil] at h3
      omega
    have hbound : ∀ p, ∀ x ∈ used ++ (⟨p, -(n : Int)⟩ : Slot) :: List.replicate m ⟨0, 0⟩, x.len.natAbs < 2 ^ 63 := by
      intro p x hx
      rcases List.mem_append.1 hx with hx | hx
      · exact h.bound x (by rw [hs]; simp [hx])
      · rcases List.mem_cons.1 hx with rfl | hx
        · simp only; omega
        · rw [List.eq_of_mem_replicate hx]; decide
    have hh : held s = held used := by
      rw [hs, show (⟨0, 0⟩ :: List.replicate m ⟨0, 0⟩ : State) = List.replicate (m + 1) ⟨0, 0⟩ from rfl, held_append,
        held_replicate, List.append_nil]
    have hlv : live s = live used := by
      rw [hs, show (⟨0, 0⟩ :: List.replicate m ⟨0, 0⟩ : State) = List.replicate (m + 1) ⟨0, 0⟩ from rfl, live_append,
        live_replicate, List.append_nil]
    have hh2 := h.held
    have hl2 := h.live
    rw [hh] at hh2
    rw [hlv] at hl2
    rw [he] at hr
    cases hr with
    | @allocOk _ _ _ p _ _ _ hp hr =>
      left
      cases hr
      have hp0 := hp.1
      refine ⟨hO, hfree hno, p, rfl, rfl, hp0, hp, rfl, ⟨used ++ [⟨p, -n⟩], m, by simp, by simp; omega, ?_, ?_⟩, ?_, ?_, ?_, hbound p⟩
      · intro x hx
        rcases List.mem_append.1 hx with hx | hx
        · exact hu x hx
        · rw [List.mem_singleton.1 hx]
          exact ⟨by simp only; omega, fun h => absurd h hp0⟩
      · rw [← hl]; simp [List.filter_append, List.filter_cons, hp0]
      · refine (hh2.cons _).trans (List.Perm.trans ?_ (held_mid used (List.replicate m ⟨0, 0⟩) ⟨p, -n⟩).symm)
        rw [held_append, held_replicate, List.append_nil]
        simp [SlotPool.held, hp0]
      · refine (hl2.cons _).trans (List.Perm.trans ?_ (live_mid used (List.replicate m ⟨0, 0⟩) ⟨p, -n⟩).symm)
        rw [live_append, live_replicate, List.append_nil]
        have : live [⟨p, -(n : Int)⟩] = [(p, n)] := by
          unfold SlotPool.live
          rw [List.filter_cons_of_pos (by simp only [decide_eq_true_eq]; exact ⟨hp0, by omega⟩)]
          simp
        rw [this]
        rfl
      · exact List.pairwise_cons.2 ⟨hp.2.2, h.disj⟩
    | allocFail hr =>
      right; left
      cases hr
      refine ⟨hO, hfree hno, rfl, rfl, rfl, ⟨used ++ [⟨0, -n⟩], m, by simp, by simp; omega, ?_, ?_⟩, ?_, ?_, h.disj, hbound 0⟩
      · intro x hx
        rcases List.mem_append.1 hx with hx | hx
        · exact hu x hx
        · rw [List.mem_singleton.1 hx]
          exact ⟨by simp only; omega, fun _ => by simp only; omega⟩
      · rw [← hl]; simp [List.filter_append, List.filter_cons]
      · refine hh2.trans (List.Perm.trans ?_ (held_mid used (List.replicate m ⟨0, 0⟩) ⟨0, -n⟩).symm)
        rw [held_append, held_replicate, List.append_nil]
        simp [SlotPool.held]
      · refine hl2.trans (List.Perm.trans ?_ (live_mid used (List.replicate m ⟨0, 0⟩) ⟨0, -n⟩).symm)
        rw [live_append, live_replicate, List.append_nil]
        simp [SlotPool.live]
  · right; right; right; right
    rw [he] at hr; cases hr
    have h2 := hlen s
    have h3 := h.held.length_eq
    exact ⟨by omega, hfree hno, rfl, rfl, rfl, rfl⟩

theorem deallocate_inv {k : Nat} {s : State} {O L : Held} {lost p n : Nat} (h : Inv k s O L lost) (hl : (p, n) ∈ L) :
    Inv k (deallocate p s) O (drop p L) lost := by
  have hm := h.live.mem_iff.1 hl
  simp only [SlotPool.live, List.mem_map, List.mem_filter, decide_eq_true_eq] at hm
  obtain ⟨x, ⟨h1, h2, h3⟩, h4⟩ := hm
  injection h4 with h4 h5
  have hk : ((SlotPool.held s).map (·.1)).Nodup := by rw [← (h.held.map (·.1)).nodup_iff]; exact h.keys
  obtain ⟨a, b, hs, hd⟩ := deallocate_split h1 h4 hk (by rw [← h4]; exact h2)
  have hL := drop_perm h.live_keys hl
  rw [hd]
  refine ⟨?_, ?_, ?_, h.disj, ?_⟩
  · have := h.shape
    rw [hs] at this
    exact shape_flip h2 (by exact h2) (by simp only; omega) this
  · rw [held_flip, ← hs]; exact h.held
  · have e := h.live
    rw [hs] at e
    have e := hL.trans (e.trans (live_mid a b x))
    have h6 : live [x] = [(p, n)] := by
      unfold live
      rw [List.filter_cons_of_pos (by simp [h2, h3])]
      simp [h4, h5]
    rw [h6] at e
    refine (e.cons_inv).trans (List.Perm.trans ?_ (live_mid a b ⟨x.ptr, -x.len⟩).symm)
    have h7 : live [⟨x.ptr, -x.len⟩] = [] := by simp [live]; omega
    rw [h7]
    exact List.Perm.refl _
  · intro y hy
    rcases List.mem_append.1 hy with hy | hy
    · exact h.bound y (by rw [hs]; simp [hy])
    · rcases List.mem_cons.1 hy with rfl | hy
      · have := h.bound x h1; simp only; omega
      · exact h.bound y (by rw [hs]; simp [hy])

theorem create_inv (k : Nat) : Inv k (create k) [] [] 0 := by
  refine ⟨⟨[], k, by simp [create], by simp, by simp, by simp⟩, ?_, ?_, List.Pairwise.nil, ?_⟩
  · unfold create; rw [held_replicate]
  · unfold create; rw [live_replicate]
  · intro x hx; rw [List.eq_of_mem_replicate hx]; decide

theorem reach_inv {k : Nat} {S : Sys} (h : Reach k S) : Inv k S.st S.held S.live S.lost := by
  induction h with
  | init => exact create_inv k
  | step _ hs ih =>
    cases hs with
    | alloc hn hp hr =>
      obtain ⟨t, ht⟩ := hr.trace
      rcases allocate_inv ih hn ht with h | ⟨q, h⟩ | ⟨_, _, q, h⟩ | h | h
      · cases h.2.2.1
      · obtain ⟨-, h1, -, -, -, -, h2⟩ := h; cases h1; exact h2
      · obtain ⟨-, h1, -, -, -, h2⟩ := h; cases h1; exact h2
      · cases h.2.2.2.1
      · have := h.2.2.2.1; injection this with this; exact absurd this hp
    | allocNull hn hr =>
      obtain ⟨t, ht⟩ := hr.trace
      rcases allocate_inv ih hn ht with h | ⟨q, h⟩ | ⟨_, _, q, h⟩ | h | h
      · cases h.2.2.1
      · obtain ⟨-, h1, h2, -⟩ := h; injection h1 with h1; exact absurd h1.symm h2
      · obtain ⟨-, h1, h2, -⟩ := h; injection h1 with h1; exact absurd h1.symm h2
      · cases h.2.2.2.1
      · obtain ⟨-, -, -, -, h1, h2⟩ := h; subst h1 h2; exact ih
    | allocErr hn ht =>
      rcases allocate_inv ih hn ht with h | ⟨q, h⟩ | ⟨_, _, q, h⟩ | h | h
      · obtain ⟨-, h0, -, h1, h2⟩ := h; subst h1 h2 h0; exact ih
      · cases h.2.1
      · cases h.2.1
      · obtain ⟨-, -, h0, -, -, h2⟩ := h; subst h0; exact h2
      · cases h.2.2.2.1
    | dealloc hl => exact deallocate_inv ih hl

/-! ## Scripted histories, for examples -/

/-- Scripted history: `inl` allocates with the given answers of the parent, `inr`
deallocates. -/
def apply (S : Sys) : (Nat × List (Option Nat)) ⊕ (Nat × Nat) → Option Sys
  | .inl (n, sc) =>
    if 0 < n ∧ n < 2 ^ 63 then
      match (allocate S.st n).exec sc S.held with
      | .ok ((some p, s'), _, O') => if p = 0 then some ⟨s', O', S.live, S.lost⟩ else some ⟨s', O', (p, n) :: S.live, S.lost⟩
      | .ok ((none, _), _, _) => none
      | .error _ => none
    else none
  | .inr (p, n) => if (p, n) ∈ S.live then some ⟨deallocate p S.st, S.held, drop p S.live, S.lost⟩ else none

theorem apply_step {S T : Sys} {op} (h : apply S op = some T) : Step S T := by
  unfold apply at h
  split at h
  · split at h
    · rename_i hn
      split at h
      · split at h
        · rename_i p s' sc O' he hp
          injection h with h; subst h; subst hp
          exact .allocNull hn.1 (exec_run he)
        · rename_i p s' sc O' he hp
          injection h with h; subst h
          exact .alloc hn.1 hp (exec_run he)
      · cases h
      · cases h
    · cases h
  · split at h
    · injection h with h; subst h; exact .dealloc ‹_›
    · cases h

def play (k : Nat) (ops : List ((Nat × List (Option Nat)) ⊕ (Nat × Nat))) : Option Sys :=
  ops.foldlM apply ⟨create k, [], [], 0⟩

theorem play_reach {k : Nat} {ops : List ((Nat × List (Option Nat)) ⊕ (Nat × Nat))} {S : Sys}
    (h : play k ops = some S) : Reach k S := by
  unfold play at h
  have h0 := Reach.init (k := k)
  generalize (⟨create k, [], [], 0⟩ : Sys) = S0 at h0 h
  induction ops generalizing S0 with
  | nil => simp only [List.foldlM_nil] at h; injection h with h; subst h; exact h0
  | cons op ops ih =>
    simp only [List.foldlM_cons] at h
    cases ha : apply S0 op with
    | none => rw [ha] at h; simp at h
    | some U => rw [ha] at h; exact ih U (.step h0 (apply_step ha)) h

/-- Two slots, both used, one of them free again. -/
def sysX : Sys := { st := [⟨1600, 40⟩, ⟨3200, -24⟩], held := [(3200, 24), (1600, 40)], live := [(3200, 24)], lost := 0 }

theorem sysX_reach : Reach 2 sysX :=
  play_reach (ops := [.inl (40, [some 1600]), .inl (24, [some 3200]), .inr (1600, 40)]) (by decide +kernel)

/-! ## C14 -/

/-- Live allocations are pairwise disjoint, and each one is a block of exactly the
requested size obtained from the parent. -/
theorem slotpool_live_disjoint {k : Nat} {S : Sys} (h : Reach k S) :
    (S.live.Pairwise fun x y => Disj x.1 x.2 y.1 y.2) ∧ ∀ l ∈ S.live, l ∈ S.held := by
  have hi := reach_inv h
  refine ⟨?_, hi.sub⟩
  have h1 : (SlotPool.held S.st).Pairwise fun x y => Disj x.1 x.2 y.1 y.2 :=
    hi.held.pairwise_iff (fun h => h.symm) |>.1 hi.disj
  exact (hi.live.pairwise_iff (fun h => h.symm)).2 (h1.sublist (live_sublist _))

example : sysX.live.length = 1 ∧ ∀ l ∈ sysX.live, l ∈ sysX.held := ⟨rfl, (slotpool_live_disjoint sysX_reach).2⟩

/-- What a request for `n` bytes does.  It is served by reusing a block that is not
live and has exactly the requested length if there is one; otherwise by a new
block of exactly that length if a slot is left; otherwise the result is a null
pointer and nothing changes.  Requests of 2^63 bytes and more throw without any
change, and so does a request the parent refuses, except that it uses up a slot. -/
theorem slotpool_allocate {k : Nat} {S : Sys} (h : Reach k S) {n : Nat} (hn : 0 < n)
    {r : Option Nat} {s' : State} {O' : Held} {t : List Ev} (hr : RunT (allocate S.st n) S.held t (r, s') O') :
    (2 ^ 63 ≤ n → t = [] ∧ r = none ∧ s' = S.st ∧ O' = S.held) ∧
    (n < 2 ^ 63 → (∃ q, (q, n) ∈ S.held ∧ (q, n) ∉ S.live) →
      ∃ p, t = [] ∧ r = some p ∧ p ≠ 0 ∧ (p, n) ∈ S.held ∧ (p, n) ∉ S.live ∧ O' = S.held) ∧
    (n < 2 ^ 63 → (¬ ∃ q, (q, n) ∈ S.held ∧ (q, n) ∉ S.live) → S.held.length + S.lost < k →
      (∃ p, t = [.got p n] ∧ r = some p ∧ p ≠ 0 ∧ O' = (p, n) :: S.held) ∨ (t = [.refused n] ∧ r = none ∧ O' = S.held)) ∧
    (n < 2 ^ 63 → (¬ ∃ q, (q, n) ∈ S.held ∧ (q, n) ∉ S.live) → k ≤ S.held.length + S.lost →
      t = [] ∧ r = some 0 ∧ s' = S.st ∧ O' = S.held) := by
  have hi := reach_inv h
  have hbig : 2 ^ 63 ≤ n → t = [] ∧ r = none ∧ s' = S.st ∧ O' = S.held := by
    intro hb
    unfold allocate at hr
    rw [if_pos hb] at hr
    cases hr
    exact ⟨rfl, rfl, rfl, rfl⟩
  refine ⟨hbig, ?_, ?_, ?_⟩
  · rintro hlt ⟨q, h1, h2⟩
    rcases allocate_inv hi hn hr with h | ⟨p, h⟩ | h | h | h
    · omega
    · exact ⟨p, h.1, h.2.1, h.2.2.1, h.2.2.2.1, h.2.2.2.2.1, h.2.2.2.2.2.1⟩
    · exact absurd (h.2.1 q h1) h2
    · exact absurd (h.2.1 q h1) h2
    · exact absurd (h.2.1 q h1) h2
  · intro hlt hno hk
    rcases allocate_inv hi hn hr with h | ⟨p, h⟩ | ⟨_, _, p, h⟩ | h | h
    · omega
    · exact absurd ⟨p, h.2.2.2.1, h.2.2.2.2.1⟩ hno
    · exact .inl ⟨p, h.1, h.2.1, h.2.2.1, h.2.2.2.2.1⟩
    · exact .inr ⟨h.2.2.1, h.2.2.2.1, h.2.2.2.2.1⟩
    · omega
  · intro hlt hno hk
    rcases allocate_inv hi hn hr with h | ⟨p, h⟩ | h | h | h
    · omega
    · exact absurd ⟨p, h.2.2.2.1, h.2.2.2.2.1⟩ hno
    · omega
    · omega
    · exact h.2.2

example : ∃ s', RunT (allocate sysX.st 40) sysX.held [] (some 1600, s') sysX.held ∧
    (∃ q, (q, 40) ∈ sysX.held ∧ (q, 40) ∉ sysX.live) := by
  have hb : ∃ q, (q, 40) ∈ sysX.held ∧ (q, 40) ∉ sysX.live := ⟨1600, by decide, by decide⟩
  obtain ⟨t, ht⟩ := (execOk_run (p := allocate sysX.st 40) [] (O := sysX.held)
    (a := (some 1600, [⟨1600, -40⟩, ⟨3200, -24⟩])) (O' := sysX.held) (by decide +kernel)).trace
  obtain ⟨p, h1, -⟩ := (slotpool_allocate sysX_reach (by decide) ht).2.1 (by decide) hb
  subst h1
  exact ⟨_, ht, hb⟩

example : RunT (allocate sysX.st 24) sysX.held [] (some 0, sysX.st) sysX.held ∧
    (¬ ∃ q, (q, 24) ∈ sysX.held ∧ (q, 24) ∉ sysX.live) ∧ 2 ≤ sysX.held.length + sysX.lost := by
  have h1 : ¬ ∃ q, (q, 24) ∈ sysX.held ∧ (q, 24) ∉ sysX.live := by
    rintro ⟨q, h1, h2⟩
    simp [sysX] at h1 h2
    exact h2 h1
  obtain ⟨t, ht⟩ := (execOk_run (p := allocate sysX.st 24) [] (O := sysX.held)
    (a := (some 0, sysX.st)) (O' := sysX.held) (by decide +kernel)).trace
  obtain ⟨h2, -⟩ := (slotpool_allocate sysX_reach (by decide) ht).2.2.2 (by decide) h1 (by decide)
  subst h2
  exact ⟨ht, h1, by decide⟩

/-- Deallocating a live allocation contacts nobody, and afterwards a request of the
same length is served without contacting the parent. -/
theorem slotpool_deallocate {k : Nat} {S : Sys} (h : Reach k S) {p n : Nat} (hl : (p, n) ∈ S.live) :
    Reach k ⟨deallocate p S.st, S.held, drop p S.live, S.lost⟩ ∧
    ∀ t r s' O', RunT (allocate (deallocate p S.st) n) S.held t (r, s') O' → t = [] ∧ ∃ q, r = some q ∧ q ≠ 0 := by
  have hs := Step.dealloc hl
  refine ⟨.step h hs, ?_⟩
  intro t r s' O' hr
  have hi := reach_inv h
  have hO := hi.sub _ hl
  have hn := hi.pos _ hO
  simp only at hn
  have hlt : n < 2 ^ 63 := by
    have := hi.live.mem_iff.1 hl
    simp only [SlotPool.live, List.mem_map, List.mem_filter] at this
    obtain ⟨x, ⟨h1, _⟩, h2⟩ := this
    injection h2 with _ h3
    have := hi.bound x h1
    omega
  obtain ⟨q, h1, h2, h3, -⟩ := (slotpool_allocate (.step h hs) hn hr).2.1 hlt
    ⟨p, hO, by simp only; rw [mem_drop]; simp⟩
  exact ⟨h1, q, h2, h3⟩

example : ∀ t r s' O', RunT (allocate (deallocate 3200 sysX.st) 24) sysX.held t (r, s') O' → t = [] ∧ ∃ q, r = some q ∧ q ≠ 0 :=
  (slotpool_deallocate sysX_reach (by decide)).2

theorem destroy_wp {s : State} {O : Held} (hO : O.Perm (held s)) (hk : (O.map (·.1)).Nodup)
    (hs : ∀ x ∈ s, x.ptr ≠ 0 → 0 < x.len ∧ x.len.natAbs < 2 ^ 63) : (destroy s).wp NoBad O fun _ O' => O' = [] := by
  induction s generalizing O with
  | nil => exact hO.eq_nil
  | cons x s ih =>
    unfold destroy
    by_cases hx : x.ptr = 0
    · rw [if_neg (by simpa using hx)]
      refine ih ?_ hk fun y hy => hs y (by simp [hy])
      simpa [held, List.filter_cons, hx] using hO
    · rw [if_pos hx]
      have hx2 := hs x (by simp) hx
      rw [toSize_pos hx2.1 hx2.2]
      have hO2 : O.Perm ((x.ptr, x.len.natAbs) :: held s) := by
        simpa [held, List.filter_cons, hx] using hO
      have hm : (x.ptr, x.len.natAbs) ∈ O := hO2.mem_iff.2 (by simp)
      have hd := drop_perm hk hm
      refine ⟨⟨hm, trivial⟩, ih ?_ ?_ fun y hy => hs y (by simp [hy])⟩
      · exact (hd.trans hO2).cons_inv
      · exact hk.sublist (List.Sublist.map _ List.filter_sublist)

/-- If nothing is live, the destructor hands back every block exactly once and
with its size. -/
theorem slotpool_destroy {k : Nat} {S : Sys} (h : Reach k S) (hl : S.live = []) :
    (∀ b, ¬ Goes (destroy S.st) S.held b) ∧ ∀ u O', Run (destroy S.st) S.held u O' → O' = [] := by
  have hi := reach_inv h
  have hw : (destroy S.st).wp NoBad S.held fun _ O' => O' = [] := by
    refine destroy_wp hi.held hi.keys ?_
    intro x hx hp
    refine ⟨?_, hi.bound x hx⟩
    obtain ⟨used, m, hs, hk, hu, -⟩ := hi.shape
    have h0 : x.len ≠ 0 := by
      rw [hs] at hx
      rcases List.mem_append.1 hx with hx | hx
      · exact (hu x hx).1
      · rw [List.eq_of_mem_replicate hx] at hp; exact absurd rfl hp
    have h1 := hi.live
    rw [hl] at h1
    have h2 := h1.symm.eq_nil
    apply Classical.byContradiction
    intro hneg
    have : (x.ptr, x.len.natAbs) ∈ SlotPool.live S.st := by
      simp only [SlotPool.live, List.mem_map, List.mem_filter, decide_eq_true_eq]
      exact ⟨x, ⟨hx, hp, by omega⟩, rfl⟩
    rw [h2] at this
    cases this
  refine ⟨fun b hg => wp_safe hw hg, fun u O' hr => ?_⟩
  have := wp_run hw hr
  exact this

example : ∃ S : Sys, Reach 2 S ∧ S.live = [] ∧ S.held = [(3200, 24), (1600, 40)] := by
  refine ⟨⟨[⟨1600, 40⟩, ⟨3200, 24⟩], [(3200, 24), (1600, 40)], [], 0⟩, ?_, rfl, rfl⟩
  exact play_reach (ops := [.inl (40, [some 1600]), .inl (24, [some 3200]), .inr (1600, 40), .inr (3200, 24)]) (by decide +kernel)

/-- With a live allocation, the destructor announces a wrong size to the parent:
the negated length, 2^64 - 24, instead of 24. -/
theorem slotpool_destroy_counterexample :
    ∃ (k : Nat) (S : Sys), Reach k S ∧ S.held = [(3200, 24), (1600, 40)] ∧ Frees (destroy S.st) S.held 3200 (2 ^ 64 - 24) ∧
      Goes (destroy S.st) S.held .ub := by
  refine ⟨2, sysX, sysX_reach, rfl, ?_, execBad_goes [] (by decide +kernel)⟩
  have h1 : toSize (-24) = 2 ^ 64 - 24 := by decide
  have h2 : toSize 40 = 40 := by decide
  have : destroy sysX.st = .dealloc 1600 40 (.dealloc 3200 (2 ^ 64 - 24) (.ret ())) := by
    simp [destroy, sysX, h1, h2]
  rw [this]
  exact .dealloc .here

/-- A request the parent refuses uses up a slot for good: the only slot is gone,
although nothing is held, and every later request yields a null pointer. -/
theorem slotpool_lost_slot_counterexample :
    ∃ S : Sys, Reach 1 S ∧ S.held = [] ∧ S.live = [] ∧
      ∀ n, 0 < n → n < 2 ^ 63 → allocate S.st n = .ret (some 0, S.st) := by
  refine ⟨⟨[⟨0, -40⟩], [], [], 1⟩, ?_, rfl, rfl, ?_⟩
  · refine .step .init (.allocErr (S := ⟨create 1, [], [], 0⟩) (n := 40) (t := [.refused 40]) (by decide) ?_)
    exact .allocFail .ret
  · intro n h1 h2
    unfold allocate
    rw [if_neg (by omega)]
    simp only [allocLoop]
    rw [if_neg (by omega), if_neg (by decide)]
    rfl

/-- A zero-byte request to a pool with an unused slot yields a null pointer. -/
theorem slotpool_zero_counterexample (k : Nat) : allocate (create (k + 1)) 0 = .ret (some 0, create (k + 1)) := rfl

end Umpire.SlotPool
