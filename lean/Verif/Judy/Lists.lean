import Verif.Judy.Model
/-! Sorted association lists, and the entries of a Judy tree. -/
set_option autoImplicit false
set_option linter.unusedSimpArgs false
namespace Umpire.Judy
variable {V : Type}

/-- Strictly increasing keys. -/
def Sorted (L : List (Nat × V)) : Prop := L.Pairwise fun a b => a.1 < b.1

/-- The entries before, at and after a key. -/
def lo (v : Nat) (L : List (Nat × V)) : List (Nat × V) := L.filter fun x => decide (x.1 < v)
def mid (v : Nat) (L : List (Nat × V)) : List (Nat × V) := L.filter fun x => decide (x.1 = v)
def hi (v : Nat) (L : List (Nat × V)) : List (Nat × V) := L.filter fun x => decide (v < x.1)

theorem split3 {L : List (Nat × V)} (h : Sorted L) (v : Nat) : L = lo v L ++ mid v L ++ hi v L := by
  induction L with
  | nil => rfl
  | cons x xs ih =>
    have hx := (List.pairwise_cons.1 h).1
    have ih := ih (List.pairwise_cons.1 h).2
    have key : ∀ (P : Nat × V → Prop) [DecidablePred P], (∀ y ∈ xs, ¬ P y) → xs.filter (fun y => decide (P y)) = [] := by
      intro P _ hp
      rw [List.filter_eq_nil_iff]; intro y hy; simpa using hp y hy
    unfold lo mid hi at *
    rcases Nat.lt_trichotomy x.1 v with hlt | heq | hgt
    · have h1 : ¬ x.1 = v := by omega
      have h2 : ¬ v < x.1 := by omega
      simp only [List.filter_cons, hlt, h1, h2, decide_true, decide_false, if_true, List.cons_append]
      exact congrArg _ ih
    · subst heq
      have e1 := key (fun y => y.1 < x.1) (fun y hy => by have := hx y hy; omega)
      have e2 := key (fun y => y.1 = x.1) (fun y hy => by have := hx y hy; omega)
      rw [e1, e2] at ih
      have h3 : ¬ x.1 < x.1 := by omega
      simp only [List.filter_cons, h3, decide_true, decide_false, if_true, List.cons_append, e1, e2, List.nil_append]
      simpa using ih
    · have e1 := key (fun y => y.1 < v) (fun y hy => by have := hx y hy; omega)
      have e2 := key (fun y => y.1 = v) (fun y hy => by have := hx y hy; omega)
      rw [e1, e2] at ih
      have h3 : ¬ x.1 < v := by omega
      have h4 : ¬ x.1 = v := by omega
      simp only [List.filter_cons, h3, h4, hgt, decide_true, decide_false, if_true, List.cons_append, e1, e2, List.nil_append]
      simpa using ih

theorem mem_lo {v : Nat} {L : List (Nat × V)} {x : Nat × V} : x ∈ lo v L ↔ x ∈ L ∧ x.1 < v := by simp [lo]
theorem mem_mid {v : Nat} {L : List (Nat × V)} {x : Nat × V} : x ∈ mid v L ↔ x ∈ L ∧ x.1 = v := by simp [mid]
theorem mem_hi {v : Nat} {L : List (Nat × V)} {x : Nat × V} : x ∈ hi v L ↔ x ∈ L ∧ v < x.1 := by simp [hi]

theorem Sorted.filter {L : List (Nat × V)} (h : Sorted L) (p : Nat × V → Bool) : Sorted (L.filter p) :=
  List.Pairwise.filter _ h

/-- At most one entry has a given key. -/
theorem mid_cases {L : List (Nat × V)} (h : Sorted L) (v : Nat) : mid v L = [] ∨ ∃ x, mid v L = [(v, x)] := by
  have hs : Sorted (mid v L) := h.filter _
  cases hm : mid v L with
  | nil => exact .inl rfl
  | cons y ys =>
    right
    have hy : y.1 = v := (mem_mid.1 (hm ▸ List.mem_cons_self)).2
    cases ys with
    | nil => exact ⟨y.2, by rw [← hy]⟩
    | cons z zs =>
      rw [hm] at hs
      have h1 := (List.pairwise_cons.1 hs).1 z (by simp)
      have h2 : z.1 = v := (mem_mid.1 (hm ▸ by simp : z ∈ mid v L)).2
      omega

theorem lo_append (v : Nat) (A B : List (Nat × V)) : lo v (A ++ B) = lo v A ++ lo v B := List.filter_append ..
theorem mid_append (v : Nat) (A B : List (Nat × V)) : mid v (A ++ B) = mid v A ++ mid v B := List.filter_append ..
theorem hi_append (v : Nat) (A B : List (Nat × V)) : hi v (A ++ B) = hi v A ++ hi v B := List.filter_append ..

/-- Position of the filters in a list that is cut at `v`. -/
theorem cut_at {P M S : List (Nat × V)} {v : Nat} (hP : ∀ x ∈ P, x.1 < v) (hM : ∀ x ∈ M, x.1 = v) (hS : ∀ x ∈ S, v < x.1) :
    lo v (P ++ M ++ S) = P ∧ mid v (P ++ M ++ S) = M ∧ hi v (P ++ M ++ S) = S := by
  have nil : ∀ (A : List (Nat × V)) (p : Nat × V → Bool), (∀ x ∈ A, p x = false) → A.filter p = [] := by
    intro A p h; rw [List.filter_eq_nil_iff]; intro a ha; simp [h a ha]
  have full : ∀ (A : List (Nat × V)) (p : Nat × V → Bool), (∀ x ∈ A, p x = true) → A.filter p = A := by
    intro A p h; exact List.filter_eq_self.2 h
  refine ⟨?_, ?_, ?_⟩
  · rw [lo_append, lo_append]; unfold lo
    rw [full P _ (fun x hx => by simpa using hP x hx), nil M _ (fun x hx => by have := hM x hx; simp; omega),
      nil S _ (fun x hx => by have := hS x hx; simp; omega)]
    simp
  · rw [mid_append, mid_append]; unfold mid
    rw [nil P _ (fun x hx => by have := hP x hx; simp; omega), full M _ (fun x hx => by simpa using hM x hx),
      nil S _ (fun x hx => by have := hS x hx; simp; omega)]
    simp
  · rw [hi_append, hi_append]; unfold hi
    rw [nil P _ (fun x hx => by have := hP x hx; simp; omega), nil M _ (fun x hx => by have := hM x hx; simp; omega),
      full S _ (fun x hx => by simpa using hS x hx)]
    simp

theorem sorted_append {A B : List (Nat × V)} : Sorted (A ++ B) ↔ Sorted A ∧ Sorted B ∧ ∀ a ∈ A, ∀ b ∈ B, a.1 < b.1 :=
  List.pairwise_append

/-- Putting an entry at its key keeps the order. -/
theorem sorted_put {L : List (Nat × V)} (h : Sorted L) (v : Nat) (x : V) : Sorted (lo v L ++ (v, x) :: hi v L) := by
  rw [sorted_append]
  refine ⟨h.filter _, ?_, ?_⟩
  · exact List.pairwise_cons.2 ⟨fun y hy => (mem_hi.1 hy).2, h.filter _⟩
  · intro a ha b hb
    have h1 := (mem_lo.1 ha).2
    rcases List.mem_cons.1 hb with rfl | hb
    · exact h1
    · have := (mem_hi.1 hb).2; omega

theorem sorted_del {L : List (Nat × V)} (h : Sorted L) (v : Nat) : Sorted (lo v L ++ hi v L) := by
  rw [sorted_append]
  refine ⟨h.filter _, h.filter _, ?_⟩
  intro a ha b hb
  have h1 := (mem_lo.1 ha).2
  have := (mem_hi.1 hb).2; omega

/-! ## Entries of a tree -/

/-- Put a byte before the keys. -/
def shift (k i : Nat) (L : List (Nat × V)) : List (Nat × V) := L.map fun x => (i * 256 ^ k + x.1, x.2)

/-- The entries of a tree in the order of their keys. -/
def ents : (k : Nat) → T V k → List (Nat × V)
  | 0, (c : Option V) => (c.map fun x => (0, x)).toList
  | _ + 1, Node.nil => []
  | _ + 1, Node.list _ sl => sl.filterMap fun e => e.2.map fun x => (e.1, x)
  | k + 1, Node.radix ch => (List.range 256).flatMap fun i => shift k i (ents k (ch i))

/-- A used slot. -/
def used (x : Nat × V) : Nat × Option V := (x.1, some x.2)

/-- The contents of a list node: `e` unused slots, then the entries `R`. -/
def slotsOf (e : Nat) (R : List (Nat × V)) : List (Nat × Option V) := List.replicate e (0, none) ++ R.map used

/-- Well-formed trees. -/
def WF : (k : Nat) → T V k → Prop
  | 0, _ => True
  | _ + 1, Node.nil => True
  | k + 1, Node.list ty sl => 1 ≤ ty ∧ ty ≤ 6 ∧ sl.length = cap ty (k + 1) ∧
      ∃ e R, sl = slotsOf e R ∧ R ≠ [] ∧ Sorted R ∧ ∀ x ∈ R, x.1 < 256 ^ (k + 1)
  | k + 1, Node.radix ch => (∀ i, i < 256 → WF k (ch i)) ∧ ∃ i, i < 256 ∧ isNil k (ch i) = false

theorem filterMap_slotsOf (e : Nat) (R : List (Nat × V)) :
    (slotsOf e R).filterMap (fun s => s.2.map fun x => (s.1, x)) = R := by
  unfold slotsOf
  rw [List.filterMap_append]
  have h1 : (List.replicate e ((0, none) : Nat × Option V)).filterMap (fun s => s.2.map fun x => (s.1, x)) = [] := by
    rw [List.filterMap_eq_nil_iff]
    intro a ha; rw [(List.mem_replicate.1 ha).2]; rfl
  rw [h1, List.filterMap_map, List.nil_append]
  induction R with
  | nil => rfl
  | cons x xs ih => rw [List.filterMap_cons]; simp only [Function.comp, used, Option.map_some]; exact congrArg _ ih

theorem ents_list (k ty : Nat) (sl : List (Nat × Option V)) :
    ents (k + 1) (Node.list ty sl : Node V (T V k)) = sl.filterMap fun e => e.2.map fun x => (e.1, x) := rfl

theorem ents_radix (k : Nat) (ch : Nat → T V k) :
    ents (k + 1) (Node.radix ch : Node V (T V k)) = (List.range 256).flatMap fun i => shift k i (ents k (ch i)) := rfl

theorem ents_empty (k : Nat) : ents k (empty k : T V k) = [] := by cases k <;> rfl

theorem isNil_empty (k : Nat) : isNil k (empty k : T V k) = true := by cases k <;> rfl

theorem mem_shift {k i : Nat} {L : List (Nat × V)} {x : Nat × V} :
    x ∈ shift k i L ↔ ∃ y ∈ L, x = (i * 256 ^ k + y.1, y.2) := by
  unfold shift; rw [List.mem_map]
  exact ⟨fun ⟨a, b, c⟩ => ⟨a, b, c.symm⟩, fun ⟨a, b, c⟩ => ⟨a, b, c.symm⟩⟩

theorem pow_pos (k : Nat) : 0 < 256 ^ k := Nat.pow_pos (by decide)

theorem byte_lt {i k y : Nat} (hi : i < 256) (hy : y < 256 ^ k) : i * 256 ^ k + y < 256 ^ (k + 1) := by
  have : (i + 1) * 256 ^ k ≤ 256 * 256 ^ k := Nat.mul_le_mul_right _ (by omega)
  rw [Nat.pow_succ, Nat.mul_comm (256 ^ k)]
  rw [Nat.add_mul] at this
  omega

theorem byte_of {i k y : Nat} (hi : i < 256) (hy : y < 256 ^ k) : (i * 256 ^ k + y) / 256 ^ k % 256 = i := by
  rw [Nat.mul_comm, Nat.mul_add_div (pow_pos k), Nat.div_eq_of_lt hy, Nat.add_zero, Nat.mod_eq_of_lt hi]

theorem rest_of {i k y : Nat} (hy : y < 256 ^ k) : (i * 256 ^ k + y) % 256 ^ k = y := by
  rw [Nat.mul_comm, Nat.mul_add_mod, Nat.mod_eq_of_lt hy]

theorem byte_rest {v k : Nat} (hv : v < 256 ^ (k + 1)) : v / 256 ^ k % 256 * 256 ^ k + v % 256 ^ k = v := by
  have h1 : v / 256 ^ k < 256 := by
    rw [Nat.div_lt_iff_lt_mul (pow_pos k), Nat.mul_comm, ← Nat.pow_succ]; exact hv
  rw [Nat.mod_eq_of_lt h1, Nat.mul_comm]; exact Nat.div_add_mod _ _

theorem shift_lt {i j k y z : Nat} (hij : i < j) (hy : y < 256 ^ k) : i * 256 ^ k + y < j * 256 ^ k + z := by
  have : (i + 1) * 256 ^ k ≤ j * 256 ^ k := Nat.mul_le_mul_right _ hij
  rw [Nat.add_mul] at this; omega

theorem sorted_shift {k i : Nat} {L : List (Nat × V)} (h : Sorted L) : Sorted (shift k i L) := by
  unfold Sorted shift
  rw [List.pairwise_map]
  exact h.imp (fun h => by simp; exact h)

/-- The keys of a well-formed tree fit in `k` bytes. -/
theorem ents_lt : ∀ (k : Nat) (t : T V k), WF k t → ∀ x ∈ ents k t, x.1 < 256 ^ k := by
  intro k
  induction k with
  | zero =>
    intro t _ x hx
    cases t with
    | none => cases hx
    | some y => simp only [ents, Option.map_some, Option.toList_some, List.mem_singleton] at hx; subst hx; exact pow_pos 0
  | succ k ih =>
    intro t hw x hx
    match t, hw, hx with
    | Node.nil, _, hx => cases hx
    | Node.list ty sl, hw, hx =>
      obtain ⟨_, _, _, e, R, hsl, _, _, hR⟩ := hw
      rw [ents_list, hsl, filterMap_slotsOf] at hx
      exact hR x hx
    | Node.radix ch, hw, hx =>
      rw [ents_radix, List.mem_flatMap] at hx
      obtain ⟨i, hi, hx⟩ := hx
      obtain ⟨y, hy, rfl⟩ := mem_shift.1 hx
      have hi := List.mem_range.1 hi
      exact byte_lt hi (ih (ch i) (hw.1 i hi) y hy)

theorem sorted_ents : ∀ (k : Nat) (t : T V k), WF k t → Sorted (ents k t) := by
  intro k
  induction k with
  | zero =>
    intro t _
    cases t with
    | none => exact List.Pairwise.nil
    | some y => exact List.pairwise_singleton _ _
  | succ k ih =>
    intro t hw
    match t, hw with
    | Node.nil, _ => exact List.Pairwise.nil
    | Node.list ty sl, hw =>
      obtain ⟨_, _, _, e, R, hsl, _, hs, _⟩ := hw
      rw [ents_list, hsl, filterMap_slotsOf]
      exact hs
    | Node.radix ch, hw =>
      rw [ents_radix]
      unfold Sorted
      rw [List.flatMap_def, List.pairwise_flatten]
      constructor
      · intro l hl
        obtain ⟨i, hi, rfl⟩ := List.mem_map.1 hl
        exact sorted_shift (ih (ch i) (hw.1 i (List.mem_range.1 hi)))
      · rw [List.pairwise_map]
        refine (List.pairwise_lt_range (n := 256)).imp_of_mem ?_
        intro i j hi hj hij x hx y hy
        obtain ⟨x', hx', rfl⟩ := mem_shift.1 hx
        obtain ⟨y', hy', rfl⟩ := mem_shift.1 hy
        exact shift_lt hij (ents_lt k (ch i) (hw.1 i (List.mem_range.1 hi)) x' hx')

/-- Exactly the null tree has no entries. -/
theorem isNil_iff : ∀ (k : Nat) (t : T V k), WF k t → (isNil k t = true ↔ ents k t = []) := by
  intro k
  induction k with
  | zero =>
    intro t _
    cases t with
    | none => exact ⟨fun _ => rfl, fun _ => rfl⟩
    | some y => simp [isNil, ents]
  | succ k ih =>
    intro t hw
    match t, hw with
    | Node.nil, _ => exact ⟨fun _ => rfl, fun _ => rfl⟩
    | Node.list ty sl, hw =>
      obtain ⟨_, _, _, e, R, hsl, hne, _, _⟩ := hw
      rw [ents_list, hsl, filterMap_slotsOf]
      simp [isNil, hne]
    | Node.radix ch, hw =>
      obtain ⟨i, hi, hn⟩ := hw.2
      rw [ents_radix, List.flatMap_eq_nil_iff]
      constructor
      · intro h; cases h
      · intro h
        have h1 := h i (List.mem_range.2 hi)
        unfold shift at h1
        rw [List.map_eq_nil_iff] at h1
        rw [(ih (ch i) (hw.1 i hi)).2 h1] at hn; cases hn

/-- The entries of the subtrees before byte `b`, and after it. -/
def below (k : Nat) (ch : Nat → T V k) (b : Nat) : List (Nat × V) := (List.range b).flatMap fun i => shift k i (ents k (ch i))
def above (k : Nat) (ch : Nat → T V k) (b : Nat) : List (Nat × V) :=
  (List.range' (b + 1) (255 - b)).flatMap fun i => shift k i (ents k (ch i))

theorem range_cut {b : Nat} (hb : b < 256) : List.range 256 = List.range b ++ b :: List.range' (b + 1) (255 - b) := by
  have h : 256 = b + (1 + (255 - b)) := by omega
  have h1 : List.range 256 = List.range b ++ List.range' b (1 + (255 - b)) := by
    rw [List.range_eq_range', List.range_eq_range', h, ← List.range'_append_1]
    simp
  rw [h1, Nat.add_comm 1, List.range'_succ]

theorem radix_cut (k : Nat) (ch : Nat → T V k) {b : Nat} (hb : b < 256) :
    ents (k + 1) (Node.radix ch : Node V (T V k)) = below k ch b ++ shift k b (ents k (ch b)) ++ above k ch b := by
  rw [ents_radix, range_cut hb, List.flatMap_append, List.flatMap_cons]
  simp [below, above]

theorem below_lt {k : Nat} {ch : Nat → T V k} {b y : Nat} (hb : b < 256) (hw : ∀ i, i < 256 → WF k (ch i)) :
    ∀ x ∈ below k ch b, x.1 < b * 256 ^ k + y := by
  intro x hx
  obtain ⟨i, hi, hx⟩ := List.mem_flatMap.1 hx
  obtain ⟨z, hz, rfl⟩ := mem_shift.1 hx
  have hi := List.mem_range.1 hi
  exact shift_lt hi (ents_lt k _ (hw i (by omega)) z hz)

theorem above_gt {k : Nat} {ch : Nat → T V k} {b y : Nat} (hy : y < 256 ^ k) :
    ∀ x ∈ above k ch b, b * 256 ^ k + y < x.1 := by
  intro x hx
  obtain ⟨i, hi, hx⟩ := List.mem_flatMap.1 hx
  obtain ⟨z, hz, rfl⟩ := mem_shift.1 hx
  have hi := List.mem_range'_1.1 hi
  exact shift_lt (by omega) hy

theorem lo_shift (k i y : Nat) (L : List (Nat × V)) : lo (i * 256 ^ k + y) (shift k i L) = shift k i (lo y L) := by
  unfold lo shift
  rw [List.filter_map]; congr 2; funext x; simp
theorem mid_shift (k i y : Nat) (L : List (Nat × V)) : mid (i * 256 ^ k + y) (shift k i L) = shift k i (mid y L) := by
  unfold mid shift
  rw [List.filter_map]; congr 2; funext x; simp
theorem hi_shift (k i y : Nat) (L : List (Nat × V)) : hi (i * 256 ^ k + y) (shift k i L) = shift k i (hi y L) := by
  unfold hi shift
  rw [List.filter_map]; congr 2; funext x; simp

/-- The cut of a radix node at a key. -/
theorem radix_cut3 {k : Nat} {ch : Nat → T V k} (hw : ∀ i, i < 256 → WF k (ch i)) {b y : Nat} (hb : b < 256)
    (hy : y < 256 ^ k) :
    let L := ents (k + 1) (Node.radix ch : Node V (T V k))
    let C := ents k (ch b)
    lo (b * 256 ^ k + y) L = below k ch b ++ shift k b (lo y C) ∧
    mid (b * 256 ^ k + y) L = shift k b (mid y C) ∧
    hi (b * 256 ^ k + y) L = shift k b (hi y C) ++ above k ch b := by
  intro L C
  have hL : L = (below k ch b ++ shift k b (lo y C)) ++ shift k b (mid y C) ++ (shift k b (hi y C) ++ above k ch b) := by
    show ents (k + 1) (Node.radix ch : Node V (T V k)) = _
    rw [radix_cut k ch hb]
    have h3 : shift k b C = shift k b (lo y C) ++ shift k b (mid y C) ++ shift k b (hi y C) := by
      have hc : C = lo y C ++ mid y C ++ hi y C := split3 (sorted_ents k (ch b) (hw b hb)) y
      conv => lhs; rw [hc]
      unfold shift; rw [List.map_append, List.map_append]
    show below k ch b ++ shift k b C ++ above k ch b = _
    rw [h3]
    simp only [List.append_assoc]
  have hmem : ∀ M : List (Nat × V), ∀ x ∈ shift k b M, ∃ z ∈ M, x.1 = b * 256 ^ k + z.1 := by
    intro M x hx; obtain ⟨z, hz, rfl⟩ := mem_shift.1 hx; exact ⟨z, hz, rfl⟩
  rw [hL]
  apply cut_at
  · intro x hx
    rcases List.mem_append.1 hx with hx | hx
    · exact below_lt hb hw x hx
    · obtain ⟨z, hz, he⟩ := hmem _ x hx
      have := (mem_lo.1 hz).2; omega
  · intro x hx
    obtain ⟨z, hz, he⟩ := hmem _ x hx
    have := (mem_mid.1 hz).2; omega
  · intro x hx
    rcases List.mem_append.1 hx with hx | hx
    · obtain ⟨z, hz, he⟩ := hmem _ x hx
      have := (mem_hi.1 hz).2; omega
    · exact above_gt hy x hx

end Umpire.Judy
