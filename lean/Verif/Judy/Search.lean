import Verif.Judy.Lists
/-! Searching and walking in a Judy tree. -/
set_option autoImplicit false
set_option linter.unusedSimpArgs false
namespace Umpire.Judy
variable {V : Type}

/-! ## List nodes -/

theorem scan_eq {v : Nat} {X Y : List (Nat × Option V)} (hX : ∀ x ∈ X, x.1 ≤ v) (hY : ∀ y ∈ Y, v < y.1) :
    scan v (X ++ Y) (X ++ Y).length = X.length := by
  have key : ∀ m, m ≤ Y.length → scan v (X ++ Y) (X.length + m) = X.length := by
    intro m
    induction m with
    | zero =>
      intro _
      rw [Nat.add_zero]
      cases hx : X.length with
      | zero => rfl
      | succ n =>
        have hn : n < X.length := by omega
        unfold scan
        rw [List.getElem?_append_left hn, List.getElem?_eq_getElem hn]
        simp only [Option.map_some, Option.getD_some]
        rw [if_pos (hX _ (List.getElem_mem hn))]
    | succ m ih =>
      intro hm
      have h1 : X.length + (m + 1) = (X.length + m) + 1 := by omega
      rw [h1]
      unfold scan
      have hmy : m < Y.length := by omega
      rw [List.getElem?_append_right (by omega), Nat.add_sub_cancel_left, List.getElem?_eq_getElem hmy]
      simp only [Option.map_some, Option.getD_some]
      have := hY _ (List.getElem_mem hmy)
      rw [if_neg (by omega)]
      exact ih (by omega)
  rw [List.length_append]
  exact key _ (Nat.le_refl _)

theorem slotsOf_append (e : Nat) (A B : List (Nat × V)) : slotsOf e (A ++ B) = slotsOf e A ++ B.map used := by
  unfold slotsOf; rw [List.map_append, List.append_assoc]

theorem slotsOf_length (e : Nat) (R : List (Nat × V)) : (slotsOf e R).length = e + R.length := by
  simp [slotsOf]

theorem mem_slotsOf {e : Nat} {R : List (Nat × V)} {x : Nat × Option V} (h : x ∈ slotsOf e R) :
    x = (0, none) ∨ ∃ y ∈ R, x = used y := by
  unfold slotsOf at h
  rcases List.mem_append.1 h with h | h
  · exact .inl (List.mem_replicate.1 h).2
  · obtain ⟨y, hy, rfl⟩ := List.mem_map.1 h; exact .inr ⟨y, hy, rfl⟩

/-- The position found by the search in a list node. -/
theorem scan_slots {e v : Nat} {R : List (Nat × V)} (hs : Sorted R) :
    scan v (slotsOf e R) (slotsOf e R).length = e + (lo v R).length + (mid v R).length := by
  have h : slotsOf e R = slotsOf e (lo v R ++ mid v R) ++ (hi v R).map used := by
    rw [← slotsOf_append, ← split3 hs v]
  rw [h, scan_eq]
  · rw [slotsOf_length, List.length_append]; omega
  · intro x hx
    rcases mem_slotsOf hx with rfl | ⟨y, hy, rfl⟩
    · exact Nat.zero_le _
    · rcases List.mem_append.1 hy with hy | hy
      · exact Nat.le_of_lt (mem_lo.1 hy).2
      · exact Nat.le_of_eq (mem_mid.1 hy).2
  · intro x hx
    obtain ⟨y, hy, rfl⟩ := List.mem_map.1 hx
    exact (mem_hi.1 hy).2

/-- A used slot at its position. -/
theorem slots_get {e : Nat} {A B : List (Nat × V)} {x : Nat × V} :
    (slotsOf e (A ++ x :: B))[e + A.length]? = some (used x) := by
  unfold slotsOf
  rw [List.getElem?_append_right (by simp), List.length_replicate, List.map_append, List.map_cons,
    List.getElem?_append_right (by simp)]
  simp

theorem slots_at {e : Nat} {R A B : List (Nat × V)} {x : Nat × V} (h : R = A ++ x :: B) :
    (slotsOf e R)[e + A.length]? = some (used x) := by
  rw [show slotsOf e R = slotsOf e (A ++ x :: B) from congrArg _ h]
  exact slots_get

/-- An unused slot. -/
theorem slots_get_lt {e i : Nat} {R : List (Nat × V)} (h : i < e) : (slotsOf e R)[i]? = some (0, none) := by
  unfold slotsOf
  rw [List.getElem?_append_left (by simpa using h), List.getElem?_replicate, if_pos h]

/-! ## Radix nodes -/

theorem upd_same {α : Type} (ch : Nat → α) (b : Nat) (x : α) : upd ch b x b = x := if_pos rfl
theorem upd_ne {α : Type} (ch : Nat → α) {b i : Nat} (x : α) (h : i ≠ b) : upd ch b x i = ch i := if_neg h

/-- The lowest non-null entry, and the entries before it. -/
theorem lowest_spec {k : Nat} {ch : Nat → T V k} (a : Nat) :
    (lowest (isNil k) ch a = none ∧ ∀ i, i < 256 → a ≤ i → isNil k (ch i) = true) ∨
    ∃ i, lowest (isNil k) ch a = some i ∧ i < 256 ∧ a ≤ i ∧ isNil k (ch i) = false ∧
      ∀ j, a ≤ j → j < i → isNil k (ch j) = true := by
  unfold lowest
  cases h : (List.range 256).find? fun i => decide (a ≤ i) && !isNil k (ch i) with
  | none =>
    left
    refine ⟨rfl, fun i hi ha => ?_⟩
    have := List.find?_eq_none.1 h i (List.mem_range.2 hi)
    simpa [ha] using this
  | some i =>
    right
    have h1 := List.find?_some h
    have h2 := List.mem_range.1 (List.mem_of_find?_eq_some h)
    simp only [Bool.and_eq_true, decide_eq_true_eq, Bool.not_eq_true'] at h1
    refine ⟨i, rfl, h2, h1.1, h1.2, fun j ha hj => ?_⟩
    obtain ⟨_, as, bs, hab, hno⟩ := List.find?_eq_some_iff_append.1 h
    have hj' : j ∈ List.range 256 := List.mem_range.2 (by omega)
    rw [hab] at hj'
    have hp : (as ++ i :: bs).Pairwise (· < ·) := hab ▸ List.pairwise_lt_range
    have hp2 := (List.pairwise_append.1 hp).2.1
    rcases List.mem_append.1 hj' with hm | hm
    · have := hno j hm
      simpa [ha] using this
    · rcases List.mem_cons.1 hm with rfl | hm
      · omega
      · have := (List.pairwise_cons.1 hp2).1 j hm; omega

theorem highest_spec {k : Nat} {ch : Nat → T V k} (a : Nat) :
    (highest (isNil k) ch a = none ∧ ∀ i, i < 256 → i < a → isNil k (ch i) = true) ∨
    ∃ i, highest (isNil k) ch a = some i ∧ i < 256 ∧ i < a ∧ isNil k (ch i) = false ∧
      ∀ j, j < 256 → j < a → i < j → isNil k (ch j) = true := by
  unfold highest
  cases h : (List.range 256).reverse.find? fun i => decide (i < a) && !isNil k (ch i) with
  | none =>
    left
    refine ⟨rfl, fun i hi ha => ?_⟩
    have := List.find?_eq_none.1 h i (List.mem_reverse.2 (List.mem_range.2 hi))
    simpa [ha] using this
  | some i =>
    right
    have h1 := List.find?_some h
    have h2 := List.mem_range.1 (List.mem_reverse.1 (List.mem_of_find?_eq_some h))
    simp only [Bool.and_eq_true, decide_eq_true_eq, Bool.not_eq_true'] at h1
    refine ⟨i, rfl, h2, h1.1, h1.2, fun j hj256 ha hj => ?_⟩
    obtain ⟨_, as, bs, hab, hno⟩ := List.find?_eq_some_iff_append.1 h
    have hj' : j ∈ (List.range 256).reverse := List.mem_reverse.2 (List.mem_range.2 hj256)
    rw [hab] at hj'
    have hp : (as ++ i :: bs).Pairwise (fun x y => y < x) := hab ▸ List.pairwise_reverse.2 List.pairwise_lt_range
    have hp2 := (List.pairwise_append.1 hp).2.1
    rcases List.mem_append.1 hj' with hm | hm
    · have := hno j hm
      simpa [ha] using this
    · rcases List.mem_cons.1 hm with rfl | hm
      · omega
      · have := (List.pairwise_cons.1 hp2).1 j hm; omega

theorem flatMap_nil {k : Nat} {ch : Nat → T V k} {l : List Nat} (hw : ∀ i ∈ l, WF k (ch i))
    (h : ∀ i ∈ l, isNil k (ch i) = true) : (l.flatMap fun i => shift k i (ents k (ch i))) = [] := by
  rw [List.flatMap_eq_nil_iff]
  intro i hi
  rw [(isNil_iff k (ch i) (hw i hi)).1 (h i hi)]; rfl

/-- The entries from byte `a` on start with those of the lowest non-null entry. -/
theorem from_lowest {k : Nat} {ch : Nat → T V k} (hw : ∀ i, i < 256 → WF k (ch i)) {a i : Nat} (hi : i < 256)
    (hai : a ≤ i) (h : ∀ j, a ≤ j → j < i → isNil k (ch j) = true) :
    ((List.range' a (256 - a)).flatMap fun i => shift k i (ents k (ch i))) = shift k i (ents k (ch i)) ++ above k ch i := by
  have h1 : List.range' a (256 - a) = List.range' a (i - a) ++ i :: List.range' (i + 1) (255 - i) := by
    have : 256 - a = (i - a) + (1 + (255 - i)) := by omega
    rw [this, ← List.range'_append_1, Nat.add_comm 1, List.range'_succ]
    have : a + (i - a) = i := by omega
    rw [this]
  rw [h1, List.flatMap_append, List.flatMap_cons, flatMap_nil, List.nil_append]
  · rfl
  · intro j hj; have := List.mem_range'_1.1 hj; exact hw j (by omega)
  · intro j hj; have := List.mem_range'_1.1 hj; exact h j this.1 (by omega)

/-- The entries before byte `a` end with those of the highest non-null entry. -/
theorem upto_highest {k : Nat} {ch : Nat → T V k} (hw : ∀ i, i < 256 → WF k (ch i)) {a i : Nat} (ha : a ≤ 256)
    (hai : i < a) (h : ∀ j, j < 256 → j < a → i < j → isNil k (ch j) = true) :
    below k ch a = below k ch i ++ shift k i (ents k (ch i)) := by
  have h1 : List.range a = List.range i ++ i :: List.range' (i + 1) (a - i - 1) := by
    have h : a = i + (1 + (a - i - 1)) := by omega
    conv => lhs; rw [h]
    rw [List.range_eq_range', ← List.range'_append_1, Nat.zero_add, Nat.add_comm 1, List.range'_succ, ← List.range_eq_range']
  unfold below
  rw [h1, List.flatMap_append, List.flatMap_cons, flatMap_nil (l := List.range' (i + 1) (a - i - 1)), List.append_nil]
  · intro j hj; have := List.mem_range'_1.1 hj; exact hw j (by omega)
  · intro j hj; have := List.mem_range'_1.1 hj; exact h j (by omega) (by omega) (by omega)

/-! ## The cursor of a key -/

/-- The cursor that `judy_slot` leaves. -/
def cur (k : Nat) (t : T V k) (v : Nat) : List Nat := (slotF k t v).2

theorem cur_list {k ty e : Nat} {R : List (Nat × V)} (hs : Sorted R) (v : Nat) :
    cur (k + 1) (Node.list ty (slotsOf e R) : Node V (T V k)) v = [e + (lo v R).length + (mid v R).length] := by
  show [scan v (slotsOf e R) (slotsOf e R).length] = _
  rw [scan_slots hs]

theorem cur_radix {k : Nat} {ch : Nat → T V k} {i y : Nat} (hi : i < 256) (hy : y < 256 ^ k) :
    cur (k + 1) (Node.radix ch : Node V (T V k)) (i * 256 ^ k + y) = (i + 1) :: cur k (ch i) y := by
  show ((i * 256 ^ k + y) / 256 ^ k % 256 + 1) ::
    (slotF k (ch ((i * 256 ^ k + y) / 256 ^ k % 256)) ((i * 256 ^ k + y) % 256 ^ k)).2 = _
  rw [byte_of hi hy, rest_of hy]; rfl

theorem slotF_list {k ty e : Nat} {R : List (Nat × V)} (hs : Sorted R) (v : Nat) :
    (slotF (k + 1) (Node.list ty (slotsOf e R) : Node V (T V k)) v).1 =
      if hit v (slotsOf e R) (e + (lo v R).length + (mid v R).length)
      then some [e + (lo v R).length + (mid v R).length] else none := by
  show (if hit v (slotsOf e R) (scan v (slotsOf e R) (slotsOf e R).length) then
    some [scan v (slotsOf e R) (slotsOf e R).length] else none) = _
  rw [scan_slots hs]

theorem slotF_radix {k : Nat} {ch : Nat → T V k} {i y : Nat} (hi : i < 256) (hy : y < 256 ^ k) :
    (slotF (k + 1) (Node.radix ch : Node V (T V k)) (i * 256 ^ k + y)).1 = (slotF k (ch i) y).1.map ((i + 1) :: ·) := by
  show (slotF k (ch ((i * 256 ^ k + y) / 256 ^ k % 256)) ((i * 256 ^ k + y) % 256 ^ k)).1.map
    (((i * 256 ^ k + y) / 256 ^ k % 256 + 1) :: ·) = _
  rw [byte_of hi hy, rest_of hy]

theorem hit_mid {e v : Nat} {R : List (Nat × V)} (hs : Sorted R) {x : V} (hm : mid v R = [(v, x)]) :
    hit v (slotsOf e R) (e + (lo v R).length + (mid v R).length) = true := by
  rw [hm]
  simp only [List.length_cons, List.length_nil, Nat.zero_add, hit]
  have : (slotsOf e R)[e + (lo v R).length]? = some (used (v, x)) := by
    have h := split3 hs v
    rw [hm, List.append_assoc] at h
    exact slots_at h
  rw [this]; simp [used]

/-- Without the key, only an unused slot can look like it. -/
theorem hit_free {e v : Nat} {R : List (Nat × V)} (hs : Sorted R) (hm : mid v R = [])
    (hh : hit v (slotsOf e R) (e + (lo v R).length + (mid v R).length) = true) : v = 0 ∧ lo v R = [] ∧ 0 < e := by
  rw [hm] at hh
  simp only [List.length_nil, Nat.add_zero] at hh
  cases hl : lo v R with
  | nil =>
    rw [hl] at hh
    cases e with
    | zero => simp [hit] at hh
    | succ n =>
      simp only [List.length_nil, Nat.add_zero, hit] at hh
      rw [slots_get_lt (by omega)] at hh
      simp at hh
      exact ⟨hh.symm, rfl, by omega⟩
  | cons y ys =>
    exfalso
    have hne : lo v R ≠ [] := by rw [hl]; simp
    have hl1 := List.dropLast_concat_getLast hne
    have hlast := (mem_lo.1 (List.getLast_mem hne)).2
    have hlen : (lo v R).length = (lo v R).dropLast.length + 1 := by
      conv => lhs; rw [← hl1]
      simp
    have h := split3 hs v
    rw [hm, List.append_nil, ← hl1, List.append_assoc, List.singleton_append] at h
    have hg : (slotsOf e R)[e + (lo v R).dropLast.length]? = some (used ((lo v R).getLast hne)) := slots_at h
    rw [hlen, show e + ((lo v R).dropLast.length + 1) = (e + (lo v R).dropLast.length) + 1 from by omega] at hh
    simp only [hit] at hh
    rw [hg] at hh
    simp only [used, Option.map_some, Option.getD_some, decide_eq_true_eq] at hh
    have := of_decide_eq_true hh; omega

/-! ## `judy_slot` -/

/-- A key that is present is found, and the cell found holds its value. -/
theorem slot_found : ∀ (k : Nat) (t : T V k), WF k t → ∀ v, v < 256 ^ k → ∀ x, mid v (ents k t) = [(v, x)] →
    (slotF k t v).1 = some (cur k t v) ∧ readAt k t (cur k t v) = some x := by
  intro k
  induction k with
  | zero =>
    intro t _ v hv x hm
    have hv0 : v = 0 := by simp at hv; omega
    subst hv0
    cases t with
    | none => simp [ents, mid] at hm
    | some y =>
      simp [ents, mid] at hm
      subst hm
      exact ⟨rfl, rfl⟩
  | succ k ih =>
    intro t hw v hv x hm
    match t, hw, hm with
    | Node.nil, _, hm => simp [ents, mid] at hm
    | Node.list ty sl, hw, hm =>
      obtain ⟨_, _, _, e, R, rfl, _, hs, _⟩ := hw
      rw [ents_list, filterMap_slotsOf] at hm
      rw [slotF_list hs, hit_mid hs hm, cur_list hs, if_pos rfl]
      refine ⟨rfl, ?_⟩
      show (slotsOf e R)[e + (lo v R).length + (mid v R).length - 1]?.bind (·.2) = some x
      rw [hm]
      have h := split3 hs v
      rw [hm, List.append_assoc] at h
      have : (slotsOf e R)[e + (lo v R).length]? = some (used (v, x)) := slots_at h
      simp only [List.length_cons, List.length_nil, Nat.zero_add, Nat.add_sub_cancel]
      rw [this]; rfl
    | Node.radix ch, hw, hm =>
      have hb : v / 256 ^ k % 256 < 256 := Nat.mod_lt _ (by decide)
      have hy : v % 256 ^ k < 256 ^ k := Nat.mod_lt _ (pow_pos k)
      have hcut := radix_cut3 hw.1 hb hy
      have hv2 := byte_rest hv
      generalize v / 256 ^ k % 256 = b at *
      generalize v % 256 ^ k = y at *
      subst hv2
      rw [hcut.2.1] at hm
      unfold shift at hm
      have hm' : mid y (ents k (ch b)) = [(y, x)] := by
        rcases mid_cases (sorted_ents k (ch b) (hw.1 b hb)) y with h | ⟨z, h⟩
        · rw [h] at hm; cases hm
        · rw [h] at hm ⊢; simp at hm; rw [hm]
      have h := ih (ch b) (hw.1 b hb) y hy x hm'
      rw [slotF_radix hb hy, cur_radix hb hy, h.1]
      exact ⟨rfl, h.2⟩

/-- For a key that is absent, either nothing is found, or an unused slot. -/
theorem slot_absent : ∀ (k : Nat) (t : T V k), WF k t → ∀ v, v < 256 ^ k → mid v (ents k t) = [] →
    (slotF k t v).1 = none ∨ ((slotF k t v).1 = some (cur k t v) ∧ readAt k t (cur k t v) = none) := by
  intro k
  induction k with
  | zero =>
    intro t _ v hv hm
    have hv0 : v = 0 := by simp at hv; omega
    subst hv0
    cases t with
    | none => exact .inl rfl
    | some y => simp [ents, mid] at hm
  | succ k ih =>
    intro t hw v hv hm
    match t, hw, hm with
    | Node.nil, _, hm => exact .inl rfl
    | Node.list ty sl, hw, hm =>
      obtain ⟨_, _, _, e, R, rfl, _, hs, _⟩ := hw
      rw [ents_list, filterMap_slotsOf] at hm
      rw [slotF_list hs, cur_list hs]
      by_cases hh : hit v (slotsOf e R) (e + (lo v R).length + (mid v R).length) = true
      · right
        rw [if_pos hh]
        refine ⟨rfl, ?_⟩
        obtain ⟨_, hl, he⟩ := hit_free hs hm hh
        show (slotsOf e R)[e + (lo v R).length + (mid v R).length - 1]?.bind (·.2) = none
        rw [hm, hl]
        simp only [List.length_nil, Nat.add_zero]
        rw [slots_get_lt (by omega)]; rfl
      · left; rw [if_neg hh]
    | Node.radix ch, hw, hm =>
      have hb : v / 256 ^ k % 256 < 256 := Nat.mod_lt _ (by decide)
      have hy : v % 256 ^ k < 256 ^ k := Nat.mod_lt _ (pow_pos k)
      have hcut := radix_cut3 hw.1 hb hy
      have hv2 := byte_rest hv
      generalize v / 256 ^ k % 256 = b at *
      generalize v % 256 ^ k = y at *
      subst hv2
      rw [hcut.2.1] at hm
      unfold shift at hm
      have hm' : mid y (ents k (ch b)) = [] := List.map_eq_nil_iff.1 hm
      rw [slotF_radix hb hy, cur_radix hb hy]
      rcases ih (ch b) (hw.1 b hb) y hy hm' with h | ⟨h1, h2⟩
      · left; rw [h]; rfl
      · right; rw [h1]; exact ⟨rfl, h2⟩

/-! ## `judy_key` -/

/-- At a cell found, `judy_key` gives the key back. -/
theorem key_found : ∀ (k : Nat) (t : T V k), WF k t → ∀ v, v < 256 ^ k → (slotF k t v).1.isSome → keyF k t (cur k t v) = v := by
  intro k
  induction k with
  | zero => intro t _ v hv _; simp at hv; subst hv; rfl
  | succ k ih =>
    intro t hw v hv hf
    match t, hw, hf with
    | Node.nil, _, hf => cases hf
    | Node.list ty sl, hw, hf =>
      obtain ⟨_, _, _, e, R, rfl, _, hs, _⟩ := hw
      rw [slotF_list hs] at hf
      rw [cur_list hs]
      split at hf
      · rename_i hh
        show ((slotsOf e R)[e + (lo v R).length + (mid v R).length - 1]?.map (·.1)).getD 0 = v
        generalize e + (lo v R).length + (mid v R).length = p at hh ⊢
        cases p with
        | zero => simp [hit] at hh
        | succ s => simpa [hit] using hh
      · cases hf
    | Node.radix ch, hw, hf =>
      have hb : v / 256 ^ k % 256 < 256 := Nat.mod_lt _ (by decide)
      have hy : v % 256 ^ k < 256 ^ k := Nat.mod_lt _ (pow_pos k)
      have hv2 := byte_rest hv
      generalize v / 256 ^ k % 256 = b at *
      generalize v % 256 ^ k = y at *
      subst hv2
      rw [slotF_radix hb hy, Option.isSome_map] at hf
      rw [cur_radix hb hy]
      show b * 256 ^ k + keyF k (ch b) (cur k (ch b) y) = _
      rw [ih (ch b) (hw.1 b hb) y hy hf]

/-! ## `judy_first`, `judy_nxt` -/

/-- The first cell is that of the least key. -/
theorem first_spec : ∀ (k : Nat) (t : T V k), WF k t →
    firstF k t = (ents k t).head?.map fun x => cur k t x.1 := by
  intro k
  induction k with
  | zero => intro t _; cases t <;> rfl
  | succ k ih =>
    intro t hw
    match t, hw with
    | Node.nil, _ => rfl
    | Node.list ty sl, hw =>
      obtain ⟨_, _, _, e, R, rfl, hne, hs, _⟩ := hw
      rw [ents_list, filterMap_slotsOf]
      obtain ⟨x, xs, rfl⟩ := List.exists_cons_of_ne_nil hne
      have hidx : (slotsOf e (x :: xs)).findIdx? (fun s => s.2.isSome) = some e := by
        rw [List.findIdx?_eq_some_iff_getElem]
        have hlen : e < (slotsOf e (x :: xs)).length := by rw [slotsOf_length]; simp
        refine ⟨hlen, ?_, ?_⟩
        · have := slots_get (e := e) (A := []) (B := xs) (x := x)
          simp only [List.nil_append, List.length_nil, Nat.add_zero] at this
          rw [List.getElem?_eq_getElem hlen] at this
          injection this with this; rw [this]; rfl
        · intro j hj
          have := slots_get_lt (R := x :: xs) hj
          rw [List.getElem?_eq_getElem (by omega)] at this
          injection this with this; rw [this]; simp
      show ((slotsOf e (x :: xs)).findIdx? fun s => s.2.isSome).map (fun i => [i + 1]) = some (cur (k + 1) _ x.1)
      rw [hidx, cur_list hs]
      have hx := (List.pairwise_cons.1 hs).1
      have hc := cut_at (P := []) (M := [x]) (S := xs) (v := x.1) (by simp) (by simp) hx
      simp only [List.nil_append, List.singleton_append] at hc
      rw [hc.1, hc.2.1]; rfl
    | Node.radix ch, hw =>
      show (match lowest (isNil k) ch 0 with | none => none | some i => (firstF k (ch i)).map ((i + 1) :: ·)) = _
      rcases lowest_spec (ch := ch) 0 with ⟨_, h2⟩ | ⟨i, h1, h2, _, h4, h5⟩
      · obtain ⟨i, hi, hn⟩ := hw.2
        rw [h2 i hi (Nat.zero_le _)] at hn; cases hn
      · rw [h1]
        have hfl := from_lowest hw.1 h2 (Nat.zero_le i) h5
        rw [← List.range_eq_range', Nat.sub_zero] at hfl
        rw [ents_radix, hfl]
        show (firstF k (ch i)).map ((i + 1) :: ·) = _
        rw [ih (ch i) (hw.1 i h2)]
        have hne : ents k (ch i) ≠ [] := fun h => by
          rw [(isNil_iff k (ch i) (hw.1 i h2)).2 h] at h4; cases h4
        obtain ⟨x, xs, hx⟩ := List.exists_cons_of_ne_nil hne
        have hlt := ents_lt k (ch i) (hw.1 i h2) x (by rw [hx]; simp)
        rw [hx]
        show some _ = some _
        dsimp only
        rw [cur_radix h2 hlt]

/-- `judy_nxt` from the cursor of a key goes to the next larger key. -/
theorem nxt_spec : ∀ (k : Nat) (t : T V k), WF k t → ∀ v, v < 256 ^ k →
    nxtF k t (cur k t v) = (hi v (ents k t)).head?.map fun x => cur k t x.1 := by
  intro k
  induction k with
  | zero =>
    intro t _ v hv
    have hv0 : v = 0 := by simp at hv; omega
    subst hv0
    cases t <;> rfl
  | succ k ih =>
    intro t hw v hv
    match t, hw with
    | Node.nil, _ => rfl
    | Node.list ty sl, hw =>
      obtain ⟨_, _, _, e, R, rfl, hne, hs, _⟩ := hw
      rw [ents_list, filterMap_slotsOf, cur_list hs]
      show (if e + (lo v R).length + (mid v R).length < (slotsOf e R).length then
        some [e + (lo v R).length + (mid v R).length + 1] else none) = _
      have h3 := split3 hs v
      have hlen : (slotsOf e R).length = e + (lo v R).length + (mid v R).length + (hi v R).length := by
        rw [slotsOf_length]
        have := congrArg List.length h3
        simp only [List.length_append] at this; omega
      rw [hlen]
      cases hh : hi v R with
      | nil => rw [if_neg (by simp)]; rfl
      | cons w ws =>
        rw [if_pos (by simp)]
        show _ = some _
        dsimp only
        rw [cur_list hs]
        have hs2 : Sorted (hi v R) := hs.filter _
        have hw' := (mem_hi.1 (hh ▸ List.mem_cons_self : w ∈ hi v R)).2
        rw [hh] at hs2
        have hc := cut_at (P := lo v R ++ mid v R) (M := [w]) (S := ws) (v := w.1)
          (by intro x hx
              rcases List.mem_append.1 hx with hx | hx
              · have := (mem_lo.1 hx).2; omega
              · have := (mem_mid.1 hx).2; omega) (by simp) (List.pairwise_cons.1 hs2).1
        have hR : R = lo v R ++ mid v R ++ [w] ++ ws := by
          have h4 := h3
          rw [hh] at h4
          simpa using h4
        rw [← hR] at hc
        rw [hc.1, hc.2.1, List.length_append]
        congr 2; simp; omega
    | Node.radix ch, hw =>
      have hb : v / 256 ^ k % 256 < 256 := Nat.mod_lt _ (by decide)
      have hy : v % 256 ^ k < 256 ^ k := Nat.mod_lt _ (pow_pos k)
      have hcut := radix_cut3 hw.1 hb hy
      have hv2 := byte_rest hv
      generalize v / 256 ^ k % 256 = b at *
      generalize v % 256 ^ k = y at *
      subst hv2
      rw [cur_radix hb hy, hcut.2.2]
      show (match nxtF k (ch (b + 1 - 1)) (cur k (ch b) y) with
        | some c => some ((b + 1) :: c)
        | none => match lowest (isNil k) ch (b + 1) with
          | none => none
          | some i => (firstF k (ch i)).map ((i + 1) :: ·)) = _
      rw [Nat.add_sub_cancel, ih (ch b) (hw.1 b hb) y hy]
      cases hh : hi y (ents k (ch b)) with
      | cons w ws =>
        have hwm := (mem_hi.1 (hh ▸ List.mem_cons_self : w ∈ hi y (ents k (ch b)))).1
        have hlt := ents_lt k (ch b) (hw.1 b hb) w hwm
        show some _ = some _
        dsimp only
        rw [cur_radix hb hlt]
      | nil =>
        show (match lowest (isNil k) ch (b + 1) with
          | none => none
          | some i => (firstF k (ch i)).map ((i + 1) :: ·)) = (above k ch b).head?.map _
        rcases lowest_spec (ch := ch) (b + 1) with ⟨h1, h2⟩ | ⟨i, h1, h2, h3, h4, h5⟩
        · rw [h1]
          have : above k ch b = [] := flatMap_nil
            (fun j hj => hw.1 j (by have := List.mem_range'_1.1 hj; omega))
            (fun j hj => by have := List.mem_range'_1.1 hj; exact h2 j (by omega) (by omega))
          rw [this]; rfl
        · rw [h1]
          have hfl := from_lowest hw.1 h2 h3 h5
          have hab : above k ch b = shift k i (ents k (ch i)) ++ above k ch i := by
            rw [← hfl]; unfold above
            rw [show 255 - b = 256 - (b + 1) from by omega]
          rw [hab]
          show (firstF k (ch i)).map ((i + 1) :: ·) = _
          rw [first_spec k (ch i) (hw.1 i h2)]
          have hne : ents k (ch i) ≠ [] := fun h => by
            rw [(isNil_iff k (ch i) (hw.1 i h2)).2 h] at h4; cases h4
          obtain ⟨x, xs, hx⟩ := List.exists_cons_of_ne_nil hne
          have hlt := ents_lt k (ch i) (hw.1 i h2) x (by rw [hx]; simp)
          rw [hx]
          show some _ = some _
          dsimp only
          rw [cur_radix h2 hlt]

/-! ## `judy_last`, `judy_prv` -/

/-- No radix node for the last byte of the keys in a block of `B` has been made.  The
block of a key is the key without its last byte. -/
def NoLeafRadix : (Nat → Prop) → (k : Nat) → T V k → Prop
  | _, 0, _ => True
  | _, _ + 1, Node.nil => True
  | _, _ + 1, Node.list _ _ => True
  | B, k + 1, Node.radix ch => (k = 0 → ¬B 0) ∧ ∀ i, i < 256 → NoLeafRadix (fun c => B (i * 256 ^ (k - 1) + c)) k (ch i)

theorem block_shift {k : Nat} (hk : k ≠ 0) (i x : Nat) : (i * 256 ^ k + x) / 256 = i * 256 ^ (k - 1) + x / 256 := by
  obtain ⟨k, rfl⟩ := Nat.exists_eq_succ_of_ne_zero hk
  rw [Nat.succ_sub_one, Nat.pow_succ, ← Nat.mul_assoc, Nat.mul_comm _ 256, Nat.mul_add_div (by decide)]

theorem last_spec : ∀ (k : Nat) (B : Nat → Prop) (t : T V k), WF k t → NoLeafRadix B k t → ents k t ≠ [] →
    (∀ x, (ents k t).getLast? = some x → B (x.1 / 256)) →
    ∃ x, (ents k t).getLast? = some x ∧ lastF k t = (some (cur k t x.1), cur k t x.1) := by
  intro k
  induction k with
  | zero =>
    intro B t _ _ hne _
    cases t with
    | none => exact absurd rfl hne
    | some y => exact ⟨(0, y), rfl, rfl⟩
  | succ k ih =>
    intro B t hw hn hne hB
    match t, hw, hn, hne, hB with
    | Node.nil, _, _, hne, _ => exact absurd rfl hne
    | Node.list ty sl, hw, _, hne, _ =>
      obtain ⟨_, _, _, e, R, rfl, hR, hs, _⟩ := hw
      rw [ents_list, filterMap_slotsOf] at *
      refine ⟨R.getLast hR, List.getLast?_eq_some_getLast hR, ?_⟩
      rw [cur_list hs]
      have hl := List.dropLast_concat_getLast hR
      have hs2 : Sorted (R.dropLast ++ [R.getLast hR]) := by rw [hl]; exact hs
      have hc := cut_at (P := R.dropLast) (M := [R.getLast hR]) (S := []) (v := (R.getLast hR).1)
        (fun x hx => (sorted_append.1 hs2).2.2 x hx _ (by simp)) (by simp) (by simp)
      rw [List.append_nil, hl] at hc
      have hlen : (slotsOf e R).length = e + (lo (R.getLast hR).1 R).length + (mid (R.getLast hR).1 R).length := by
        rw [slotsOf_length, hc.1, hc.2.1]
        have := congrArg List.length hl
        simp only [List.length_append, List.length_singleton] at this ⊢; omega
      rw [← hlen]; rfl
    | Node.radix ch, hw, hn, hne, hB =>
      rcases highest_spec (ch := ch) 256 with ⟨_, h2⟩ | ⟨i, h1, h2, _, h4, h5⟩
      · obtain ⟨i, hi, hnn⟩ := hw.2
        rw [h2 i hi hi] at hnn; cases hnn
      · have hne' : ents k (ch i) ≠ [] := fun h => by
          rw [(isNil_iff k (ch i) (hw.1 i h2)).2 h] at h4; cases h4
        have hg : ∀ x, (ents k (ch i)).getLast? = some x →
            (ents (k + 1) (Node.radix ch : Node V (T V k))).getLast? = some (i * 256 ^ k + x.1, x.2) := by
          intro x hx
          have hu := upto_highest hw.1 (Nat.le_refl 256) h2 (fun j a b c => h5 j a b c)
          show (below k ch 256).getLast? = _
          rw [hu]
          unfold shift
          rw [List.getLast?_append, List.getLast?_map, hx]; rfl
        have hk : k ≠ 0 := by
          rintro rfl
          obtain ⟨x, hx⟩ : ∃ x, (ents 0 (ch i)).getLast? = some x := by
            rw [List.getLast?_eq_some_getLast hne']; exact ⟨_, rfl⟩
          have hlt := ents_lt 0 (ch i) (hw.1 i h2) x (List.mem_of_getLast? hx)
          have := hB _ (hg x hx)
          have e : (i * 256 ^ 0 + x.1) / 256 = 0 := by omega
          rw [e] at this
          exact hn.1 rfl this
        obtain ⟨x, hx, hl⟩ := ih _ (ch i) (hw.1 i h2) (hn.2 i h2) hne' (fun x hx => by
          have := hB _ (hg x hx)
          rw [block_shift hk] at this; exact this)
        have hlt := ents_lt k (ch i) (hw.1 i h2) x (List.mem_of_getLast? hx)
        refine ⟨(i * 256 ^ k + x.1, x.2), ?_, ?_⟩
        · exact hg x hx
        · show (match highest (isNil k) ch 256 with
            | none => (none, [])
            | some i => ((lastF k (ch i)).1.map ((innerZero k i + 1) :: ·), (i + 1) :: (lastF k (ch i)).2)) = _
          rw [h1]
          simp only
          rw [hl, cur_radix h2 hlt, innerZero, if_neg hk]; rfl

/-- `judy_prv` from a cell found goes to the next smaller key. -/
theorem prv_spec : ∀ (k : Nat) (B : Nat → Prop) (t : T V k), WF k t → NoLeafRadix B k t → ∀ v, v < 256 ^ k → (slotF k t v).1.isSome →
    (∀ x, (lo v (ents k t)).getLast? = some x → B (x.1 / 256)) →
    prvF k t (cur k t v) = (lo v (ents k t)).getLast?.map fun x => (some (cur k t x.1), cur k t x.1) := by
  intro k
  induction k with
  | zero =>
    intro B t _ _ v hv _ _
    have hv0 : v = 0 := by simp at hv; omega
    subst hv0
    cases t <;> rfl
  | succ k ih =>
    intro B t hw hn v hv hf hB
    match t, hw, hn, hf, hB with
    | Node.nil, _, _, hf, _ => cases hf
    | Node.list ty sl, hw, _, hf, _ =>
      obtain ⟨_, _, _, e, R, rfl, hR, hs, _⟩ := hw
      rw [slotF_list hs] at hf
      rw [ents_list, filterMap_slotsOf, cur_list hs]
      have h3 := split3 hs v
      -- the position before the one found, when there is a smaller key
      cases hl : lo v R with
      | nil =>
        show prvF (k + 1) (Node.list ty (slotsOf e R) : Node V (T V k)) [e + 0 + (mid v R).length] = none
        have hp : e + 0 + (mid v R).length ≤ e + 1 := by
          rcases mid_cases hs v with h | ⟨x, h⟩ <;> rw [h] <;> simp
        generalize e + 0 + (mid v R).length = p at hp
        match p, hp with
        | 0, _ => rfl
        | 1, _ => rfl
        | s + 2, hp =>
          show (if ((slotsOf e R)[s]?.bind (·.2)).isSome then _ else none) = none
          rw [slots_get_lt (by omega)]; rfl
      | cons y ys =>
        have hne : lo v R ≠ [] := by rw [hl]; simp
        have hm : ∃ x, mid v R = [(v, x)] := by
          rcases mid_cases hs v with h | h
          · exfalso
            split at hf
            · rename_i hh; exact hne (hit_free hs h hh).2.1
            · cases hf
          · exact h
        obtain ⟨x, hm⟩ := hm
        rw [← hl]
        have hll := List.dropLast_concat_getLast hne
        have hlen : (lo v R).length = (lo v R).dropLast.length + 1 := by
          have := congrArg List.length hll
          simp only [List.length_append, List.length_singleton] at this; omega
        rw [List.getLast?_eq_some_getLast hne]
        show prvF (k + 1) _ [e + (lo v R).length + (mid v R).length] = some _
        dsimp only
        rw [cur_list hs, hm]
        have hs2 : Sorted ((lo v R).dropLast ++ [(lo v R).getLast hne]) := by rw [hll]; exact hs.filter _
        have hRd : R = (lo v R).dropLast ++ [(lo v R).getLast hne] ++ (mid v R ++ hi v R) := by
          rw [hll, ← List.append_assoc]; exact h3
        have hc := cut_at (P := (lo v R).dropLast) (M := [(lo v R).getLast hne]) (S := mid v R ++ hi v R)
          (v := ((lo v R).getLast hne).1)
          (fun x hx => (sorted_append.1 hs2).2.2 x hx _ (by simp)) (by simp)
          (by intro z hz
              have h1 := (mem_lo.1 (List.getLast_mem hne)).2
              rcases List.mem_append.1 hz with hz | hz
              · have := (mem_mid.1 hz).2; omega
              · have := (mem_hi.1 hz).2; omega)
        have e1 : (lo ((lo v R).getLast hne).1 R).length = (lo v R).dropLast.length := by
          have := hc.1; rw [← hRd] at this; rw [this]
        have e2 : (mid ((lo v R).getLast hne).1 R).length = 1 := by
          have := hc.2.1; rw [← hRd] at this; rw [this]; rfl
        rw [e1, e2, hlen]
        show prvF (k + 1) _ [(e + (lo v R).dropLast.length) + 2] = _
        show (if ((slotsOf e R)[e + (lo v R).dropLast.length]?.bind (·.2)).isSome then
          some (some [e + (lo v R).dropLast.length + 1], [e + (lo v R).dropLast.length + 1]) else none) = _
        have hg : (slotsOf e R)[e + (lo v R).dropLast.length]? = some (used ((lo v R).getLast hne)) := by
          have hRd' : R = (lo v R).dropLast ++ (lo v R).getLast hne :: (mid v R ++ hi v R) := by
            rw [List.append_assoc, List.singleton_append] at hRd; exact hRd
          exact slots_at hRd'
        rw [hg]; rfl
    | Node.radix ch, hw, hn, hf, hB =>
      have hb : v / 256 ^ k % 256 < 256 := Nat.mod_lt _ (by decide)
      have hy : v % 256 ^ k < 256 ^ k := Nat.mod_lt _ (pow_pos k)
      have hcut := radix_cut3 hw.1 hb hy
      have hv2 := byte_rest hv
      generalize v / 256 ^ k % 256 = b at *
      generalize v % 256 ^ k = y at *
      subst hv2
      rw [slotF_radix hb hy, Option.isSome_map] at hf
      rw [cur_radix hb hy, hcut.1]
      show (match prvF k (ch (b + 1 - 1)) (cur k (ch b) y) with
        | some r => some (r.1.map ((b + 1) :: ·), (b + 1) :: r.2)
        | none => match highest (isNil k) ch (b + 1 - 1) with
          | none => none
          | some i => some ((lastF k (ch i)).1.map ((innerZero k i + 1) :: ·), (i + 1) :: (lastF k (ch i)).2)) = _
      rw [hcut.1, List.getLast?_append] at hB
      have hB1 : ∀ x, (lo y (ents k (ch b))).getLast? = some x → B ((b * 256 ^ k + x.1) / 256) := by
        intro x hx
        refine hB (b * 256 ^ k + x.1, x.2) ?_
        unfold shift
        rw [List.getLast?_map, hx]; rfl
      rw [Nat.add_sub_cancel, ih _ (ch b) (hw.1 b hb) (hn.2 b hb) y hy hf (fun x hx => by
        have h := hB1 x hx
        by_cases hk : k = 0
        · subst hk
          have h1 := mem_lo.1 (List.mem_of_getLast? hx)
          have : y = 0 := by simp at hy; omega
          omega
        · rw [block_shift hk] at h; exact h), List.getLast?_append]
      unfold shift
      rw [List.getLast?_map]
      cases hh : (lo y (ents k (ch b))).getLast? with
      | some w =>
        have hlt := ents_lt k (ch b) (hw.1 b hb) w (mem_lo.1 (List.mem_of_getLast? hh)).1
        simp only [Option.map_some, Option.some_or]
        rw [cur_radix hb hlt]
      | none =>
        simp only [Option.map_none, Option.none_or]
        rcases highest_spec (ch := ch) b with ⟨h1, h2⟩ | ⟨i, h1, h2, h3, h4, h5⟩
        · rw [h1]
          have : below k ch b = [] := flatMap_nil
            (fun j hj => hw.1 j (by have := List.mem_range.1 hj; omega))
            (fun j hj => by have := List.mem_range.1 hj; exact h2 j (by omega) (by omega))
          rw [this]; rfl
        · rw [h1]
          have hne' : ents k (ch i) ≠ [] := fun h => by
            rw [(isNil_iff k (ch i) (hw.1 i h2)).2 h] at h4; cases h4
          have hu := upto_highest hw.1 (Nat.le_of_lt hb) h3 (fun j a b c => h5 j a b c)
          have hB2 : ∀ x, (ents k (ch i)).getLast? = some x → B ((i * 256 ^ k + x.1) / 256) := by
            intro x hx
            refine hB (i * 256 ^ k + x.1, x.2) ?_
            unfold shift
            rw [List.getLast?_map, hh, hu, List.getLast?_append]
            unfold shift
            rw [List.getLast?_map, hx]; rfl
          have hk : k ≠ 0 := by
            rintro rfl
            obtain ⟨x, hx⟩ : ∃ x, (ents 0 (ch i)).getLast? = some x := by
              rw [List.getLast?_eq_some_getLast hne']; exact ⟨_, rfl⟩
            have hlt := ents_lt 0 (ch i) (hw.1 i h2) x (List.mem_of_getLast? hx)
            have := hB2 x hx
            have e : (i * 256 ^ 0 + x.1) / 256 = 0 := by omega
            rw [e] at this
            exact hn.1 rfl this
          obtain ⟨x, hx, hl⟩ := last_spec k _ (ch i) (hw.1 i h2) (hn.2 i h2) hne' (fun x hx => by
            have h := hB2 x hx
            rw [block_shift hk] at h; exact h)
          have hlt := ents_lt k (ch i) (hw.1 i h2) x (List.mem_of_getLast? hx)
          rw [hu, List.getLast?_append]
          unfold shift
          rw [List.getLast?_map, hx]
          simp only [Option.map_some, Option.some_or]
          rw [hl, cur_radix h2 hlt, innerZero, if_neg hk]; rfl

end Umpire.Judy
