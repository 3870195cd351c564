import Verif.Judy.Search
/-! Inserting into and deleting from a Judy tree. -/
set_option autoImplicit false
set_option linter.unusedSimpArgs false
namespace Umpire.Judy
variable {V : Type}

theorem flatMap_congr' {α β : Type} {l : List α} {f g : α → List β} (h : ∀ a ∈ l, f a = g a) : l.flatMap f = l.flatMap g := by
  rw [List.flatMap_def, List.flatMap_def, List.map_congr_left h]

theorem below_upd {k : Nat} {ch : Nat → T V k} {b : Nat} (c : T V k) : below k (upd ch b c) b = below k ch b := by
  unfold below
  apply flatMap_congr'
  intro i hi
  rw [upd_ne ch c (by have := List.mem_range.1 hi; omega)]

theorem above_upd {k : Nat} {ch : Nat → T V k} {b : Nat} (c : T V k) : above k (upd ch b c) b = above k ch b := by
  unfold above
  apply flatMap_congr'
  intro i hi
  rw [upd_ne ch c (by have := List.mem_range'_1.1 hi; omega)]

theorem ents_upd {k : Nat} {ch : Nat → T V k} {b : Nat} (hb : b < 256) (c : T V k) :
    ents (k + 1) (Node.radix (upd ch b c) : Node V (T V k)) = below k ch b ++ shift k b (ents k c) ++ above k ch b := by
  rw [radix_cut k _ hb, below_upd, above_upd, upd_same]

theorem wf_upd {k : Nat} {ch : Nat → T V k} {b : Nat} {c : T V k} (hw : ∀ i, i < 256 → WF k (ch i)) (hc : WF k c) :
    ∀ i, i < 256 → WF k (upd ch b c i) := by
  intro i hi
  by_cases h : i = b
  · subst h; rw [upd_same]; exact hc
  · rw [upd_ne ch c h]; exact hw i hi

/-! ## `judy_del` -/

theorem slotsOf_take {e : Nat} {A B : List (Nat × V)} : (slotsOf e (A ++ B)).take (e + A.length) = slotsOf e A := by
  rw [slotsOf_append]
  exact List.take_left' (slotsOf_length e A)

theorem slotsOf_drop {e : Nat} {A B : List (Nat × V)} : (slotsOf e (A ++ B)).drop (e + A.length) = B.map used := by
  rw [slotsOf_append]
  exact List.drop_left' (slotsOf_length e A)

/-- Deleting at the cell of a key removes exactly that key. -/
theorem del_spec : ∀ (k : Nat) (t : T V k), WF k t → ∀ v, v < 256 ^ k → ∀ x, mid v (ents k t) = [(v, x)] →
    WF k (delF k t (cur k t v)) ∧ ents k (delF k t (cur k t v)) = lo v (ents k t) ++ hi v (ents k t) ∧
    (∀ B, NoLeafRadix B k t → NoLeafRadix B k (delF k t (cur k t v))) := by
  intro k
  induction k with
  | zero =>
    intro t _ v hv x _
    have hv0 : v = 0 := by simp at hv; omega
    subst hv0
    refine ⟨trivial, ?_, fun _ _ => trivial⟩
    cases t <;> rfl
  | succ k ih =>
    intro t hw v hv x hm
    match t, hw, hm with
    | Node.nil, _, hm => simp [ents, mid] at hm
    | Node.list ty sl, hw, hm =>
      obtain ⟨h1, h2, h3, e, R, rfl, hne, hs, hlt⟩ := hw
      rw [ents_list, filterMap_slotsOf] at hm ⊢
      rw [cur_list hs, hm]
      have hR := split3 hs v
      rw [hm] at hR
      have hsl : ((0, none) : Nat × Option V) :: ((slotsOf e R).take (e + (lo v R).length) ++ (slotsOf e R).drop (e + (lo v R).length + 1))
          = slotsOf (e + 1) (lo v R ++ hi v R) := by
        have e1 : (slotsOf e R).take (e + (lo v R).length) = slotsOf e (lo v R) := by
          have := slotsOf_take (e := e) (A := lo v R) (B := [(v, x)] ++ hi v R)
          rwa [← List.append_assoc, ← hR] at this
        have e2 : (slotsOf e R).drop (e + (lo v R).length + 1) = (hi v R).map used := by
          have := slotsOf_drop (e := e) (A := lo v R ++ [(v, x)]) (B := hi v R)
          rw [← hR, List.length_append, List.length_singleton, ← Nat.add_assoc] at this
          exact this
        rw [e1, e2, slotsOf_append]
        unfold slotsOf
        rw [List.replicate_succ]; rfl
      have hdel : delF (k + 1) (Node.list ty (slotsOf e R) : Node V (T V k)) [e + (lo v R).length + [(v, x)].length] =
          if (((slotsOf (e + 1) (lo v R ++ hi v R)).getLast?).bind (·.2)).isSome
          then Node.list ty (slotsOf (e + 1) (lo v R ++ hi v R)) else Node.nil := by
        rw [← hsl]; rfl
      rw [hdel]
      by_cases hnil : lo v R ++ hi v R = []
      · rw [hnil]
        have : ((slotsOf (e + 1) ([] : List (Nat × V))).getLast?).bind (·.2) = none := by
          unfold slotsOf
          simp [List.getLast?_replicate]
        rw [this, if_neg (by simp)]
        exact ⟨trivial, rfl, fun _ _ => trivial⟩
      · have : (((slotsOf (e + 1) (lo v R ++ hi v R)).getLast?).bind (·.2)).isSome = true := by
          unfold slotsOf
          rw [List.getLast?_append, List.getLast?_map, List.getLast?_eq_some_getLast hnil]; rfl
        rw [if_pos this]
        refine ⟨⟨h1, h2, ?_, e + 1, _, rfl, hnil, sorted_del hs v, ?_⟩, ?_, fun _ _ => trivial⟩
        · rw [← h3, slotsOf_length, slotsOf_length]
          have := congrArg List.length hR
          simp only [List.length_append, List.length_singleton] at this ⊢
          omega
        · intro y hy
          rcases List.mem_append.1 hy with hy | hy
          · exact hlt y (mem_lo.1 hy).1
          · exact hlt y (mem_hi.1 hy).1
        · rw [ents_list, filterMap_slotsOf]
    | Node.radix ch, hw, hm =>
      have hb : v / 256 ^ k % 256 < 256 := Nat.mod_lt _ (by decide)
      have hy : v % 256 ^ k < 256 ^ k := Nat.mod_lt _ (pow_pos k)
      have hcut := radix_cut3 hw.1 hb hy
      have hv2 := byte_rest hv
      generalize v / 256 ^ k % 256 = b at *
      generalize v % 256 ^ k = y at *
      subst hv2
      rw [hcut.2.1] at hm
      unfold shift at hm
      have hm' : mid y (ents k (ch b)) = [(y, x)] := by
        rcases mid_cases (sorted_ents k (ch b) (hw.1 b hb)) y with h | ⟨z, h⟩
        · rw [h] at hm; cases hm
        · rw [h] at hm ⊢; simp at hm; rw [hm]
      obtain ⟨i1, i2, i3⟩ := ih (ch b) (hw.1 b hb) y hy x hm'
      rw [cur_radix hb hy, hcut.1, hcut.2.2]
      have hdel : delF (k + 1) (Node.radix ch : Node V (T V k)) ((b + 1) :: cur k (ch b) y) =
          if allNil (isNil k) (upd ch b (delF k (ch b) (cur k (ch b) y))) then Node.nil
          else Node.radix (upd ch b (delF k (ch b) (cur k (ch b) y))) := rfl
      rw [hdel]
      have hwf := wf_upd (b := b) hw.1 i1
      have he : ents (k + 1) (Node.radix (upd ch b (delF k (ch b) (cur k (ch b) y))) : Node V (T V k)) =
          below k ch b ++ shift k b (lo y (ents k (ch b))) ++ (shift k b (hi y (ents k (ch b))) ++ above k ch b) := by
        rw [ents_upd hb, i2]
        unfold shift; rw [List.map_append]; simp only [List.append_assoc]
      by_cases ha : allNil (isNil k) (upd ch b (delF k (ch b) (cur k (ch b) y))) = true
      · rw [if_pos ha]
        refine ⟨trivial, ?_, fun _ _ => trivial⟩
        rw [← he, ents_radix]
        unfold allNil at ha
        rw [List.all_eq_true] at ha
        symm
        exact flatMap_nil (fun i hi => hwf i (List.mem_range.1 hi)) ha
      · rw [if_neg ha]
        refine ⟨⟨hwf, ?_⟩, he, ?_⟩
        · unfold allNil at ha
          rw [List.all_eq_true] at ha
          by_cases hex : ∃ i, i < 256 ∧ isNil k (upd ch b (delF k (ch b) (cur k (ch b) y)) i) = false
          · exact hex
          · exfalso; apply ha
            intro i hi
            by_cases hc : isNil k (upd ch b (delF k (ch b) (cur k (ch b) y)) i) = true
            · exact hc
            · exact absurd ⟨i, List.mem_range.1 hi, by simpa using hc⟩ hex
        · intro B hn
          refine ⟨hn.1, fun i hi => ?_⟩
          by_cases h : i = b
          · subst h; rw [upd_same]; exact i3 _ (hn.2 i hi)
          · rw [upd_ne _ _ h]; exact hn.2 i hi

/-! ## `judy_splitnode` -/

/-- The subtree for a group of entries. -/
def nodeOf (k : Nat) (G : List (Nat × V)) : T V k := if G = [] then empty k else radixNode k (G.map used)

theorem nodeOf_nil (k : Nat) : nodeOf k ([] : List (Nat × V)) = empty k := if_pos rfl
theorem nodeOf_ne {k : Nat} {G : List (Nat × V)} (h : G ≠ []) : nodeOf k G = radixNode k (G.map used) := if_neg h

theorem splitLoop_spec (k : Nat) : ∀ (rest g D : List (Nat × V)) (ch : Nat → T V k) (key : Nat), g ≠ [] →
    (∀ x ∈ g, x.1 / 256 ^ k = key) → (∀ x ∈ D, x.1 / 256 ^ k < key) → (∀ x ∈ rest, key ≤ x.1 / 256 ^ k) →
    rest.Pairwise (fun a b => a.1 / 256 ^ k ≤ b.1 / 256 ^ k) →
    (∀ i, ch i = nodeOf k (D.filter fun x => decide (x.1 / 256 ^ k = i))) →
    ∀ i, splitLoop k ch key (g.map used) (rest.map used) i =
      nodeOf k ((D ++ g ++ rest).filter fun x => decide (x.1 / 256 ^ k = i)) := by
  intro rest
  -- storing the subtree of a finished group
  have flush : ∀ (g D : List (Nat × V)) (ch : Nat → T V k) (key : Nat), g ≠ [] →
      (∀ x ∈ g, x.1 / 256 ^ k = key) → (∀ x ∈ D, x.1 / 256 ^ k < key) →
      (∀ i, ch i = nodeOf k (D.filter fun x => decide (x.1 / 256 ^ k = i))) →
      ∀ i, upd ch key (radixNode k (g.map used)) i = nodeOf k ((D ++ g).filter fun x => decide (x.1 / 256 ^ k = i)) := by
    intro g D ch key hg hk hD hch i
    rw [List.filter_append]
    by_cases hi : i = key
    · subst hi
      rw [upd_same]
      have e1 : D.filter (fun x => decide (x.1 / 256 ^ k = i)) = [] := by
        rw [List.filter_eq_nil_iff]; intro x hx; have := hD x hx; simp; omega
      have e2 : g.filter (fun x => decide (x.1 / 256 ^ k = i)) = g := by
        rw [List.filter_eq_self]; intro x hx; simpa using hk x hx
      rw [e1, e2, List.nil_append, nodeOf_ne hg]
    · rw [upd_ne _ _ hi, hch i]
      have e2 : g.filter (fun x => decide (x.1 / 256 ^ k = i)) = [] := by
        rw [List.filter_eq_nil_iff]; intro x hx; have := hk x hx; simp; omega
      rw [e2, List.append_nil]
  induction rest with
  | nil =>
    intro g D ch key hg hk hD _ _ hch i
    rw [List.append_nil]
    exact flush g D ch key hg hk hD hch i
  | cons e rest ih =>
    intro g D ch key hg hk hD hr hp hch i
    have hp' := List.pairwise_cons.1 hp
    rw [List.map_cons]
    unfold splitLoop
    by_cases he : e.1 / 256 ^ k = key
    · rw [if_pos (show (used e).1 / 256 ^ k = key from he)]
      have := ih (g ++ [e]) D ch key (by simp) (by
        intro x hx
        rcases List.mem_append.1 hx with hx | hx
        · exact hk x hx
        · rw [List.mem_singleton.1 hx]; exact he) hD (fun x hx => hr x (List.mem_cons_of_mem _ hx)) hp'.2 hch i
      rw [List.map_append] at this
      rw [show D ++ g ++ e :: rest = D ++ (g ++ [e]) ++ rest from by simp]
      exact this
    · rw [if_neg (show ¬ (used e).1 / 256 ^ k = key from he)]
      have := ih [e] (D ++ g) (upd ch key (radixNode k (g.map used))) (e.1 / 256 ^ k) (by simp) (by simp) (by
        intro x hx
        have h1 := hr e List.mem_cons_self
        rcases List.mem_append.1 hx with hx | hx
        · have := hD x hx; omega
        · have := hk x hx; omega) (fun x hx => hp'.1 x hx) hp'.2 (flush g D ch key hg hk hD hch) i
      rw [show D ++ g ++ e :: rest = D ++ g ++ [e] ++ rest from by simp]
      exact this

theorem div_mono_of_sorted {k : Nat} {R : List (Nat × V)} (hs : Sorted R) :
    R.Pairwise (fun a b => a.1 / 256 ^ k ≤ b.1 / 256 ^ k) :=
  hs.imp fun h => Nat.div_le_div_right (Nat.le_of_lt h)

theorem splitNode_spec {k : Nat} {R : List (Nat × V)} (hs : Sorted R) (hne : R ≠ []) (i : Nat) :
    splitNode k (R.map used) i = nodeOf k (R.filter fun x => decide (x.1 / 256 ^ k = i)) := by
  obtain ⟨e, rest, rfl⟩ := List.exists_cons_of_ne_nil hne
  have hp := List.pairwise_cons.1 (div_mono_of_sorted (k := k) hs)
  have := splitLoop_spec k rest [e] [] (fun _ => empty k) (e.1 / 256 ^ k) (by simp) (by simp) (by simp) hp.1 hp.2
    (fun i => (nodeOf_nil k).symm) i
  simpa [splitNode, used] using this

/-- Grouping a sorted list by the leading byte and appending the groups. -/
theorem group_all {α : Type} (f : α → Nat) {R : List α} (hp : R.Pairwise (fun a b => f a ≤ f b)) (n : Nat) :
    ((List.range n).flatMap fun i => R.filter fun x => decide (f x = i)) = R.filter fun x => decide (f x < n) := by
  induction n with
  | zero => simp
  | succ n ih =>
    rw [List.range_succ, List.flatMap_append, ih]
    simp only [List.flatMap_cons, List.flatMap_nil, List.append_nil]
    clear ih
    induction R with
    | nil => rfl
    | cons x xs ih =>
      have hp' := List.pairwise_cons.1 hp
      have ih := ih hp'.2
      simp only [List.filter_cons]
      rcases Nat.lt_trichotomy (f x) n with h | h | h
      · have h2 : ¬ f x = n := by omega
        have h3 : f x < n + 1 := by omega
        simp only [h, h2, h3, decide_true, decide_false, if_true, List.cons_append]
        exact congrArg _ ih
      · have h2 : ¬ f x < n := by omega
        have h3 : f x < n + 1 := by omega
        have hnil : xs.filter (fun x => decide (f x < n)) = [] := by
          rw [List.filter_eq_nil_iff]; intro y hy; have := hp'.1 y hy; simp; omega
        rw [hnil] at ih
        simp only [h, h2, h3, decide_true, decide_false, if_true, hnil, List.nil_append, Nat.lt_irrefl, Nat.lt_succ_self]
        simpa using ih
      · have h1 : ¬ f x < n := by omega
        have h2 : ¬ f x = n := by omega
        have h3 : ¬ f x < n + 1 := by omega
        simp only [h1, h2, h3, decide_false]
        exact ih

/-- The type chosen has enough slots. -/
theorem pickType_spec {cnt k : Nat} (h : cnt ≤ cap 6 k) :
    1 ≤ pickType cnt k ∧ pickType cnt k ≤ 6 ∧ cnt ≤ cap (pickType cnt k) k := by
  unfold pickType
  cases hf : (List.range 6).find? fun i => decide (cnt ≤ cap (i + 1) k) with
  | none => simp only [Option.getD_none]; exact ⟨by omega, by omega, h⟩
  | some i =>
    have h1 := List.find?_some hf
    have h2 := List.mem_range.1 (List.mem_of_find?_eq_some hf)
    simp only [Option.getD_some]
    exact ⟨by omega, by omega, by simpa using h1⟩

theorem cap_mono {ty k : Nat} : cap ty (k + 1) ≤ cap ty k := by
  unfold cap
  exact Nat.div_le_div_left (by omega) (by omega)

/-- Entries with the leading byte removed. -/
def strip (k : Nat) (G : List (Nat × V)) : List (Nat × V) := G.map fun x => (x.1 % 256 ^ k, x.2)

theorem nodeOf_spec {k b : Nat} {G : List (Nat × V)} (hs : Sorted G) (hb : ∀ x ∈ G, x.1 / 256 ^ k = b)
    (hlen : G.length ≤ cap 6 (k + 1)) :
    WF k (nodeOf k G) ∧ ents k (nodeOf k G) = strip k G ∧ ∀ B, NoLeafRadix B k (nodeOf k G) := by
  by_cases hne : G = []
  · subst hne
    rw [nodeOf_nil]
    refine ⟨?_, ents_empty k, fun B => ?_⟩ <;> cases k <;> trivial
  · rw [nodeOf_ne hne]
    have hss : Sorted (strip k G) := by
      unfold Sorted strip
      rw [List.pairwise_map]
      refine List.Pairwise.imp_of_mem ?_ hs
      intro x y hx hy h
      show x.1 % 256 ^ k < y.1 % 256 ^ k
      have h1 := Nat.div_add_mod x.1 (256 ^ k)
      have h2 := Nat.div_add_mod y.1 (256 ^ k)
      rw [hb x hx] at h1; rw [hb y hy] at h2
      omega
    cases k with
    | zero =>
      obtain ⟨x, xs, rfl⟩ := List.exists_cons_of_ne_nil hne
      have hxs : xs = [] := by
        cases xs with
        | nil => rfl
        | cons y ys =>
          have h1 := (List.pairwise_cons.1 hs).1 y List.mem_cons_self
          have h2 := hb x (by simp)
          have h3 := hb y (by simp)
          simp at h2 h3; omega
      subst hxs
      refine ⟨trivial, ?_, fun _ => trivial⟩
      simp [radixNode, used, ents, strip, Nat.mod_one]
    | succ k =>
      obtain ⟨p1, p2, p3⟩ := pickType_spec (Nat.le_trans hlen cap_mono)
      have hsl : (radixNode (k + 1) (G.map used) : T V (k + 1)) =
          (Node.list (pickType G.length (k + 1)) (slotsOf (cap (pickType G.length (k + 1)) (k + 1) - G.length) (strip (k + 1) G)) :
            Node V (T V k)) := by
        unfold radixNode slotsOf strip
        simp only [List.length_map, List.map_map]
        rfl
      rw [hsl]
      refine ⟨⟨p1, p2, ?_, _, _, rfl, ?_, hss, ?_⟩, ?_, fun _ => trivial⟩
      · rw [slotsOf_length]
        have : (strip (k + 1) G).length = G.length := by simp [strip]
        omega
      · unfold strip; simpa using hne
      · intro x hx
        unfold strip at hx
        obtain ⟨y, _, rfl⟩ := List.mem_map.1 hx
        exact Nat.mod_lt _ (pow_pos _)
      · rw [ents_list, filterMap_slotsOf]

theorem split_ok {k : Nat} {R : List (Nat × V)} (hs : Sorted R) (hne : R ≠ []) (hlt : ∀ x ∈ R, x.1 < 256 ^ (k + 1))
    (hlen : R.length ≤ cap 6 (k + 1)) :
    (∀ i, WF k (splitNode k (R.map used) i)) ∧ (∀ i B, NoLeafRadix B k (splitNode k (R.map used) i)) ∧
    ents (k + 1) (Node.radix (splitNode k (R.map used)) : Node V (T V k)) = R := by
  have hn : ∀ i, _ := fun i => nodeOf_spec (k := k) (b := i) (G := R.filter fun x => decide (x.1 / 256 ^ k = i)) (hs.filter _)
    (fun x hx => by simpa using (List.mem_filter.1 hx).2)
    (Nat.le_trans (List.length_filter_le _ _) hlen)
  refine ⟨fun i => ?_, fun i B => ?_, ?_⟩
  · rw [splitNode_spec hs hne]; exact (hn i).1
  · rw [splitNode_spec hs hne]; exact (hn i).2.2 B
  · rw [ents_radix]
    have hg := group_all (fun x : Nat × V => x.1 / 256 ^ k) (div_mono_of_sorted hs) 256
    have hall : R.filter (fun x => decide (x.1 / 256 ^ k < 256)) = R := by
      rw [List.filter_eq_self]; intro x hx
      rw [decide_eq_true_eq, Nat.div_lt_iff_lt_mul (pow_pos k), Nat.mul_comm, ← Nat.pow_succ]; exact hlt x hx
    rw [hall] at hg
    rw [← hg]
    apply flatMap_congr'
    intro i _
    rw [hg, splitNode_spec hs hne, (hn i).2.1]
    unfold shift strip
    rw [List.map_map]
    conv => rhs; rw [← List.map_id (List.filter _ _)]
    apply List.map_congr_left
    intro x hx
    have : x.1 / 256 ^ k = i := by simpa using (List.mem_filter.1 hx).2
    show (i * 256 ^ k + x.1 % 256 ^ k, x.2) = x
    rw [← this, Nat.mul_comm, Nat.div_add_mod]

/-! ## `judy_cell` -/

/-- At most 56 keys share all but their last byte, in the blocks of `B`. -/
def Sparse (B : Nat → Prop) (L : List (Nat × V)) : Prop := ∀ c, B c → (L.filter fun x => decide (x.1 / 256 = c)).length ≤ 56

/-- A list node in which the slot of a new key has been opened. -/
theorem open_slot {k ty e : Nat} {A B : List (Nat × V)} {v : Nat} {sl : List (Nat × Option V)} {p : Nat}
    (hsl : sl = slotsOf e A ++ (v, none) :: B.map used) (hp : p = e + A.length + 1) :
    readAt (k + 1) (Node.list ty sl : Node V (T V k)) [p] = none ∧ ∀ x,
    writeAt (k + 1) (Node.list ty sl : Node V (T V k)) [p] (some x) = (Node.list ty (slotsOf e (A ++ (v, x) :: B)) : Node V (T V k)) := by
  have hg : sl[p - 1]? = some (v, none) := by
    rw [hsl, hp, Nat.add_sub_cancel, ← slotsOf_length e A, List.getElem?_append_right (Nat.le_refl _), Nat.sub_self]; rfl
  constructor
  · show sl[p - 1]?.bind (·.2) = none
    rw [hg]; rfl
  · intro x
    show Node.list ty (sl.set (p - 1) ((sl[p - 1]?.map (·.1)).getD 0, some x)) = _
    rw [hg, hsl, hp, Nat.add_sub_cancel, ← slotsOf_length e A, List.set_append_right _ _ (Nat.le_refl _), Nat.sub_self]
    rw [slotsOf_append]; rfl

theorem cap_double {ty k : Nat} : 2 * cap ty k ≤ cap (ty + 1) k := by
  unfold cap judySize
  have hp : 2 ^ (ty + 1 + 3) = 2 ^ (ty + 3) * 2 := by
    rw [show ty + 1 + 3 = (ty + 3) + 1 from by omega]; exact Nat.pow_succ _ _
  rw [hp]
  generalize 2 ^ (ty + 3) = a
  have h := Nat.div_mul_le_self a (8 + k)
  rw [Nat.le_div_iff_mul_le (by omega), Nat.mul_assoc]; omega

theorem cap_max (k : Nat) : cap 6 (k + 1) ≤ 56 := by
  unfold cap judySize
  have : 2 ^ (6 + 3) / (8 + (k + 1)) ≤ 512 / 9 := Nat.div_le_div_left (by omega) (by omega)
  simpa using this

/-- A key that is present: the tree is not changed. -/
theorem cell_present : ∀ (k : Nat) (t : T V k), WF k t → ∀ v, v < 256 ^ k → ∀ x, mid v (ents k t) = [(v, x)] →
    cellF k t v = (t, cur k t v) := by
  intro k
  induction k with
  | zero => intro t _ v _ x _; rfl
  | succ k ih =>
    intro t hw v hv x hm
    match t, hw, hm with
    | Node.nil, _, hm => simp [ents, mid] at hm
    | Node.list ty sl, hw, hm =>
      obtain ⟨_, _, _, e, R, rfl, _, hs, _⟩ := hw
      rw [ents_list, filterMap_slotsOf] at hm
      have hpl : place k v (Node.list ty (slotsOf e R) : Node V (T V k)) =
          .done (.list ty (slotsOf e R)) (e + (lo v R).length + (mid v R).length) := by
        unfold place
        simp only
        rw [scan_slots hs, hit_mid hs hm, if_pos rfl]
      unfold cellF
      rw [hpl, cur_list hs]
    | Node.radix ch, hw, hm =>
      have hb : v / 256 ^ k % 256 < 256 := Nat.mod_lt _ (by decide)
      have hy : v % 256 ^ k < 256 ^ k := Nat.mod_lt _ (pow_pos k)
      have hcut := radix_cut3 hw.1 hb hy
      have hv2 := byte_rest hv
      have hcell : cellF (k + 1) (Node.radix ch : Node V (T V k)) v =
          ((Node.radix (upd ch (v / 256 ^ k % 256) (cellF k (ch (v / 256 ^ k % 256)) (v % 256 ^ k)).1) : Node V (T V k)),
            (v / 256 ^ k % 256 + 1) :: (cellF k (ch (v / 256 ^ k % 256)) (v % 256 ^ k)).2) := rfl
      rw [hcell]
      generalize v / 256 ^ k % 256 = b at *
      generalize v % 256 ^ k = y at *
      subst hv2
      rw [hcut.2.1] at hm
      unfold shift at hm
      have hm' : mid y (ents k (ch b)) = [(y, x)] := by
        rcases mid_cases (sorted_ents k (ch b) (hw.1 b hb)) y with h | ⟨z, h⟩
        · rw [h] at hm; cases hm
        · rw [h] at hm ⊢; simp at hm; rw [hm]
      rw [ih (ch b) (hw.1 b hb) y hy x hm', cur_radix hb hy]
      have : upd ch b (ch b) = ch := by
        funext i; by_cases h : i = b
        · rw [h, upd_same]
        · rw [upd_ne _ _ h]
      rw [this]

/-- What inserting an absent key means. -/
def PutOk (k : Nat) (t : T V k) (v : Nat) (r : T V k × List Nat) : Prop :=
  readAt k r.1 r.2 = none ∧ ∀ x,
    WF k (writeAt k r.1 r.2 (some x)) ∧
    ents k (writeAt k r.1 r.2 (some x)) = lo v (ents k t) ++ (v, x) :: hi v (ents k t) ∧
    isNil k (writeAt k r.1 r.2 (some x)) = false ∧
    (∀ B, NoLeafRadix B k t → Sparse B (lo v (ents k t) ++ (v, x) :: hi v (ents k t)) → NoLeafRadix B k (writeAt k r.1 r.2 (some x)))

theorem sparse_child {S : Nat → Prop} {k b : Nat} {A B M : List (Nat × V)} (h : Sparse S (A ++ shift (k + 1) b M ++ B)) :
    Sparse (fun c => S (b * 256 ^ k + c)) M := by
  intro c hc
  have h1 := h (b * 256 ^ k + c) hc
  rw [List.filter_append, List.filter_append, List.length_append, List.length_append] at h1
  have h2 : ((shift (k + 1) b M).filter fun x => decide (x.1 / 256 = b * 256 ^ k + c)).length =
      (M.filter fun x => decide (x.1 / 256 = c)).length := by
    unfold shift
    rw [List.filter_map, List.length_map]
    congr 2
    funext x
    show decide ((b * 256 ^ (k + 1) + x.1) / 256 = b * 256 ^ k + c) = decide (x.1 / 256 = c)
    rw [Nat.pow_succ, ← Nat.mul_assoc, Nat.mul_comm _ 256, Nat.mul_add_div (by decide), decide_eq_decide]
    omega
  omega

/-- Inserting an absent key below a radix node. -/
theorem put_radix {k : Nat} (ih : ∀ (t : T V k), WF k t → ∀ v, v < 256 ^ k → mid v (ents k t) = [] → PutOk k t v (cellF k t v))
    {ch : Nat → T V k} (hw : ∀ i, i < 256 → WF k (ch i)) {v : Nat} (hv : v < 256 ^ (k + 1))
    (hm : mid v (ents (k + 1) (Node.radix ch : Node V (T V k))) = []) :
    PutOk (k + 1) (Node.radix ch : Node V (T V k)) v (cellF (k + 1) (Node.radix ch : Node V (T V k)) v) := by
  have hb : v / 256 ^ k % 256 < 256 := Nat.mod_lt _ (by decide)
  have hy : v % 256 ^ k < 256 ^ k := Nat.mod_lt _ (pow_pos k)
  have hcut := radix_cut3 hw hb hy
  have hv2 := byte_rest hv
  have hcell : cellF (k + 1) (Node.radix ch : Node V (T V k)) v =
      ((Node.radix (upd ch (v / 256 ^ k % 256) (cellF k (ch (v / 256 ^ k % 256)) (v % 256 ^ k)).1) : Node V (T V k)),
        (v / 256 ^ k % 256 + 1) :: (cellF k (ch (v / 256 ^ k % 256)) (v % 256 ^ k)).2) := rfl
  rw [hcell]
  generalize v / 256 ^ k % 256 = b at *
  generalize v % 256 ^ k = y at *
  subst hv2
  rw [hcut.2.1] at hm
  unfold shift at hm
  have hm' : mid y (ents k (ch b)) = [] := List.map_eq_nil_iff.1 hm
  obtain ⟨hr, hx⟩ := ih (ch b) (hw b hb) y hy hm'
  unfold PutOk
  rw [hcut.1, hcut.2.2]
  generalize cellF k (ch b) y = r at *
  constructor
  · show readAt k (upd ch b r.1 (b + 1 - 1)) r.2 = none
    rw [Nat.add_sub_cancel, upd_same]; exact hr
  · intro x
    obtain ⟨i1, i2, i3, i4⟩ := hx x
    have hwr : writeAt (k + 1) (Node.radix (upd ch b r.1) : Node V (T V k)) ((b + 1) :: r.2) (some x) =
        Node.radix (upd ch b (writeAt k r.1 r.2 (some x))) := by
      show Node.radix (upd (upd ch b r.1) (b + 1 - 1) (writeAt k (upd ch b r.1 (b + 1 - 1)) r.2 (some x))) = _
      rw [Nat.add_sub_cancel, upd_same]
      congr 1
      funext i
      by_cases h : i = b
      · rw [h, upd_same, upd_same]
      · rw [upd_ne _ _ h, upd_ne _ _ h, upd_ne _ _ h]
    rw [hwr]
    refine ⟨⟨wf_upd hw i1, b, hb, by rw [upd_same]; exact i3⟩, ?_, rfl, ?_⟩
    · rw [ents_upd hb, i2]
      unfold shift
      rw [List.map_append, List.map_cons]; simp only [List.append_assoc, List.cons_append]
    · intro B hn hsp
      refine ⟨hn.1, fun i hib => ?_⟩
      by_cases h : i = b
      · subst h
        rw [upd_same]
        by_cases hk0 : k = 0
        · subst hk0; trivial
        apply i4 _ (hn.2 i hib)
        obtain ⟨k', rfl⟩ := Nat.exists_eq_succ_of_ne_zero hk0
        apply sparse_child (k := k') (b := i) (A := below (k' + 1) ch i) (B := above (k' + 1) ch i)
        have : ∀ L M : List (Nat × V), below (k' + 1) ch i ++ shift (k' + 1) i (L ++ (y, x) :: M) ++ above (k' + 1) ch i =
            below (k' + 1) ch i ++ shift (k' + 1) i L ++
              (i * 256 ^ (k' + 1) + y, x) :: (shift (k' + 1) i M ++ above (k' + 1) ch i) := by
          intro L M
          unfold shift
          rw [List.map_append, List.map_cons]; simp only [List.append_assoc, List.cons_append]
        rw [this]; exact hsp
      · rw [upd_ne _ _ h]; exact hn.2 i hib

/-- A list node into which the key has been put. -/
theorem put_list {k ty e : Nat} {R : List (Nat × V)} (hs : Sorted R) (hlt : ∀ x ∈ R, x.1 < 256 ^ (k + 1)) {v : Nat}
    (hv : v < 256 ^ (k + 1)) {t : T V (k + 1)} (ht : ents (k + 1) t = R) {sl : List (Nat × Option V)} {p : Nat}
    (hsl : sl = slotsOf e (lo v R) ++ (v, none) :: (hi v R).map used) (hp : p = e + (lo v R).length + 1)
    (h1 : 1 ≤ ty) (h6 : ty ≤ 6) (hlen : sl.length = cap ty (k + 1)) :
    PutOk (k + 1) t v ((Node.list ty sl : Node V (T V k)), [p]) := by
  obtain ⟨o1, o2⟩ := open_slot (k := k) (ty := ty) hsl hp
  refine ⟨o1, fun x => ?_⟩
  rw [ht, o2 x]
  refine ⟨⟨h1, h6, ?_, _, _, rfl, by simp, sorted_put hs v x, ?_⟩, ?_, rfl, fun _ _ _ => trivial⟩
  · rw [← hlen, hsl]
    simp [slotsOf_length]; omega
  · intro y hy
    rcases List.mem_append.1 hy with hy | hy
    · exact hlt y (mem_lo.1 hy).1
    · rcases List.mem_cons.1 hy with rfl | hy
      · exact hv
      · exact hlt y (mem_hi.1 hy).1
  · rw [ents_list, filterMap_slotsOf]

/-- A key that is absent: writing a value into the cell returned inserts it. -/
theorem cell_absent : ∀ (k : Nat), k ≤ 8 → ∀ (t : T V k), WF k t → ∀ v, v < 256 ^ k → mid v (ents k t) = [] →
    PutOk k t v (cellF k t v) := by
  intro k
  induction k with
  | zero =>
    intro _ t _ v hv hm
    have hv0 : v = 0 := by simp at hv; omega
    subst hv0
    cases t with
    | none => exact ⟨rfl, fun x => ⟨trivial, rfl, rfl, fun _ _ _ => trivial⟩⟩
    | some y => simp [ents, mid] at hm
  | succ k ih =>
    intro hk8 t hw v hv hm
    have ih := ih (by omega)
    match t, hw, hm with
    | Node.nil, _, hm =>
      have hcell : cellF (k + 1) (Node.nil : Node V (T V k)) v = ((Node.list 1 [(v, none)] : Node V (T V k)), [1]) := rfl
      rw [hcell]
      refine put_list (R := []) (e := 0) List.Pairwise.nil (by simp) hv rfl rfl rfl (by omega) (by omega) ?_
      unfold cap judySize
      show 1 = 16 / (8 + (k + 1))
      symm
      apply Nat.div_eq_of_lt_le <;> omega
    | Node.list ty sl, hw, hm =>
      obtain ⟨h1, h6, hlen, e, R, rfl, hne, hs, hlt⟩ := hw
      rw [ents_list, filterMap_slotsOf] at hm
      have he : ents (k + 1) (Node.list ty (slotsOf e R) : Node V (T V k)) = R := by rw [ents_list, filterMap_slotsOf]
      have h3 := split3 hs v
      rw [hm, List.append_nil] at h3
      have htake : (slotsOf e R).take (e + (lo v R).length) = slotsOf e (lo v R) := by
        have := slotsOf_take (e := e) (A := lo v R) (B := hi v R)
        rwa [← h3] at this
      have hdrop : (slotsOf e R).drop (e + (lo v R).length) = (hi v R).map used := by
        have := slotsOf_drop (e := e) (A := lo v R) (B := hi v R)
        rwa [← h3] at this
      have hlen2 : R.length = (lo v R).length + (hi v R).length := by
        have := congrArg List.length h3
        rwa [List.length_append] at this
      have hpl : place k v (Node.list ty (slotsOf e R) : Node V (T V k)) =
          if hit v (slotsOf e R) (e + (lo v R).length + (mid v R).length) then .done (.list ty (slotsOf e R)) (e + (lo v R).length)
          else if ((slotsOf e R)[0]?.bind (·.2)).isNone then
            .done (.list ty ((slotsOf e (lo v R)).drop 1 ++ [(v, none)] ++ (hi v R).map used)) (e + (lo v R).length)
          else if ty < 6 then
            .done (.list (ty + 1) (List.replicate (cap (ty + 1) (k + 1) - (slotsOf e R).length - 1) (0, none) ++
              slotsOf e (lo v R) ++ [(v, none)] ++ (hi v R).map used)) (e + (lo v R).length + (cap (ty + 1) (k + 1) - (slotsOf e R).length))
          else .down (splitNode k (slotsOf e R)) := by
        unfold place
        simp only
        rw [scan_slots hs, hm, List.length_nil, Nat.add_zero, htake, hdrop]
      by_cases hh : hit v (slotsOf e R) (e + (lo v R).length + (mid v R).length) = true
      · rw [if_pos hh] at hpl
        obtain ⟨hv0, hl0, he0⟩ := hit_free hs hm hh
        have hcell : cellF (k + 1) (Node.list ty (slotsOf e R) : Node V (T V k)) v =
            ((Node.list ty (slotsOf e R) : Node V (T V k)), [e + (lo v R).length]) := by
          unfold cellF; rw [hpl]
        rw [hcell]
        refine put_list (e := e - 1) hs hlt hv he ?_ ?_ h1 h6 hlen
        · rw [hl0] at h3 ⊢
          conv => lhs; rw [h3]
          obtain ⟨e', rfl⟩ := Nat.exists_eq_succ_of_ne_zero (show e ≠ 0 by omega)
          rw [hv0]
          unfold slotsOf
          rw [Nat.succ_sub_one, List.replicate_succ']
          simp
        · omega
      · rw [if_neg hh] at hpl
        by_cases he0 : e = 0
        · subst he0
          have hz : ((slotsOf 0 R)[0]?.bind (·.2)).isNone = false := by
            obtain ⟨x, xs, rfl⟩ := List.exists_cons_of_ne_nil hne
            rfl
          rw [hz, if_neg (by simp)] at hpl
          by_cases hty : ty < 6
          · rw [if_pos hty] at hpl
            have hcell : cellF (k + 1) (Node.list ty (slotsOf 0 R) : Node V (T V k)) v =
                ((Node.list (ty + 1) (List.replicate (cap (ty + 1) (k + 1) - (slotsOf 0 R).length - 1) (0, none) ++
              slotsOf 0 (lo v R) ++ [(v, none)] ++ (hi v R).map used) : Node V (T V k)),
              [0 + (lo v R).length + (cap (ty + 1) (k + 1) - (slotsOf 0 R).length)]) := by
              unfold cellF; rw [hpl]
            rw [hcell]
            have hd := cap_double (ty := ty) (k := k + 1)
            have hpos : 0 < R.length := List.length_pos_iff.2 hne
            rw [slotsOf_length] at hlen
            rw [slotsOf_length]
            refine put_list (e := cap (ty + 1) (k + 1) - (0 + R.length) - 1) hs hlt hv he ?_ ?_ (by omega) (by omega) ?_
            · unfold slotsOf
              simp
            · omega
            · simp [slotsOf_length]; omega
          · rw [if_neg hty] at hpl
            have hty6 : ty = 6 := by omega
            subst hty6
            have hcell : cellF (k + 1) (Node.list 6 (slotsOf 0 R) : Node V (T V k)) v =
                cellF (k + 1) (Node.radix (splitNode k (slotsOf 0 R)) : Node V (T V k)) v := by
              unfold cellF; rw [hpl]; rfl
            rw [hcell]
            rw [slotsOf_length, Nat.zero_add] at hlen
            have h0 : slotsOf 0 R = R.map used := by simp [slotsOf]
            obtain ⟨s1, s2, s3⟩ := split_ok (k := k) hs hne hlt (by omega)
            rw [← h0] at s1 s2 s3
            have := put_radix ih (ch := splitNode k (slotsOf 0 R)) (fun i _ => s1 i) hv (by rw [s3]; exact hm)
            unfold PutOk at this ⊢
            rw [s3] at this
            rw [he]
            refine ⟨this.1, fun x => ?_⟩
            obtain ⟨a1, a2, a3, a4⟩ := this.2 x
            refine ⟨a1, a2, a3, fun B _ hsp => a4 B ⟨?_, fun i _ => s2 i _⟩ hsp⟩
            rintro rfl hB0
            have hs0 := hsp 0 hB0
            have hall : (lo v R ++ (v, x) :: hi v R).filter (fun y => decide (y.1 / 256 = 0)) = lo v R ++ (v, x) :: hi v R := by
              rw [List.filter_eq_self]
              intro y hy
              have hy2 : y.1 < 256 := by
                rcases List.mem_append.1 hy with hy | hy
                · have := hlt y (mem_lo.1 hy).1; omega
                · rcases List.mem_cons.1 hy with rfl | hy
                  · omega
                  · have := hlt y (mem_hi.1 hy).1; omega
              simp; omega
            rw [hall] at hs0
            simp only [List.length_append, List.length_cons] at hs0
            have : cap 6 (0 + 1) = 56 := by decide
            omega
        · obtain ⟨e', rfl⟩ := Nat.exists_eq_succ_of_ne_zero he0
          have hz : ((slotsOf (e' + 1) R)[0]?.bind (·.2)).isNone = true := by
            rw [slots_get_lt (by omega)]; rfl
          rw [if_pos hz] at hpl
          have hcell : cellF (k + 1) (Node.list ty (slotsOf (e' + 1) R) : Node V (T V k)) v =
              ((Node.list ty ((slotsOf (e' + 1) (lo v R)).drop 1 ++ [(v, none)] ++ (hi v R).map used) : Node V (T V k)),
                [e' + 1 + (lo v R).length]) := by
            unfold cellF; rw [hpl]
          rw [hcell]
          rw [slotsOf_length] at hlen
          have hd1 : (slotsOf (e' + 1) (lo v R)).drop 1 = slotsOf e' (lo v R) := by
            unfold slotsOf; rw [List.replicate_succ]; rfl
          rw [hd1]
          refine put_list (e := e') hs hlt hv he ?_ ?_ h1 h6 ?_
          · simp
          · omega
          · simp [slotsOf_length]; omega
    | Node.radix ch, hw, hm => exact put_radix ih hw.1 hv hm

/-- Overwriting the value of a key that is present. -/
theorem write_present : ∀ (k : Nat) (t : T V k), WF k t → ∀ v, v < 256 ^ k → ∀ x, mid v (ents k t) = [(v, x)] → ∀ y,
    WF k (writeAt k t (cur k t v) (some y)) ∧
    ents k (writeAt k t (cur k t v) (some y)) = lo v (ents k t) ++ (v, y) :: hi v (ents k t) ∧
    isNil k (writeAt k t (cur k t v) (some y)) = false ∧
    cur k (writeAt k t (cur k t v) (some y)) v = cur k t v ∧
    (∀ B, NoLeafRadix B k t → NoLeafRadix B k (writeAt k t (cur k t v) (some y))) := by
  intro k
  induction k with
  | zero =>
    intro t _ v hv x hm y
    have hv0 : v = 0 := by simp at hv; omega
    subst hv0
    cases t with
    | none => simp [ents, mid] at hm
    | some z => exact ⟨trivial, rfl, rfl, rfl, fun _ _ => trivial⟩
  | succ k ih =>
    intro t hw v hv x hm y
    match t, hw, hm with
    | Node.nil, _, hm => simp [ents, mid] at hm
    | Node.list ty sl, hw, hm =>
      obtain ⟨h1, h2, h3, e, R, rfl, hne, hs, hlt⟩ := hw
      rw [ents_list, filterMap_slotsOf] at hm ⊢
      have hR := split3 hs v
      rw [hm] at hR
      have hR' : R = lo v R ++ (v, x) :: hi v R := by rw [List.append_assoc] at hR; exact hR
      have hcur : cur (k + 1) (Node.list ty (slotsOf e R) : Node V (T V k)) v = [e + (lo v R).length + 1] := by
        rw [cur_list hs, hm]; rfl
      have hwr : writeAt (k + 1) (Node.list ty (slotsOf e R) : Node V (T V k)) [e + (lo v R).length + 1] (some y) =
          (Node.list ty (slotsOf e (lo v R ++ (v, y) :: hi v R)) : Node V (T V k)) := by
        show Node.list ty ((slotsOf e R).set (e + (lo v R).length + 1 - 1)
          (((slotsOf e R)[e + (lo v R).length + 1 - 1]?.map (·.1)).getD 0, some y)) = _
        rw [Nat.add_sub_cancel, slots_at hR']
        have : slotsOf e R = slotsOf e (lo v R) ++ used (v, x) :: (hi v R).map used := by
          have h := congrArg (slotsOf e) hR'
          rw [slotsOf_append] at h; exact h
        rw [this, ← slotsOf_length e (lo v R), List.set_append_right _ _ (Nat.le_refl _), Nat.sub_self, slotsOf_append]
        rfl
      rw [hcur, hwr]
      have hsp := sorted_put hs v y
      refine ⟨⟨h1, h2, ?_, _, _, rfl, by simp, hsp, ?_⟩, ?_, rfl, ?_, fun _ _ => trivial⟩
      · rw [← h3, slotsOf_length, slotsOf_length]
        have := congrArg List.length hR'
        simp only [List.length_append, List.length_cons] at this ⊢
        omega
      · intro z hz
        rcases List.mem_append.1 hz with hz | hz
        · exact hlt z (mem_lo.1 hz).1
        · rcases List.mem_cons.1 hz with rfl | hz
          · exact hv
          · exact hlt z (mem_hi.1 hz).1
      · rw [ents_list, filterMap_slotsOf]
      · rw [cur_list hsp]
        have hc := cut_at (P := lo v R) (M := [(v, y)]) (S := hi v R) (v := v) (fun z hz => (mem_lo.1 hz).2) (by simp)
          (fun z hz => (mem_hi.1 hz).2)
        rw [List.append_assoc] at hc
        simp only [List.singleton_append] at hc
        rw [hc.1, hc.2.1]; rfl
    | Node.radix ch, hw, hm =>
      have hb : v / 256 ^ k % 256 < 256 := Nat.mod_lt _ (by decide)
      have hy : v % 256 ^ k < 256 ^ k := Nat.mod_lt _ (pow_pos k)
      have hcut := radix_cut3 hw.1 hb hy
      have hv2 := byte_rest hv
      generalize v / 256 ^ k % 256 = b at *
      generalize v % 256 ^ k = z at *
      subst hv2
      rw [hcut.2.1] at hm
      unfold shift at hm
      have hm' : mid z (ents k (ch b)) = [(z, x)] := by
        rcases mid_cases (sorted_ents k (ch b) (hw.1 b hb)) z with h | ⟨w, h⟩
        · rw [h] at hm; cases hm
        · rw [h] at hm ⊢; simp at hm; rw [hm]
      obtain ⟨i1, i2, i3, i4, i5⟩ := ih (ch b) (hw.1 b hb) z hy x hm' y
      rw [cur_radix hb hy, hcut.1, hcut.2.2]
      have hwr : writeAt (k + 1) (Node.radix ch : Node V (T V k)) ((b + 1) :: cur k (ch b) z) (some y) =
          Node.radix (upd ch b (writeAt k (ch b) (cur k (ch b) z) (some y))) := rfl
      rw [hwr]
      refine ⟨⟨wf_upd hw.1 i1, b, hb, by rw [upd_same]; exact i3⟩, ?_, rfl, ?_, ?_⟩
      · rw [ents_upd hb, i2]
        unfold shift
        rw [List.map_append, List.map_cons]; simp only [List.append_assoc, List.cons_append]
      · rw [cur_radix hb hy, upd_same, i4]
      · intro B hn
        refine ⟨hn.1, fun i hib => ?_⟩
        by_cases h : i = b
        · subst h; rw [upd_same]; exact i5 _ (hn.2 i hib)
        · rw [upd_ne _ _ h]; exact hn.2 i hib

/-! ## What `judy_last` and `judy_prv` return in any case -/

theorem readAt_radix {k : Nat} {ch : Nat → T V k} {p : Nat} {l : List Nat} :
    readAt (k + 1) (Node.radix ch : Node V (T V k)) (p :: l) = readAt k (ch (p - 1)) l := rfl

/-- A cell returned by `judy_last` is empty or holds an entry. -/
theorem last_sound : ∀ (k : Nat) (t : T V k), WF k t → ∀ l c, lastF k t = (some l, c) →
    ∀ y, readAt k t l = some y → ∃ x ∈ ents k t, x.2 = y := by
  intro k
  induction k with
  | zero =>
    intro t _ l c _ y hy
    cases t with
    | none => cases hy
    | some z => injection hy with hy; exact ⟨(0, z), by simp [ents], hy⟩
  | succ k ih =>
    intro t hw l c hl y hy
    match t, hw, hl, hy with
    | Node.nil, _, hl, _ => cases hl
    | Node.list ty sl, hw, hl, hy =>
      have h1 : (some [sl.length], [sl.length]) = (some l, c) := hl
      injection h1 with h1 _; injection h1 with h1; subst h1
      have h2 : sl[sl.length - 1]?.bind (·.2) = some y := hy
      rw [ents_list]
      obtain ⟨s, hs, hs2⟩ := Option.bind_eq_some_iff.1 h2
      exact ⟨(s.1, y), List.mem_filterMap.2 ⟨s, List.mem_of_getElem? hs, by rw [hs2]; rfl⟩, rfl⟩
    | Node.radix ch, hw, hl, hy =>
      have hl' : (match highest (isNil k) ch 256 with
            | none => (none, [])
            | some i => ((lastF k (ch i)).1.map ((innerZero k i + 1) :: ·), (i + 1) :: (lastF k (ch i)).2)) = (some l, c) := hl
      rcases highest_spec (ch := ch) 256 with ⟨h1, _⟩ | ⟨i, h1, h2, _, h4, h5⟩
      · rw [h1] at hl'; cases hl'
      · rw [h1] at hl'
        injection hl' with hl1 hl2
        obtain ⟨l', hl3, rfl⟩ := Option.map_eq_some_iff.1 hl1
        rw [readAt_radix, Nat.add_sub_cancel] at hy
        have hiz : innerZero k i < 256 := by unfold innerZero; split <;> omega
        by_cases hk : k = 0
        · subst hk
          have hh : ∃ x ∈ ents 0 (ch (innerZero 0 i)), x.2 = y := by
            cases hc : ch (innerZero 0 i) with
            | none => rw [hc] at hy; cases hy
            | some z => rw [hc] at hy; injection hy with hy; exact ⟨(0, z), by simp [ents], hy⟩
          obtain ⟨x, hx, hxy⟩ := hh
          exact ⟨_, List.mem_flatMap.2 ⟨_, List.mem_range.2 hiz, mem_shift.2 ⟨x, hx, rfl⟩⟩, hxy⟩
        · rw [innerZero, if_neg hk] at hy
          obtain ⟨x, hx, hxy⟩ := ih (ch i) (hw.1 i h2) l' _ (Prod.ext hl3 rfl) y hy
          exact ⟨_, List.mem_flatMap.2 ⟨_, List.mem_range.2 h2, mem_shift.2 ⟨x, hx, rfl⟩⟩, hxy⟩

/-- A cell returned by `judy_prv` is empty or holds an entry with a smaller key. -/
theorem prv_sound : ∀ (k : Nat) (t : T V k), WF k t → ∀ v, v < 256 ^ k → (slotF k t v).1.isSome →
    ∀ l c, prvF k t (cur k t v) = some (some l, c) → ∀ y, readAt k t l = some y → ∃ x ∈ lo v (ents k t), x.2 = y := by
  intro k
  induction k with
  | zero => intro t _ v _ _ l c h; cases h
  | succ k ih =>
    intro t hw v hv hf l c hp y hy
    match t, hw, hf, hp, hy with
    | Node.nil, _, hf, _, _ => cases hf
    | Node.list ty sl, hw, hf, hp, hy =>
      have := prv_spec (k + 1) (fun _ => True) (Node.list ty sl : Node V (T V k)) hw trivial v hv hf (fun _ _ => trivial)
      rw [hp] at this
      cases hlast : (lo v (ents (k + 1) (Node.list ty sl : Node V (T V k)))).getLast? with
      | none => rw [hlast] at this; cases this
      | some x =>
        rw [hlast] at this
        injection this with this; injection this with this _; injection this with this
        have hx := mem_lo.1 (List.mem_of_getLast? hlast)
        have hm : mid x.1 (ents (k + 1) (Node.list ty sl : Node V (T V k))) = [(x.1, x.2)] := by
          rcases mid_cases (sorted_ents _ _ hw) x.1 with h | ⟨z, h⟩
          · have : x ∈ mid x.1 (ents (k + 1) (Node.list ty sl : Node V (T V k))) := mem_mid.2 ⟨hx.1, rfl⟩
            rw [h] at this; cases this
          · have : x ∈ mid x.1 (ents (k + 1) (Node.list ty sl : Node V (T V k))) := mem_mid.2 ⟨hx.1, rfl⟩
            rw [h, List.mem_singleton] at this
            rw [h]; rw [Prod.ext_iff] at this; rw [this.2]
        have := (slot_found (k + 1) _ hw x.1 (ents_lt _ _ hw x hx.1) x.2 hm).2
        refine ⟨x, List.mem_of_getLast? hlast, ?_⟩
        subst l
        have hy' : readAt (k + 1) (Node.list ty sl : Node V (T V k)) (cur (k + 1) (Node.list ty sl : Node V (T V k)) x.1) = some y := hy
        rw [this] at hy'
        injection hy'
    | Node.radix ch, hw, hf, hp, hy =>
      have hb : v / 256 ^ k % 256 < 256 := Nat.mod_lt _ (by decide)
      have hz : v % 256 ^ k < 256 ^ k := Nat.mod_lt _ (pow_pos k)
      have hcut := radix_cut3 hw.1 hb hz
      have hv2 := byte_rest hv
      generalize v / 256 ^ k % 256 = b at *
      generalize v % 256 ^ k = z at *
      subst hv2
      rw [slotF_radix hb hz, Option.isSome_map] at hf
      rw [cur_radix hb hz] at hp
      rw [hcut.1]
      have hp' : (match prvF k (ch (b + 1 - 1)) (cur k (ch b) z) with
        | some r => some (r.1.map ((b + 1) :: ·), (b + 1) :: r.2)
        | none => match highest (isNil k) ch (b + 1 - 1) with
          | none => none
          | some i => some ((lastF k (ch i)).1.map ((innerZero k i + 1) :: ·), (i + 1) :: (lastF k (ch i)).2)) = some (some l, c) := hp
      rw [Nat.add_sub_cancel] at hp'
      cases hr : prvF k (ch b) (cur k (ch b) z) with
      | some r =>
        rw [hr] at hp'
        injection hp' with hp'; injection hp' with hp1 hp2
        obtain ⟨l', hl3, rfl⟩ := Option.map_eq_some_iff.1 hp1
        rw [readAt_radix, Nat.add_sub_cancel] at hy
        obtain ⟨x, hx, hxy⟩ := ih (ch b) (hw.1 b hb) z hz hf l' r.2 (by rw [hr, ← hl3]) y hy
        exact ⟨_, List.mem_append_right _ (mem_shift.2 ⟨x, hx, rfl⟩), hxy⟩
      | none =>
        rw [hr] at hp'
        rcases highest_spec (ch := ch) b with ⟨h1, _⟩ | ⟨i, h1, h2, h3, h4, h5⟩
        · rw [h1] at hp'; cases hp'
        · rw [h1] at hp'
          injection hp' with hp'; injection hp' with hp1 hp2
          obtain ⟨l', hl3, rfl⟩ := Option.map_eq_some_iff.1 hp1
          rw [readAt_radix, Nat.add_sub_cancel] at hy
          have hiz : innerZero k i < b := by unfold innerZero; split <;> omega
          by_cases hk : k = 0
          · subst hk
            have hh : ∃ x ∈ ents 0 (ch (innerZero 0 i)), x.2 = y := by
              cases hc : ch (innerZero 0 i) with
              | none => rw [hc] at hy; cases hy
              | some z => rw [hc] at hy; injection hy with hy; exact ⟨(0, z), by simp [ents], hy⟩
            obtain ⟨x, hx, hxy⟩ := hh
            exact ⟨_, List.mem_append_left _ (List.mem_flatMap.2 ⟨_, List.mem_range.2 hiz, mem_shift.2 ⟨x, hx, rfl⟩⟩), hxy⟩
          · rw [innerZero, if_neg hk] at hy
            obtain ⟨x, hx, hxy⟩ := last_sound k (ch i) (hw.1 i h2) l' _ (Prod.ext hl3 rfl) y hy
            exact ⟨_, List.mem_append_left _ (List.mem_flatMap.2 ⟨_, List.mem_range.2 h3, mem_shift.2 ⟨x, hx, rfl⟩⟩), hxy⟩

end Umpire.Judy
