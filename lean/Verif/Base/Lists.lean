import Verif.Base.Prog
/-! Helper lemmas on lists and held ranges. -/
set_option autoImplicit false
set_option linter.unusedSimpArgs false
namespace Umpire

theorem Held.inj {O : Held} (hd : O.Disjoint) (hp : ∀ r ∈ O, 0 < r.2) {a b : Nat × Nat}
    (ha : a ∈ O) (hb : b ∈ O) (he : a.1 = b.1) : a = b := by
  induction O with
  | nil => cases ha
  | cons x xs ih =>
    unfold Held.Disjoint at hd ih
    rw [List.pairwise_cons] at hd
    have pa := hp a ha
    have pb := hp b hb
    rcases List.mem_cons.1 ha with ha' | ha' <;> rcases List.mem_cons.1 hb with hb' | hb'
    · rw [ha', hb']
    · have := hd.1 b hb'; subst ha'; unfold Disj at this; omega
    · have := hd.1 a ha'; subst hb'; unfold Disj at this; omega
    · exact ih hd.2 (fun r hr => hp r (List.mem_cons_of_mem _ hr)) ha' hb'

theorem drop_sub {p : Nat} {O : Held} : ∀ r ∈ drop p O, r ∈ O := by
  intro r hr; exact (List.mem_filter.1 hr).1

theorem mem_drop {p : Nat} {O : Held} {r : Nat × Nat} : r ∈ drop p O ↔ r ∈ O ∧ r.1 ≠ p := by
  simp [drop]

theorem Held.Disjoint.drop {O : Held} (h : O.Disjoint) (p : Nat) : Held.Disjoint (drop p O) :=
  List.Pairwise.filter _ h

theorem sum_map_filter_split {α : Type} (f : α → Nat) (p : α → Bool) (l : List α) :
    (l.map f).sum = ((l.filter p).map f).sum + ((l.filter (fun x => !p x)).map f).sum := by
  induction l with
  | nil => rfl
  | cons x xs ih =>
    simp only [List.filter_cons, List.map_cons, List.sum_cons]
    cases p x <;> simp [ih] <;> omega

theorem nodup_map_inj {α β : Type} {f : α → β} {l : List α} (h : (l.map f).Nodup) {a b : α}
    (ha : a ∈ l) (hb : b ∈ l) (he : f a = f b) : a = b := by
  induction l with
  | nil => cases ha
  | cons x xs ih =>
    simp only [List.map_cons, List.nodup_cons, List.mem_map, not_exists, not_and] at h
    rcases List.mem_cons.1 ha with ha' | ha' <;> rcases List.mem_cons.1 hb with hb' | hb'
    · rw [ha', hb']
    · subst ha'; exact absurd he.symm (h.1 b hb')
    · subst hb'; exact absurd he (h.1 a ha')
    · exact ih h.2 ha' hb'

/-- If a permutation removes the (unique) element with a given key on the left,
filtering by the key gives a permutation of the rest. -/
theorem perm_filter_key {α : Type} {l : List α} {x : α} {r : List α} (q : α → Bool)
    (h : l.Perm (x :: r)) (hx : q x = false) (hr : ∀ y ∈ r, q y = true) : (l.filter q).Perm r := by
  have h1 := h.filter q
  rw [List.filter_cons, hx] at h1
  have h2 : r.filter q = r := List.filter_eq_self.2 hr
  simpa [h2] using h1

theorem le_sum_of_mem {x : Nat} {l : List Nat} (h : x ∈ l) : x ≤ l.sum := by
  induction l with
  | nil => cases h
  | cons y ys ih =>
    simp only [List.sum_cons]
    rcases List.mem_cons.1 h with rfl | h
    · omega
    · have := ih h; omega

end Umpire
namespace Umpire

theorem pairwise_mem {α : Type} {R : α → α → Prop} {l : List α} (h : l.Pairwise R)
    (hs : ∀ x y, R x y → R y x) {a b : α} (ha : a ∈ l) (hb : b ∈ l) (hne : a ≠ b) : R a b := by
  induction l with
  | nil => cases ha
  | cons x xs ih =>
    rw [List.pairwise_cons] at h
    rcases List.mem_cons.1 ha with ha' | ha' <;> rcases List.mem_cons.1 hb with hb' | hb'
    · exact absurd (ha'.trans hb'.symm) hne
    · subst ha'; exact h.1 _ hb'
    · subst hb'; exact hs _ _ (h.1 _ ha')
    · exact ih h.2 ha' hb'

theorem exists_max_base {O : Held} (h : O ≠ []) : ∃ r ∈ O, ∀ q ∈ O, q.1 ≤ r.1 := by
  induction O with
  | nil => exact absurd rfl h
  | cons x xs ih =>
    by_cases hx : xs = []
    · exact ⟨x, by simp, by simp [hx]⟩
    · obtain ⟨r, hr, hm⟩ := ih hx
      by_cases hc : r.1 ≤ x.1
      · refine ⟨x, by simp, fun q hq => ?_⟩
        rcases List.mem_cons.1 hq with rfl | hq
        · exact Nat.le_refl _
        · exact Nat.le_trans (hm q hq) hc
      · refine ⟨r, by simp [hr], fun q hq => ?_⟩
        rcases List.mem_cons.1 hq with rfl | hq
        · omega
        · exact hm q hq

/-- Disjoint ranges below `hi` have total size at most `hi`. -/
theorem Held.sum_le {O : Held} {hi : Nat} (hd : O.Disjoint)
    (hr : ∀ r ∈ O, 0 < r.2 ∧ r.1 + r.2 ≤ hi) : (O.map (·.2)).sum ≤ hi := by
  generalize hn : O.length = n
  induction n generalizing O hi with
  | zero => have : O = [] := List.length_eq_zero_iff.1 hn
            subst this; simp
  | succ n ih =>
    have hne : O ≠ [] := by rintro rfl; simp at hn
    obtain ⟨r, hrm, hmax⟩ := exists_max_base hne
    obtain ⟨l1, l2, hl⟩ := List.append_of_mem hrm
    have hp : O.Perm (r :: (l1 ++ l2)) := by rw [hl]; exact List.perm_middle
    have hd' : Held.Disjoint (r :: (l1 ++ l2)) := List.Pairwise.perm hd hp (fun h => Disj.symm h)
    unfold Held.Disjoint at hd'
    rw [List.pairwise_cons] at hd'
    have hsum := (hp.map (·.2)).sum_nat
    rw [hsum]
    have hlen : (l1 ++ l2).length = n := by
      have := hp.length_eq
      simp only [List.length_cons] at this
      omega
    have := ih (O := l1 ++ l2) (hi := r.1) hd'.2 (by
      intro q hq
      have hqO : q ∈ O := hp.mem_iff.2 (List.mem_cons_of_mem _ hq)
      have h1 := hr q hqO
      have h2 := hmax q hqO
      have h3 := hd'.1 q hq
      have h4 := hr r hrm
      unfold Disj at h3
      exact ⟨h1.1, by omega⟩) hlen
    have h4 := hr r hrm
    simp only [List.map_cons, List.sum_cons]
    omega

theorem filter_range_add {n i : Nat} (hi : i < n) {f g : Nat → Bool} (hf : f i = false) (hg : g i = true)
    (h : ∀ j, j ≠ i → g j = f j) : ((List.range n).filter g).Perm (i :: (List.range n).filter f) := by
  rw [List.perm_ext_iff_of_nodup (List.nodup_range.filter _)]
  · intro j
    simp only [List.mem_filter, List.mem_range, List.mem_cons]
    by_cases hj : j = i
    · subst hj; simp [hi, hg]
    · simp [hj, h j hj]
  · rw [List.nodup_cons]
    refine ⟨?_, List.nodup_range.filter _⟩
    simp [hf]

theorem perm_mid {α : Type} {a b x y : List α} {e : α} (h : y.Perm (e :: x)) :
    (a ++ (y ++ b)).Perm (e :: (a ++ (x ++ b))) := by
  refine ((h.append_right b).append_left a).trans ?_
  exact List.perm_middle

end Umpire
