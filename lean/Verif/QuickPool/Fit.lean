import Verif.QuickPool.Peak
/-! # Best fit and the effect of `release` on the held blocks (helper lemmas) -/
set_option autoImplicit false
set_option linter.unusedSimpArgs false
namespace Umpire.QuickPool
open Umpire Umpire.Prog

theorem lowerBound_none {n : Nat} {m : List (Nat × Nat)} (h : lowerBound n m = none) : ∀ x ∈ m, x.1 < n := by
  intro x hx
  have := List.find?_eq_none.1 h x hx
  simpa using this

theorem lowerBound_min {n : Nat} {m : List (Nat × Nat)} (hs : m.Pairwise fun x y => x.1 ≤ y.1) {e : Nat × Nat}
    (h : lowerBound n m = some e) : ∀ x ∈ m, n ≤ x.1 → e.1 ≤ x.1 := by
  induction m with
  | nil => intro x hx; cases hx
  | cons y ys ih =>
    rw [List.pairwise_cons] at hs
    unfold lowerBound at h
    rw [List.find?_cons] at h
    split at h
    · injection h with h; subst h
      intro x hx _
      rcases List.mem_cons.1 hx with rfl | hx
      · exact Nat.le_refl _
      · exact hs.1 x hx
    · rename_i hy
      intro x hx hn
      rcases List.mem_cons.1 hx with rfl | hx
      · simp at hy; omega
      · exact ih hs.2 h x hx hn

theorem Inv.held_keys {a : Nat} {s : State} {O L : Held} (h : Inv a s O L) : (O.map (·.1)).Nodup := by
  rw [List.Nodup, List.pairwise_map]
  refine List.Pairwise.imp_of_mem ?_ h.disj
  intro x y hx hy hd
  have := (h.range x hx).2.1
  have := (h.range y hy).2.1
  unfold Disj at hd
  omega

theorem mem_freeBlocks {O L : Held} {o : Nat × Nat} :
    o ∈ freeBlocks O L ↔ o ∈ O ∧ ∀ l ∈ L, Disj l.1 l.2 o.1 o.2 := by
  unfold freeBlocks
  simp [List.mem_filter, List.all_eq_true]

/-- After `release` exactly the blocks with live allocations are left. -/
theorem released_held {a : Nat} (ha : 0 < a) {s s' : State} {O O' L : Held} (h : Inv a s' O' L)
    (hr : ReleasedAll s s') (hs : O'.Sublist O)
    (hk : ∀ r ∈ O, r ∈ O' ∨ ∀ l ∈ L, Disj l.1 l.2 r.1 r.2) (o : Nat × Nat) :
    o ∈ O' ↔ o ∈ O ∧ ∃ l ∈ L, ¬ Disj l.1 l.2 o.1 o.2 := by
  have hf := release_free ha h hr
  constructor
  · intro ho
    refine ⟨hs.subset ho, ?_⟩
    apply Classical.byContradiction
    intro hne
    have : o ∈ freeBlocks O' L := mem_freeBlocks.2 ⟨ho, fun l hl => Classical.byContradiction fun hd => hne ⟨l, hl, hd⟩⟩
    rw [hf] at this
    cases this
  · rintro ⟨ho, l, hl, hd⟩
    rcases hk o ho with h1 | h1
    · exact h1
    · exact absurd (h1 l hl) hd

theorem drop_perm {O : Held} (hn : (O.map (·.1)).Nodup) {p n : Nat} (h : (p, n) ∈ O) :
    ((p, n) :: drop p O).Perm O := by
  obtain ⟨l1, l2, rfl⟩ := List.append_of_mem h
  have : drop p (l1 ++ (p, n) :: l2) = l1 ++ l2 := by
    unfold drop
    simp only [List.map_append, List.map_cons, List.nodup_append, List.nodup_cons, List.mem_map, List.mem_cons] at hn
    rw [List.filter_append, List.filter_cons, List.filter_eq_self.2, List.filter_eq_self.2]
    · simp
    · intro x hx
      simp only [ne_eq, decide_not, Bool.not_eq_eq_eq_not, Bool.not_true, decide_eq_false_iff_not]
      intro hxc; exact hn.2.1.1 ⟨x, hx, hxc⟩
    · intro x hx
      simp only [ne_eq, decide_not, Bool.not_eq_eq_eq_not, Bool.not_true, decide_eq_false_iff_not]
      intro hxc; exact hn.2.2 x.1 ⟨x, hx, rfl⟩ x.1 (Or.inl hxc) rfl
  rw [this]; exact List.perm_middle.symm

/-- A computation without requests hands back what it no longer holds. -/
theorem frees_perm {α : Type} {E : Mode} {p : Prog α} {O : Held} {t : List Ev} {x : α} {O' : Held}
    {Q : α → Held → Prop} (h : RunT p O t x O') (hw : p.wp E O Q) (hn : (O.map (·.1)).Nodup)
    (hf : ∀ e ∈ t, ∃ q m, e = .freed q m) :
    ∃ fr : Held, t = fr.map (fun r => Ev.freed r.1 r.2) ∧ (fr ++ O').Perm O := by
  induction h with
  | ret => exact ⟨[], rfl, .refl _⟩
  | allocOk _ _ _ => obtain ⟨q, m, he⟩ := hf _ List.mem_cons_self; cases he
  | allocFail _ _ => obtain ⟨q, m, he⟩ := hf _ List.mem_cons_self; cases he
  | @dealloc q m k O t a O' _ ih =>
    obtain ⟨fr, rfl, hp⟩ := ih hw.2 ((List.filter_sublist.map _).nodup hn) (fun e he => hf e (by simp [he]))
    exact ⟨(q, m) :: fr, rfl, (List.Perm.cons _ hp).trans (drop_perm hn hw.1.1)⟩

theorem releaseLoop_only_frees {es : List (Nat × Nat)} {s s' : State} {O O' : Held} {t : List Ev}
    (h : RunT (releaseLoop es s) O t s' O') : ∀ e ∈ t, ∃ q m, e = .freed q m := by
  induction es generalizing s O t with
  | nil => cases h; simp
  | cons e es ih =>
    unfold releaseLoop at h
    split at h
    · cases h
    · split at h
      · simp only [alignedDealloc] at h
        split at h
        · cases h
        · cases h with
          | dealloc h =>
            have := ih h
            intro e he
            rcases List.mem_cons.1 he with rfl | he
            · exact ⟨_, _, rfl⟩
            · exact this e he
      · exact ih h

theorem perm_of_release {α : Type} [DecidableEq α] {l fr o : List α} {P : α → Bool} (hn : l.Nodup) (hp : (fr ++ o).Perm l)
    (ho : ∀ x, x ∈ o ↔ x ∈ l ∧ P x = false) : fr.Perm (l.filter P) := by
  have hn' := hp.nodup_iff.2 hn
  rw [List.perm_ext_iff_of_nodup (List.nodup_append.1 hn').1 (hn.filter _)]
  intro x
  rw [List.mem_filter]
  constructor
  · intro hx
    have hl := hp.mem_iff.1 (List.mem_append_left _ hx)
    refine ⟨hl, ?_⟩
    cases hP : P x with
    | true => rfl
    | false => exact absurd rfl ((List.nodup_append.1 hn').2.2 x hx x ((ho x).2 ⟨hl, hP⟩))
  · rintro ⟨hl, hP⟩
    rcases List.mem_append.1 (hp.mem_iff.2 hl) with h | h
    · exact h
    · have := ((ho x).1 h).2
      rw [hP] at this
      simp at this

end Umpire.QuickPool
