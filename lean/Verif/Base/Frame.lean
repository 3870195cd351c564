import Verif.Base.Prog
import Verif.Base.Lists
/-!
# Sharing a parent

Several strategies can have the same parent.  What was proved for a strategy that
holds `O` remains true when others hold `R`, as long as it hands back only
non-empty ranges.
-/
set_option autoImplicit false
set_option linter.unusedSimpArgs false
namespace Umpire
namespace Prog

/-- `E`, and also ranges overlapping `R` are not handed back. -/
def Mode.avoid (E : Mode) (R : Held) : Mode := ⟨E.bad, fun q m => E.free q m ∧ ∀ r ∈ R, Disj r.1 r.2 q m⟩

theorem wp_frame {α : Type} {E : Mode} (hE : ∀ q m, E.free q m → 0 < m) {p : Prog α} {O R T : Held} {Q : α → Held → Prop}
    (h : p.wp E O Q) (hT : T.Perm (O ++ R)) (hd : T.Disjoint) (hR : ∀ r ∈ R, 0 < r.2) :
    p.wp (E.avoid R) T fun a T' => ∃ O', T'.Perm (O' ++ R) ∧ T'.Disjoint ∧ Q a O' := by
  induction p generalizing O T with
  | ret a => exact ⟨O, hT, hd, h⟩
  | fail b => exact h
  | alloc n k ih =>
    refine ⟨fun q hq => ?_, ih _ h.2 hT hd⟩
    have hf : Fresh q n O := ⟨hq.1, hq.2.1, fun r hr => hq.2.2 r (hT.mem_iff.2 (List.mem_append_left _ hr))⟩
    exact ih _ (h.1 q hf) (hT.cons _) (List.pairwise_cons.2 ⟨hq.2.2, hd⟩)
  | dealloc q m k ih =>
    obtain ⟨⟨h1, h2⟩, h3⟩ := h
    have hm := hE _ _ h2
    have hdp : (O ++ R).Pairwise fun a b => Disj a.1 a.2 b.1 b.2 := List.Pairwise.perm hd hT fun h => h.symm
    have hav : ∀ r ∈ R, Disj r.1 r.2 q m := fun r hr => ((List.pairwise_append.1 hdp).2.2 _ h1 r hr).symm
    have hne : ∀ r ∈ R, r.1 ≠ q := by
      intro r hr he
      have h4 := hR r hr
      have h5 := hav r hr
      unfold Disj at h5
      omega
    refine ⟨⟨hT.mem_iff.2 (List.mem_append_left _ h1), h2, hav⟩, ?_⟩
    refine ih h3 ?_ (hd.drop q)
    unfold drop
    refine (hT.filter _).trans ?_
    rw [List.filter_append]
    have : R.filter (fun r => decide (r.1 ≠ q)) = R := List.filter_eq_self.2 fun r hr => by simpa using hne r hr
    rw [this]

end Prog

/-- A strategy as seen by others sharing its parent: what it holds, and the
allocations of its users. -/
structure Client where
  O : Held
  U : Held

/-- A client in a proper state. -/
structure Client.Good (c : Client) : Prop where
  pos : ∀ o ∈ c.O, 0 < o.2
  upos : ∀ u ∈ c.U, 0 < u.2
  disj : c.U.Pairwise fun x y => Disj x.1 x.2 y.1 y.2
  cov : ∀ u ∈ c.U, ∃ o ∈ c.O, Within u.1 u.2 o.1 o.2

/-- The allocations of the users of all clients together. -/
theorem clients_disjoint {D : List Client} (hg : ∀ d ∈ D, d.Good) (hd : Held.Disjoint (D.flatMap (·.O))) :
    ((D.flatMap (·.U)).Pairwise fun x y => Disj x.1 x.2 y.1 y.2) ∧
    ∀ u ∈ D.flatMap (·.U), 0 < u.2 ∧ ∃ o ∈ D.flatMap (·.O), Within u.1 u.2 o.1 o.2 := by
  induction D with
  | nil => exact ⟨List.Pairwise.nil, by simp⟩
  | cons d D ih =>
    have hd' : ((d.O ++ D.flatMap (·.O)).Pairwise fun a b : Nat × Nat => Disj a.1 a.2 b.1 b.2) := by
      have h := hd
      rw [List.flatMap_cons] at h
      exact h
    rw [List.pairwise_append] at hd'
    obtain ⟨h1, h2⟩ := ih (fun x hx => hg x (by simp [hx])) hd'.2.1
    have g := hg d (by simp)
    simp only [List.flatMap_cons]
    refine ⟨List.pairwise_append.2 ⟨g.disj, h1, ?_⟩, ?_⟩
    · intro x hx y hy
      obtain ⟨o, ho, hw⟩ := g.cov x hx
      obtain ⟨-, o', ho', hw'⟩ := h2 y hy
      exact Disj.of_within (hd'.2.2 o ho o' ho') hw hw'
    · intro u hu
      rcases List.mem_append.1 hu with hu | hu
      · obtain ⟨o, ho, hw⟩ := g.cov u hu
        exact ⟨g.upos u hu, o, List.mem_append_left _ ho, hw⟩
      · obtain ⟨h3, o, ho, hw⟩ := h2 u hu
        exact ⟨h3, o, List.mem_append_right _ ho, hw⟩

theorem flatMap_mid {α β : Type} (f : α → List β) (A B : List α) (d : α) :
    ((A ++ d :: B).flatMap f).Perm (f d ++ (A ++ B).flatMap f) := by
  rw [List.flatMap_append, List.flatMap_cons, List.flatMap_append, ← List.append_assoc, ← List.append_assoc]
  exact List.perm_append_comm.append_right _

/-- One client works while the others do nothing.  `U'` are those of its users'
allocations that it must not touch. -/
theorem wp_client {α : Type} {E : Prog.Mode} {p : Prog α} {A B : List Client} {d : Client} {T U' : Held} {Q : α → Held → Prop}
    (hg : ∀ x ∈ A ++ B, x.Good) (hT : T.Perm ((A ++ d :: B).flatMap (·.O))) (hd : T.Disjoint) (hw : p.wp E d.O Q)
    (hE : ∀ q m, E.free q m → 0 < m ∧ ∀ u ∈ U', Disj u.1 u.2 q m) :
    p.wp ⟨E.bad, fun q m => 0 < m ∧ ∀ l ∈ (A ++ (⟨d.O, U'⟩ : Client) :: B).flatMap (·.U), Disj l.1 l.2 q m⟩ T fun a T' =>
      ∃ O', T'.Perm ((A ++ (⟨O', U'⟩ : Client) :: B).flatMap (·.O)) ∧ T'.Disjoint ∧ Q a O' := by
  have hT1 : T.Perm (d.O ++ (A ++ B).flatMap (·.O)) := hT.trans (flatMap_mid _ A B d)
  have hR : ∀ r ∈ (A ++ B).flatMap (·.O), 0 < r.2 := by
    intro r hr
    obtain ⟨x, hx, hr⟩ := List.mem_flatMap.1 hr
    exact (hg x hx).pos r hr
  have hf := Prog.wp_frame (fun q m h => (hE q m h).1) hw hT1 hd hR
  refine Prog.wp_mono (Prog.wp_weaken hf (fun _ h => h) ?_) ?_
  · rintro q m ⟨h1, h2⟩
    obtain ⟨h3, h4⟩ := hE q m h1
    refine ⟨h3, fun l hl => ?_⟩
    rcases List.mem_append.1 ((flatMap_mid _ A B _).mem_iff.1 hl) with hl | hl
    · exact h4 l hl
    · obtain ⟨x, hx, hl⟩ := List.mem_flatMap.1 hl
      obtain ⟨o, ho, hw⟩ := (hg x hx).cov l hl
      have := h2 o (List.mem_flatMap.2 ⟨x, hx, ho⟩)
      unfold Disj Within at *
      omega
  · rintro a T' ⟨O', h1, h2, h3⟩
    exact ⟨O', h1.trans (flatMap_mid (β := Nat × Nat) (·.O) A B (⟨O', U'⟩ : Client)).symm, h2, h3⟩

end Umpire
