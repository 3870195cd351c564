import Verif.Nest.End
/-!
# The order in which strategies are created and destroyed
-/
set_option autoImplicit false
set_option linter.unusedSimpArgs false
namespace Umpire.Nest
open Umpire.Prog

/-- The place of the strategy a command constructs. -/
def Arr.makes : (a : Arr) → a.sys.Cmd → Option a.Spot
  | .none, c => nomatch c
  | .node _ _ kids, c =>
    match (c : NodeCmd _ _) with
    | .make => .some (Option.none : Option kids.Spot)
    | .down c => (kids.makes c).map fun d => (some d : Option kids.Spot)
    | .alloc _ => Option.none
    | .dealloc _ => Option.none
    | .op _ => Option.none
  | .par a b, c =>
    match (c : a.sys.Cmd ⊕ b.sys.Cmd) with
    | .inl c => (a.makes c).map fun d => (.inl d : a.Spot ⊕ b.Spot)
    | .inr c => (b.makes c).map fun d => (.inr d : a.Spot ⊕ b.Spot)

/-- The second place is above the first: the strategy there is the parent, or a parent
of a parent. -/
def Arr.under : (a : Arr) → a.Spot → a.Spot → Prop
  | .none, c, _ => nomatch c
  | .node _ _ kids, c, d =>
    match (c : Option kids.Spot), (d : Option kids.Spot) with
    | .some _, Option.none => True
    | .some c, .some d => kids.under c d
    | Option.none, _ => False
  | .par a b, c, d =>
    match (c : a.Spot ⊕ b.Spot), (d : a.Spot ⊕ b.Spot) with
    | .inl c, .inl d => a.under c d
    | .inr c, .inr d => b.under c d
    | _, _ => False

/-- Whatever exists has its parent. -/
def Arr.closed (a : Arr) (t : a.sys.σ) : Prop := ∀ c d, a.under c d → a.alive c t = true → a.alive d t = true

theorem Arr.closed_node {k : Kind} {cap : Nat} {kids : Arr} {own : Option k.strat.σ} {user : Held} {ks : kids.sys.σ} :
    (Arr.node k cap kids).closed ⟨own, user, ks⟩ ↔ (own = Option.none → kids.gone ks) ∧ kids.closed ks := by
  constructor
  · intro h
    refine ⟨fun ho c => ?_, fun c d hcd hc => h (some c) (some d) hcd hc⟩
    have h1 := h (some c) Option.none trivial
    subst ho
    apply Bool.eq_false_iff.2
    intro hc
    exact absurd (h1 hc) (by simp [Arr.alive])
  · rintro ⟨h1, h2⟩ c d hcd hc
    cases c with
    | none => exact hcd.elim
    | some c =>
      cases d with
      | none =>
        show own.isSome = true
        cases own with
        | some s => rfl
        | none =>
          have := h1 rfl c
          rw [show kids.alive c ks = true from hc] at this
          cases this
      | some d => exact h2 c d hcd hc

theorem Arr.closed_par {a b : Arr} {x : a.sys.σ} {y : b.sys.σ} :
    (Arr.par a b).closed (x, y) ↔ a.closed x ∧ b.closed y := by
  constructor
  · intro h
    exact ⟨fun c d hcd hc => h (.inl c) (.inl d) hcd hc, fun c d hcd hc => h (.inr c) (.inr d) hcd hc⟩
  · rintro ⟨h1, h2⟩ c d hcd hc
    cases c with
    | inl c => cases d with
      | inl d => exact h1 c d hcd hc
      | inr d => exact hcd.elim
    | inr c => cases d with
      | inl d => exact hcd.elim
      | inr d => exact h2 c d hcd hc

theorem Arr.init_gone (a : Arr) : a.gone a.sys.init := by
  induction a with
  | none => intro c; cases c
  | node k cap kids ih =>
    intro c
    cases c with
    | none => rfl
    | some c => exact ih c
  | par a b iha ihb =>
    intro c
    cases c with
    | inl c => exact iha c
    | inr c => exact ihb c

/-- A command constructs only what does not exist. -/
theorem Arr.makes_new (a : Arr) {c : a.sys.Cmd} {t : a.sys.σ} (hc : a.sys.can c t) {d : a.Spot} (hm : a.makes c = some d) :
    a.alive d t = false := by
  induction a with
  | none => cases c
  | node k cap kids ih =>
    obtain ⟨own, user, ks⟩ := t
    cases c with
    | make =>
      injection hm with hm
      subst hm
      cases own with
      | none => rfl
      | some s => exact absurd hc (by simp [Arr.sys, Sys.node])
    | down c =>
      obtain ⟨e, he, rfl⟩ := Option.map_eq_some_iff.1 hm
      exact ih hc.2 he
    | alloc n => cases hm
    | dealloc p => cases hm
    | op o => cases hm
  | par a b iha ihb =>
    obtain ⟨x, y⟩ := t
    cases c with
    | inl c =>
      obtain ⟨e, he, rfl⟩ := Option.map_eq_some_iff.1 hm
      exact iha hc he
    | inr c =>
      obtain ⟨e, he, rfl⟩ := Option.map_eq_some_iff.1 hm
      exact ihb hc he

/-- What exists afterwards. -/
def Arr.Grow (a : Arr) (c : a.sys.Cmd) (t t' : a.sys.σ) : Prop :=
  a.closed t' ∧ (∀ d, a.alive d t' = true → a.alive d t = true ∨ a.makes c = some d) ∧ ∀ d, a.alive d t = true → a.alive d t' = true

theorem Arr.grows (a : Arr) {c : a.sys.Cmd} {t : a.sys.σ} (hc : a.sys.can c t) (ht : a.closed t) :
    rets (fun r => a.Grow c t r.2) (a.sys.run c t) := by
  induction a with
  | none => cases c
  | node k cap kids ih =>
    obtain ⟨own, user, ks⟩ := t
    have ht' := Arr.closed_node.1 ht
    -- nothing changes but the state of the strategy itself
    have same : ∀ (s s' : k.strat.σ) (u' : Held) (c : (Arr.node k cap kids).sys.Cmd),
        (Arr.node k cap kids).closed ⟨some s, user, ks⟩ →
        (Arr.node k cap kids).Grow c ⟨some s, user, ks⟩ ⟨some s', u', ks⟩ := by
      intro s s' u' c ht
      refine ⟨Arr.closed_node.2 ⟨fun h => (by cases h), (Arr.closed_node.1 ht).2⟩, fun d hd => .inl ?_, fun d hd => ?_⟩
      · cases d with
        | none => rfl
        | some d => exact hd
      · cases d with
        | none => rfl
        | some d => exact hd
    cases own with
    | none =>
      cases c with
      | make =>
        refine rets_bind (rets_true _) fun r _ => ?_
        refine ⟨?_, fun d hd => ?_, fun d hd => ?_⟩
        · exact Arr.closed_node.2 ⟨fun _ => ht'.1 rfl, ht'.2⟩
        · cases d with
          | none => exact .inr rfl
          | some d => exact .inl hd
        · cases d with
          | none => cases hd
          | some d => exact hd
      | dealloc q => exact absurd hc.1 (by simp)
      | down c => exact absurd hc.1 (by simp)
      | alloc n => exact absurd hc.1 (by simp)
      | op o => exact absurd hc (by simp [Arr.sys, Sys.node])
    | some s =>
      cases c with
      | make => exact absurd hc (by simp [Arr.sys, Sys.node])
      | alloc n => exact rets_bind (rets_true _) fun r _ => same s r.2 _ _ ht
      | op o => exact rets_bind (rets_true _) fun r _ => same s r _ _ ht
      | dealloc q =>
        show rets _ (match user.find? (fun u => u.1 = q) with
          | .none => .fail .ub
          | .some u => _)
        split
        · trivial
        · exact rets_bind (rets_true _) fun r _ => same s r.2 _ _ ht
      | down c =>
        refine rets_bind (rets_through (ih hc.2 ht'.2)) fun r hr => ?_
        obtain ⟨h1, h2, h3⟩ := hr
        refine ⟨Arr.closed_node.2 ⟨fun h => (by cases h), h1⟩, fun d hd => ?_, fun d hd => ?_⟩
        · cases d with
          | none => exact .inl rfl
          | some d =>
            rcases h2 d hd with h | h
            · exact .inl h
            · exact .inr (Option.map_eq_some_iff.2 ⟨d, h, rfl⟩)
        · cases d with
          | none => rfl
          | some d => exact h3 d hd
  | par a b iha ihb =>
    obtain ⟨x, y⟩ := t
    have ht' := Arr.closed_par.1 ht
    cases c with
    | inl c =>
      refine rets_bind (iha hc ht'.1) fun r hr => ?_
      obtain ⟨h1, h2, h3⟩ := hr
      refine ⟨Arr.closed_par.2 ⟨h1, ht'.2⟩, fun d hd => ?_, fun d hd => ?_⟩
      · cases d with
        | inl d => exact (h2 d hd).imp id fun h => Option.map_eq_some_iff.2 ⟨d, h, rfl⟩
        | inr d => exact .inl hd
      · cases d with
        | inl d => exact h3 d hd
        | inr d => exact hd
    | inr c =>
      refine rets_bind (ihb hc ht'.2) fun r hr => ?_
      obtain ⟨h1, h2, h3⟩ := hr
      refine ⟨Arr.closed_par.2 ⟨ht'.1, h1⟩, fun d hd => ?_, fun d hd => ?_⟩
      · cases d with
        | inl d => exact .inl hd
        | inr d => exact (h2 d hd).imp id fun h => Option.map_eq_some_iff.2 ⟨d, h, rfl⟩
      · cases d with
        | inl d => exact hd
        | inr d => exact h3 d hd

theorem Arr.under_irrefl (a : Arr) (c : a.Spot) : ¬ a.under c c := by
  induction a with
  | none => cases c
  | node k cap kids ih =>
    cases c with
    | none => exact id
    | some c => exact ih c
  | par a b iha ihb =>
    cases c with
    | inl c => exact iha c
    | inr c => exact ihb c

/-- A strategy without anything above it can be destroyed. -/
theorem Arr.ready_of (a : Arr) {c : a.Spot} {t : a.sys.σ} (ht : a.closed t) (hc : a.alive c t = true)
    (hu : ∀ d, a.under d c → a.alive d t = false) : a.ready c t := by
  induction a with
  | none => cases c
  | node k cap kids ih =>
    obtain ⟨own, user, ks⟩ := t
    cases c with
    | none => exact ⟨hc, fun d => hu (some d) trivial⟩
    | some c => exact ⟨ht (some c) Option.none trivial hc, ih (Arr.closed_node.1 ht).2 hc fun d hd => hu (some d) hd⟩
  | par a b iha ihb =>
    obtain ⟨x, y⟩ := t
    cases c with
    | inl c => exact iha (Arr.closed_par.1 ht).1 hc fun d hd => hu (.inl d) hd
    | inr c => exact ihb (Arr.closed_par.1 ht).2 hc fun d hd => hu (.inr d) hd

/-- Exactly one strategy stops existing. -/
theorem Arr.kills (a : Arr) {c : a.Spot} {t : a.sys.σ} (hr : a.ready c t) (ht : a.closed t) :
    rets (fun t' => a.closed t' ∧ ∀ d, a.alive d t' = true ↔ a.alive d t = true ∧ d ≠ c) (a.kill c t) := by
  induction a with
  | none => cases c
  | node k cap kids ih =>
    obtain ⟨own, user, ks⟩ := t
    have ht' := Arr.closed_node.1 ht
    cases own with
    | none => exact absurd hr.1 (by simp)
    | some s =>
      cases c with
      | none =>
        refine rets_bind (rets_true _) fun r _ => ?_
        refine ⟨Arr.closed_node.2 ⟨fun _ => hr.2, ht'.2⟩, fun d => ?_⟩
        cases d with
        | none =>
          refine ⟨fun h => ?_, fun h => absurd rfl h.2⟩
          cases h
        | some d => exact ⟨fun h => ⟨h, fun he => by cases he⟩, fun h => h.1⟩
      | some c =>
        refine rets_bind (rets_through (ih hr.2 ht'.2)) fun r h => ?_
        refine ⟨Arr.closed_node.2 ⟨fun h' => (by cases h'), h.1⟩, fun d => ?_⟩
        cases d with
        | none => exact ⟨fun h => ⟨rfl, fun he => by cases he⟩, fun h => rfl⟩
        | some d =>
          refine (h.2 d).trans (and_congr Iff.rfl (not_congr ?_))
          exact ⟨fun he => by rw [he], fun he => by injection he⟩
  | par a b iha ihb =>
    obtain ⟨x, y⟩ := t
    have ht' := Arr.closed_par.1 ht
    cases c with
    | inl c =>
      refine rets_bind (iha hr ht'.1) fun r h => ?_
      refine ⟨Arr.closed_par.2 ⟨h.1, ht'.2⟩, fun d => ?_⟩
      cases d with
      | inl d =>
        refine (h.2 d).trans (and_congr Iff.rfl (not_congr ?_))
        exact ⟨fun he => by rw [he], fun he => by injection he⟩
      | inr d => exact ⟨fun h => ⟨h, fun he => by cases he⟩, fun h => h.1⟩
    | inr c =>
      refine rets_bind (ihb hr ht'.2) fun r h => ?_
      refine ⟨Arr.closed_par.2 ⟨ht'.1, h.1⟩, fun d => ?_⟩
      cases d with
      | inl d => exact ⟨fun h => ⟨h, fun he => by cases he⟩, fun h => h.1⟩
      | inr d =>
        refine (h.2 d).trans (and_congr Iff.rfl (not_congr ?_))
        exact ⟨fun he => by rw [he], fun he => by injection he⟩

/-! ## All resources -/

/-- A strategy: a resource and a place in what is built on it. -/
abbrev Strategies (arr : Nat → Arr) := List (Σ r, (arr r).Spot)

/-- `m_allocators.emplace_front` (ResourceManager.inl:52) after a successful
construction. -/
def logMade (arr : Nat → Arr) (r : Nat) (c : (arr r).sys.Cmd) (t : (arr r).sys.σ) (M : Strategies arr) : Strategies arr :=
  match (arr r).makes c with
  | some d => if (arr r).alive d t then ⟨r, d⟩ :: M else M
  | none => M

/-- Executions with the ledger `L` and the list `m_allocators`. -/
inductive ExecC (arr : Nat → Arr) : (∀ r, (arr r).sys.σ) → (Nat → Held) → (Nat → Held) → Strategies arr → Prop where
  | init : ExecC arr (fun r => (arr r).sys.init) (fun _ => []) (fun _ => []) []
  | step {f H L M r c x t H'} : ExecC arr f H L M → (arr r).sys.can c (f r) → SRun r ((arr r).sys.run c (f r)) H (x, t) H' →
      ExecC arr (upd (T := fun r => (arr r).sys) f r t) H' (put L r (((arr r).req c).after x (L r))) (logMade arr r c t M)

theorem ExecC.exec {arr : Nat → Arr} {f : ∀ r, (arr r).sys.σ} {H L : Nat → Held} {M : Strategies arr} (h : ExecC arr f H L M) :
    Exec arr f H L := by
  induction h with
  | init => exact .init
  | step _ hc hr ih => exact .step ih hc hr

/-- The loop of `~ResourceManager` (ResourceManager.cpp:79-90): destroy the strategies
of the list, front to back. -/
inductive Ends (arr : Nat → Arr) :
    Strategies arr → (∀ r, (arr r).sys.σ) → (Nat → Held) → (∀ r, (arr r).sys.σ) → (Nat → Held) → Prop where
  | nil {f H} : Ends arr [] f H f H
  | snoc {M f H f' H' r c t H''} : Ends arr M f H f' H' → SRun r ((arr r).kill c (f' r)) H' t H'' →
      Ends arr (M ++ [⟨r, c⟩]) f H (upd (T := fun r => (arr r).sys) f' r t) H''

/-- `y` is not above `x`. -/
def NotUnder {arr : Nat → Arr} (x y : Σ r, (arr r).Spot) : Prop := ∀ h : y.1 = x.1, ¬ (arr x.1).under (h ▸ y.2) x.2

/-- The list `M` and the strategies that exist. -/
structure Listed (arr : Nat → Arr) (f : ∀ r, (arr r).sys.σ) (M : Strategies arr) : Prop where
  closed : ∀ r, (arr r).closed (f r)
  mem : ∀ r d, (arr r).alive d (f r) = true ↔ (⟨r, d⟩ : Σ r, (arr r).Spot) ∈ M
  nodup : M.Nodup
  order : M.Pairwise NotUnder

theorem ExecC.listed {arr : Nat → Arr} {f : ∀ r, (arr r).sys.σ} {H L : Nat → Held} {M : Strategies arr} (h : ExecC arr f H L M) :
    Listed arr f M := by
  induction h with
  | init =>
    refine ⟨fun r c d _ hc => ?_, fun r d => ?_, List.nodup_nil, List.Pairwise.nil⟩
    · rw [(arr r).init_gone c] at hc; cases hc
    · rw [(arr r).init_gone d]; simp
  | @step f H L M r c x t H' _ hc hr ih =>
    have hg : (arr r).Grow c (f r) t := rets_run (R := fun r_1 => (arr r).Grow c (f r) r_1.2) ((arr r).grows hc (ih.closed r)) hr
    have hM : ∀ y, y ∈ logMade arr r c t M ↔ y ∈ M ∨ ∃ d, (arr r).makes c = some d ∧ (arr r).alive d t = true ∧ y = ⟨r, d⟩ := by
      intro y
      unfold logMade
      split
      · rename_i d hd
        by_cases ha : (arr r).alive d t = true
        · rw [if_pos ha]
          simp only [List.mem_cons]
          constructor
          · rintro (h | h)
            · exact .inr ⟨d, hd, ha, h⟩
            · exact .inl h
          · rintro (h | ⟨e, he, -, rfl⟩)
            · exact .inr h
            · rw [hd] at he
              injection he with he
              subst he
              exact .inl rfl
        · rw [if_neg ha]
          refine ⟨.inl, ?_⟩
          rintro (h | ⟨e, he, h, -⟩)
          · exact h
          · rw [hd] at he
            injection he with he
            subst he
            exact absurd h ha
      · rename_i hd
        refine ⟨.inl, ?_⟩
        rintro (h | ⟨e, he, -⟩)
        · exact h
        · rw [hd] at he
          cases he
    refine ⟨fun k => ?_, fun k d => ?_, ?_, ?_⟩
    · by_cases hk : k = r
      · subst hk
        rw [upd_same (T := fun r => (arr r).sys)]
        exact hg.1
      · rw [upd_ne (T := fun r => (arr r).sys) hk]
        exact ih.closed k
    · rw [hM]
      by_cases hk : k = r
      · subst hk
        rw [upd_same (T := fun r => (arr r).sys), ← ih.mem k d]
        constructor
        · intro h
          rcases hg.2.1 d h with h1 | h1
          · exact .inl h1
          · exact .inr ⟨d, h1, h, rfl⟩
        · rintro (h | ⟨e, -, he, h⟩)
          · exact hg.2.2 d h
          · cases h
            exact he
      · rw [upd_ne (T := fun r => (arr r).sys) hk, ih.mem k d]
        refine ⟨.inl, ?_⟩
        rintro (h | ⟨e, -, -, h⟩)
        · exact h
        · injection h with h1
          exact absurd h1 hk
    · unfold logMade
      split
      · rename_i d hd
        split
        · refine List.nodup_cons.2 ⟨fun hm => ?_, ih.nodup⟩
          have h1 := (ih.mem r d).2 hm
          rw [(arr r).makes_new hc hd] at h1
          cases h1
        · exact ih.nodup
      · exact ih.nodup
    · unfold logMade
      split
      · rename_i d hd
        split
        · refine List.pairwise_cons.2 ⟨fun y hy => ?_, ih.order⟩
          obtain ⟨k, e⟩ := y
          intro hk hu
          simp only at hk
          subst hk
          have h1 := ih.closed k e d hu ((ih.mem k e).2 hy)
          rw [(arr k).makes_new hc hd] at h1
          cases h1
        · exact ih.order
      · exact ih.order

/-- The first of the list can be destroyed. -/
theorem Listed.ready {arr : Nat → Arr} {f : ∀ r, (arr r).sys.σ} {M : Strategies arr} {r : Nat} {c : (arr r).Spot}
    (h : Listed arr f (⟨r, c⟩ :: M)) : (arr r).ready c (f r) := by
  refine (arr r).ready_of (h.closed r) ((h.mem r c).2 (by simp)) fun d hd => ?_
  apply Bool.eq_false_iff.2
  intro ha
  rcases List.mem_cons.1 ((h.mem r d).1 ha) with he | he
  · injection he with _ he
    subst he
    exact absurd hd ((arr r).under_irrefl d)
  · exact (List.pairwise_cons.1 h.order).1 _ he rfl hd

end Umpire.Nest
