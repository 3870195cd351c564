import Verif.Base.PoolSpec
/-!
# Marking memory for the address sanitizer

`UMPIRE_POISON_MEMORY_REGION` and `UMPIRE_UNPOISON_MEMORY_REGION`
(src/umpire/util/memory_sanitizers.hpp:37-45) call the sanitizer when the platform of
the parent is the host; that is the case modelled.  The sanitizer is described by the
calls made to it, newest first; a byte is in the state set by the last call that
covers it.  That is what the calls ask for; the real sanitizer keeps one state for
every eight bytes, so that a region not starting or not ending at a multiple of eight
is marked only in part (`Gran.lean`).
-/
set_option autoImplicit false
set_option linter.unusedSimpArgs false
namespace Umpire
open Umpire.Prog

/-- A call to the sanitizer. -/
inductive San where
  | poison (p n : Nat)
  | unpoison (p n : Nat)
deriving DecidableEq, Repr

/-- The calls made so far, newest first. -/
abbrev Shadow := List San

/-- Byte `b` is one of the `o.2` bytes at `o.1`. -/
def Covers (o : Nat × Nat) (b : Nat) : Prop := o.1 ≤ b ∧ b < o.1 + o.2

instance (o : Nat × Nat) (b : Nat) : Decidable (Covers o b) := by unfold Covers; infer_instance

/-- An access to byte `b` is reported. -/
def poisoned : Shadow → Nat → Bool
  | [], _ => false
  | .poison p n :: sh, b => if Covers (p, n) b then true else poisoned sh b
  | .unpoison p n :: sh, b => if Covers (p, n) b then false else poisoned sh b

/-- The sanitizer reports exactly the accesses to pool memory that do not hit a live
allocation. -/
def Marked (held live : Held) (sh : Shadow) : Prop :=
  ∀ o ∈ held, ∀ b, Covers o b → (poisoned sh b = true ↔ ¬ ∃ l ∈ live, Covers l b)

theorem covers_disj {o l : Nat × Nat} {b : Nat} (h : Disj o.1 o.2 l.1 l.2) (h1 : Covers o b) (h2 : Covers l b) : False := by
  unfold Disj Covers at *
  omega

theorem Marked.sublist {O O' L : Held} {sh : Shadow} (h : Marked O L sh) (hs : O'.Sublist O) : Marked O' L sh :=
  fun o ho b hb => h o (hs.mem ho) b hb

theorem Marked.alloc {O L : Held} {sh : Shadow} {p n : Nat} (h : Marked O L sh) :
    Marked O ((p, n) :: L) (.unpoison p n :: sh) := by
  intro o ho b hb
  unfold poisoned
  by_cases hc : Covers (p, n) b
  · simp only [if_pos hc, Bool.false_eq_true, false_iff, Classical.not_not]
    exact ⟨_, List.mem_cons_self, hc⟩
  · rw [if_neg hc, h o ho b hb]
    refine not_congr ⟨?_, ?_⟩
    · rintro ⟨l, hl, hlb⟩
      exact ⟨l, List.mem_cons_of_mem _ hl, hlb⟩
    · rintro ⟨l, hl, hlb⟩
      rcases List.mem_cons.1 hl with rfl | hl
      · exact absurd hlb hc
      · exact ⟨l, hl, hlb⟩

theorem Marked.grow {O L : Held} {sh : Shadow} {q m : Nat} (h : Marked O L sh) (hd : ∀ o ∈ O, Disj q m o.1 o.2)
    (hL : ∀ l ∈ L, ∃ o ∈ O, Within l.1 l.2 o.1 o.2) : Marked ((q, m) :: O) L (.poison q m :: sh) := by
  intro o ho b hb
  unfold poisoned
  by_cases hc : Covers (q, m) b
  · simp only [if_pos hc, true_iff]
    rintro ⟨l, hl, hlb⟩
    obtain ⟨o', ho', hw⟩ := hL l hl
    have := hd o' ho'
    unfold Within at hw
    unfold Covers at hlb hc
    unfold Disj at this
    simp only at hc
    omega
  · rw [if_neg hc]
    rcases List.mem_cons.1 ho with rfl | ho
    · exact absurd hb hc
    · exact h o ho b hb

theorem Marked.free {O L : Held} {sh : Shadow} {p n : Nat} (h : Marked O L sh) (hp : ∀ l ∈ drop p L, Disj l.1 l.2 p n)
    (hn : ∀ l ∈ L, l.1 = p → l.2 ≤ n) : Marked O (drop p L) (.poison p n :: sh) := by
  intro o ho b hb
  unfold poisoned
  by_cases hc : Covers (p, n) b
  · simp only [if_pos hc, true_iff]
    rintro ⟨l, hl, hlb⟩
    exact covers_disj (hp l hl) hlb hc
  · rw [if_neg hc, h o ho b hb]
    refine not_congr ⟨?_, ?_⟩
    · rintro ⟨l, hl, hlb⟩
      refine ⟨l, List.mem_filter.2 ⟨hl, ?_⟩, hlb⟩
      simp only [ne_eq, decide_not, Bool.not_eq_eq_eq_not, Bool.not_true, decide_eq_false_iff_not]
      intro he
      have := hn l hl he
      unfold Covers at *
      simp only at hc
      omega
    · rintro ⟨l, hl, hlb⟩
      exact ⟨l, (List.mem_filter.1 hl).1, hlb⟩

end Umpire
