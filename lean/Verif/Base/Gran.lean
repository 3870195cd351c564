import Verif.Base.Poison
/-!
# The granularity of the address sanitizer

`ASAN_POISON_MEMORY_REGION` and `ASAN_UNPOISON_MEMORY_REGION`, which
src/umpire/util/memory_sanitizers.hpp:37-45 calls, keep one number for every eight bytes: how many of
them, counted from the first, may be accessed.  They are not part of Umpire; this is what
`__asan_poison_memory_region` and `__asan_unpoison_memory_region` of the sanitizer's runtime library
do (asan_poisoning.cpp of compiler-rt, with shadow value 0 written as 8 and negative shadow values as 0).
-/
set_option autoImplicit false
set_option linter.unusedSimpArgs false
namespace Umpire
open Umpire.Prog

/-- How many bytes of granule `g`, the bytes from `8 * g` on, may be accessed after the calls. -/
def gran : Shadow → Nat → Nat
  | [], _ => 8
  | .poison p n :: sh, g =>
    let a := gran sh g
    if n = 0 then a                                                       -- nothing to do
    else if p / 8 = (p + n) / 8 then                                      -- both ends in one granule
      if g = p / 8 ∧ a ≤ (p + n) % 8 then min a (p % 8) else a            -- only if what follows is inaccessible
    else if g = p / 8 then min a (p % 8)
    else if p / 8 < g ∧ g < (p + n) / 8 then 0
    else if g = (p + n) / 8 ∧ a ≤ (p + n) % 8 then 0                      -- only if what follows is inaccessible
    else a
  | .unpoison p n :: sh, g =>
    let a := gran sh g
    if n = 0 then a
    else if p / 8 = (p + n) / 8 then
      if g = p / 8 then max a ((p + n) % 8) else a                        -- also the bytes before `p`
    else if p / 8 ≤ g ∧ g < (p + n) / 8 then 8                            -- also the bytes before `p`
    else if g = (p + n) / 8 then max a ((p + n) % 8)
    else a

/-- An access to byte `b` is reported. -/
def reported (sh : Shadow) (b : Nat) : Bool := !decide (b % 8 < gran sh (b / 8))

/-- All eight bytes of the granule of `b` belong to `o`. -/
def Inner (o : Nat × Nat) (b : Nat) : Prop := o.1 ≤ 8 * (b / 8) ∧ 8 * (b / 8) + 8 ≤ o.1 + o.2

instance (o : Nat × Nat) (b : Nat) : Decidable (Inner o b) := by unfold Inner; infer_instance

/-- In whole granules of pool memory the sanitizer reports exactly the accesses that do not hit a live allocation. -/
def GMarked (held live : Held) (sh : Shadow) : Prop :=
  ∀ o ∈ held, ∀ b, Inner o b → (reported sh b = true ↔ ¬ ∃ l ∈ live, Covers l b)

theorem reported_iff {sh : Shadow} {b : Nat} : reported sh b = true ↔ gran sh (b / 8) ≤ b % 8 := by
  unfold reported
  simp only [Bool.not_eq_true', decide_eq_false_iff_not, Nat.not_lt]

theorem Inner.covers {o : Nat × Nat} {b : Nat} (h : Inner o b) : Covers o b := by
  unfold Inner at h; unfold Covers; omega

theorem gran_le (sh : Shadow) (g : Nat) : gran sh g ≤ 8 := by
  induction sh with
  | nil => exact Nat.le_refl 8
  | cons s sh ih =>
    cases s with
    | poison p n => unfold gran; dsimp only; (repeat' split) <;> omega
    | unpoison p n => unfold gran; dsimp only; (repeat' split) <;> omega

/-- Marking as inaccessible changes nothing about other bytes. -/
theorem poison_outside {sh : Shadow} {p n b : Nat} (h : ¬ Covers (p, n) b) :
    reported (.poison p n :: sh) b = reported sh b := by
  rw [Bool.eq_iff_iff, reported_iff, reported_iff]
  unfold Covers at h
  have := gran_le sh (b / 8)
  conv => lhs; unfold gran
  dsimp only at *
  (repeat' split) <;> omega

/-- Whole granules are marked as inaccessible. -/
theorem poison_inner {sh : Shadow} {p n b : Nat} (h : Inner (p, n) b) : reported (.poison p n :: sh) b = true := by
  rw [reported_iff]
  unfold Inner at h
  have := gran_le sh (b / 8)
  unfold gran
  dsimp only at *
  (repeat' split) <;> omega

/-- Marking as accessible from a multiple of eight on changes nothing about other bytes. -/
theorem unpoison_outside {sh : Shadow} {p n b : Nat} (hp : 8 ∣ p) (h : ¬ Covers (p, n) b) :
    reported (.unpoison p n :: sh) b = reported sh b := by
  rw [Bool.eq_iff_iff, reported_iff, reported_iff]
  unfold Covers at h
  have := gran_le sh (b / 8)
  conv => lhs; unfold gran
  dsimp only at *
  (repeat' split) <;> omega

/-- Bytes marked as accessible can be accessed. -/
theorem unpoison_inside {sh : Shadow} {p n b : Nat} (h : Covers (p, n) b) : reported (.unpoison p n :: sh) b = false := by
  rw [Bool.eq_false_iff, ne_eq, reported_iff]
  unfold Covers at h
  have := gran_le sh (b / 8)
  unfold gran
  dsimp only at *
  (repeat' split) <;> omega

theorem GMarked.sublist {O O' L : Held} {sh : Shadow} (h : GMarked O L sh) (hs : O'.Sublist O) : GMarked O' L sh :=
  fun o ho b hb => h o (hs.mem ho) b hb

theorem GMarked.alloc {O L : Held} {sh : Shadow} {p n : Nat} (h : GMarked O L sh) (hp : 8 ∣ p) :
    GMarked O ((p, n) :: L) (.unpoison p n :: sh) := by
  intro o ho b hb
  by_cases hc : Covers (p, n) b
  · rw [unpoison_inside hc]
    simp only [Bool.false_eq_true, false_iff, Classical.not_not]
    exact ⟨_, List.mem_cons_self, hc⟩
  · rw [unpoison_outside hp hc, h o ho b hb]
    refine not_congr ⟨?_, ?_⟩
    · rintro ⟨l, hl, hlb⟩
      exact ⟨l, List.mem_cons_of_mem _ hl, hlb⟩
    · rintro ⟨l, hl, hlb⟩
      rcases List.mem_cons.1 hl with rfl | hl
      · exact absurd hlb hc
      · exact ⟨l, hl, hlb⟩

theorem GMarked.grow {O L : Held} {sh : Shadow} {q m : Nat} (h : GMarked O L sh) (hd : ∀ o ∈ O, Disj q m o.1 o.2)
    (hL : ∀ l ∈ L, ∃ o ∈ O, Within l.1 l.2 o.1 o.2) : GMarked ((q, m) :: O) L (.poison q m :: sh) := by
  intro o ho b hb
  rcases List.mem_cons.1 ho with rfl | ho
  · rw [poison_inner hb]
    simp only [true_iff]
    rintro ⟨l, hl, hlb⟩
    obtain ⟨o', ho', hw⟩ := hL l hl
    have := hd o' ho'
    have hc := hb.covers
    unfold Within at hw
    unfold Covers at hlb hc
    unfold Disj at this
    simp only at hc
    omega
  · rw [poison_outside, h o ho b hb]
    intro hc
    exact covers_disj (hd o ho) hc hb.covers

theorem GMarked.free {O L : Held} {sh : Shadow} {p n : Nat} (h : GMarked O L sh) (h8 : 8 ∣ p) (hn8 : 8 ∣ n)
    (hp : ∀ l ∈ drop p L, Disj l.1 l.2 p n)
    (hn : ∀ l ∈ L, l.1 = p → l.2 ≤ n) : GMarked O (drop p L) (.poison p n :: sh) := by
  intro o ho b hb
  by_cases hc : Covers (p, n) b
  · rw [poison_inner (by unfold Inner; unfold Covers at hc; dsimp only at *; omega)]
    simp only [true_iff]
    rintro ⟨l, hl, hlb⟩
    exact covers_disj (hp l hl) hlb hc
  · rw [poison_outside hc, h o ho b hb]
    refine not_congr ⟨?_, ?_⟩
    · rintro ⟨l, hl, hlb⟩
      refine ⟨l, List.mem_filter.2 ⟨hl, ?_⟩, hlb⟩
      simp only [ne_eq, decide_not, Bool.not_eq_eq_eq_not, Bool.not_true, decide_eq_false_iff_not]
      intro he
      have := hn l hl he
      unfold Covers at *
      simp only at hc
      omega
    · rintro ⟨l, hl, hlb⟩
      exact ⟨l, (List.mem_filter.1 hl).1, hlb⟩

/-- No access to a live allocation is reported. -/
def Quiet (live : Held) (sh : Shadow) : Prop := ∀ l ∈ live, ∀ b, Covers l b → reported sh b = false

/-- Marking as accessible makes no byte inaccessible. -/
theorem unpoison_mono {sh : Shadow} {p n b : Nat} (h : reported sh b = false) : reported (.unpoison p n :: sh) b = false := by
  rw [Bool.eq_false_iff, ne_eq, reported_iff] at *
  have := gran_le sh (b / 8)
  unfold gran
  dsimp only at *
  (repeat' split) <;> omega

theorem Quiet.alloc {L : Held} {sh : Shadow} {p n : Nat} (h : Quiet L sh) : Quiet ((p, n) :: L) (.unpoison p n :: sh) := by
  intro l hl b hb
  rcases List.mem_cons.1 hl with rfl | hl
  · exact unpoison_inside hb
  · exact unpoison_mono (h l hl b hb)

theorem Quiet.grow {O L : Held} {sh : Shadow} {q m : Nat} (h : Quiet L sh) (hd : ∀ o ∈ O, Disj q m o.1 o.2)
    (hL : ∀ l ∈ L, ∃ o ∈ O, Within l.1 l.2 o.1 o.2) : Quiet L (.poison q m :: sh) := by
  intro l hl b hb
  rw [poison_outside]
  · exact h l hl b hb
  · intro hc
    obtain ⟨o, ho, hw⟩ := hL l hl
    have := hd o ho
    unfold Within at hw
    unfold Covers at hb hc
    unfold Disj at this
    simp only at hc
    omega

theorem Quiet.free {L : Held} {sh : Shadow} {p n : Nat} (h : Quiet L sh) (hp : ∀ l ∈ drop p L, Disj l.1 l.2 p n) :
    Quiet (drop p L) (.poison p n :: sh) := by
  intro l hl b hb
  rw [poison_outside fun hc => covers_disj (hp l hl) hb hc]
  exact h l (List.mem_filter.1 hl).1 b hb

/-- A relation between the memory held, the live allocations and the calls to the sanitizer that the calls of a pool with
alignment `a` keep. -/
structure Marking (a : Nat) (M : Held → Held → Shadow → Prop) : Prop where
  nil : ∀ {sh}, M [] [] sh
  sublist : ∀ {O O' L sh}, M O L sh → O'.Sublist O → M O' L sh
  alloc : ∀ {O L sh p n}, M O L sh → a ∣ p → M O ((p, n) :: L) (.unpoison p n :: sh)
  grow : ∀ {O L sh q m}, M O L sh → (∀ o ∈ O, Disj q m o.1 o.2) → (∀ l ∈ L, ∃ o ∈ O, Within l.1 l.2 o.1 o.2) →
    M ((q, m) :: O) L (.poison q m :: sh)
  free : ∀ {O L sh p n}, M O L sh → a ∣ p → a ∣ n → (∀ l ∈ drop p L, Disj l.1 l.2 p n) → (∀ l ∈ L, l.1 = p → l.2 ≤ n) →
    M O (drop p L) (.poison p n :: sh)

theorem gmarked_marking {a : Nat} (h8 : 8 ∣ a) : Marking a GMarked where
  nil := by intro sh o ho; cases ho
  sublist := GMarked.sublist
  alloc := fun h hp => h.alloc (Nat.dvd_trans h8 hp)
  grow := GMarked.grow
  free := fun h hp hn => h.free (Nat.dvd_trans h8 hp) (Nat.dvd_trans h8 hn)

theorem quiet_marking (a : Nat) : Marking a fun _ L sh => Quiet L sh where
  nil := by intro sh o ho; cases ho
  sublist := fun h _ => h
  alloc := fun h _ => h.alloc
  grow := fun h hd hL => h.grow hd hL
  free := fun h _ _ hp _ => h.free hp

/-- What others may do: nothing in granules that belong to the pool, and in the granules it shares with others they do not
make its bytes inaccessible. -/
def Spares (held : Held) (sh sh' : Shadow) : Prop :=
  (∀ o ∈ held, ∀ b, Inner o b → reported sh' b = reported sh b) ∧
  (∀ o ∈ held, ∀ b, Covers o b → reported sh b = false → reported sh' b = false)

theorem GMarked.others {O L : Held} {sh sh' : Shadow} (h : GMarked O L sh) (ho : Spares O sh sh') : GMarked O L sh' := by
  intro o hO b hb
  rw [ho.1 o hO b hb]
  exact h o hO b hb

theorem Quiet.others {O L : Held} {sh sh' : Shadow} (h : Quiet L sh) (hL : ∀ l ∈ L, ∃ o ∈ O, Within l.1 l.2 o.1 o.2)
    (ho : Spares O sh sh') : Quiet L sh' := by
  intro l hl b hb
  obtain ⟨o, hO, hw⟩ := hL l hl
  exact ho.2 o hO b (by unfold Covers Within at *; omega) (h l hl b hb)

end Umpire
