import Verif.Names.Types
/-!
Resource names and types (C43).
-/
set_option autoImplicit false
set_option linter.unusedSimpArgs false

namespace Umpire.Names

/-! ### Specification: decimal notation -/

/-- `std::to_string` of a non-negative number. -/
def showNat (n : Nat) : Name :=
  if n < 10 then [Char.ofNat (48 + n)] else showNat (n / 10) ++ [Char.ofNat (48 + n % 10)]

theorem dig_ok {d : Nat} (h : d < 10) :
    isDig (Char.ofNat (48 + d)) = true ∧ digVal (Char.ofNat (48 + d)) = d := by
  have : d = 0 ∨ d = 1 ∨ d = 2 ∨ d = 3 ∨ d = 4 ∨ d = 5 ∨ d = 6 ∨ d = 7 ∨ d = 8 ∨ d = 9 := by omega
  rcases this with h | h | h | h | h | h | h | h | h | h <;> subst h <;> decide

theorem showNat_spec (n : Nat) :
    digits (showNat n) = n ∧ (∀ c ∈ showNat n, isDig c = true) ∧ showNat n ≠ [] := by
  induction n using Nat.strongRecOn with
  | ind n ih =>
    unfold showNat
    split
    · rename_i h
      have hd := dig_ok h
      refine ⟨?_, ?_, by simp⟩
      · simp [digits, hd.2]
      · intro c hc
        simp at hc
        rw [hc]; exact hd.1
    · rename_i h
      have h' := ih (n / 10) (by omega)
      have hd := dig_ok (Nat.mod_lt n (by omega : 0 < 10))
      refine ⟨?_, ?_, by simp⟩
      · have : digits (showNat (n / 10) ++ [Char.ofNat (48 + n % 10)])
            = 10 * digits (showNat (n / 10)) + digVal (Char.ofNat (48 + n % 10)) := by
          simp [digits]
        rw [this, h'.1, hd.2]; omega
      · intro c hc
        rcases List.mem_append.mp hc with hc | hc
        · exact h'.2.1 c hc
        · simp at hc
          rw [hc]; exact hd.1

theorem takeWhile_all {p : Char → Bool} {l : Name} (h : ∀ c ∈ l, p c = true) :
    l.takeWhile p = l := by
  induction l with
  | nil => rfl
  | cons c cs ih =>
    rw [List.takeWhile_cons, h c (by simp), if_pos rfl, ih (fun d hd => h d (by simp [hd]))]

theorem takeWhile_append_stop {p : Char → Bool} {l r : Name} {c : Char} (h : ∀ c ∈ l, p c = true)
    (hc : p c = false) : (l ++ c :: r).takeWhile p = l := by
  induction l with
  | nil => simp [List.takeWhile_cons, hc]
  | cons d ds ih =>
    rw [List.cons_append, List.takeWhile_cons, h d (by simp), if_pos rfl,
      ih (fun e he => h e (by simp [he]))]

theorem stoi_digits {d : Name} (hd : ∀ c ∈ d, isDig c = true) (hne : d ≠ [])
    (hv : digits d ≤ INT_MAX) : stoi d = some (digits d : Int) := by
  cases d with
  | nil => exact absurd rfl hne
  | cons c cs =>
    have hc := hd c (by simp)
    have h1 : 48 ≤ c.toNat ∧ c.toNat ≤ 57 := by
      simpa [isDig] using hc
    have hs : isSpace c = false := by
      simp [isSpace]; omega
    have hm : c ≠ '-' := by
      intro h; rw [h] at h1; exact absurd h1.1 (by decide)
    have hp : c ≠ '+' := by
      intro h; rw [h] at h1; exact absurd h1.1 (by decide)
    unfold stoi
    have hdrop : List.dropWhile isSpace (c :: cs) = c :: cs := by
      rw [List.dropWhile_cons, hs]; rfl
    simp only [hdrop, List.head?_cons]
    have e1 : (some c == some '-') = false := by simpa using hm
    have e2 : (some c == some '+') = false := by simpa using hp
    simp only [e1, e2, Bool.or_self, Bool.false_eq_true, if_false]
    rw [takeWhile_all hd]
    simp [hv]

theorem findSub_append {sub p s : Name} (h : sub.isPrefixOf s = true) :
    ∃ i, findSub sub (p ++ s) = some i ∧ i ≤ p.length := by
  induction p with
  | nil =>
    refine ⟨0, ?_, Nat.le_refl _⟩
    cases s with
    | nil => simp [findSub, h]
    | cons c cs => simp [findSub, h]
  | cons c cs ih =>
    obtain ⟨i, h1, h2⟩ := ih
    rw [List.cons_append]
    unfold findSub
    split
    · exact ⟨0, rfl, by simp⟩
    · exact ⟨i + 1, by rw [h1]; rfl, by simp; omega⟩

theorem rev_takeWhile {p d : Name} (hd : ∀ c ∈ d, isDig c = true) :
    (((p ++ COLONS ++ d).reverse.takeWhile isDig).reverse) = d := by
  have : (p ++ COLONS ++ d).reverse = d.reverse ++ ':' :: (':' :: p.reverse) := by
    simp [COLONS]
  rw [this, takeWhile_append_stop (fun c hc => hd c (List.mem_reverse.mp hc)) (by decide),
    List.reverse_reverse]

theorem matchId_digits {p d : Name} (hb : ∀ c ∈ p, isBreak c = false)
    (hd : ∀ c ∈ d, isDig c = true) (hne : d ≠ []) : matchId (p ++ COLONS ++ d) = some d := by
  unfold matchId
  rw [rev_takeWhile hd]
  have hl : (p ++ COLONS ++ d).length - d.length = (p ++ COLONS).length := by
    simp only [List.length_append]; omega
  simp only [hl]
  rw [show List.take (p ++ COLONS).length (p ++ COLONS ++ d) = p ++ COLONS from
    List.take_left' rfl]
  have h1 : d.isEmpty = false := by cases d <;> simp_all
  have h2 : COLONS.isSuffixOf (p ++ COLONS) = true := by
    rw [List.isSuffixOf_iff_suffix]; exact List.suffix_append _ _
  have h3 : (p ++ COLONS).any isBreak = false := by
    rw [List.any_eq_false]
    intro c hc
    rcases List.mem_append.mp hc with hc | hc
    · simp [hb c hc]
    · have : c = ':' := by simpa [COLONS] using hc
      rw [this]; decide
  simp [h1, h2, h3]

/-! ### C43 -/

/-- **C43** Converting a resource type to its name and back gives the same type. -/
theorem name_of_type (t : RType) (n : Name) (h : toName t = some n) : ofName n = some t := by
  cases t <;> simp only [toName, Option.some.injEq, reduceCtorEq] at h <;> subst h <;> decide

example : toName .pinned = some PINNED ∧ ofName PINNED = some .pinned := by decide

/-- **C43** Converting a name to its type and back gives the same name. -/
theorem type_of_name (n : Name) (t : RType) (h : ofName n = some t) : toName t = some n := by
  unfold ofName at h
  repeat' split at h
  all_goals (try cases h)
  all_goals (subst_vars; rfl)

/-- **C43** Distinct types have distinct names; exactly `Unknown` has none, and
every string other than the eight names is reported. -/
theorem types_injective (t u : RType) (n : Name) (h : toName t = some n) (h' : toName u = some n) :
    t = u := by
  have h1 := name_of_type t n h
  have h2 := name_of_type u n h'
  rw [h1] at h2; exact Option.some.inj h2

theorem unknown_reported (n : Name) :
    ofName n = none ↔ n ∉ ["HOST".toList, "DEVICE".toList, "UM".toList, "PINNED".toList,
      "DEVICE_CONST".toList, "FILE".toList, "NO_OP".toList, "SHARED".toList] := by
  simp only [List.mem_cons, List.not_mem_nil, or_false, not_or]
  constructor
  · intro h
    refine ⟨?_, ?_, ?_, ?_, ?_, ?_, ?_, ?_⟩ <;> (intro e; subst e; exact absurd h (by decide))
  · rintro ⟨h1, h2, h3, h4, h5, h6, h7, h8⟩
    unfold ofName HOST DEVICE UM PINNED DEVICE_CONST FILE NO_OP SHARED
    rw [if_neg h1, if_neg h2, if_neg h3, if_neg h4, if_neg h5, if_neg h6, if_neg h7, if_neg h8]

theorem unknown_type_reported (t : RType) : toName t = none ↔ t = .unknown := by
  cases t <;> simp [toName]

example : ofName "HOST2".toList = none := by decide

/-- **C43** In every build a resource called `<name>::N` — for a `<name>` that
has no `::` of its own and no line breaks — is for device `N`, whatever the
current device is. -/
theorem device_suffix_partial (cuda : Bool) (cur : Int) (p : Name) (n : Nat) (hn : n ≤ INT_MAX)
    (hp : has COLONS (p ++ [':']) = false) (hb : ∀ c ∈ p, isBreak c = false) :
    deviceId cuda cur (p ++ COLONS ++ showNat n) = some (n : Int) := by
  obtain ⟨h1, h2, h3⟩ := showNat_spec n
  cases cuda with
  | false =>
    have hm := matchId_digits hb h2 h3
    unfold deviceId
    simp only [Bool.false_eq_true, if_false]
    rw [hm]
    show stoi (showNat n) = _
    rw [stoi_digits h2 h3 (by rw [h1]; exact hn), h1]
  | true =>
    have hf : findSub COLONS (p ++ COLONS ++ showNat n) = some p.length := by
      clear hb
      induction p with
      | nil => rfl
      | cons c cs ih =>
        rw [List.cons_append] at hp
        unfold has findSub at hp
        split at hp
        · cases hp
        · rename_i hpre
          have hp' : has COLONS (cs ++ [':']) = false := by
            unfold has
            simpa using hp
          have := ih hp'
          show findSub COLONS (c :: (cs ++ COLONS ++ showNat n)) = _
          unfold findSub
          rw [if_neg, this]
          · rfl
          · intro hq
            apply hpre
            cases cs with
            | nil => exact hq
            | cons d ds => simpa [List.isPrefixOf, COLONS] using hq
    unfold deviceId
    simp only [if_true]
    rw [hf]
    show stoi (List.drop (p.length + 2) (p ++ COLONS ++ showNat n)) = _
    rw [show List.drop (p.length + 2) (p ++ COLONS ++ showNat n) = showNat n from
      List.drop_left' (by simp [COLONS])]
    rw [stoi_digits h2 h3 (by rw [h1]; exact hn), h1]

example : deviceId false 0 "DEVICE::12".toList = some 12 ∧
    deviceId true 5 "DEVICE::12".toList = some 12 ∧
    has COLONS (DEVICE ++ [':']) = false ∧ DEVICE ++ COLONS ++ showNat 12 = "DEVICE::12".toList := by
  decide +kernel

/-- **C43** A device suffix that is too large for an `int` is reported, not
truncated. -/
theorem device_suffix_too_large (cuda : Bool) (cur : Int) (n : Nat) (hn : INT_MAX < n) :
    deviceId cuda cur (DEVICE ++ COLONS ++ showNat n) = none := by
  obtain ⟨h1, h2, h3⟩ := showNat_spec n
  have hst : stoi (showNat n) = none := by
    cases hs : showNat n with
    | nil => exact absurd hs h3
    | cons c cs =>
      rw [hs] at h1 h2
      have hc := h2 c (by simp)
      have h1' : 48 ≤ c.toNat ∧ c.toNat ≤ 57 := by
        simpa [isDig] using hc
      have hsp : isSpace c = false := by
        simp [isSpace]; omega
      have hm : c ≠ '-' := by
        intro h; rw [h] at h1'; exact absurd h1'.1 (by decide)
      have hpl : c ≠ '+' := by
        intro h; rw [h] at h1'; exact absurd h1'.1 (by decide)
      unfold stoi
      have hdrop : List.dropWhile isSpace (c :: cs) = c :: cs := by
        rw [List.dropWhile_cons, hsp]; rfl
      simp only [hdrop, List.head?_cons]
      have e1 : (some c == some '-') = false := by simpa using hm
      have e2 : (some c == some '+') = false := by simpa using hpl
      simp only [e1, e2, Bool.or_self, Bool.false_eq_true, if_false]
      rw [takeWhile_all h2, h1]
      simp
      omega
  cases cuda with
  | false =>
    have hm := matchId_digits (p := DEVICE) (by decide) h2 h3
    unfold deviceId
    simp only [Bool.false_eq_true, if_false]
    rw [hm]
    exact hst
  | true =>
    unfold deviceId
    simp only [if_true]
    have hf : findSub COLONS (DEVICE ++ COLONS ++ showNat n) = some 6 := rfl
    rw [hf]
    exact hst

/-- **C43, counterexample** In a build without CUDA (for example with HIP, whose
registry offers `DEVICE::1::FINE`, MemoryResourceRegistry.cpp:153-162) the name
`DEVICE::1::FINE` is not recognised as belonging to device 1: the resource is
given the device that happens to be current. -/
theorem device_suffix_counterexample (cur : Int) :
    deviceId false cur "DEVICE::1::FINE".toList = some cur ∧
      deviceId false cur "DEVICE::1::COARSE".toList = some cur := by
  constructor <;> rfl

end Umpire.Names
