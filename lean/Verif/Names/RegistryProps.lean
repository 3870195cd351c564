import Verif.Names.Registry
import Verif.Names.Props
/-!
C71: a resource name gives the memory it says.
-/
set_option autoImplicit false
set_option linter.unusedSimpArgs false

namespace Umpire.Names

/-! ### Specification -/

/-- What stands before the first colon. -/
def base (n : Name) : Name := n.takeWhile (· != ':')

/-- The platform of the devices of a build. -/
def Build.main (b : Build) : Backend :=
  match b.gpu with
  | .cuda _ _ => .cuda
  | .hip _ _ _ => .hip
  | .sycl _ => .sycl
  | .none => .omp

/-- The memory a name stands for: that of the type it begins with (C43), on the platform of the build. -/
def Build.meant (b : Build) (n : Name) : Option Kind :=
  match ofName (base n) with
  | some .host => some .host
  | some .noOp => some .noOp
  | some .shared => some .shared
  | some .file => some .file
  | some .device => some (.device b.main)
  | some .unified => some (.um b.main)
  | some .pinned => some (.pinned b.main)
  | some .constant => some (.const b.main)
  | _ => none

/-! ### Substrings -/

theorem isPrefixOf_iff {p s : Name} : p.isPrefixOf s = true ↔ ∃ t, s = p ++ t := by
  rw [List.isPrefixOf_iff_prefix]
  exact ⟨fun ⟨t, h⟩ => ⟨t, h.symm⟩, fun ⟨t, h⟩ => ⟨t, h.symm⟩⟩

theorem has_iff {sub : Name} : ∀ {s : Name}, has sub s = true ↔ ∃ a c, s = a ++ sub ++ c := by
  intro s
  induction s with
  | nil =>
    unfold has findSub
    constructor
    · intro h
      split at h
      · rename_i hp
        obtain ⟨t, ht⟩ := isPrefixOf_iff.1 hp
        exact ⟨[], t, by simpa using ht⟩
      · cases h
    · rintro ⟨a, c, h⟩
      have : sub = [] := by
        have := congrArg List.length h; simp at this; exact List.length_eq_zero_iff.1 (by omega)
      subst this; rfl
  | cons x s ih =>
    unfold has findSub
    constructor
    · intro h
      split at h
      · rename_i hp
        obtain ⟨t, ht⟩ := isPrefixOf_iff.1 hp
        exact ⟨[], t, by simpa using ht⟩
      · rw [Option.isSome_map] at h
        obtain ⟨a, c, e⟩ := ih.1 h
        exact ⟨x :: a, c, by rw [e]; simp⟩
    · rintro ⟨a, c, h⟩
      split
      · rfl
      · rename_i hp
        rw [Option.isSome_map]
        cases a with
        | nil => exact absurd (isPrefixOf_iff.2 ⟨c, by simpa using h⟩) hp
        | cons y a =>
          simp only [List.cons_append, List.cons.injEq] at h
          exact ih.2 ⟨a, c, h.2⟩

theorem has_mem {sub s : Name} (h : has sub s = true) : ∀ c ∈ sub, c ∈ s := by
  obtain ⟨a, c, rfl⟩ := has_iff.1 h
  intro x hx; simp [hx]

theorem has_left {sub p q : Name} (h : has sub p = true) : has sub (p ++ q) = true := by
  obtain ⟨a, c, rfl⟩ := has_iff.1 h
  exact has_iff.2 ⟨a, c ++ q, by simp⟩

theorem has_right {sub p q : Name} (h : has sub q = true) : has sub (p ++ q) = true := by
  obtain ⟨a, c, rfl⟩ := has_iff.1 h
  exact has_iff.2 ⟨p ++ a, c, by simp⟩

/-- A word without `x` does not reach across an `x`. -/
theorem has_split {sub p q : Name} {x : Char} (hx : x ∉ sub) (h0 : sub ≠ []) : has sub (p ++ x :: q) = (has sub p || has sub q) := by
  rw [Bool.eq_iff_iff, Bool.or_eq_true]
  constructor
  · intro h
    obtain ⟨a, c, e⟩ := has_iff.1 h
    rw [List.append_assoc] at e
    rcases List.append_eq_append_iff.1 e with ⟨d, h1, h2⟩ | ⟨d, h1, h2⟩
    · cases d with
      | nil =>
        cases sub with
        | nil => exact absurd rfl h0
        | cons y sub =>
          simp only [List.nil_append, List.cons_append, List.cons.injEq] at h2
          exact absurd (by simp [h2.1]) hx
      | cons y d =>
        simp only [List.cons_append, List.cons.injEq] at h2
        exact .inr (has_iff.2 ⟨d, c, by rw [h2.2]; simp⟩)
    · rcases List.append_eq_append_iff.1 h2 with ⟨f, h3, h4⟩ | ⟨f, h3, h4⟩
      · exact .inl (has_iff.2 ⟨a, f, by rw [h1, h3]; simp⟩)
      · cases f with
        | nil => exact .inl (has_iff.2 ⟨a, [], by rw [h1]; simp at h3; simp [h3]⟩)
        | cons y f =>
          simp only [List.cons_append, List.cons.injEq] at h4
          exact absurd (by rw [h3, h4.1]; simp) hx
  · rintro (h | h)
    · exact has_left h
    · exact has_right (p := p) (q := x :: q) (has_right (p := [x]) h)

theorem has_colons {sub p q : Name} (hx : ':' ∉ sub) (h0 : sub ≠ []) : has sub (p ++ COLONS ++ q) = (has sub p || has sub q) := by
  have : p ++ COLONS ++ q = p ++ ':' :: ([] ++ ':' :: q) := by simp [COLONS]
  rw [this, has_split hx h0, has_split hx h0]
  have : has sub [] = false := by
    cases h : has sub [] with
    | false => rfl
    | true =>
      obtain ⟨a, c, e⟩ := has_iff.1 h
      have := congrArg List.length e; simp at this
      exact absurd (List.length_eq_zero_iff.1 (by omega)) h0
  rw [this]; simp

/-- The words the factories look for. -/
def words : List Name := [HOST, NO_OP, SHARED, FILE, CONST, DEVICE, UM, PINNED]

theorem words_ok {w : Name} (h : w ∈ words) : ':' ∉ w ∧ w ≠ [] ∧ ∃ c ∈ w, isDig c = false := by
  simp only [words, List.mem_cons, List.not_mem_nil, or_false] at h
  rcases h with h | h | h | h | h | h | h | h <;> subst h <;> decide

theorem showNat_word {w : Name} (h : w ∈ words) (i : Nat) : has w (showNat i) = false := by
  cases hh : has w (showNat i) with
  | false => rfl
  | true =>
    obtain ⟨_, _, c, hc, hd⟩ := words_ok h
    have := (showNat_spec i).2.1 c (has_mem hh c hc)
    rw [hd] at this; cases this

/-! ### The names on offer -/

/-- What follows the type in a name on offer. -/
inductive Tail (K : Nat) (hip : Prop) : Name → Prop
  | num (i : Nat) (h : i < K) : Tail K hip (showNat i)
  | numFine (i : Nat) (h : hip) : Tail K hip (showNat i ++ COLONS ++ FINE)
  | numCoarse (i : Nat) (h : hip) : Tail K hip (showNat i ++ COLONS ++ COARSE)
  | fine (h : hip) : Tail K hip FINE
  | coarse (h : hip) : Tail K hip COARSE

/-- The number of devices of a build. -/
def Gpu.count : Gpu → Nat
  | .none => 0
  | .cuda d _ | .hip d _ _ | .sycl d => d

/-- The numbers of devices of a build are below `K`. -/
def Build.Below (b : Build) (K : Nat) : Prop := b.gpu.count ≤ K ∧ ∀ d, b.omp = some d → d ≤ K

def Gpu.isCuda : Gpu → Bool
  | .cuda _ _ => true
  | _ => false

theorem Tail.word {K : Nat} {hip : Prop} {q w : Name} (h : Tail K hip q) (hw : w ∈ words) : has w q = false := by
  have h2 := words_ok hw
  have hF : has w FINE = false := by
    simp only [words, List.mem_cons, List.not_mem_nil, or_false] at hw
    rcases hw with h | h | h | h | h | h | h | h <;> subst h <;> decide
  have hC : has w COARSE = false := by
    simp only [words, List.mem_cons, List.not_mem_nil, or_false] at hw
    rcases hw with h | h | h | h | h | h | h | h <;> subst h <;> decide
  cases h with
  | num i _ => exact showNat_word hw i
  | numFine i _ => rw [has_colons h2.1 h2.2.1, showNat_word hw, hF]; rfl
  | numCoarse i _ => rw [has_colons h2.1 h2.2.1, showNat_word hw, hC]; rfl
  | fine _ => exact hF
  | coarse _ => exact hC

theorem gpu_names {g : Gpu} {n : Name} {K : Nat} (hK : g.count ≤ K) (h : n ∈ g.names) :
    g ≠ .none ∧ (n ∈ [DEVICE, UM, PINNED] ∨ (n = DEVICE_CONST ∧ ((∃ d, g = .cuda d true) ∨ ∃ d c, g = .hip d c true)) ∨
      ∃ p ∈ [DEVICE, UM, PINNED], ∃ q, Tail K (g.isCuda = false) q ∧ n = p ++ COLONS ++ q) := by
  have tail : ∀ p ∈ [DEVICE, UM, PINNED], ∀ q, Tail K (g.isCuda = false) q → ∀ m, m = p ++ COLONS ++ q → ∃ p ∈ [DEVICE, UM, PINNED], ∃ q, Tail K (g.isCuda = false) q ∧ m = p ++ COLONS ++ q :=
    fun p hp q hq m hm => ⟨p, hp, q, hq, hm⟩
  cases g with
  | none => simp [Gpu.names] at h
  | cuda d c =>
    refine ⟨by simp, ?_⟩
    simp only [Gpu.names, List.mem_append, List.mem_cons, List.mem_map, List.not_mem_nil, or_false] at h
    rcases h with ((h | ⟨i, hi, h⟩) | h | h) | h
    · exact .inl (by simp [h])
    · exact .inr (.inr (tail DEVICE (by simp) _ (.num i (Nat.lt_of_lt_of_le (List.mem_range.1 hi) hK)) _ h.symm))
    · exact .inl (by simp [h])
    · exact .inl (by simp [h])
    · cases c with
      | false => simp at h
      | true => exact .inr (.inl ⟨by simpa using h, .inl ⟨d, rfl⟩⟩)
  | sycl d =>
    refine ⟨by simp, ?_⟩
    simp only [Gpu.names, List.mem_append, List.mem_cons, List.mem_map, List.not_mem_nil, or_false] at h
    rcases h with (h | ⟨i, hi, h⟩) | h | h
    · exact .inl (by simp [h])
    · exact .inr (.inr (tail DEVICE (by simp) _ (.num i (Nat.lt_of_lt_of_le (List.mem_range.1 hi) hK)) _ h.symm))
    · exact .inl (by simp [h])
    · exact .inl (by simp [h])
  | hip d c k =>
    refine ⟨by simp, ?_⟩
    have gr : ∀ p ∈ [DEVICE, UM, PINNED], n ∈ (if c = true then grains p else []) → ∃ p ∈ [DEVICE, UM, PINNED], ∃ q, Tail K ((Gpu.hip d c k).isCuda = false) q ∧ n = p ++ COLONS ++ q := by
      intro p hp hn
      split at hn
      · simp only [grains, List.mem_cons, List.not_mem_nil, or_false] at hn
        rcases hn with hn | hn
        · exact ⟨p, hp, _, .fine rfl, hn⟩
        · exact ⟨p, hp, _, .coarse rfl, hn⟩
      · cases hn
    simp only [Gpu.names, List.mem_append, List.mem_cons, List.mem_flatMap] at h
    rcases h with ((((h | h) | ⟨i, hi, h⟩) | h | h) | h | h) | h
    · exact .inl (by simp [h])
    · exact .inr (.inr (gr DEVICE (by simp) h))
    · rcases h with h | h
      · exact .inr (.inr (tail DEVICE (by simp) _ (.num i (Nat.lt_of_lt_of_le (List.mem_range.1 hi) hK)) _ h))
      · split at h
        · simp only [grains, List.mem_cons, List.not_mem_nil, or_false] at h
          rcases h with h | h
          · exact .inr (.inr (tail DEVICE (by simp) _ (.numFine i rfl) _ (by rw [h]; simp [devName])))
          · exact .inr (.inr (tail DEVICE (by simp) _ (.numCoarse i rfl) _ (by rw [h]; simp [devName])))
        · cases h
    · exact .inl (by simp [h])
    · exact .inr (.inr (gr UM (by simp) h))
    · exact .inl (by simp [h])
    · exact .inr (.inr (gr PINNED (by simp) h))
    · split at h
      · rename_i hk; exact .inr (.inl ⟨by simpa using h, .inr ⟨d, c, by rw [hk]⟩⟩)
      · cases h

theorem below (b : Build) : b.Below (b.gpu.count + b.omp.getD 0) :=
  ⟨by omega, fun d h => by rw [h]; simp⟩

theorem names_cases {b : Build} {n : Name} {K : Nat} (hK : b.Below K) (h : n ∈ b.names) :
    n = HOST ∨ (n = NO_OP ∧ b.noOp = true) ∨ (n = SHARED ∧ b.ipc = true) ∨ (n = FILE ∧ b.file = true) ∨
      n = DEVICE ∧ (b.gpu ≠ .none ∨ b.omp.isSome) ∨ ((n = UM ∨ n = PINNED) ∧ b.gpu ≠ .none) ∨
      (n = DEVICE_CONST ∧ ((∃ d, b.gpu = .cuda d true) ∨ ∃ d c, b.gpu = .hip d c true)) ∨
      (∃ q, Tail K (b.gpu.isCuda = false) q ∧ n = DEVICE ++ COLONS ++ q ∧ (b.gpu ≠ .none ∨ b.omp.isSome)) ∨
      (∃ p, (p = UM ∨ p = PINNED) ∧ ∃ q, Tail K (b.gpu.isCuda = false) q ∧ n = p ++ COLONS ++ q ∧ b.gpu ≠ .none) := by
  unfold Build.names at h
  simp only [List.mem_append, List.mem_cons] at h
  rcases h with ((((h | h) | h) | h) | h) | h
  · exact .inl h
  · split at h
    · rename_i hb; exact .inr (.inl ⟨by simpa using h, hb⟩)
    · cases h
  · split at h
    · rename_i hb; exact .inr (.inr (.inl ⟨by simpa using h, hb⟩))
    · cases h
  · split at h
    · rename_i hb; exact .inr (.inr (.inr (.inl ⟨by simpa using h, hb⟩)))
    · cases h
  · obtain ⟨hg, h | h | ⟨p, hp, q, hq, h⟩⟩ := gpu_names hK.1 h
    · simp only [List.mem_cons, List.not_mem_nil, or_false] at h
      rcases h with h | h
      · exact .inr (.inr (.inr (.inr (.inl ⟨h, .inl hg⟩))))
      · exact .inr (.inr (.inr (.inr (.inr (.inl ⟨h, hg⟩)))))
    · exact .inr (.inr (.inr (.inr (.inr (.inr (.inl h))))))
    · simp only [List.mem_cons, List.not_mem_nil, or_false] at hp
      rcases hp with hp | hp
      · subst hp; exact .inr (.inr (.inr (.inr (.inr (.inr (.inr (.inl ⟨q, hq, h, .inl hg⟩)))))))
      · exact .inr (.inr (.inr (.inr (.inr (.inr (.inr (.inr ⟨p, hp, q, hq, h, hg⟩)))))))
  · cases ho : b.omp with
    | none => simp [ho] at h
    | some d =>
      simp only [ho, List.mem_append, List.mem_map, List.mem_cons, List.not_mem_nil, or_false] at h
      rcases h with ⟨i, hi, h⟩ | h
      · exact .inr (.inr (.inr (.inr (.inr (.inr (.inr (.inl ⟨_, .num i (Nat.lt_of_lt_of_le (List.mem_range.1 hi) (hK.2 d ho)), h.symm, .inr (by simp)⟩)))))))
      · exact .inr (.inr (.inr (.inr (.inl ⟨h, .inr (by simp)⟩))))

theorem select_gpu {b : Build} {n : Name} (h1 : has HOST n = false) (h2 : has NO_OP n = false) (h3 : (n == NULL) = false)
    (h4 : has SHARED n = false) (h5 : has FILE n = false) :
    b.select n = (b.gpu.factories ++ ompFactories b.omp).find? (·.valid n) := by
  have e1 : Kind.valid .host n = false := h1
  have e2 : Kind.valid .noOp n = false := h2
  have e3 : Kind.valid .null n = false := h3
  have e4 : Kind.valid .shared n = false := h4
  have e5 : Kind.valid .file n = false := h5
  cases hn : b.noOp <;> cases hi : b.ipc <;> cases hf : b.file <;>
    simp [Build.select, Build.factories, hn, hi, hf, e1, e2, e3, e4, e5]

/-- **C71** Every resource name on offer is accepted by a factory, and the first factory that accepts it is the one for
the memory the name says. -/
theorem advertised_kind (b : Build) (n : Name) (h : n ∈ b.names) : b.select n = b.meant n ∧ (b.meant n).isSome = true := by
  have pair : ∀ {x y : Option Kind} {k : Kind}, x = some k → y = some k → x = y ∧ y.isSome = true := by
    rintro x y k rfl rfl; exact ⟨rfl, rfl⟩
  have word : ∀ {K : Nat} {hip : Prop} {p q w : Name}, Tail K hip q → w ∈ words → has w (p ++ COLONS ++ q) = has w p := by
    intro K hip p q w hq hw
    rw [has_colons (words_ok hw).1 (words_ok hw).2.1, hq.word hw, Bool.or_false]
  have ends : ∀ {p q r : Name}, ':' ∉ r → (p ++ COLONS ++ q == r) = false := by
    intro p q r hr
    rw [beq_eq_false_iff_ne]
    intro e
    exact hr (by rw [← e]; simp [COLONS])
  have dev : ∀ m : Name, has HOST m = false → has NO_OP m = false → (m == NULL) = false → has SHARED m = false → has FILE m = false →
      has DEVICE m = true → has CONST m = false → (b.gpu ≠ .none ∨ b.omp.isSome) → b.select m = some (.device b.main) := by
    intro m h1 h2 h3 h4 h5 h6 h7 hb
    rw [select_gpu h1 h2 h3 h4 h5]
    cases hg : b.gpu with
    | none =>
      cases ho : b.omp with
      | none => simp [hg, ho] at hb
      | some d => simp [Gpu.factories, ompFactories, Kind.valid, h6, h7, Build.main, hg]
    | _ => simp [Gpu.factories, Kind.valid, h6, h7, Build.main, hg]
  have um : ∀ m : Name, has HOST m = false → has NO_OP m = false → (m == NULL) = false → has SHARED m = false → has FILE m = false →
      has DEVICE m = false → has UM m = true → b.gpu ≠ .none → b.select m = some (.um b.main) := by
    intro m h1 h2 h3 h4 h5 h6 h7 hb
    rw [select_gpu h1 h2 h3 h4 h5]
    cases hg : b.gpu with
    | none => exact absurd hg hb
    | _ => simp [Gpu.factories, Kind.valid, h6, h7, Build.main, hg]
  have pin : ∀ m : Name, has HOST m = false → has NO_OP m = false → (m == NULL) = false → has SHARED m = false → has FILE m = false →
      has DEVICE m = false → has UM m = false → has PINNED m = true → b.gpu ≠ .none → b.select m = some (.pinned b.main) := by
    intro m h1 h2 h3 h4 h5 h6 h7 h8 hb
    rw [select_gpu h1 h2 h3 h4 h5]
    cases hg : b.gpu with
    | none => exact absurd hg hb
    | _ => simp [Gpu.factories, Kind.valid, h6, h7, h8, Build.main, hg]
  rcases names_cases (below b) h with rfl | ⟨rfl, hb⟩ | ⟨rfl, hb⟩ | ⟨rfl, hb⟩ | ⟨rfl, hb⟩ | ⟨rfl | rfl, hb⟩ | ⟨rfl, hb⟩ | ⟨q, hq, rfl, hb⟩ | ⟨p, hp, q, hq, rfl, hb⟩
  · exact pair (k := .host) rfl rfl
  · refine pair (k := .noOp) ?_ rfl
    have e1 : has HOST NO_OP = false := by decide
    have e2 : has NO_OP NO_OP = true := by decide
    simp [Build.select, Build.factories, Kind.valid, hb, e1, e2]
  · refine pair (k := .shared) ?_ rfl
    have e1 : has HOST SHARED = false := by decide
    have e2 : has NO_OP SHARED = false := by decide
    have e3 : (SHARED == NULL) = false := by decide
    have e4 : has SHARED SHARED = true := by decide
    cases hn : b.noOp <;> simp [Build.select, Build.factories, Kind.valid, hb, hn, e1, e2, e3, e4]
  · refine pair (k := .file) ?_ rfl
    have e1 : has HOST FILE = false := by decide
    have e2 : has NO_OP FILE = false := by decide
    have e3 : (FILE == NULL) = false := by decide
    have e4 : has SHARED FILE = false := by decide
    have e5 : has FILE FILE = true := by decide
    cases hn : b.noOp <;> cases hi : b.ipc <;> simp [Build.select, Build.factories, Kind.valid, hb, hn, hi, e1, e2, e3, e4, e5]
  · exact pair (dev DEVICE (by decide) (by decide) (by decide) (by decide) (by decide) (by decide) (by decide) hb) rfl
  · exact pair (um UM (by decide) (by decide) (by decide) (by decide) (by decide) (by decide) (by decide) hb) rfl
  · exact pair (pin PINNED (by decide) (by decide) (by decide) (by decide) (by decide) (by decide) (by decide) (by decide) hb) rfl
  · refine pair (k := .const b.main) ?_ rfl
    rw [select_gpu (by decide) (by decide) (by decide) (by decide) (by decide)]
    have e1 : has CONST DEVICE_CONST = true := by decide
    have e2 : has UM DEVICE_CONST = false := by decide
    have e3 : has PINNED DEVICE_CONST = false := by decide
    rcases hb with ⟨d, hg⟩ | ⟨d, c, hg⟩ <;> simp [hg, Gpu.factories, Kind.valid, e1, e2, e3, Build.main]
  · exact pair (dev _ (word hq (by decide)) (word hq (by decide)) (ends (by decide)) (word hq (by decide)) (word hq (by decide))
      (word hq (by decide)) (word hq (by decide)) hb) rfl
  · rcases hp with rfl | rfl
    · exact pair (um _ (word hq (by decide)) (word hq (by decide)) (ends (by decide)) (word hq (by decide)) (word hq (by decide))
        (word hq (by decide)) (word hq (by decide)) hb) rfl
    · exact pair (pin _ (word hq (by decide)) (word hq (by decide)) (ends (by decide)) (word hq (by decide)) (word hq (by decide))
        (word hq (by decide)) (word hq (by decide)) (word hq (by decide)) hb) rfl

example : (⟨true, true, true, .hip 4 true true, some 4⟩ : Build).names.length = 31 ∧
    "DEVICE::3::FINE".toList ∈ (⟨true, true, true, .hip 4 true true, some 4⟩ : Build).names := by decide +kernel

/-! ### Devices and granularity -/

/-- **C71** (partial: see `fine_counterexample`) A resource `DEVICE::i` on offer is for device `i`. -/
theorem advertised_device_partial (b : Build) (cur : Int) (i : Nat) (hi : i ≤ INT_MAX) :
    deviceId (b.reg cur).cuda cur (devName i) = some (i : Int) :=
  device_suffix_partial _ cur DEVICE i hi (by decide) (by decide)

theorem matchId_letter {p : Name} {c : Char} (h : isDig c = false) : matchId (p ++ [c]) = none := by
  unfold matchId
  simp [List.takeWhile_cons, h]

/-- **C71, counterexample** The resources `DEVICE::i::FINE` and `DEVICE::i::COARSE` that a HIP build offers are for the
current device, whatever `i` is. -/
theorem fine_counterexample (d : Nat) (k : Bool) (cur : Int) (i : Nat) (hi : i < d) :
    ∀ n ∈ grains (devName i), n ∈ Build.names ⟨false, false, false, .hip d true k, none⟩ ∧
      deviceId (Build.reg ⟨false, false, false, .hip d true k, none⟩ cur).cuda cur n = some cur := by
  intro n hn
  refine ⟨?_, ?_⟩
  · simp only [Build.names, Gpu.names, if_true, List.mem_append, List.mem_cons, List.mem_flatMap]
    exact .inl (.inr (.inl (.inl (.inl (.inr ⟨i, List.mem_range.2 hi, .inr hn⟩)))))
  · have hm : matchId n = none := by
      simp only [grains, List.mem_cons, List.not_mem_nil, or_false] at hn
      rcases hn with hn | hn
      · rw [hn, show devName i ++ COLONS ++ FINE = (devName i ++ COLONS ++ "FIN".toList) ++ ['E'] by simp [FINE]]
        exact matchId_letter (by decide)
      · rw [hn, show devName i ++ COLONS ++ COARSE = (devName i ++ COLONS ++ "COARS".toList) ++ ['E'] by simp [COARSE]]
        exact matchId_letter (by decide)
    simp [deviceId, Build.reg, hm]

theorem reg_cuda (b : Build) (cur : Int) : (b.reg cur).cuda = b.gpu.isCuda := by
  unfold Build.reg Gpu.isCuda
  cases b.gpu <;> rfl

/-- A name on offer never makes `std::stoi` throw. -/
theorem advertised_id (b : Build) (cur : Int) (n : Name) (h : n ∈ b.names) (hK : b.Below (INT_MAX + 1)) :
    (deviceId (b.reg cur).cuda cur n).isSome = true := by
  have plain : ∀ m : Name, findSub COLONS m = none → matchId m = none → (deviceId (b.reg cur).cuda cur m).isSome = true := by
    intro m h1 h2
    unfold deviceId
    split
    · rw [h1]; rfl
    · rw [h2]; rfl
  have tail : ∀ (p q : Name), has COLONS (p ++ [':']) = false → (∀ c ∈ p, isBreak c = false) → Tail (INT_MAX + 1) (b.gpu.isCuda = false) q →
      (deviceId (b.reg cur).cuda cur (p ++ COLONS ++ q)).isSome = true := by
    intro p q hp hbr hq
    have letter : ∀ (r : Name) (c : Char), isDig c = false → p ++ COLONS ++ q = r ++ [c] → b.gpu.isCuda = false →
        (deviceId (b.reg cur).cuda cur (p ++ COLONS ++ q)).isSome = true := by
      intro r c hc e hg
      unfold deviceId
      rw [reg_cuda, hg, e, matchId_letter hc]; rfl
    cases hq with
    | num i hi => rw [device_suffix_partial _ cur p i (by omega) hp hbr]; rfl
    | numFine i hg => exact letter (p ++ COLONS ++ (showNat i ++ COLONS ++ "FIN".toList)) 'E' (by decide) (by simp [FINE]) hg
    | numCoarse i hg => exact letter (p ++ COLONS ++ (showNat i ++ COLONS ++ "COARS".toList)) 'E' (by decide) (by simp [COARSE]) hg
    | fine hg => exact letter (p ++ COLONS ++ "FIN".toList) 'E' (by decide) (by simp [FINE]) hg
    | coarse hg => exact letter (p ++ COLONS ++ "COARS".toList) 'E' (by decide) (by simp [COARSE]) hg
  rcases names_cases hK h with rfl | ⟨rfl, hb⟩ | ⟨rfl, hb⟩ | ⟨rfl, hb⟩ | ⟨rfl, hb⟩ | ⟨rfl | rfl, hb⟩ | ⟨rfl, hb⟩ | ⟨q, hq, rfl, hb⟩ | ⟨p, hp, q, hq, rfl, hb⟩
  · exact plain _ (by decide) (by decide)
  · exact plain _ (by decide) (by decide)
  · exact plain _ (by decide) (by decide)
  · exact plain _ (by decide) (by decide)
  · exact plain _ (by decide) (by decide)
  · exact plain _ (by decide) (by decide)
  · exact plain _ (by decide) (by decide)
  · exact plain _ (by decide) (by decide)
  · exact tail _ _ (by decide) (by decide) hq
  · rcases hp with rfl | rfl <;> exact tail _ _ (by decide) (by decide) hq

/-- The granularity a name says. -/
def meantGrain (n : Name) : Grain :=
  if (COLONS ++ FINE).isSuffixOf n then .fine else if (COLONS ++ COARSE).isSuffixOf n then .coarse else .unknown

theorem has_no {sub s : Name} {c : Char} (h : c ∈ sub) (hs : c ∉ s) : has sub s = false := by
  cases hh : has sub s with
  | false => rfl
  | true => exact absurd (has_mem hh c h) hs

theorem suffix_has {sub s : Name} (h : has sub s = false) : sub.isSuffixOf s = false := by
  cases hh : sub.isSuffixOf s with
  | false => rfl
  | true =>
    rw [List.isSuffixOf_iff_suffix] at hh
    obtain ⟨a, e⟩ := hh
    rw [has_iff.2 ⟨a, [], by rw [← e]; simp⟩] at h; cases h

/-- **C71** The devices on offer are exactly those that were found. -/
theorem offered_devices (b : Build) (i : Nat) : devName i ∈ b.names ↔ i < b.gpu.count ∨ ∃ d, b.omp = some d ∧ i < d := by
  constructor
  · intro h
    have hK : b.Below (max b.gpu.count (b.omp.getD 0)) := ⟨Nat.le_max_left _ _, fun d hd => by rw [hd]; exact Nat.le_max_right _ _⟩
    have notail : ∀ {K : Nat} {hip : Prop} {q : Name}, Tail K hip q → q = showNat i → i < K := by
      intro K hip q hq e
      have dig := (showNat_spec i).2.1
      have bad : ∀ c, isDig c = false → c ∈ q → i < K := by
        intro c hc hm
        rw [e] at hm
        have := dig c hm
        rw [hc] at this; cases this
      cases hq with
      | num j hj =>
        have := congrArg digits e
        rw [(showNat_spec j).1, (showNat_spec i).1] at this
        omega
      | numFine j _ => exact bad 'F' (by decide) (by simp [FINE])
      | numCoarse j _ => exact bad 'C' (by decide) (by simp [COARSE])
      | fine _ => exact bad 'F' (by decide) (by simp [FINE])
      | coarse _ => exact bad 'C' (by decide) (by simp [COARSE])
    have colon : ∀ m : Name, ':' ∉ m → devName i ≠ m := fun m hm e => hm (by rw [← e]; simp [devName, COLONS])
    have lt : i < max b.gpu.count (b.omp.getD 0) := by
      rcases names_cases hK h with h | ⟨h, _⟩ | ⟨h, _⟩ | ⟨h, _⟩ | ⟨h, _⟩ | ⟨h | h, _⟩ | ⟨h, _⟩ | ⟨q, hq, h, hb⟩ | ⟨p, hp, q, hq, h, _⟩
      · exact absurd h (colon _ (by decide))
      · exact absurd h (colon _ (by decide))
      · exact absurd h (colon _ (by decide))
      · exact absurd h (colon _ (by decide))
      · exact absurd h (colon _ (by decide))
      · exact absurd h (colon _ (by decide))
      · exact absurd h (colon _ (by decide))
      · exact absurd h (colon _ (by decide))
      · exact notail hq (List.append_cancel_left h).symm
      · rcases hp with rfl | rfl
        · exact absurd (show some 'D' = some 'U' from congrArg List.head? h) (by decide)
        · exact absurd (show some 'D' = some 'P' from congrArg List.head? h) (by decide)
    cases ho : b.omp with
    | none => rw [ho] at lt; simp at lt; exact .inl lt
    | some d =>
      rw [ho] at lt
      simp only [Option.getD_some] at lt
      by_cases hi : i < b.gpu.count
      · exact .inl hi
      · exact .inr ⟨d, rfl, by omega⟩
  · rintro (h | ⟨d, hd, h⟩)
    · have : devName i ∈ b.gpu.names := by
        cases hg : b.gpu with
        | none => rw [hg] at h; exact absurd h (by simp [Gpu.count])
        | cuda d c =>
          rw [hg] at h
          simp only [Gpu.names, List.mem_append, List.mem_cons, List.mem_map]
          exact .inl (.inl (.inr ⟨i, List.mem_range.2 h, rfl⟩))
        | hip d g c =>
          rw [hg] at h
          simp only [Gpu.names, List.mem_append, List.mem_cons, List.mem_flatMap]
          exact .inl (.inl (.inl (.inr ⟨i, List.mem_range.2 h, .inl rfl⟩)))
        | sycl d =>
          rw [hg] at h
          simp only [Gpu.names, List.mem_append, List.mem_cons, List.mem_map]
          exact .inl (.inr ⟨i, List.mem_range.2 h, rfl⟩)
      simp only [Build.names, List.mem_append]
      exact .inl (.inr this)
    · simp only [Build.names, List.mem_append, hd, List.mem_map]
      exact .inr (.inl ⟨i, List.mem_range.2 h, rfl⟩)

/-- **C71** The granularity of a resource on offer is the one its name ends in. -/
theorem advertised_grain (b : Build) (n : Name) (h : n ∈ b.names) : grain n = meantGrain n := by
  have neither : ∀ m : Name, 'F' ∉ m → 'R' ∉ m → grain m = meantGrain m := by
    intro m h1 h2
    have e1 : has (COLONS ++ FINE) m = false := has_no (c := 'F') (by decide) h1
    have e2 : has (COLONS ++ COARSE) m = false := has_no (c := 'R') (by decide) h2
    unfold grain meantGrain
    rw [e1, e2, suffix_has e1, suffix_has e2]
  have fine : ∀ m : Name, grain (m ++ COLONS ++ FINE) = meantGrain (m ++ COLONS ++ FINE) := by
    intro m
    unfold grain meantGrain
    rw [if_pos (has_iff.2 ⟨m, [], by simp⟩), if_pos (List.isSuffixOf_iff_suffix.2 ⟨m, by simp⟩)]
  have coarse : ∀ m : Name, 'F' ∉ m → grain (m ++ COLONS ++ COARSE) = meantGrain (m ++ COLONS ++ COARSE) := by
    intro m hm
    have e1 : has (COLONS ++ FINE) (m ++ COLONS ++ COARSE) = false := by
      refine has_no (c := 'F') (by decide) ?_
      simp only [List.mem_append, not_or]
      exact ⟨⟨hm, by decide⟩, by decide⟩
    have e2 : has (COLONS ++ COARSE) (m ++ COLONS ++ COARSE) = true := has_iff.2 ⟨m, [], by simp⟩
    have e3 : (COLONS ++ COARSE).isSuffixOf (m ++ COLONS ++ COARSE) = true := List.isSuffixOf_iff_suffix.2 ⟨m, by simp⟩
    unfold grain meantGrain
    rw [suffix_has e1, e1, e2, e3]
  have digit : ∀ (i : Nat) (c : Char), isDig c = false → c ∉ showNat i := by
    intro i c hc hm
    have := (showNat_spec i).2.1 c hm
    rw [hc] at this; cases this
  have tail : ∀ (K : Nat) (hip : Prop) (p q : Name), 'F' ∉ p → 'R' ∉ p → Tail K hip q → grain (p ++ COLONS ++ q) = meantGrain (p ++ COLONS ++ q) := by
    intro K hip p q hF hR hq
    cases hq with
    | num i _ =>
      refine neither _ ?_ ?_ <;> simp only [List.mem_append, not_or]
      · exact ⟨⟨hF, by decide⟩, digit i _ (by decide)⟩
      · exact ⟨⟨hR, by decide⟩, digit i _ (by decide)⟩
    | numFine i _ => have := fine (p ++ COLONS ++ showNat i); simpa using this
    | numCoarse i _ =>
      have := coarse (p ++ COLONS ++ showNat i) (by simp only [List.mem_append, not_or]; exact ⟨⟨hF, by decide⟩, digit i _ (by decide)⟩)
      simpa using this
    | fine _ => exact fine p
    | coarse _ => exact coarse p hF
  rcases names_cases (below b) h with rfl | ⟨rfl, hb⟩ | ⟨rfl, hb⟩ | ⟨rfl, hb⟩ | ⟨rfl, hb⟩ | ⟨rfl | rfl, hb⟩ | ⟨rfl, hb⟩ | ⟨q, hq, rfl, hb⟩ | ⟨p, hp, q, hq, rfl, hb⟩
  · decide
  · decide
  · decide
  · decide
  · decide
  · decide
  · decide
  · decide
  · exact tail _ _ _ _ (by decide) (by decide) hq
  · rcases hp with rfl | rfl <;> exact tail _ _ _ _ (by decide) (by decide) hq

/-! ### Whole programs -/

/-- A name that is not on offer, but whose creation also registers a name on offer: `::0` somewhere, and before the first
`::` a name on offer and one more character. -/
def Odd (b : Build) (r : Name) : Prop := has COLONS0 r = true ∧ r ∉ b.names ∧ baseName r ∈ b.names

/-- What an entry of a name on offer is. -/
def Right (b : Build) (s : RM) : Prop :=
  ∀ n ∈ b.names, ∀ h, get s.byName n = some h → ∃ o, obj s h = some o ∧ (o.name = n ∨ n = DEVICE0 ∧ o.name = DEVICE)

theorem baseName_tail {p q : Name} (x : Char) (hp : has COLONS (p ++ [x] ++ [':']) = false) : baseName (p ++ [x] ++ COLONS ++ q) = p := by
  have hf : ∀ r : Name, has COLONS (r ++ [':']) = false → findSub COLONS (r ++ COLONS ++ q) = some r.length := by
    intro r
    induction r with
    | nil => intro _; rfl
    | cons c cs ih =>
      intro hp
      rw [List.cons_append] at hp
      unfold has findSub at hp
      split at hp
      · cases hp
      · rename_i hpre
        have hp' : has COLONS (cs ++ [':']) = false := by unfold has; simpa using hp
        have := ih hp'
        show findSub COLONS (c :: (cs ++ COLONS ++ q)) = _
        unfold findSub
        rw [if_neg, this]
        · rfl
        · intro hq
          apply hpre
          cases cs with
          | nil => exact hq
          | cons d ds => simpa [List.isPrefixOf, COLONS] using hq
  unfold baseName
  rw [hf _ hp]
  simp

/-- No resource on offer takes the name of another one, except `DEVICE`. -/
theorem base_not_offered (b : Build) (n : Name) (h : n ∈ b.names) (h0 : has COLONS0 n = true) : baseName n ∉ b.names := by
  have no : ∀ m : Name, ':' ∉ m → ofName m = none → m ∉ b.names := by
    intro m hc ho hm
    have := (advertised_kind b m hm).2
    have hb : base m = m := takeWhile_all fun c hcm => by
      simp only [bne_iff_ne, ne_eq]; intro e; exact hc (e ▸ hcm)
    unfold Build.meant at this
    rw [hb, ho] at this; cases this
  rcases names_cases (below b) h with rfl | ⟨rfl, hb⟩ | ⟨rfl, hb⟩ | ⟨rfl, hb⟩ | ⟨rfl, hb⟩ | ⟨rfl | rfl, hb⟩ | ⟨rfl, hb⟩ | ⟨q, hq, rfl, hb⟩ | ⟨p, hp, q, hq, rfl, hb⟩
  · exact absurd h0 (by decide)
  · exact absurd h0 (by decide)
  · exact absurd h0 (by decide)
  · exact absurd h0 (by decide)
  · exact absurd h0 (by decide)
  · exact absurd h0 (by decide)
  · exact absurd h0 (by decide)
  · exact absurd h0 (by decide)
  · have := baseName_tail (p := "DEVIC".toList) (q := q) 'E' (by decide)
    rw [show DEVICE ++ COLONS ++ q = "DEVIC".toList ++ ['E'] ++ COLONS ++ q from rfl, this]
    exact no _ (by decide) (by decide)
  · rcases hp with rfl | rfl
    · have := baseName_tail (p := "U".toList) (q := q) 'M' (by decide)
      rw [show UM ++ COLONS ++ q = "U".toList ++ ['M'] ++ COLONS ++ q from rfl, this]
      exact no _ (by decide) (by decide)
    · have := baseName_tail (p := "PINNE".toList) (q := q) 'D' (by decide)
      rw [show PINNED ++ COLONS ++ q = "PINNE".toList ++ ['D'] ++ COLONS ++ q from rfl, this]
      exact no _ (by decide) (by decide)

theorem offered_typed (b : Build) (n : Name) (h : n ∈ b.names) (hc : has COLONS n = false) : (ofName n).isSome = true := by
  have colon : ∀ p q : Name, has COLONS (p ++ COLONS ++ q) = true := fun p q => has_iff.2 ⟨p, q, rfl⟩
  rcases names_cases (below b) h with rfl | ⟨rfl, hb⟩ | ⟨rfl, hb⟩ | ⟨rfl, hb⟩ | ⟨rfl, hb⟩ | ⟨rfl | rfl, hb⟩ | ⟨rfl, hb⟩ | ⟨q, hq, rfl, hb⟩ | ⟨p, hp, q, hq, rfl, hb⟩
  · decide
  · decide
  · decide
  · decide
  · decide
  · decide
  · decide
  · decide
  · rw [colon] at hc; cases hc
  · rw [colon] at hc; cases hc

theorem Right.step {b : Build} {cur : Int} {op : Op} {s s' : RM} (hr : Right b s) (hc : Change (b.reg cur) op s s')
    (ho : ∀ r, op.mayCreate (b.reg cur) r → ¬Odd b r) : Right b s' := by
  intro n hn h hg
  have keep : get s.byName n = some h → ∃ o, obj s' h = some o ∧ (o.name = n ∨ n = DEVICE0 ∧ o.name = DEVICE) := by
    intro hg
    obtain ⟨o, h1, h2⟩ := hr n hn h hg
    exact ⟨o, step_obj hc h1, h2⟩
  have taken : ∀ m, isAllocator (b.reg cur) s m = false → n ≠ m := by
    rintro m hm rfl
    unfold isAllocator at hm
    rw [Bool.or_eq_false_iff] at hm
    have : (b.reg cur).names.contains n = true := by simpa [Build.reg] using hn
    rw [this] at hm; cases hm.2
  cases hc with
  | same _ a b' c d => exact keep (by rw [← b']; exact hg)
  | burn _ a b' c d => exact keep (by rw [← b']; exact hg)
  | made m _ x y a b' c d =>
    rw [b', get_put_ne _ _ (taken m x)] at hg; exact keep hg
  | aliased m d _ x y a b' c d' => rw [b', get_put_ne _ _ (taken m y)] at hg; exact keep hg
  | unaliased m d a o _ x y z w a' b' c d' =>
    rw [b'] at hg
    by_cases e : n = m
    · rw [e, get_del_self] at hg; cases hg
    · rw [get_del_ne _ e] at hg; exact keep hg
  | dangle m _ x y p q a b' c d =>
    rw [b'] at hg
    have hne : n ≠ m := by
      rintro rfl
      have := offered_typed b n hn p
      rw [q] at this; cases this
    have hcl : ¬Claims m n := by
      rintro (⟨rfl, _⟩ | ⟨h0, _⟩)
      · exact absurd q (by decide)
      · obtain ⟨u, v, e⟩ := has_iff.1 h0
        have : has COLONS m = true := has_iff.2 ⟨u, '0' :: v, by rw [e]; simp [COLONS, COLONS0]⟩
        rw [this] at p; cases p
    rw [nameIt_other hne hcl] at hg
    exact keep hg
  | res m _ x y a b' c d =>
    rw [b'] at hg
    have new : obj s' s.heap.length = some ⟨m, s.nextId⟩ := by rw [obj_new a]
    by_cases e : n = m
    · subst e
      rw [nameIt_self] at hg
      cases hg
      exact ⟨_, new, .inl rfl⟩
    · by_cases hcl : Claims m n
      · rcases hcl with ⟨hm, h0⟩ | ⟨h0, hb⟩
        · subst hm h0
          have : get (nameIt s.byName DEVICE s.heap.length) DEVICE0 = some s.heap.length := by
            unfold nameIt
            have e1 : has COLONS0 DEVICE = false := by decide
            simp only [e1, if_true, Bool.false_eq_true, if_false, get_put_self]
          rw [this] at hg
          cases hg
          exact ⟨_, new, .inr ⟨rfl, rfl⟩⟩
        · subst hb
          exact absurd ⟨h0, fun hm => base_not_offered b m hm h0 hn, hn⟩ (ho m y)
      · rw [nameIt_other e hcl] at hg
        exact keep hg

theorem right_run {b : Build} {cur : Int} {os : List Op} : ∀ {s s' : RM}, Right b s → run (b.reg cur) s os = some s' →
    (∀ op ∈ os, ∀ r, op.mayCreate (b.reg cur) r → ¬Odd b r) → Right b s' := by
  induction os with
  | nil => intro s s' hr h _; cases h; exact hr
  | cons o os ih =>
    intro s s' hr h ho
    obtain ⟨s1, h1, h2⟩ := run_cons h
    exact ih (hr.step (step_change h1) (ho o (by simp))) h2 fun op hop => ho op (by simp [hop])

/-- `getAllocator` of a name on offer for the first time. -/
theorem fetch {g : Reg} {s : RM} {n : Name} (hg : get s.byName n = none) (hc : g.names.contains n = true) (hv : g.valid n = true)
    (hi : (deviceId g.cuda g.cur n).isNone = false) (ht : has COLONS n = false → (ofName n).isSome = true) :
    ∃ s', getByName g s n true = .ok s.heap.length s' ∧ s'.byName = nameIt s.byName n s.heap.length ∧ obj s' s.heap.length = some ⟨n, s.nextId⟩ := by
  have fin : ∀ s' : RM, s'.heap = s.heap ++ [some ⟨n, s.nextId⟩] → s'.byName = nameIt s.byName n s.heap.length →
      makeResource g s n true = .ok s.heap.length s' →
      ∃ s', getByName g s n true = .ok s.heap.length s' ∧ s'.byName = nameIt s.byName n s.heap.length ∧ obj s' s.heap.length = some ⟨n, s.nextId⟩ := by
    intro s' h1 h2 h3
    have new : obj s' s.heap.length = some ⟨n, s.nextId⟩ := by rw [obj_new h1]
    refine ⟨s', ?_, h2, new⟩
    unfold getByName getStrategy
    simp only [hg, hc, if_true, h3, Out.bind, h2, nameIt_self, wrap, new]
  unfold makeResource makeResourceT at fin
  simp only [hv, if_true, hg, Option.isSome_none, Bool.false_eq_true, if_false, hi, Bool.and_false, Bool.and_self, Bool.not_true] at fin
  by_cases hcol : has COLONS n = true
  · simp only [hcol, if_true] at fin
    exact fin _ rfl rfl rfl
  · have hcol' : has COLONS n = false := by simpa using hcol
    simp only [hcol', Bool.false_eq_true, if_false] at fin
    obtain ⟨t, ht⟩ := Option.isSome_iff_exists.1 (ht hcol')
    simp only [ht] at fin
    exact fin _ rfl rfl rfl

/-- **C71** (partial: see the counterexamples) After any program that creates no oddly named resource, `getAllocator` of a
name on offer — if the memory can be had — returns a live allocator for exactly that resource; for `DEVICE::0` it may be
the one for `DEVICE`. -/
theorem advertised_lookup_partial (b : Build) (cur : Int) (hK : b.Below (INT_MAX + 1)) (os : List Op) (s : RM) (hr : run (b.reg cur) init os = some s)
    (ho : ∀ op ∈ os, ∀ r, op.mayCreate (b.reg cur) r → ¬Odd b r) (n : Name) (hn : n ∈ b.names) :
    ∃ h s' o, getByName (b.reg cur) s n true = .ok h s' ∧ obj s' h = some o ∧ (o.name = n ∨ n = DEVICE0 ∧ o.name = DEVICE) ∧
      b.select o.name = b.meant n := by
  have hR : Right b s := right_run (s := init) (fun n _ h hg => by cases hg) hr ho
  have kind : ∀ o : Obj, (o.name = n ∨ n = DEVICE0 ∧ o.name = DEVICE) → b.select o.name = b.meant n := by
    rintro o (e | ⟨e1, e2⟩)
    · rw [e]; exact (advertised_kind b n hn).1
    · have hd : DEVICE ∈ b.names := by
        subst e1
        rcases names_cases (below b) hn with h | ⟨h, _⟩ | ⟨h, _⟩ | ⟨h, _⟩ | ⟨h, _⟩ | ⟨h | h, _⟩ | ⟨h, _⟩ | ⟨q, hq, h, hb⟩ | ⟨p, hp, q, hq, h, _⟩
        · exact absurd h (by decide)
        · exact absurd h (by decide)
        · exact absurd h (by decide)
        · exact absurd h (by decide)
        · exact absurd h (by decide)
        · exact absurd h (by decide)
        · exact absurd h (by decide)
        · exact absurd h (by decide)
        · unfold Build.names
          rcases hb with hb | hb
          · cases hg : b.gpu with
            | none => exact absurd hg hb
            | _ => simp [Gpu.names]
          · cases hom : b.omp with
            | none => simp [hom] at hb
            | some d => simp
        · rcases hp with rfl | rfl
          · exact absurd (show some 'D' = some 'U' from congrArg List.head? h) (by decide)
          · exact absurd (show some 'D' = some 'P' from congrArg List.head? h) (by decide)
      rw [e2, (advertised_kind b _ hd).1, e1]; rfl
  cases hg : get s.byName n with
  | some h =>
    obtain ⟨o, h1, h2⟩ := hR n hn h hg
    refine ⟨h, s, o, ?_, h1, h2, kind o h2⟩
    unfold getByName getStrategy
    rw [hg]; simp [Out.bind, wrap, h1]
  | none =>
    have hv : (b.reg cur).valid n = true := by
      have := advertised_kind b n hn
      show (b.select n).isSome = true
      rw [this.1]; exact this.2
    have hi : (deviceId (b.reg cur).cuda (b.reg cur).cur n).isNone = false := by
      have := advertised_id b cur n hn hK
      rw [Option.isSome_iff_ne_none] at this
      show (deviceId (b.reg cur).cuda cur n).isNone = false
      cases hd : deviceId (b.reg cur).cuda cur n with
      | none => exact absurd hd this
      | some _ => rfl
    have hc : (b.reg cur).names.contains n = true := by simpa [Build.reg] using hn
    obtain ⟨s', h1, _, h3⟩ := fetch hg hc hv hi (offered_typed b n hn)
    exact ⟨_, s', _, h1, h3, .inl rfl, kind _ (.inl rfl)⟩

example : ∃ s, run (Build.reg ⟨false, true, true, .cuda 4 true, none⟩ 2) init
      [.byName UM true, .resource "SHARED::mine".toList true, .resource "SHARED::0".toList true, .byName DEVICE true, .unalias DEVICE0 5, .byName (devName 3) true] = some s ∧
    s.byName.length = 6 := by
  have h : (run (Build.reg ⟨false, true, true, .cuda 4 true, none⟩ 2) init
      [.byName UM true, .resource "SHARED::mine".toList true, .resource "SHARED::0".toList true, .byName DEVICE true, .unalias DEVICE0 5, .byName (devName 3) true]).map
      (·.byName.length) = some 6 := by decide +kernel
  obtain ⟨s, h1, h2⟩ := Option.map_eq_some_iff.1 h
  exact ⟨s, h1, h2⟩

/-! ### Names that the user makes up -/

/-- **C71** A resource `SHARED::x` is shared memory exactly if `x` contains none of the words that come first. -/
theorem shared_name_iff (b : Build) (x : Name) (hb : b.ipc = true) :
    b.select (SHARED ++ COLONS ++ x) = b.meant (SHARED ++ COLONS ++ x) ↔ has HOST x = false ∧ (b.noOp = true → has NO_OP x = false) := by
  have e1 : has HOST (SHARED ++ COLONS ++ x) = has HOST x := by rw [has_colons (by decide) (by decide), show has HOST SHARED = false by decide, Bool.false_or]
  have e2 : has NO_OP (SHARED ++ COLONS ++ x) = has NO_OP x := by rw [has_colons (by decide) (by decide), show has NO_OP SHARED = false by decide, Bool.false_or]
  have e3 : (SHARED ++ COLONS ++ x == NULL) = false := by
    rw [beq_eq_false_iff_ne]; intro e
    exact absurd (show some 'S' = some '_' from congrArg List.head? e) (by decide)
  have e4 : has SHARED (SHARED ++ COLONS ++ x) = true := has_iff.2 ⟨[], COLONS ++ x, by simp⟩
  have hm : b.meant (SHARED ++ COLONS ++ x) = some .shared := rfl
  rw [hm]
  have v1 : Kind.valid .host (SHARED ++ COLONS ++ x) = has HOST x := e1
  have v2 : Kind.valid .noOp (SHARED ++ COLONS ++ x) = has NO_OP x := e2
  have v3 : Kind.valid .null (SHARED ++ COLONS ++ x) = false := e3
  have v4 : Kind.valid .shared (SHARED ++ COLONS ++ x) = true := e4
  unfold Build.select Build.factories
  generalize SHARED ++ COLONS ++ x = n at *
  cases h1 : has HOST x <;> cases h2 : has NO_OP x <;> cases hn : b.noOp <;>
    simp [List.find?_cons, hb, v1, v2, v3, v4, h1, h2, hn]

/-- **C71** A resource `FILE::x` is file memory exactly if `x` contains none of the words that come first. -/
theorem file_name_iff (b : Build) (x : Name) (hb : b.file = true) :
    b.select (FILE ++ COLONS ++ x) = b.meant (FILE ++ COLONS ++ x) ↔
      has HOST x = false ∧ (b.noOp = true → has NO_OP x = false) ∧ (b.ipc = true → has SHARED x = false) := by
  have e1 : has HOST (FILE ++ COLONS ++ x) = has HOST x := by rw [has_colons (by decide) (by decide), show has HOST FILE = false by decide, Bool.false_or]
  have e2 : has NO_OP (FILE ++ COLONS ++ x) = has NO_OP x := by rw [has_colons (by decide) (by decide), show has NO_OP FILE = false by decide, Bool.false_or]
  have e3 : (FILE ++ COLONS ++ x == NULL) = false := by
    rw [beq_eq_false_iff_ne]; intro e
    exact absurd (show some 'F' = some '_' from congrArg List.head? e) (by decide)
  have e4 : has SHARED (FILE ++ COLONS ++ x) = has SHARED x := by rw [has_colons (by decide) (by decide), show has SHARED FILE = false by decide, Bool.false_or]
  have e5 : has FILE (FILE ++ COLONS ++ x) = true := has_iff.2 ⟨[], COLONS ++ x, by simp⟩
  have hm : b.meant (FILE ++ COLONS ++ x) = some .file := rfl
  rw [hm]
  have v1 : Kind.valid .host (FILE ++ COLONS ++ x) = has HOST x := e1
  have v2 : Kind.valid .noOp (FILE ++ COLONS ++ x) = has NO_OP x := e2
  have v3 : Kind.valid .null (FILE ++ COLONS ++ x) = false := e3
  have v4 : Kind.valid .shared (FILE ++ COLONS ++ x) = has SHARED x := e4
  have v5 : Kind.valid .file (FILE ++ COLONS ++ x) = true := e5
  unfold Build.select Build.factories
  generalize FILE ++ COLONS ++ x = n at *
  cases h1 : has HOST x <;> cases h2 : has NO_OP x <;> cases h3 : has SHARED x <;> cases hn : b.noOp <;> cases hi : b.ipc <;>
    simp [List.find?_cons, hb, v1, v2, v3, v4, v5, h1, h2, h3, hn, hi]

/-- **C71, counterexample** In every build, a resource `SHARED::GHOST` is ordinary host memory. -/
theorem shared_name_counterexample (b : Build) : b.select "SHARED::GHOST".toList = some .host := rfl

/-- **C71, counterexample** With a current device other than 0, `getAllocator("DEVICE::0")` after `getAllocator("DEVICE")`
is the memory of the current device; without that call it is the memory of device 0. -/
theorem device0_counterexample (d : Nat) (c : Bool) (cur : Int) :
    ∃ s, run (Build.reg ⟨false, false, false, .cuda (d + 1) c, none⟩ cur) init [.byName DEVICE true] = some s ∧
      (∃ h o, getByName (Build.reg ⟨false, false, false, .cuda (d + 1) c, none⟩ cur) s DEVICE0 true = .ok h s ∧ obj s h = some o ∧
        deviceId true cur o.name = some cur) ∧
      ∃ h s' o, getByName (Build.reg ⟨false, false, false, .cuda (d + 1) c, none⟩ cur) init DEVICE0 true = .ok h s' ∧ obj s' h = some o ∧
        deviceId true cur o.name = some 0 := by
  have hn : DEVICE ∈ (Build.names ⟨false, false, false, .cuda (d + 1) c, none⟩) := by simp [Build.names, Gpu.names]
  have hn0 : DEVICE0 ∈ (Build.names ⟨false, false, false, .cuda (d + 1) c, none⟩) := by
    have : DEVICE0 = devName 0 := by decide +kernel
    rw [this]
    simp only [Build.names, Gpu.names, List.mem_append, List.mem_cons, List.mem_map]
    exact .inl (.inr (.inl (.inl (.inr ⟨0, List.mem_range.2 (by omega), rfl⟩))))
  obtain ⟨s, h1, h2, h3⟩ := fetch (g := Build.reg ⟨false, false, false, .cuda (d + 1) c, none⟩ cur) (s := init) (n := DEVICE) rfl
    (by simpa [Build.reg] using hn) (by show (Build.select ⟨false, false, false, .cuda (d + 1) c, none⟩ DEVICE).isSome = true; rw [(advertised_kind _ _ hn).1]; rfl) rfl (fun _ => rfl)
  obtain ⟨s', g1, _, g3⟩ := fetch (g := Build.reg ⟨false, false, false, .cuda (d + 1) c, none⟩ cur) (s := init) (n := DEVICE0) rfl
    (by simpa [Build.reg] using hn0) (by show (Build.select ⟨false, false, false, .cuda (d + 1) c, none⟩ DEVICE0).isSome = true; rw [(advertised_kind _ _ hn0).1]; rfl) rfl (fun h => absurd h (by decide))
  refine ⟨s, ?_, ⟨_, _, ?_, h3, rfl⟩, _, s', _, g1, g3, rfl⟩
  · simp [run, step, h1, Out.after]
  · have : get s.byName DEVICE0 = some init.heap.length := by rw [h2]; rfl
    unfold getByName getStrategy
    simp [this, Out.bind, wrap, h3]

/-- **C71, counterexample** A resource that the user calls `FILEX::0SHARED` is shared memory, and after it
`getAllocator("FILE")` is that shared memory. -/
theorem takeover_counterexample : ∃ s h o, run (Build.reg ⟨false, true, true, .none, none⟩ 0) init [.resource "FILEX::0SHARED".toList true] = some s ∧
    getByName (Build.reg ⟨false, true, true, .none, none⟩ 0) s FILE true = .ok h s ∧ obj s h = some o ∧
    Build.select ⟨false, true, true, .none, none⟩ o.name = some .shared := by
  refine ⟨_, 2, _, rfl, rfl, rfl, ?_⟩
  decide +kernel

end Umpire.Names
