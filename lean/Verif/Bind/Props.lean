import Verif.Bind.Model
/-!
# C69, C70: typed memory, and the C and Fortran interfaces
-/
set_option autoImplicit false
set_option linter.unusedSimpArgs false
namespace Umpire.Bind

/-! ## Specification -/

/-- The number of elements of an array with these extents. -/
def count : List Nat → Nat
  | [] => 1
  | d :: l => d * count l

/-- Extents as Fortran has them. -/
def ints : List Nat → List Int := List.map fun d => (d : Int)

/-- A position in an array: one index per dimension, from 0. -/
def Valid : List Nat → List Nat → Prop
  | [], [] => True
  | d :: ds, i :: is => i < d ∧ Valid ds is
  | _, _ => False

/-- The place of an element: the first index runs fastest. -/
def place : List Nat → List Nat → Nat
  | d :: ds, i :: is => i + d * place ds is
  | _, _ => 0

/-- The bytes of an element, from the start of the array. -/
def Bytes (sz : Nat) (dims idx : List Nat) (b : Nat) : Prop := sz * place dims idx ≤ b ∧ b < sz * place dims idx + sz

/-- Every byte of every element is inside the block of `n` bytes. -/
def Covered (sz n : Nat) (dims : List Nat) : Prop := ∀ idx, Valid dims idx → ∀ b, Bytes sz dims idx b → b < n

/-- A program that uses handles. -/
inductive HOp
  | get (v : Nat) (r : Option Nat)
  | copy (v w : Nat)
  | delete (v : Nat)
  | destroy (v : Nat)
  | use (v : Nat)
deriving DecidableEq, Repr

/-- What the program knows: for every call that was to give a handle, its allocator, and whether that handle is not yet
given back; in every variable that was set, nothing or the handle of one of these calls. -/
structure S where
  calls : List (Option Nat × Bool)
  holds : Nat → Option (Option Nat)

/-- Set a variable. -/
def S.set (s : S) (v : Nat) (x : Option Nat) : S := { s with holds := fun w => if w = v then some x else s.holds w }

/-- Proper use of handles: what a program may do, and the allocator that a use has to act on.  `none`: misuse. -/
def S.step (s : S) : HOp → Option (S × Option Nat)
  | .get v (some a) => some ({ s with calls := s.calls ++ [(some a, true)] }.set v (some s.calls.length), none)
  | .get _ none => some ({ s with calls := s.calls ++ [(none, true)] }, none)
  | .copy v w =>
    match s.holds w with
    | none => none
    | some x => some (s.set v x, none)
  | .delete v | .destroy v =>
    match s.holds v with
    | none => none
    | some none => some (s.set v none, none)
    | some (some g) =>
      match s.calls[g]? with
      | some (r, true) => some ({ s with calls := s.calls.set g (r, false) }.set v none, none)
      | _ => none
  | .use v =>
    match s.holds v with
    | some (some g) =>
      match s.calls[g]? with
      | some (some a, true) => some (s, some a)
      | _ => none
    | _ => none

/-- What the model does. -/
def HOp.run (h : H) : HOp → Res
  | .get v r => getHandle h v r
  | .copy v w => copyHandle h v w
  | .delete v => deleteHandle h v
  | .destroy v => destroyHandle h v
  | .use v => useHandle h v

/-- Programs that use handles properly, with the allocators acted on. -/
inductive Proper : List HOp → S → List Nat → Prop
  | nil : Proper [] ⟨[], fun _ => none⟩ []
  | silent {l : List HOp} {s s' : S} {as : List Nat} {x : HOp} : Proper l s as → s.step x = some (s', none) → Proper (l ++ [x]) s' as
  | acts {l : List HOp} {s s' : S} {as : List Nat} {x : HOp} {a : Nat} : Proper l s as → s.step x = some (s', some a) →
      Proper (l ++ [x]) s' (as ++ [a])

/-- What the model does with a program: the heap and the allocators acted on; `none`: undefined behaviour. -/
def runAll (h : H) : List HOp → Option (H × List Nat)
  | [] => some (h, [])
  | x :: l =>
    match x.run h with
    | .ok h' | .throws h' => runAll h' l
    | .on (some a) => (runAll h l).map fun y => (y.1, a :: y.2)
    | .on none => none
    | .ub => none

/-! ## Proofs: sizes -/

theorem wrap64_mod (x : Int) : wrap64 x % 2 ^ 64 = x % 2 ^ 64 := by
  unfold wrap64
  split <;> omega

theorem prodDims_mod (l : List Nat) : ∀ (p : Int), prodDims p (ints l) % 2 ^ 64 = p * (count l : Nat) % 2 ^ 64 := by
  induction l with
  | nil => intro p; simp [ints, prodDims, count]
  | cons d l ih =>
    intro p
    show prodDims (wrap64 (p * (d : Int))) (ints l) % 2 ^ 64 = _
    simp only [count]
    rw [ih, Int.mul_emod, wrap64_mod, ← Int.mul_emod, Int.natCast_mul, Int.mul_assoc]

theorem fortranBytes_eq (sz : Nat) (l : List Nat) : fortranBytes sz (ints l) = sz * count l % 2 ^ 64 := by
  unfold fortranBytes
  rw [wrap64_mod, Int.mul_emod, prodDims_mod, ← Int.mul_emod, Int.one_mul, ← Int.natCast_mul]
  rw [Nat.mul_comm]
  have : (((sz * count l : Nat) : Int) % 2 ^ 64) = ((sz * count l % 2 ^ 64 : Nat) : Int) := by
    rw [Int.natCast_emod]; rfl
  rw [this]; rfl

theorem place_lt : ∀ {ds is : List Nat}, Valid ds is → place ds is < count ds := by
  intro ds
  induction ds with
  | nil => intro is h; cases is with
    | nil => simp [place, count]
    | cons => simp [Valid] at h
  | cons d ds ih =>
    intro is h
    cases is with
    | nil => simp [Valid] at h
    | cons i is =>
      obtain ⟨h1, h2⟩ := h
      have := ih h2
      simp only [place, count]
      calc i + d * place ds is < d + d * place ds is := by omega
        _ = d * (place ds is + 1) := by rw [Nat.mul_add]; omega
        _ ≤ d * count ds := Nat.mul_le_mul_left _ this

/-- Elements have places of their own. -/
theorem place_inj : ∀ {ds is js : List Nat}, Valid ds is → Valid ds js → place ds is = place ds js → is = js := by
  intro ds
  induction ds with
  | nil =>
    intro is js h1 h2 _
    cases is <;> cases js <;> simp [Valid] at h1 h2 ⊢
  | cons d ds ih =>
    intro is js h1 h2 h
    cases is with
    | nil => simp [Valid] at h1
    | cons i is =>
      cases js with
      | nil => simp [Valid] at h2
      | cons j js =>
        simp only [place] at h
        have e1 : (i + d * place ds is) % d = i := by rw [Nat.add_mul_mod_self_left, Nat.mod_eq_of_lt h1.1]
        have e2 : (j + d * place ds js) % d = j := by rw [Nat.add_mul_mod_self_left, Nat.mod_eq_of_lt h2.1]
        have e3 : i = j := by rw [← e1, ← e2, h]
        subst e3
        have hd : 0 < d := by have := h1.1; omega
        have : place ds is = place ds js := Nat.eq_of_mul_eq_mul_left hd (by omega)
        rw [ih h1.2 h2.2 this]

/-- The last element. -/
theorem last_valid : ∀ {ds : List Nat}, (∀ d ∈ ds, 0 < d) → Valid ds (ds.map (· - 1)) ∧ place ds (ds.map (· - 1)) + 1 = count ds := by
  intro ds
  induction ds with
  | nil => intro _; simp [Valid, place, count]
  | cons d ds ih =>
    intro h
    obtain ⟨h1, h2⟩ := ih fun x hx => h x (by simp [hx])
    have hd := h d (by simp)
    refine ⟨⟨by simp only; omega, h1⟩, ?_⟩
    simp only [List.map_cons, place, count]
    rw [← h2, Nat.mul_add]; omega

theorem covered_iff {sz n : Nat} {ds : List Nat} (hz : 0 < sz) (hp : ∀ d ∈ ds, 0 < d) : Covered sz n ds ↔ sz * count ds ≤ n := by
  constructor
  · intro h
    obtain ⟨h1, h2⟩ := last_valid hp
    have := h _ h1 (sz * place ds (ds.map (· - 1)) + sz - 1) ⟨by omega, by omega⟩
    rw [← h2, Nat.mul_add]; omega
  · intro h idx hi b hb
    have h1 := place_lt hi
    have h2 : sz * (place ds idx + 1) ≤ sz * count ds := Nat.mul_le_mul_left _ h1
    rw [Nat.mul_add] at h2
    have := hb.2
    omega

/-! ## C69 -/

/-- C69.  An array that Fortran asks for, with any number of positive extents: the block asked for covers
every element exactly if the array has less than 2^64 bytes. -/
theorem fortran_array_iff_partial {sz : Nat} {dims : List Nat} (hz : 0 < sz) (hp : ∀ d ∈ dims, 0 < d) :
    Covered sz (fortranBytes sz (ints dims)) dims ↔ sz * count dims < 2 ^ 64 := by
  rw [covered_iff hz hp, fortranBytes_eq]
  constructor
  · intro h
    have := Nat.mod_lt (sz * count dims) (show 0 < 2 ^ 64 by decide)
    omega
  · intro h
    rw [Nat.mod_eq_of_lt h]; exact Nat.le_refl _

/-- Different elements share no byte. -/
theorem array_elements_disjoint {sz : Nat} {dims i j : List Nat} (hi : Valid dims i) (hj : Valid dims j) (hne : i ≠ j) :
    ∀ b, ¬(Bytes sz dims i b ∧ Bytes sz dims j b) := by
  rintro b ⟨⟨h1, h2⟩, h3, h4⟩
  have h : place dims i ≠ place dims j := fun h => hne (place_inj hi hj h)
  rcases Nat.lt_or_gt_of_ne h with h | h
  · have : sz * (place dims i + 1) ≤ sz * place dims j := Nat.mul_le_mul_left _ h
    rw [Nat.mul_add] at this; omega
  · have : sz * (place dims j + 1) ≤ sz * place dims i := Nat.mul_le_mul_left _ h
    rw [Nat.mul_add] at this; omega

/-- Arrays with one dimension are always covered: extents are default integers, elements have at most 8 bytes. -/
theorem fortran_1d {sz d : Nat} (hz : 0 < sz) (hz8 : sz ≤ 8) (hd : 0 < d) (hd31 : d < 2 ^ 31) : Covered sz (fortranBytes sz [(d : Int)]) [d] := by
  refine (fortran_array_iff_partial hz (dims := [d]) (by simpa using hd)).2 ?_
  simp only [count, Nat.mul_one]
  calc sz * d ≤ 8 * d := Nat.mul_le_mul_right _ hz8
    _ < 2 ^ 64 := by
      have : (2 : Nat) ^ 31 = 2147483648 := rfl
      have : (2 : Nat) ^ 64 = 18446744073709551616 := rfl
      omega

/-- An extent of zero asks for nothing, whatever the others are. -/
theorem fortran_zero {sz : Nat} {dims : List Nat} (h : 0 ∈ dims) : fortranBytes sz (ints dims) = 0 := by
  have : count dims = 0 := by
    induction dims with
    | nil => simp at h
    | cons d l ih =>
      rcases List.mem_cons.1 h with rfl | h
      · simp [count]
      · simp [count, ih h]
  rw [fortranBytes_eq, this]; simp

/-- C69 is false for arrays of 2^64 bytes and more: four extents of 65536 ask for no byte at all. -/
theorem fortran_overflow_counterexample : ∃ dims : List Nat, (∀ d ∈ dims, 0 < d ∧ d < 2 ^ 31) ∧ fortranBytes 8 (ints dims) = 0 ∧
    ¬Covered 8 (fortranBytes 8 (ints dims)) dims := by
  refine ⟨[65536, 65536, 65536, 65536], by decide, by decide +kernel, ?_⟩
  rw [fortran_array_iff_partial (by decide) (by decide)]; decide

/-- A negative extent is an empty array in Fortran, but asks for almost all memory; two of them
ask for the memory of an array that has elements. -/
theorem fortran_negative_counterexample : fortranBytes 4 [-1] = 2 ^ 64 - 4 ∧ fortranBytes 4 [-2, -3] = 24 := by decide +kernel

/-- C69 for `TypedAllocator`: the block covers `n` elements exactly if they have less than 2^64 bytes. -/
theorem typed_iff_partial {sz n : Nat} (hz : 0 < sz) (hn : 0 < n) : Covered sz (typedBytes sz n) [n] ↔ sz * n < 2 ^ 64 := by
  have := fortran_array_iff_partial hz (dims := [n]) (by simpa using hn)
  rw [fortranBytes_eq sz [n]] at this
  simpa [typedBytes, count] using this

/-- The containers of the standard library stay below `PTRDIFF_MAX / sizeof(T)` elements, so they are safe. -/
theorem typed_container {sz n : Nat} (hz : 0 < sz) (hn : 0 < n) (hmax : n ≤ (2 ^ 63 - 1) / sz) : Covered sz (typedBytes sz n) [n] := by
  rw [typed_iff_partial hz hn]
  have := Nat.mul_le_mul_left sz hmax
  have := Nat.mul_div_le (2 ^ 63 - 1) sz
  omega

theorem typed_overflow_counterexample : typedBytes 8 (2 ^ 61) = 0 ∧ ¬Covered 8 (typedBytes 8 (2 ^ 61)) [2 ^ 61] := by
  refine ⟨by decide, ?_⟩
  rw [typed_iff_partial (by decide) (by decide)]; decide

example : Covered 8 (fortranBytes 8 [100, 200, 3, 7]) [100, 200, 3, 7] ∧ fortranBytes 8 [100, 200, 3, 7] = 3360000 ∧
    place [100, 200, 3, 7] [99, 0, 2, 0] = 40099 :=
  ⟨(fortran_array_iff_partial (sz := 8) (dims := [100, 200, 3, 7]) (by decide) (by decide)).2 (by decide), by decide +kernel, by decide⟩

/-! ## C70: names -/

theorem fromFortran_eq (s : Str) : ∃ k, s = fromFortran s ++ List.replicate k 32 := by
  refine ⟨(s.reverse.takeWhile (· == 32)).length, ?_⟩
  have h := List.takeWhile_append_dropWhile (p := (· == 32)) (l := s.reverse)
  have h1 : s = (s.reverse.dropWhile (· == 32)).reverse ++ (s.reverse.takeWhile (· == 32)).reverse := by
    rw [← List.reverse_append, h, List.reverse_reverse]
  have h2 : fromFortran s = (s.reverse.dropWhile (· == 32)).reverse := by
    unfold fromFortran lenTrim
    conv => lhs; arg 2; rw [h1]
    rw [List.take_append_of_le_length (by simp)]
    rw [List.take_of_length_le (by simp)]
  have h3 : (s.reverse.takeWhile (· == 32)).reverse = List.replicate (s.reverse.takeWhile (· == 32)).length 32 := by
    rw [List.eq_replicate_iff]
    refine ⟨by simp, fun b hb => ?_⟩
    have := List.all_takeWhile (p := (· == 32)) (l := s.reverse)
    rw [List.all_eq_true] at this
    simpa using this b (by simpa using hb)
  rw [h2, ← h3]; exact h1

/-- What Fortran hands over ends in no blank. -/
theorem fromFortran_last (s : Str) : ∀ x t, fromFortran s = t ++ [x] → x ≠ 32 := by
  intro x t h
  have h2 : fromFortran s = (s.reverse.dropWhile (· == 32)).reverse := by
    have h := List.takeWhile_append_dropWhile (p := (· == 32)) (l := s.reverse)
    have h1 : s = (s.reverse.dropWhile (· == 32)).reverse ++ (s.reverse.takeWhile (· == 32)).reverse := by
      rw [← List.reverse_append, h, List.reverse_reverse]
    unfold fromFortran lenTrim
    conv => lhs; arg 2; rw [h1]
    rw [List.take_append_of_le_length (by simp), List.take_of_length_le (by simp)]
  rw [h2] at h
  have h3 : s.reverse.dropWhile (· == 32) = x :: t.reverse := by
    have := congrArg List.reverse h
    simpa using this
  have := List.head?_dropWhile_not (p := (· == 32)) (l := s.reverse)
  rw [h3] at this
  simpa using this

/-- C70: however many blanks Fortran pads a name with, the library gets the name without them. -/
theorem fortran_name_padded {s : Str} (h : ∀ x t, s = t ++ [x] → x ≠ 32) (k : Nat) : fromFortran (s ++ List.replicate k 32) = s := by
  have h1 : (s ++ List.replicate k 32).reverse.dropWhile (· == 32) = s.reverse := by
    rw [List.reverse_append, List.reverse_replicate]
    induction k with
    | zero =>
      cases hr : s.reverse with
      | nil => rfl
      | cons x t =>
        have hs : s = t.reverse ++ [x] := by
          have := congrArg List.reverse hr
          simpa using this
        have := h x _ hs
        simp [List.dropWhile_cons, this]
    | succ k ih => rw [List.replicate_succ]; simpa using ih
  unfold fromFortran lenTrim
  rw [h1, List.length_reverse, List.take_append_of_le_length (Nat.le_refl _), List.take_length]

theorem takeWhile_all {α : Type} {p : α → Bool} : ∀ {l : List α}, (∀ a ∈ l, p a = true) → l.takeWhile p = l := by
  intro l
  induction l with
  | nil => intro _; rfl
  | cons a l ih =>
    intro h
    rw [List.takeWhile_cons, if_pos (h a (by simp)), ih fun b hb => h b (by simp [hb])]

/-- C70: a name comes back to C as the library has it exactly if it has no zero byte, and to Fortran exactly
if it has none but at its end. -/
theorem name_back_iff_partial (s : Str) : (toC s = s ↔ 0 ∉ s) ∧ (toFortran s = s ↔ ∃ t k, 0 ∉ t ∧ s = t ++ List.replicate k 0) := by
  have hno : ∀ l : Str, 0 ∉ l.takeWhile (· != 0) := by
    intro l h0
    have := List.all_takeWhile (p := (· != 0)) (l := l)
    rw [List.all_eq_true] at this
    simpa using this 0 h0
  refine ⟨?_, ?_⟩
  · unfold toC
    constructor
    · intro h; rw [← h]; exact hno s
    · intro h
      exact takeWhile_all fun a ha => by
        simp only [bne_iff_ne, ne_eq]; rintro rfl; exact h ha
  · unfold toFortran strncpy
    simp only [List.take_length]
    constructor
    · intro h; exact ⟨_, _, hno s, h.symm⟩
    · rintro ⟨t, k, ht, rfl⟩
      have : (t ++ List.replicate k 0).takeWhile (· != 0) = t := by
        rw [List.takeWhile_append_of_pos (fun a ha => by simp only [bne_iff_ne, ne_eq]; rintro rfl; exact ht ha)]
        cases k <;> simp [List.replicate_succ]
      rw [this]; simp

/-- C70: a name that Fortran gives to an allocator comes back as it was given, up to blanks at the end. -/
theorem fortran_roundtrip {s : Str} (h : 0 ∉ s) : ∃ k, s = toFortran (fromFortran s) ++ List.replicate k 32 := by
  obtain ⟨k, hk⟩ := fromFortran_eq s
  refine ⟨k, ?_⟩
  have : toFortran (fromFortran s) = fromFortran s :=
    (name_back_iff_partial _).2.2 ⟨fromFortran s, 0, fun h0 => h (by rw [hk]; simp [h0]), by simp⟩
  rw [this]; exact hk

/-- C70 is false for names that end in a blank: no text that Fortran hands over gives them. -/
theorem fortran_blank_counterexample (t : Str) : ∀ s, fromFortran s ≠ t ++ [32] := fun s h => fromFortran_last s 32 t h rfl

/-- C70 is false for names with a zero byte: a C program gets a shorter name, and no C program can ask for the full one. -/
theorem c_zero_counterexample {t : Str} (h : 0 ∈ t) : toC t ≠ t ∧ ∀ s, fromC s ≠ t := by
  refine ⟨fun h' => (name_back_iff_partial t).1.1 h' h, fun s hs => ?_⟩
  have := List.all_takeWhile (p := (· != 0)) (l := s)
  rw [List.all_eq_true] at this
  unfold fromC at hs
  rw [hs] at this
  simpa using this 0 h

/-! ## C70: handles -/

/-- What the heap and the variables are for what the program knows. -/
structure Agrees (s : S) (h : H) : Prop where
  objs : h.objs = s.calls.map fun x => if x.2 then some x.1 else none
  vars : ∀ v, match s.holds v with
    | none => h.var v = none
    | some none => ∃ k, h.var v = some ⟨0, k⟩
    | some (some g) => h.var v = some ⟨g + 1, 1⟩ ∧ ∃ a b, s.calls[g]? = some (some a, b)

theorem var_assign (h : H) (v w : Nat) (c : Capsule) : (h.assign v c).var w = if w = v then some c else h.var w := by
  unfold H.var H.assign
  simp only [List.findSome?_cons]
  by_cases e : v = w
  · subst e; simp
  · have : ¬w = v := fun h => e h.symm
    simp [e, this]

theorem agrees_assign {s : S} {h : H} (ha : Agrees s h) {v : Nat} {x : Option Nat} {c : Capsule}
    (hx : match x with | none => c.addr = 0 | some g => c = ⟨g + 1, 1⟩ ∧ ∃ a b, s.calls[g]? = some (some a, b)) :
    Agrees (s.set v x) (h.assign v c) where
  objs := ha.objs
  vars := by
    intro w
    rw [var_assign]
    unfold S.set
    simp only
    by_cases e : w = v
    · simp only [e, if_true]
      cases x with
      | none =>
        obtain ⟨p, k⟩ := c
        have hp : p = 0 := hx
        subst hp
        exact ⟨k, rfl⟩
      | some g => exact ⟨by rw [hx.1], hx.2⟩
    · simp only [e, if_false]; exact ha.vars w

theorem agrees_more {s : S} {h : H} (ha : Agrees s h) (r : Option Nat) :
    Agrees { s with calls := s.calls ++ [(r, true)] } { h with objs := h.objs ++ [some r] } where
  objs := by simp [ha.objs]
  vars := by
    intro v
    have := ha.vars v
    show match s.holds v with | none => _ | some none => _ | some (some g) => _
    cases hv : s.holds v with
    | none => rw [hv] at this; exact this
    | some x =>
      rw [hv] at this
      cases x with
      | none => exact this
      | some g =>
        obtain ⟨h1, a, b, h2⟩ := this
        refine ⟨h1, a, b, ?_⟩
        simp only
        rw [List.getElem?_append_left (List.getElem?_eq_some_iff.1 h2).1]; exact h2

theorem agrees_dead {s : S} {h : H} (ha : Agrees s h) {g : Nat} {r : Option Nat} (hg : s.calls[g]? = some (r, true)) :
    del h (g + 1) = some { h with objs := h.objs.set g none } ∧ Agrees { s with calls := s.calls.set g (r, false) } { h with objs := h.objs.set g none } := by
  have ho : h.obj (g + 1) = some r := by
    unfold H.obj
    rw [if_neg (by omega), Nat.add_sub_cancel, ha.objs, List.getElem?_map, hg]; rfl
  refine ⟨?_, ?_, ?_⟩
  · unfold del
    rw [if_neg (by omega), ho]; rfl
  · simp only
    rw [ha.objs, List.map_set]; rfl
  · intro v
    have := ha.vars v
    show match s.holds v with | none => _ | some none => _ | some (some g) => _
    cases hv : s.holds v with
    | none => rw [hv] at this; exact this
    | some x =>
      rw [hv] at this
      cases x with
      | none => exact this
      | some g' =>
        obtain ⟨h1, a, b, h2⟩ := this
        refine ⟨h1, ?_⟩
        simp only
        by_cases e : g = g'
        · subst e
          rw [hg] at h2
          simp only [Option.some.injEq, Prod.mk.injEq] at h2
          refine ⟨a, false, ?_⟩
          rw [List.getElem?_set_self (List.getElem?_eq_some_iff.1 hg).1, h2.1]
        · exact ⟨a, b, by rw [List.getElem?_set_ne e]; exact h2⟩

/-- One operation: proper use is defined and acts on the right allocator; misuse is undefined. -/
theorem handle_step {s : S} {h : H} (ha : Agrees s h) (x : HOp) :
    match s.step x with
    | some (s', none) => ∃ h', (x.run h = .ok h' ∨ x.run h = .throws h') ∧ Agrees s' h'
    | some (s', some a) => x.run h = .on (some a) ∧ s' = s
    | none => x.run h = .ub := by
  have undel : ∀ g a, s.calls[g]? = some (some a, false) → del h (g + 1) = none := by
    intro g a hg
    unfold del H.obj
    rw [if_neg (by omega), if_neg (by omega), Nat.add_sub_cancel, ha.objs, List.getElem?_map, hg]; rfl
  cases x with
  | get v r =>
    cases r with
    | none => exact ⟨_, .inr rfl, agrees_more ha none⟩
    | some a =>
      refine ⟨_, .inl rfl, agrees_assign (agrees_more ha (some a)) ⟨?_, a, true, ?_⟩⟩
      · rw [ha.objs, List.length_map]
      · simp
  | copy v w =>
    have hw := ha.vars w
    unfold S.step HOp.run copyHandle
    cases hh : s.holds w with
    | none => rw [hh] at hw; simp only [hh, hw]
    | some y =>
      rw [hh] at hw
      cases y with
      | none => obtain ⟨k, hk⟩ := hw; simp only [hh, hk]; exact ⟨_, .inl rfl, agrees_assign ha rfl⟩
      | some g => simp only [hh, hw.1]; exact ⟨_, .inl rfl, agrees_assign ha ⟨rfl, hw.2⟩⟩
  | use v =>
    have hw := ha.vars v
    unfold S.step HOp.run useHandle
    cases hh : s.holds v with
    | none => rw [hh] at hw; simp only [hh, hw]
    | some y =>
      rw [hh] at hw
      cases y with
      | none => obtain ⟨k, hk⟩ := hw; simp only [hh, hk]; rfl
      | some g =>
        obtain ⟨h1, a, b, h2⟩ := hw
        have ho : h.obj (g + 1) = if b then some (some a) else none := by
          unfold H.obj
          rw [if_neg (by omega), Nat.add_sub_cancel, ha.objs, List.getElem?_map, h2]; cases b <;> rfl
        simp only [hh, h1, h2, ho]
        cases b <;> simp
  | delete v =>
    have hw := ha.vars v
    unfold S.step HOp.run deleteHandle
    cases hh : s.holds v with
    | none => rw [hh] at hw; simp only [hh, hw]
    | some y =>
      rw [hh] at hw
      cases y with
      | none => obtain ⟨k, hk⟩ := hw; simp only [hh, hk, del, if_true]; exact ⟨_, .inl rfl, agrees_assign ha rfl⟩
      | some g =>
        obtain ⟨h1, a, b, h2⟩ := hw
        cases b with
        | true =>
          obtain ⟨d1, d2⟩ := agrees_dead ha h2
          simp only [hh, h1, h2, d1]
          exact ⟨_, .inl rfl, agrees_assign d2 rfl⟩
        | false => simp only [hh, h1, h2, undel g a h2]
  | destroy v =>
    have hw := ha.vars v
    unfold S.step HOp.run destroyHandle
    cases hh : s.holds v with
    | none => rw [hh] at hw; simp only [hh, hw]
    | some y =>
      rw [hh] at hw
      cases y with
      | none =>
        obtain ⟨k, hk⟩ := hw
        simp only [hh, hk, del, if_true]
        by_cases e : k = 1
        · simp only [e, if_true]; exact ⟨_, .inl rfl, agrees_assign ha rfl⟩
        · simp only [e, if_false]; exact ⟨_, .inl rfl, agrees_assign ha rfl⟩
      | some g =>
        obtain ⟨h1, a, b, h2⟩ := hw
        cases b with
        | true =>
          obtain ⟨d1, d2⟩ := agrees_dead ha h2
          simp only [hh, h1, h2, d1, if_true]
          exact ⟨_, .inl rfl, agrees_assign d2 rfl⟩
        | false => simp only [hh, h1, h2, undel g a h2, if_true]

theorem runAll_append : ∀ {l m : List HOp} {h h' : H} {as : List Nat}, runAll h l = some (h', as) →
    runAll h (l ++ m) = (runAll h' m).map fun y => (y.1, as ++ y.2) := by
  intro l
  induction l with
  | nil => intro m h h' as e; simp only [runAll, Option.some.injEq, Prod.mk.injEq] at e; rw [← e.1, ← e.2]; cases hr : runAll h m <;> simp [hr]
  | cons x l ih =>
    intro m h h' as e
    simp only [List.cons_append, runAll] at e ⊢
    split
    · rename_i h1 hx; rw [hx] at e; exact ih e
    · rename_i h1 hx; rw [hx] at e; exact ih e
    · rename_i a hx
      rw [hx] at e
      simp only [Option.map_eq_some_iff] at e
      obtain ⟨⟨h2, bs⟩, e1, e2⟩ := e
      simp only [Prod.mk.injEq] at e2
      rw [ih e1, ← e2.1, ← e2.2]
      cases runAll h2 m <;> simp
    · rename_i hx; rw [hx] at e; simp at e
    · rename_i hx; rw [hx] at e; simp at e

/-- C70: a program that uses handles properly meets no undefined behaviour, and each of its uses acts on the allocator
that the handle was obtained for.  What is left on the heap is one object for every handle not yet given back and one for
every call that threw. -/
theorem handles_partial {l : List HOp} {s : S} {as : List Nat} (hp : Proper l s as) :
    ∃ h, runAll ⟨[], []⟩ l = some (h, as) ∧ Agrees s h ∧
      (h.objs.filter Option.isSome).length = (s.calls.filter fun x => x.2).length := by
  have main : ∃ h, runAll ⟨[], []⟩ l = some (h, as) ∧ Agrees s h := by
    induction hp with
    | nil => exact ⟨_, rfl, rfl, fun v => rfl⟩
    | @silent l s s' as x _ hs ih =>
      obtain ⟨h, h1, h2⟩ := ih
      have := handle_step h2 x
      rw [hs] at this
      obtain ⟨h', hx, hr⟩ := this
      refine ⟨h', ?_, hr⟩
      rw [runAll_append h1]
      rcases hx with hx | hx <;> simp [runAll, hx]
    | @acts l s s' as x a _ hs ih =>
      obtain ⟨h, h1, h2⟩ := ih
      have := handle_step h2 x
      rw [hs] at this
      refine ⟨h, ?_, by rw [this.2]; exact h2⟩
      rw [runAll_append h1]
      simp [runAll, this.1]
  obtain ⟨h, h1, h2⟩ := main
  refine ⟨h, h1, h2, ?_⟩
  rw [h2.objs, List.filter_map, List.length_map]
  congr 1
  apply List.filter_congr
  intro x _
  cases hx : x.2 <;> simp [hx]

/-- C70: misuse is undefined: after any proper program, using or giving back a handle whose object is gone (also
through another copy of it). -/
theorem handles_misuse {l : List HOp} {s : S} {as : List Nat} (hp : Proper l s as) {x : HOp} (hx : s.step x = none) :
    runAll ⟨[], []⟩ (l ++ [x]) = none := by
  obtain ⟨h, h1, h2, _⟩ := handles_partial hp
  have := handle_step h2 x
  rw [hx] at this
  rw [runAll_append h1]
  simp [runAll, this]

/-- A call that throws. -/
def Throws : HOp → Bool
  | .get _ none => true
  | _ => false

/-- The object of a call that threw. -/
def lost (x : Option Nat × Bool) : Bool := x.1.isNone && x.2

theorem filter_set {α : Type} (p : α → Bool) (b : α) : ∀ {l : List α} {i : Nat} {a : α}, l[i]? = some a → p a = p b →
    ((l.set i b).filter p).length = (l.filter p).length := by
  intro l
  induction l with
  | nil => intro i a h; simp at h
  | cons x l ih =>
    intro i a h e
    cases i with
    | zero =>
      simp only [List.getElem?_cons_zero, Option.some.injEq] at h
      subst h
      simp only [List.set_cons_zero, List.filter_cons, e]
      split <;> simp
    | succ i =>
      simp only [List.getElem?_cons_succ] at h
      simp only [List.set_cons_succ, List.filter_cons]
      split <;> simp [ih h e]

theorem lost_count {l : List HOp} {s : S} {as : List Nat} (hp : Proper l s as) : (l.filter Throws).length = (s.calls.filter lost).length := by
  induction hp with
  | nil => rfl
  | @acts l s s' as x a hp hs ih =>
    obtain ⟨h, _, h2, _⟩ := handles_partial hp
    have h3 := handle_step h2 x
    rw [hs] at h3
    have hx : Throws x = false := by
      cases x with
      | get v r => cases r <;> simp [S.step] at hs
      | _ => rfl
    simp [List.filter_append, hx, ih, h3.2]
  | @silent l s s' as x hp hs ih =>
    obtain ⟨h, _, h2, _⟩ := handles_partial hp
    have dead : ∀ v, Throws x = false → (match s.holds v with
        | none => none
        | some none => some (s.set v none, none)
        | some (some g) =>
          match s.calls[g]? with
          | some (r, true) => some ({ s with calls := s.calls.set g (r, false) }.set v none, none)
          | _ => none) = some (s', (none : Option Nat)) → ((l ++ [x]).filter Throws).length = (s'.calls.filter lost).length := by
      intro v hx hs
      have hv := h2.vars v
      rw [List.filter_append, List.filter_cons, hx]
      simp only [Bool.false_eq_true, if_false, List.filter_nil, List.append_nil]
      cases hh : s.holds v with
      | none => simp [hh] at hs
      | some y =>
        cases y with
        | none => simp only [hh, Option.some.injEq, Prod.mk.injEq, and_true] at hs; rw [← hs]; exact ih
        | some g =>
          simp only [hh] at hs hv
          obtain ⟨_, a, b, hc⟩ := hv
          cases b with
          | false => simp [hc] at hs
          | true =>
            simp only [hc, Option.some.injEq, Prod.mk.injEq, and_true] at hs
            rw [← hs, ih]
            exact (filter_set lost (some a, false) hc rfl).symm
    cases x with
    | get v r =>
      cases r with
      | none =>
        simp only [S.step, Option.some.injEq, Prod.mk.injEq, and_true] at hs
        rw [← hs]; simp [List.filter_append, lost, ih]; rfl
      | some a =>
        simp only [S.step, Option.some.injEq, Prod.mk.injEq, and_true] at hs
        rw [← hs]; simp [List.filter_append, Throws, lost, ih, S.set]
    | copy v w =>
      simp only [S.step] at hs
      cases hh : s.holds w with
      | none => simp [hh] at hs
      | some y =>
        simp only [hh, Option.some.injEq, Prod.mk.injEq, and_true] at hs
        rw [← hs]; simp [List.filter_append, Throws, ih, S.set]
    | delete v => exact dead v rfl hs
    | destroy v => exact dead v rfl hs
    | use v =>
      simp only [S.step] at hs
      cases hh : s.holds v with
      | none => simp [hh] at hs
      | some y =>
        cases y with
        | none => simp [hh] at hs
        | some g =>
          simp only [hh] at hs
          split at hs <;> simp at hs

/-- C70 is false when a call fails: whatever a program gives back, every `get` or `make` that threw has left an object
that is never deleted. -/
theorem handle_leak_counterexample {l : List HOp} {s : S} {as : List Nat} (hp : Proper l s as) :
    ∃ h, runAll ⟨[], []⟩ l = some (h, as) ∧ (l.filter Throws).length ≤ (h.objs.filter Option.isSome).length := by
  obtain ⟨h, h1, _, h3⟩ := handles_partial hp
  refine ⟨h, h1, ?_⟩
  rw [h3, lost_count hp]
  have : ∀ c : List (Option Nat × Bool), (c.filter lost).length ≤ (c.filter fun x => x.2).length := by
    intro c
    induction c with
    | nil => simp
    | cons x c ih =>
      obtain ⟨r, b⟩ := x
      cases b <;> cases r <;> simp [List.filter_cons, lost] <;> omega
  exact this _

example : ∃ s, Proper [.get 0 (some 7), .copy 1 0, .get 2 none, .get 2 (some 9), .use 1, .use 2, .delete 0] s [7, 9] ∧ s.step (.use 1) = none ∧
    s.step (.delete 1) = none ∧ s.step (.delete 0) ≠ none := by
  refine ⟨_, .silent (.acts (.acts (.silent (.silent (.silent (.silent .nil rfl) rfl) rfl) rfl) rfl) rfl) rfl, rfl, rfl, ?_⟩
  simp [S.step, S.set]

/-! ## C70: copies -/

open Umpire.Mgr in
/-- C70 is false for copies: `umpire_resourcemanager_copy_all` and `_copy_with_size` write to what they call the source.
Here for two allocations: the bytes at the second argument, the "destination", are not changed, and the first argument,
the "source", is overwritten by them. -/
theorem c_copy_counterexample {Pl : Nat → Nat → Prop} {B : Nat → Prop} {c : Cfg} {rm : RM} {w : World} {t : List Ev}
    (ha : Aligned Pl B) (hh : Hist Pl c t rm w) {rs rd : Judy.Rec} {n : Nat} (hrs : rs ∈ liveOf c t)
    (hrd : rd ∈ liveOf c t) (hfs : Findable B rs rs.ptr) (hfd : Findable B rd rd.ptr) (hn : 0 < n) (hs : n ≤ rs.size) (hd : n ≤ rd.size)
    (hdis : Disj rs.ptr n rd.ptr n) :
    Sure Pl (cCopy rs.ptr rd.ptr n) rm w fun o _ w' => o = some () ∧
      (∀ i, i < n → w'.mem (rs.ptr + i) = w.mem (rd.ptr + i)) ∧ (∀ i, i < n → w'.mem (rd.ptr + i) = w.mem (rd.ptr + i)) := by
  have hl : copyLen rd rd.ptr n = n := by unfold copyLen; rw [if_neg (by omega)]
  have := copy_partial ha hh (rs := rd) (rd := rs) (d := rs.ptr) (s := rd.ptr) (n := n) hrd hrs hfd hfs (by rw [hl]; omega) (by rw [hl]; exact .inr hdis)
  refine ⟨this.1, fun o rm' w' hr => ?_⟩
  obtain ⟨_, _, h1, _⟩ := this.2 o rm' w' hr
  rw [hl] at h1
  obtain ⟨h2, h3⟩ := h1 (by omega)
  refine ⟨h2, fun i hi => ?_, fun i hi => ?_⟩
  · rw [h3, if_pos (by omega), Nat.add_sub_cancel_left]
  · rw [h3, if_neg]
    unfold Disj at hdis
    omega

open Umpire.Mgr in
example : ∃ x : St, Hist (fun s p => anyPl s p = true) cfg x.t x.rm x.w ∧
    Sure (fun s p => anyPl s p = true) (cCopy 4096 8192 16) x.rm x.w fun o _ w' => o = some () ∧ w'.mem 4096 = 7 ∧ w'.mem 8192 = 7 ∧ x.w.mem 4096 = 9 := by
  obtain ⟨x, h1, h2⟩ := told_hist (f := fun x => (liveOf cfg x.t, x.w.mem 4096, x.w.mem 8192)) (pl := anyPl) (c := cfg)
    (ks := [(.alloc 3 16, [some 4096]), (.memset 4096 9 0, []), (.alloc 3 24, [some 8192]), (.memset 8192 7 0, [])])
    (a := ([⟨8192, 24, 3⟩, ⟨4096, 16, 3⟩], 9, 7)) (by decide +kernel)
  have hl : liveOf cfg x.t = [⟨8192, 24, 3⟩, ⟨4096, 16, 3⟩] := (Prod.ext_iff.1 h2).1
  have hm := Prod.ext_iff.1 (Prod.ext_iff.1 h2).2
  refine ⟨x, h1, ?_⟩
  have := c_copy_counterexample (aligned_none _) h1 (rs := ⟨4096, 16, 3⟩) (rd := ⟨8192, 24, 3⟩) (n := 16) (by rw [hl]; simp) (by rw [hl]; simp)
    ⟨by simp [Judy.Contains], .inl rfl⟩ ⟨by simp [Judy.Contains], .inl rfl⟩ (by decide) (by decide) (by decide) (by unfold Disj; decide)
  refine ⟨this.1, fun o rm' w' hr => ?_⟩
  obtain ⟨g1, g2, g3⟩ := this.2 o rm' w' hr
  refine ⟨g1, ?_, ?_, hm.1⟩
  · have := g2 0 (by decide); simp only [Nat.add_zero] at this; rw [this]; exact hm.2
  · have := g3 0 (by decide); simp only [Nat.add_zero] at this; rw [this]; exact hm.2

end Umpire.Bind
