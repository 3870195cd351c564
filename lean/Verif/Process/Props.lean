import Verif.Process.Model
/-!
# What is reported about the memory of the process and of its devices (C84)
-/
set_option autoImplicit false
set_option linter.unusedSimpArgs false
namespace Umpire.Process

/-! ## Specification: the text of the kernel -/

/-- White space: blanks, and the control characters 9 to 13. -/
def White (c : Char) : Prop := c.toNat = 32 ∨ 9 ≤ c.toNat ∧ c.toNat ≤ 13
/-- White space only. -/
def Blank (l : List Char) : Prop := ∀ c ∈ l, White c
/-- A line whose first word is `key`. -/
def Starts (key l : List Char) : Prop :=
  ∃ sp rest, Blank sp ∧ l = sp ++ key ++ rest ∧ (rest = [] ∨ ∃ c t, rest = c :: t ∧ White c)
/-- No line break. -/
def OneLine (l : List Char) : Prop := '\n' ∉ l
/-- Lines, each with its line break. -/
def unlines (ls : List (List Char)) : List Char := (ls.map (· ++ ['\n'])).flatten
/-- The end of a line: the end of the file, or a line break and anything. -/
def LineEnd (t : List Char) : Prop := t = [] ∨ ∃ u, t = '\n' :: u
/-- `n` in decimal. -/
def dec (n : Nat) : List Char := Nat.toDigits 10 n
/-- Does not begin with a digit. -/
def NoDigit (l : List Char) : Prop := ∀ c t, l = c :: t → c.isDigit = false
/-- How the kernel prints the name of a process (`proc_task_name`): line breaks and backslashes are escaped. -/
def escape : List Char → List Char
  | [] => []
  | c :: l => (if c = '\n' then ['\\', 'n'] else if c = '\\' then ['\\', '\\'] else [c]) ++ escape l

def vmHWM : List Char := "VmHWM:".toList

/-! ## Lemmas -/

theorem white_iff {c : Char} : White c ↔ isSpace c = true := by
  have char : ∀ d : Char, c = d ↔ c.toNat = d.toNat := fun d => ⟨fun h => by rw [h], fun h => Char.toNat_inj.1 h⟩
  unfold White isSpace
  simp only [Bool.or_eq_true, decide_eq_true_eq, char]
  have e1 : (' ').toNat = 32 := rfl
  have e2 : ('\t').toNat = 9 := rfl
  have e3 : ('\n').toNat = 10 := rfl
  have e4 : ('\x0b').toNat = 11 := rfl
  have e5 : ('\x0c').toNat = 12 := rfl
  have e6 : ('\r').toNat = 13 := rfl
  rw [e1, e2, e3, e4, e5, e6]
  omega

theorem Blank.sp {l : List Char} (h : Blank l) : ∀ c ∈ l, isSpace c = true := fun c hc => white_iff.1 (h c hc)

theorem takeWhile_append_stop {α : Type} {p : α → Bool} {a b : List α} (ha : ∀ x ∈ a, p x = true) (hb : ∀ x t, b = x :: t → p x = false) :
    (a ++ b).takeWhile p = a ∧ (a ++ b).dropWhile p = b := by
  induction a with
  | nil =>
    cases b with
    | nil => simp
    | cons x t => simp [List.takeWhile, List.dropWhile, hb x t rfl]
  | cons x a ih =>
    have := ih fun y hy => ha y (List.mem_cons_of_mem _ hy)
    simp [List.takeWhile, List.dropWhile, ha x (List.mem_cons_self ..), this]

theorem digit_not_space {c : Char} (h : c.isDigit = true) : isSpace c = false := by
  cases hs : isSpace c with
  | false => rfl
  | true =>
    simp only [isSpace, Bool.or_eq_true, decide_eq_true_eq] at hs
    rcases hs with ((((rfl | rfl) | rfl) | rfl) | rfl) | rfl <;> exact absurd h (by decide)

theorem dec_digits {n : Nat} {c : Char} (h : c ∈ dec n) : c.isDigit = true :=
  Nat.isDigit_of_mem_toDigits (by decide) (by decide) h

theorem dec_ne {n : Nat} : dec n ≠ [] := Nat.toDigits_ne_nil

theorem dec_cons (n : Nat) : ∃ c t, dec n = c :: t ∧ c.isDigit = true := by
  cases h : dec n with
  | nil => exact absurd h dec_ne
  | cons c t => exact ⟨c, t, rfl, dec_digits (n := n) (by rw [h]; exact List.mem_cons_self ..)⟩

theorem sentry_good {sp r : List Char} {c : Char} {t : List Char} (hs : Blank sp) (hr : r = c :: t) (hc : isSpace c = false) :
    sentry { rest := sp ++ r } = (true, { rest := r }) := by
  have := (takeWhile_append_stop (b := r) hs.sp (by intro x u h; rw [hr] at h; injection h with h1 _; rw [← h1]; exact hc)).2
  unfold sentry
  dsimp only
  rw [this, hr]
  rfl

theorem sentry_end {sp : List Char} (hs : Blank sp) : sentry { rest := sp } = (false, { rest := [], eof := true, fail := true }) := by
  have := (takeWhile_append_stop (b := []) hs.sp (by intro x u h; exact nomatch h)).2
  rw [List.append_nil] at this
  simp only [sentry, this]
  rfl

/-- Reading a number that is there. -/
theorem readSize_dec {sp r : List Char} {n : Nat} {v : Option Nat} (hs : Blank sp) (hr : NoDigit r) :
    readSize { rest := sp ++ (dec n ++ r) } v =
      if n < W then (some n, { rest := r, eof := r.isEmpty }) else (some (W - 1), { rest := r, eof := r.isEmpty, fail := true }) := by
  obtain ⟨c, t, hc, hd⟩ := dec_cons n
  have h1 := takeWhile_append_stop (p := Char.isDigit) (a := dec n) (b := r) (fun x hx => dec_digits hx) hr
  have h2 : dec n ++ r = c :: (t ++ r) := by rw [hc]; rfl
  unfold readSize
  rw [sentry_good hs h2 (digit_not_space hd)]
  have h3 : sign (dec n ++ r) = (false, dec n ++ r) := by
    rw [h2]
    unfold sign
    split
    · next h => injection h with h _; rw [h] at hd; exact absurd hd (by decide)
    · next h => injection h with h _; rw [h] at hd; exact absurd hd (by decide)
    · rfl
  dsimp only
  rw [h3]
  dsimp only
  rw [h1.1, h1.2]
  have h4 : (dec n).isEmpty = false := by rw [hc]; rfl
  have h5 : Nat.ofDigitChars 10 (dec n) 0 = n := Nat.ofDigitChars_ten_toDigits
  rw [h4, h5]
  rfl

theorem readWord_at {sp key rest : List Char} (hs : Blank sp) (hk : ∀ c ∈ key, isSpace c = false) (hk0 : key ≠ [])
    (hr : rest = [] ∨ ∃ c t, rest = c :: t ∧ isSpace c = true) :
    readWord { rest := sp ++ key ++ rest } [] = (key, { rest := rest, eof := rest.isEmpty }) := by
  obtain ⟨c, t, hc⟩ := List.exists_cons_of_ne_nil hk0
  have h2 : key ++ rest = c :: (t ++ rest) := by rw [hc]; rfl
  unfold readWord
  rw [List.append_assoc, sentry_good hs h2 (hk c (by rw [hc]; exact List.mem_cons_self ..))]
  have h1 := takeWhile_append_stop (p := fun c => !isSpace c) (a := key) (b := rest) (fun x hx => by simp [hk x hx]) (by
    rintro x u rfl
    rcases hr with h | ⟨c', t', h, h'⟩
    · exact nomatch h
    · injection h with h _; simp [h, h'])
  dsimp only
  rw [h1.1, h1.2]

theorem mem_takeWhile {α : Type} {p : α → Bool} {l : List α} {x : α} (h : x ∈ l.takeWhile p) : p x = true := by
  induction l with
  | nil => exact nomatch h
  | cons y l ih =>
    rw [List.takeWhile_cons] at h
    split at h
    · next hy =>
      rcases List.mem_cons.1 h with rfl | h
      · exact hy
      · exact ih h
    · exact nomatch h

theorem dropWhile_head {α : Type} {p : α → Bool} {l t : List α} {x : α} (h : l.dropWhile p = x :: t) : p x = false := by
  induction l with
  | nil => exact nomatch h
  | cons y l ih =>
    rw [List.dropWhile_cons] at h
    split at h
    · exact ih h
    · next hy => injection h with h _; rw [← h]; simpa using hy

/-- The word read is the key just when the line starts with it. -/
theorem readWord_key {key l : List Char} (hk : ∀ c ∈ key, isSpace c = false) (hk0 : key ≠ []) :
    (readWord { rest := l } []).1 = key ↔ Starts key l := by
  refine ⟨fun h => ?_, fun ⟨sp, rest, h1, h2, h3⟩ => by
    rw [h2, readWord_at h1 hk hk0 (h3.imp id fun ⟨c, t, a, b⟩ => ⟨c, t, a, white_iff.1 b⟩)]⟩
  unfold readWord sentry at h
  simp only [Bool.or_self, Bool.false_eq_true, if_false] at h
  cases hd : l.dropWhile isSpace with
  | nil => rw [hd] at h; exact absurd h.symm hk0
  | cons c r =>
    rw [hd] at h
    dsimp only at h
    refine ⟨l.takeWhile isSpace, (c :: r).dropWhile fun c => !isSpace c, fun x hx => white_iff.2 (mem_takeWhile hx), ?_, ?_⟩
    · rw [← h, List.append_assoc, List.takeWhile_append_dropWhile, ← hd, List.takeWhile_append_dropWhile]
    · cases hq : (c :: r).dropWhile fun c => !isSpace c with
      | nil => exact .inl rfl
      | cons x t => exact .inr ⟨x, t, rfl, white_iff.2 (by simpa using dropWhile_head hq)⟩

theorem getline_line {l t : List Char} (hl : OneLine l) : getline { rest := l ++ '\n' :: t } = some (l, { rest := t }) := by
  have h := takeWhile_append_stop (p := fun c => decide (c ≠ '\n')) (a := l) (b := '\n' :: t)
    (fun x hx => by simp only [decide_eq_true_eq]; rintro rfl; exact hl hx) (by intro x u h; injection h with h _; simp [← h])
  unfold getline
  have h0 : (l ++ '\n' :: t).isEmpty = false := by cases l <;> rfl
  simp only [h0, h.1, h.2, Bool.or_self, Bool.false_eq_true, if_false]

theorem getline_last {l : List Char} (hl : OneLine l) (h0 : l ≠ []) : getline { rest := l } = some (l, { rest := [], eof := true }) := by
  have h := takeWhile_append_stop (p := fun c => decide (c ≠ '\n')) (a := l) (b := [])
    (fun x hx => by simp only [decide_eq_true_eq]; rintro rfl; exact hl hx) (by intro x u h; exact nomatch h)
  rw [List.append_nil] at h
  unfold getline
  have h1 : l.isEmpty = false := by cases l with | nil => exact absurd rfl h0 | cons => rfl
  simp only [h1, h.2, Bool.or_self, Bool.false_eq_true, if_false]

theorem getline_done {s : IStream} (h : s.eof = true ∨ s.fail = true ∨ s.rest = []) : getline s = none := by
  unfold getline
  rcases h with h | h | h <;> simp [h]

theorem vm_word : ∀ c ∈ vmHWM, isSpace c = false := by decide
theorem vm_ne : vmHWM ≠ [] := by decide

theorem loop_done {s : IStream} (h : getline s = none) : hwmLoop s = some 0 := by
  rw [hwmLoop]
  split
  · rfl
  · next h' => rw [h] at h'; exact nomatch h'

theorem loop_step {s s' : IStream} {l : List Char} (h : getline s = some (l, s')) :
    hwmLoop s = if (readWord { rest := l } []).1 = vmHWM then (readSize (readWord { rest := l } []).2 none).1.map fun n => w64 (n * 1024)
      else hwmLoop s' := by
  rw [hwmLoop]
  split
  · next h' => rw [h] at h'; exact nomatch h'
  · next h' =>
    rw [h] at h'
    simp only [Option.some.injEq, Prod.mk.injEq] at h'
    obtain ⟨rfl, rfl⟩ := h'
    rfl

theorem loop_skip {before : List (List Char)} {t : List Char} (h1 : ∀ l ∈ before, OneLine l) (h2 : ∀ l ∈ before, ¬ Starts vmHWM l) :
    hwmLoop { rest := unlines before ++ t } = hwmLoop { rest := t } := by
  induction before with
  | nil => rfl
  | cons l ls ih =>
    have he : unlines (l :: ls) ++ t = l ++ '\n' :: (unlines ls ++ t) := by simp [unlines]
    rw [he, loop_step (getline_line (h1 l (List.mem_cons_self ..))),
      if_neg (fun h => h2 l (List.mem_cons_self ..) ((readWord_key vm_word vm_ne).1 h))]
    exact ih (fun x hx => h1 x (List.mem_cons_of_mem _ hx)) fun x hx => h2 x (List.mem_cons_of_mem _ hx)

theorem loop_at {l t : List Char} (hl : OneLine l) (h0 : l ≠ []) (ht : LineEnd t) :
    ∃ s', getline { rest := l ++ t } = some (l, s') := by
  rcases ht with rfl | ⟨u, rfl⟩
  · rw [List.append_nil]; exact ⟨_, getline_last hl h0⟩
  · exact ⟨_, getline_line hl⟩

theorem vm_line {rest t : List Char} (hr : OneLine rest) (hs : rest = [] ∨ ∃ c t, rest = c :: t ∧ isSpace c = true) (ht : LineEnd t) :
    hwmLoop { rest := vmHWM ++ rest ++ t } = (readSize { rest := rest, eof := rest.isEmpty } none).1.map fun n => w64 (n * 1024) := by
  have hl : OneLine (vmHWM ++ rest) := by
    intro h
    rcases List.mem_append.1 h with h | h
    · exact absurd h (by decide)
    · exact hr h
  have h0 : vmHWM ++ rest ≠ [] := by simp [vm_ne]
  obtain ⟨s', h⟩ := loop_at hl h0 ht
  have := readWord_at (sp := []) (fun c hc => nomatch hc) vm_word vm_ne hs
  rw [List.nil_append] at this
  rw [loop_step h, this]
  exact if_pos rfl

/-! ## C84 -/

/-- The high water mark reported is what the first `VmHWM` line says, in bytes: whatever lines come before it, whatever follows the
number and the line. -/
theorem hwm_reported {before : List (List Char)} {sp tail after : List Char} {n : Nat}
    (h1 : ∀ l ∈ before, OneLine l) (h2 : ∀ l ∈ before, ¬ Starts vmHWM l)
    (hsp : Blank sp) (hsp1 : OneLine sp) (hsp0 : sp ≠ []) (ht : OneLine tail) (hd : NoDigit tail) (ha : LineEnd after) (hn : n * 1024 < W) :
    usageHwm (some (unlines before ++ (vmHWM ++ (sp ++ dec n ++ tail) ++ after))) = some (n * 1024) := by
  have hline : OneLine (sp ++ dec n ++ tail) := by
    intro h
    simp only [List.mem_append] at h
    rcases h with (h | h) | h
    · exact hsp1 h
    · exact absurd (dec_digits h) (by decide)
    · exact ht h
  obtain ⟨c, u, hc⟩ := List.exists_cons_of_ne_nil hsp0
  show hwmLoop { rest := unlines before ++ _ } = _
  rw [loop_skip h1 h2, vm_line hline (.inr ⟨c, u ++ dec n ++ tail, by simp [hc], hsp.sp c (by rw [hc]; exact List.mem_cons_self ..)⟩) ha]
  have h0 : (sp ++ dec n ++ tail).isEmpty = false := by rw [hc]; rfl
  rw [h0, List.append_assoc, readSize_dec hsp hd, if_pos (by omega)]
  show some (w64 (n * 1024)) = _
  rw [w64, Nat.mod_eq_of_lt hn]

theorem readSize_plus {sp r : List Char} {n : Nat} {v : Option Nat} (hs : Blank sp) (hr : NoDigit r) (hn : n < W) :
    readSize { rest := sp ++ ('+' :: (dec n ++ r)) } v = (some n, { rest := r, eof := r.isEmpty }) := by
  have h1 := takeWhile_append_stop (p := Char.isDigit) (a := dec n) (b := r) (fun x hx => dec_digits hx) hr
  obtain ⟨c, t, hc, hd⟩ := dec_cons n
  unfold readSize
  rw [sentry_good hs rfl (by decide)]
  have h3 : sign ('+' :: (dec n ++ r)) = (false, dec n ++ r) := rfl
  dsimp only
  rw [h3]
  dsimp only
  rw [h1.1, h1.2]
  have h4 : (dec n).isEmpty = false := by rw [hc]; rfl
  have h5 : Nat.ofDigitChars 10 (dec n) 0 = n := Nat.ofDigitChars_ten_toDigits
  rw [h4, h5, if_neg (by simp), if_pos hn]
  rfl

/-- A plus sign before the number changes nothing. -/
theorem hwm_plus {before : List (List Char)} {sp tail after : List Char} {n : Nat}
    (h1 : ∀ l ∈ before, OneLine l) (h2 : ∀ l ∈ before, ¬ Starts vmHWM l)
    (hsp : Blank sp) (hsp1 : OneLine sp) (hsp0 : sp ≠ []) (ht : OneLine tail) (hd : NoDigit tail) (ha : LineEnd after) (hn : n * 1024 < W) :
    usageHwm (some (unlines before ++ (vmHWM ++ (sp ++ '+' :: dec n ++ tail) ++ after))) = some (n * 1024) := by
  have hline : OneLine (sp ++ '+' :: dec n ++ tail) := by
    intro h
    simp only [List.mem_append, List.mem_cons] at h
    rcases h with (h | h | h) | h
    · exact hsp1 h
    · exact absurd h (by decide)
    · exact absurd (dec_digits h) (by decide)
    · exact ht h
  obtain ⟨c, u, hc⟩ := List.exists_cons_of_ne_nil hsp0
  show hwmLoop { rest := unlines before ++ _ } = _
  rw [loop_skip h1 h2, vm_line hline (.inr ⟨c, u ++ '+' :: dec n ++ tail, by simp [hc], hsp.sp c (by rw [hc]; exact List.mem_cons_self ..)⟩) ha]
  have h0 : (sp ++ '+' :: dec n ++ tail).isEmpty = false := by rw [hc]; rfl
  rw [h0, List.append_assoc, List.cons_append, readSize_plus hsp hd (by omega)]
  show some (w64 (n * 1024)) = _
  rw [w64, Nat.mod_eq_of_lt hn]

/-- Without such a line, or if the file cannot be read, 0. -/
theorem hwm_missing {before : List (List Char)} {last : List Char} (h1 : ∀ l ∈ before, OneLine l) (h2 : ∀ l ∈ before, ¬ Starts vmHWM l)
    (h3 : OneLine last) (h4 : ¬ Starts vmHWM last) : usageHwm (some (unlines before ++ last)) = some 0 ∧ usageHwm none = some 0 := by
  refine ⟨?_, loop_done (getline_done (.inr (.inl rfl)))⟩
  show hwmLoop { rest := unlines before ++ _ } = _
  rw [loop_skip h1 h2]
  by_cases h0 : last = []
  · exact loop_done (getline_done (.inr (.inr h0)))
  · rw [loop_step (getline_last h3 h0), if_neg fun h => h4 ((readWord_key vm_word vm_ne).1 h)]
    exact loop_done (getline_done (.inl rfl))

theorem escape_line (l : List Char) : OneLine (escape l) := by
  induction l with
  | nil => intro h; exact nomatch h
  | cons c l ih =>
    intro h
    unfold escape at h
    rcases List.mem_append.1 h with h | h
    · split at h
      · exact absurd h (by decide)
      · split at h
        · exact absurd h (by decide)
        · next h1 _ => exact h1 (List.mem_singleton.1 h).symm
    · exact ih h

/-- No name of a program, which the kernel prints in the first line, changes what is reported. -/
theorem hwm_name (name : List Char) {before : List (List Char)} {sp tail after : List Char} {n : Nat}
    (h1 : ∀ l ∈ before, OneLine l) (h2 : ∀ l ∈ before, ¬ Starts vmHWM l)
    (hsp : Blank sp) (hsp1 : OneLine sp) (hsp0 : sp ≠ []) (ht : OneLine tail) (hd : NoDigit tail) (ha : LineEnd after) (hn : n * 1024 < W) :
    usageHwm (some (unlines (("Name:\t".toList ++ escape name) :: before) ++ (vmHWM ++ (sp ++ dec n ++ tail) ++ after))) = some (n * 1024) := by
  refine hwm_reported ?_ ?_ hsp hsp1 hsp0 ht hd ha hn
  · intro l hl
    rcases List.mem_cons.1 hl with rfl | hl
    · intro h
      rcases List.mem_append.1 h with h | h
      · exact absurd h (by decide)
      · exact escape_line _ h
    · exact h1 l hl
  · intro l hl
    rcases List.mem_cons.1 hl with rfl | hl
    · intro ⟨sp', rest, hb, he, _⟩
      cases sp' with
      | nil => have := congrArg List.head? he; simp [vmHWM] at this
      | cons c sp' =>
        have h : c = 'N' := by
          have h3 := congrArg List.head? he
          simp at h3
          exact h3.symm
        have := white_iff.1 (hb c (List.mem_cons_self ..))
        rw [h] at this
        exact absurd this (by decide)
    · exact h2 l hl

/-- A `VmHWM` line without a number: the variable was never written and the result is indeterminate. -/
theorem hwm_indeterminate {before : List (List Char)} {sp after : List Char}
    (h1 : ∀ l ∈ before, OneLine l) (h2 : ∀ l ∈ before, ¬ Starts vmHWM l) (hsp : Blank sp) (hsp1 : OneLine sp) (ha : LineEnd after) :
    usageHwm (some (unlines before ++ (vmHWM ++ sp ++ after))) = none := by
  show hwmLoop { rest := unlines before ++ _ } = _
  rw [loop_skip h1 h2]
  cases sp with
  | nil =>
    rw [vm_line hsp1 (.inl rfl) ha]
    rfl
  | cons c u =>
    rw [vm_line hsp1 (.inr ⟨c, u, rfl, hsp.sp c (List.mem_cons_self ..)⟩) ha]
    have : (c :: u).isEmpty = false := rfl
    rw [this, readSize, sentry_end hsp]
    rfl

theorem readSize_ok {sp r : List Char} {n : Nat} {v : Option Nat} (hs : Blank sp) (hr : NoDigit r) (hn : n < W) :
    readSize { rest := sp ++ (dec n ++ r) } v = (some n, { rest := r, eof := r.isEmpty }) := by
  rw [readSize_dec hs hr, if_pos hn]

/-- The resident size reported is the second number of `statm` times the page size. -/
theorem usage_reported {a b page : Nat} {sp tail : List Char} (hsp : Blank sp) (hsp0 : sp ≠ []) (hd : NoDigit tail) (ha : a < W)
    (hb : b * page < W) (hb' : b < W) : usage (some (dec a ++ sp ++ dec b ++ tail)) page = some (b * page) := by
  obtain ⟨c, u, hc⟩ := List.exists_cons_of_ne_nil hsp0
  have hcs := hsp.sp c (by rw [hc]; exact List.mem_cons_self ..)
  have hnd : NoDigit (sp ++ (dec b ++ tail)) := by
    intro x t h
    rw [hc] at h
    injection h with h _
    rw [← h]
    cases hx : c.isDigit with
    | false => rfl
    | true => rw [digit_not_space hx] at hcs; exact nomatch hcs
  have h1 := readSize_ok (sp := []) (v := none) (n := a) (fun c hc => nomatch hc) hnd ha
  have h0 : (sp ++ (dec b ++ tail)).isEmpty = false := by rw [hc]; rfl
  rw [h0, List.nil_append] at h1
  have h2 := readSize_ok (v := none) hsp hd hb'
  unfold usage openFile
  rw [List.append_assoc, List.append_assoc, h1]
  dsimp only
  rw [h2]
  show some (w64 (b * page)) = _
  rw [w64, Nat.mod_eq_of_lt hb]

/-- The claim "a number is reported" is false for a file that cannot be read, or holds less than two numbers: what is reported then was
never written. -/
theorem usage_counterexample {page a : Nat} {sp : List Char} (hsp : Blank sp) :
    usage none page = none ∧ usage (some sp) page = none ∧ usage (some (dec a ++ sp)) page = none := by
  refine ⟨rfl, ?_, ?_⟩
  · unfold usage openFile
    have : readSize { rest := sp } none = (none, { rest := [], eof := true, fail := true }) := by unfold readSize; rw [sentry_end hsp]
    rw [this]
    rfl
  · have hnd : NoDigit sp := by
      intro x t h
      have hcs := hsp.sp x (by rw [h]; exact List.mem_cons_self ..)
      cases hx : x.isDigit with
      | false => rfl
      | true => rw [digit_not_space hx] at hcs; exact nomatch hcs
    have h1 := readSize_dec (sp := []) (v := none) (n := a) (fun c hc => nomatch hc) hnd
    rw [List.nil_append] at h1
    unfold usage openFile
    dsimp only
    rw [h1]
    split
    · dsimp only
      have : (readSize { rest := sp, eof := sp.isEmpty } none).1 = none := by
        cases hs : sp with
        | nil => rfl
        | cons c u =>
          have : (c :: u).isEmpty = false := rfl
          rw [this, ← hs, readSize, sentry_end hsp]
      rw [this]
      rfl
    · dsimp only
      have : ∀ e, (readSize { rest := sp, eof := e, fail := true } none).1 = none := by
        intro e; unfold readSize sentry; simp
      rw [this]
      rfl

/-! ### Devices -/

/-- Bytes in use on a device, as the runtime counts them. -/
def Cuda.used (c : Cuda) (d : Nat) : Nat := (c.devices.getD d (0, 0)).2 - (c.devices.getD d (0, 0)).1
/-- Free memory is at most the total, which fits a `size_t`; the thread is on a device that exists. -/
structure Cuda.Ok (c : Cuda) : Prop where
  le : ∀ d ∈ c.devices, d.1 ≤ d.2
  lt : ∀ d ∈ c.devices, d.2 < W
  cur : c.current < c.devices.length

theorem used_val {c : Cuda} (h : c.Ok) (d : Nat) :
    w64 ((c.devices.getD d (0, 0)).2 + W - (c.devices.getD d (0, 0)).1) = c.used d := by
  have hW : 0 < W := by decide
  have h2 : (c.devices.getD d (0, 0)).1 ≤ (c.devices.getD d (0, 0)).2 ∧ (c.devices.getD d (0, 0)).2 < W := by
    rw [List.getD_eq_getElem?_getD]
    by_cases hd : d < c.devices.length
    · rw [List.getElem?_eq_getElem hd]; exact ⟨h.le _ (List.getElem_mem hd), h.lt _ (List.getElem_mem hd)⟩
    · rw [List.getElem?_eq_none (by omega)]; exact ⟨Nat.le_refl _, hW⟩
  unfold Cuda.used w64
  generalize c.devices.getD d (0, 0) = m at *
  have : m.2 + W - m.1 = (m.2 - m.1) + W := by omega
  rw [this, Nat.add_mod_right, Nat.mod_eq_of_lt (by omega)]

/-- If no call fails: the usage of the device asked for, or of the current one if it does not exist; and the thread is on the device it
was on. -/
theorem device_reported {c : Cuda} {id junk : Int} (h : c.Ok) :
    deviceUsageCuda c {} junk id = (c.used (if 0 ≤ id ∧ id < c.devices.length then id.toNat else c.current), c) := by
  unfold deviceUsageCuda setDevice memGetInfo
  have hc := h.cur
  simp only [Bool.false_or, Bool.false_eq_true, if_false]
  have h1 : ¬ ((c.current : Int) < 0) := by omega
  by_cases hid : 0 ≤ id ∧ id < c.devices.length
  · have h2 : ¬ (id < 0) := by omega
    have h3 : ¬ ((c.devices.length : Int) ≤ id) := by omega
    have h4 : ¬ ((c.devices.length : Int) ≤ (c.current : Int)) := by omega
    simp only [h1, h2, h3, h4, decide_false, Bool.or_self, Bool.false_eq_true, if_false, if_pos hid]
    rw [used_val h]
    simp
  · have h5 : (decide (id < 0) || decide ((c.devices.length : Int) ≤ id)) = true := by
      simp only [Bool.or_eq_true, decide_eq_true_eq]; omega
    have h4 : ¬ ((c.devices.length : Int) ≤ (c.current : Int)) := by omega
    simp only [h5, if_true, h1, h4, decide_false, Bool.or_self, Bool.false_eq_true, if_false, if_neg hid]
    rw [used_val h]
    simp

/-- The thread is back on its device if the calls that ask for it and go back to it succeed, whatever else fails. -/
theorem device_restored {c : Cuda} {f : Fails} {id junk : Int} (h : c.Ok) (h1 : f.getDevice = false) (h2 : f.setBack = false) :
    (deviceUsageCuda c f junk id).2 = c := by
  have hc := h.cur
  have h3 : ¬ ((c.current : Int) < 0) := by omega
  have h4 : ¬ ((c.devices.length : Int) ≤ (c.current : Int)) := by omega
  unfold deviceUsageCuda
  have : (setDevice c f.setDevice id).devices = c.devices := by unfold setDevice; split <;> rfl
  simp only [h1, h2, Bool.false_eq_true, if_false]
  rw [setDevice]
  simp only [this, h3, h4, decide_false, Bool.or_self, Bool.false_eq_true, if_false]
  simp

/-- The claim "the usage of the device asked for, or an error" is false: for a device that does not exist, or cannot be used, the usage of
the current device is reported as its own; if memory cannot be asked for, 0; if the device cannot be asked for, the thread ends up on
whatever device is found in a variable that was never written; in builds for other devices 0 is reported however much is in use. -/
theorem device_counterexample (used : Nat) (hu : used < W) :
    ∃ c : Cuda, c.Ok ∧ c.used 0 = used ∧
      (deviceUsageCuda c {} 0 7).1 = used ∧
      (deviceUsageCuda c { setDevice := true } 0 1).1 = used ∧ c.used 1 = 0 ∧
      (deviceUsageCuda c { memGetInfo := true } 0 0).1 = 0 ∧
      (deviceUsageCuda c { getDevice := true } 1 0).2.current ≠ c.current ∧
      deviceUsageOther 0 = 0 := by
  have hok : Cuda.Ok { current := 0, devices := [(0, used), (0, 0)] } := by
    constructor
    · intro d hd; rcases List.mem_cons.1 hd with rfl | hd
      · exact Nat.zero_le _
      · rw [List.mem_singleton.1 hd]; exact Nat.le_refl _
    · intro d hd; rcases List.mem_cons.1 hd with rfl | hd
      · exact hu
      · rw [List.mem_singleton.1 hd]; decide
    · exact Nat.zero_lt_succ _
  refine ⟨{ current := 0, devices := [(0, used), (0, 0)] }, hok, rfl, ?_, ?_, rfl, ?_, (by simp [deviceUsageCuda, setDevice]), rfl⟩
  · rw [device_reported hok]; rfl
  · exact used_val hok 0
  · show w64 (0 + W - 0) = 0
    decide

/-! ### Not vacuous -/

example : usageHwm (some "Name:\tmy app\nVmPeak:\t   10564 kB\nVmHWM:\t    2048 kB\nVmRSS:\t 1024 kB\n".toList) = some 2097152 := by
  decide +kernel
example : usageHwm (some "Name:\tVmHWM: 99\n".toList) = some 0 := by decide +kernel
example : usage (some "2641 512 390 5 0 112 0\n".toList) 4096 = some 2097152 := by decide +kernel
example : deviceUsageCuda { current := 1, devices := [(10, 100), (70, 100)] } {} 5 0 = (90, { current := 1, devices := [(10, 100), (70, 100)] }) := by
  decide

end Umpire.Process
