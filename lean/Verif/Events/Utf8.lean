import Verif.Events.Lex
/-!
# The strings that can be written are the UTF-8 strings
-/
set_option autoImplicit false
set_option linter.unusedSimpArgs false
namespace Umpire.Events

/-- A string is UTF-8 if it is the encoding of a sequence of characters.  `Char` and its
encoding are those of Lean. -/
def Utf8 (s : Str) : Prop := ∃ cs : List Char, s = (cs.flatMap String.utf8EncodeChar).map UInt8.toNat

/-- `dumpEsc` without what it writes. -/
def accept (st : Nat) : Str → Bool
  | [] => st == 0
  | b :: s => nextState st b != 1 && accept (nextState st b) s

theorem dumpEsc_accept {s : Str} : ∀ st c, (dumpEsc st c s).isSome = accept st s := by
  induction s with
  | nil =>
    intro st c
    unfold dumpEsc accept
    by_cases h : st = 0
    · subst h; rfl
    · rw [if_neg h]; simp [h]
  | cons b s ih =>
    intro st c
    unfold dumpEsc accept
    simp only
    by_cases h : nextState st b = 1
    · rw [if_pos h, h]; rfl
    · rw [if_neg h]
      by_cases h0 : nextState st b = 0
      · rw [if_pos h0, Option.isSome_map, ih, h0]; rfl
      · rw [if_neg h0, Option.isSome_map, ih]
        simp [h]

/-- First bytes. -/
def first (b : Nat) : Nat :=
  if b < 0x80 then 0 else if b < 0xC2 then 1 else if b < 0xE0 then 2 else if b = 0xE0 then 4 else if b = 0xED then 5
  else if b < 0xF0 then 3 else if b = 0xF0 then 6 else if b < 0xF4 then 7 else if b = 0xF4 then 8 else 1

/-- Later bytes. -/
def later (st b : Nat) : Nat :=
  if st = 2 then (if 0x80 ≤ b ∧ b < 0xC0 then 0 else 1)
  else if st = 3 then (if 0x80 ≤ b ∧ b < 0xC0 then 2 else 1)
  else if st = 4 then (if 0xA0 ≤ b ∧ b < 0xC0 then 2 else 1)
  else if st = 5 then (if 0x80 ≤ b ∧ b < 0xA0 then 2 else 1)
  else if st = 6 then (if 0x90 ≤ b ∧ b < 0xC0 then 3 else 1)
  else if st = 7 then (if 0x80 ≤ b ∧ b < 0xC0 then 3 else 1)
  else if st = 8 then (if 0x80 ≤ b ∧ b < 0x90 then 3 else 1) else 1

theorem first_eq (b : Nat) : nextState 0 b = first b := by
  by_cases hb : b < 256
  · revert b; decide +kernel
  · rw [nextState_big (by decide) hb]
    unfold first
    repeat rw [if_neg (by omega)]

theorem later_eq {st : Nat} (h1 : 2 ≤ st) (h2 : st < 9) (b : Nat) : nextState st b = later st b := by
  by_cases hb : b < 256
  · have : ∀ st : Fin 9, ∀ b : Fin 256, 2 ≤ st.val → nextState st b = later st b := by decide +kernel
    exact this ⟨st, h2⟩ ⟨b, hb⟩ h1
  · rw [nextState_big h2 hb]
    unfold later
    (repeat' split) <;> first | rfl | omega

/-- UTF-8 on numbers. -/
def enc (v : Nat) : Str :=
  if v ≤ 0x7f then [v]
  else if v ≤ 0x7ff then [v / 64 % 0x20 + 0xc0, v % 0x40 + 0x80]
  else if v ≤ 0xffff then [v / 4096 % 0x10 + 0xe0, v / 64 % 0x40 + 0x80, v % 0x40 + 0x80]
  else [v / 262144 % 0x08 + 0xf0, v / 4096 % 0x40 + 0x80, v / 64 % 0x40 + 0x80, v % 0x40 + 0x80]

theorem enc_char (c : Char) : (String.utf8EncodeChar c).map UInt8.toNat = enc c.val.toNat := by
  unfold String.utf8EncodeChar enc
  simp only
  repeat' split
  all_goals
    simp only [List.map_cons, List.map_nil, List.cons.injEq, and_true, UInt8.toNat_ofNat']
    omega

theorem accept_cons (st b : Nat) (s : Str) : accept st (b :: s) = (nextState st b != 1 && accept (nextState st b) s) := rfl

theorem accept_step {st b st' : Nat} (s : Str) (h : nextState st b = st') (h1 : st' ≠ 1) :
    accept st (b :: s) = accept st' s := by
  rw [accept_cons, h]
  simp [h1]

theorem accept_enc {v : Nat} (hv : v < 0xd800 ∨ 0xdfff < v ∧ v < 0x110000) (s : Str) : accept 0 (enc v ++ s) = accept 0 s := by
  unfold enc
  split
  · refine accept_step _ ?_ (by decide)
    rw [first_eq]; unfold first; rw [if_pos (by omega)]
  split
  · show accept 0 (_ :: _ :: s) = _
    rw [accept_step (st' := 2) _ (by
      rw [first_eq]; unfold first
      rw [if_neg (by omega), if_neg (by omega), if_pos (by omega)]) (by decide)]
    refine accept_step _ ?_ (by decide)
    rw [later_eq (by decide) (by decide)]
    unfold later
    rw [if_pos rfl, if_pos (by omega)]
  split
  · show accept 0 (_ :: _ :: _ :: s) = _
    rename_i h1 h2 h3
    have hlast : accept 2 ((v % 64 + 128) :: s) = accept 0 s := by
      refine accept_step _ ?_ (by decide)
      rw [later_eq (by decide) (by decide)]
      unfold later
      rw [if_pos rfl, if_pos (by omega)]
    by_cases ha : v / 4096 = 0
    · rw [accept_step (st' := 4) _ (by
        rw [first_eq]; unfold first
        rw [if_neg (by omega), if_neg (by omega), if_neg (by omega), if_pos (by omega)]) (by decide)]
      rw [accept_step (st' := 2) _ (by
        rw [later_eq (by decide) (by decide)]
        unfold later
        rw [if_neg (by decide), if_neg (by decide), if_pos rfl, if_pos (by omega)]) (by decide)]
      exact hlast
    by_cases hb : v / 4096 = 13
    · rw [accept_step (st' := 5) _ (by
        rw [first_eq]; unfold first
        rw [if_neg (by omega), if_neg (by omega), if_neg (by omega), if_neg (by omega), if_pos (by omega)]) (by decide)]
      rw [accept_step (st' := 2) _ (by
        rw [later_eq (by decide) (by decide)]
        unfold later
        rw [if_neg (by decide), if_neg (by decide), if_neg (by decide), if_pos rfl, if_pos (by omega)]) (by decide)]
      exact hlast
    · rw [accept_step (st' := 3) _ (by
        rw [first_eq]; unfold first
        rw [if_neg (by omega), if_neg (by omega), if_neg (by omega), if_neg (by omega), if_neg (by omega),
          if_pos (by omega)]) (by decide)]
      rw [accept_step (st' := 2) _ (by
        rw [later_eq (by decide) (by decide)]
        unfold later
        rw [if_neg (by decide), if_pos rfl, if_pos (by omega)]) (by decide)]
      exact hlast
  · show accept 0 (_ :: _ :: _ :: _ :: s) = _
    rename_i h1 h2 h3
    have hlast : accept 3 ((v / 64 % 64 + 128) :: (v % 64 + 128) :: s) = accept 0 s := by
      rw [accept_step (st' := 2) _ (by
        rw [later_eq (by decide) (by decide)]
        unfold later
        rw [if_neg (by decide), if_pos rfl, if_pos (by omega)]) (by decide)]
      refine accept_step _ ?_ (by decide)
      rw [later_eq (by decide) (by decide)]
      unfold later
      rw [if_pos rfl, if_pos (by omega)]
    by_cases ha : v / 262144 = 0
    · rw [accept_step (st' := 6) _ (by
        rw [first_eq]; unfold first
        rw [if_neg (by omega), if_neg (by omega), if_neg (by omega), if_neg (by omega), if_neg (by omega),
          if_neg (by omega), if_pos (by omega)]) (by decide)]
      rw [accept_step (st' := 3) _ (by
        rw [later_eq (by decide) (by decide)]
        unfold later
        rw [if_neg (by decide), if_neg (by decide), if_neg (by decide), if_neg (by decide), if_pos rfl,
          if_pos (by omega)]) (by decide)]
      exact hlast
    by_cases hb : v / 262144 = 4
    · rw [accept_step (st' := 8) _ (by
        rw [first_eq]; unfold first
        rw [if_neg (by omega), if_neg (by omega), if_neg (by omega), if_neg (by omega), if_neg (by omega),
          if_neg (by omega), if_neg (by omega), if_neg (by omega), if_pos (by omega)]) (by decide)]
      rw [accept_step (st' := 3) _ (by
        rw [later_eq (by decide) (by decide)]
        unfold later
        rw [if_neg (by decide), if_neg (by decide), if_neg (by decide), if_neg (by decide), if_neg (by decide),
          if_neg (by decide), if_pos rfl, if_pos (by omega)]) (by decide)]
      exact hlast
    · rw [accept_step (st' := 7) _ (by
        rw [first_eq]; unfold first
        rw [if_neg (by omega), if_neg (by omega), if_neg (by omega), if_neg (by omega), if_neg (by omega),
          if_neg (by omega), if_neg (by omega), if_pos (by omega)]) (by decide)]
      rw [accept_step (st' := 3) _ (by
        rw [later_eq (by decide) (by decide)]
        unfold later
        rw [if_neg (by decide), if_neg (by decide), if_neg (by decide), if_neg (by decide), if_neg (by decide),
          if_pos rfl, if_pos (by omega)]) (by decide)]
      exact hlast

theorem utf8_accept {s : Str} (h : Utf8 s) : accept 0 s = true := by
  obtain ⟨cs, rfl⟩ := h
  induction cs with
  | nil => rfl
  | cons c cs ih =>
    rw [List.flatMap_cons, List.map_append, enc_char, accept_enc]
    · exact ih
    · have h := c.valid
      unfold UInt32.isValidChar Nat.isValidChar at h
      omega

theorem utf8_cons {v : Nat} (hv : v < 0xd800 ∨ 0xdfff < v ∧ v < 0x110000) {s : Str} (h : Utf8 s) : Utf8 (enc v ++ s) := by
  obtain ⟨cs, rfl⟩ := h
  have hv' : v.isValidChar := hv
  refine ⟨Char.ofNatAux v hv' :: cs, ?_⟩
  rw [List.flatMap_cons, List.map_append, enc_char]
  rfl

theorem accept_head {st : Nat} {s : Str} (h1 : 2 ≤ st) (h2 : st < 9) (h : accept st s = true) :
    ∃ b s', s = b :: s' ∧ later st b ≠ 1 ∧ accept (later st b) s' = true := by
  cases s with
  | nil =>
    simp [accept] at h
    omega
  | cons b s =>
    rw [accept_cons, later_eq h1 h2] at h
    simp at h
    exact ⟨b, s, rfl, h.1, h.2⟩

theorem accept2 {s : Str} (h : accept 2 s = true) : ∃ b s', s = b :: s' ∧ 0x80 ≤ b ∧ b < 0xC0 ∧ accept 0 s' = true := by
  obtain ⟨b, s', rfl, h1, h2⟩ := accept_head (by decide) (by decide) h
  unfold later at h1 h2
  rw [if_pos rfl] at h1 h2
  by_cases hb : 0x80 ≤ b ∧ b < 0xC0
  · rw [if_pos hb] at h2
    exact ⟨b, s', rfl, hb.1, hb.2, h2⟩
  · rw [if_neg hb] at h1; omega

theorem accept3 {s : Str} (h : accept 3 s = true) : ∃ b s', s = b :: s' ∧ 0x80 ≤ b ∧ b < 0xC0 ∧ accept 2 s' = true := by
  obtain ⟨b, s', rfl, h1, h2⟩ := accept_head (by decide) (by decide) h
  unfold later at h1 h2
  rw [if_neg (by decide), if_pos rfl] at h1 h2
  by_cases hb : 0x80 ≤ b ∧ b < 0xC0
  · rw [if_pos hb] at h2
    exact ⟨b, s', rfl, hb.1, hb.2, h2⟩
  · rw [if_neg hb] at h1; omega

/-- One character of two bytes. -/
theorem take2 {b c : Nat} {s : Str} (h1 : 0xC2 ≤ b) (h2 : b < 0xE0) (h3 : 0x80 ≤ c) (h4 : c < 0xC0) (h : Utf8 s) :
    Utf8 (b :: c :: s) := by
  have := utf8_cons (v := (b - 0xC0) * 64 + (c - 0x80)) (by omega) h
  unfold enc at this
  rw [if_neg (by omega), if_pos (by omega)] at this
  have e1 : ((b - 0xC0) * 64 + (c - 0x80)) / 64 % 0x20 + 0xc0 = b := by omega
  have e2 : ((b - 0xC0) * 64 + (c - 0x80)) % 0x40 + 0x80 = c := by omega
  rw [e1, e2] at this
  exact this

/-- One character of three bytes. -/
theorem take3 {b c d : Nat} {s : Str} (h1 : 0xE0 ≤ b) (h2 : b < 0xF0) (h3 : 0x80 ≤ c) (h4 : c < 0xC0) (h5 : 0x80 ≤ d) (h6 : d < 0xC0)
    (h7 : b = 0xE0 → 0xA0 ≤ c) (h8 : b = 0xED → c < 0xA0) (h : Utf8 s) : Utf8 (b :: c :: d :: s) := by
  have := utf8_cons (v := (b - 0xE0) * 4096 + (c - 0x80) * 64 + (d - 0x80)) (by omega) h
  unfold enc at this
  rw [if_neg (by omega), if_neg (by omega), if_pos (by omega)] at this
  have e1 : ((b - 0xE0) * 4096 + (c - 0x80) * 64 + (d - 0x80)) / 4096 % 0x10 + 0xe0 = b := by omega
  have e2 : ((b - 0xE0) * 4096 + (c - 0x80) * 64 + (d - 0x80)) / 64 % 0x40 + 0x80 = c := by omega
  have e3 : ((b - 0xE0) * 4096 + (c - 0x80) * 64 + (d - 0x80)) % 0x40 + 0x80 = d := by omega
  rw [e1, e2, e3] at this
  exact this

/-- One character of four bytes. -/
theorem take4 {b c d e : Nat} {s : Str} (h1 : 0xF0 ≤ b) (h2 : b ≤ 0xF4) (h3 : 0x80 ≤ c) (h4 : c < 0xC0) (h5 : 0x80 ≤ d)
    (h6 : d < 0xC0) (h5' : 0x80 ≤ e) (h6' : e < 0xC0)
    (h7 : b = 0xF0 → 0x90 ≤ c) (h8 : b = 0xF4 → c < 0x90) (h : Utf8 s) : Utf8 (b :: c :: d :: e :: s) := by
  have := utf8_cons (v := (b - 0xF0) * 262144 + (c - 0x80) * 4096 + (d - 0x80) * 64 + (e - 0x80)) (by omega) h
  unfold enc at this
  rw [if_neg (by omega), if_neg (by omega), if_neg (by omega)] at this
  have e1 : ((b - 0xF0) * 262144 + (c - 0x80) * 4096 + (d - 0x80) * 64 + (e - 0x80)) / 262144 % 0x08 + 0xf0 = b := by omega
  have e2 : ((b - 0xF0) * 262144 + (c - 0x80) * 4096 + (d - 0x80) * 64 + (e - 0x80)) / 4096 % 0x40 + 0x80 = c := by omega
  have e3 : ((b - 0xF0) * 262144 + (c - 0x80) * 4096 + (d - 0x80) * 64 + (e - 0x80)) / 64 % 0x40 + 0x80 = d := by omega
  have e4 : ((b - 0xF0) * 262144 + (c - 0x80) * 4096 + (d - 0x80) * 64 + (e - 0x80)) % 0x40 + 0x80 = e := by omega
  rw [e1, e2, e3, e4] at this
  exact this

theorem accept_utf8 (n : Nat) : ∀ s : Str, s.length ≤ n → accept 0 s = true → Utf8 s := by
  induction n with
  | zero =>
    intro s hs _
    rw [List.length_eq_zero_iff.1 (Nat.le_zero.1 hs)]
    exact ⟨[], rfl⟩
  | succ n ih =>
    intro s hs h
    cases s with
    | nil => exact ⟨[], rfl⟩
    | cons b s =>
      simp only [List.length_cons] at hs
      rw [accept_cons, first_eq] at h
      simp only [Bool.and_eq_true, bne_iff_ne, ne_eq] at h
      obtain ⟨h1, h2⟩ := h
      unfold first at h1 h2
      by_cases c1 : b < 0x80
      · rw [if_pos c1] at h2
        have := utf8_cons (v := b) (by omega) (ih s (by omega) h2)
        unfold enc at this
        rw [if_pos (by omega)] at this
        exact this
      rw [if_neg c1] at h1 h2
      by_cases c2 : b < 0xC2
      · rw [if_pos c2] at h1; omega
      rw [if_neg c2] at h1 h2
      by_cases c3 : b < 0xE0
      · rw [if_pos c3] at h2
        obtain ⟨c, s, rfl, h3, h4, h5⟩ := accept2 h2
        simp only [List.length_cons] at hs
        exact take2 (by omega) c3 h3 h4 (ih s (by omega) h5)
      rw [if_neg c3] at h1 h2
      by_cases c4 : b = 0xE0
      · rw [if_pos c4] at h2
        obtain ⟨c, s, rfl, h3, h4⟩ := accept_head (by decide) (by decide) h2
        unfold later at h3 h4
        rw [if_neg (by decide), if_neg (by decide), if_pos rfl] at h3 h4
        by_cases hc : 0xA0 ≤ c ∧ c < 0xC0
        · rw [if_pos hc] at h4
          obtain ⟨d, s, rfl, h5, h6, h7⟩ := accept2 h4
          simp only [List.length_cons] at hs
          exact take3 (by omega) (by omega) (by omega) hc.2 h5 h6 (fun _ => hc.1) (by omega) (ih s (by omega) h7)
        · rw [if_neg hc] at h3; omega
      rw [if_neg c4] at h1 h2
      by_cases c5 : b = 0xED
      · rw [if_pos c5] at h2
        obtain ⟨c, s, rfl, h3, h4⟩ := accept_head (by decide) (by decide) h2
        unfold later at h3 h4
        rw [if_neg (by decide), if_neg (by decide), if_neg (by decide), if_pos rfl] at h3 h4
        by_cases hc : 0x80 ≤ c ∧ c < 0xA0
        · rw [if_pos hc] at h4
          obtain ⟨d, s, rfl, h5, h6, h7⟩ := accept2 h4
          simp only [List.length_cons] at hs
          exact take3 (by omega) (by omega) (by omega) (by omega) h5 h6 (by omega) (fun _ => hc.2) (ih s (by omega) h7)
        · rw [if_neg hc] at h3; omega
      rw [if_neg c5] at h1 h2
      by_cases c6 : b < 0xF0
      · rw [if_pos c6] at h2
        obtain ⟨c, s, rfl, h3, h4, h5⟩ := accept3 h2
        obtain ⟨d, s, rfl, h6, h7, h8⟩ := accept2 h5
        simp only [List.length_cons] at hs
        exact take3 (by omega) (by omega) h3 h4 h6 h7 (by omega) (by omega) (ih s (by omega) h8)
      rw [if_neg c6] at h1 h2
      by_cases c7 : b = 0xF0
      · rw [if_pos c7] at h2
        obtain ⟨c, s, rfl, h3, h4⟩ := accept_head (by decide) (by decide) h2
        unfold later at h3 h4
        rw [if_neg (by decide), if_neg (by decide), if_neg (by decide), if_neg (by decide), if_pos rfl] at h3 h4
        by_cases hc : 0x90 ≤ c ∧ c < 0xC0
        · rw [if_pos hc] at h4
          obtain ⟨d, s, rfl, h5, h6, h7⟩ := accept3 h4
          obtain ⟨e, s, rfl, h8, h9, h10⟩ := accept2 h7
          simp only [List.length_cons] at hs
          exact take4 (by omega) (by omega) (by omega) hc.2 h5 h6 h8 h9 (fun _ => hc.1) (by omega) (ih s (by omega) h10)
        · rw [if_neg hc] at h3; omega
      rw [if_neg c7] at h1 h2
      by_cases c8 : b < 0xF4
      · rw [if_pos c8] at h2
        obtain ⟨c, s, rfl, h3, h4⟩ := accept_head (by decide) (by decide) h2
        unfold later at h3 h4
        rw [if_neg (by decide), if_neg (by decide), if_neg (by decide), if_neg (by decide), if_neg (by decide),
          if_pos rfl] at h3 h4
        by_cases hc : 0x80 ≤ c ∧ c < 0xC0
        · rw [if_pos hc] at h4
          obtain ⟨d, s, rfl, h5, h6, h7⟩ := accept3 h4
          obtain ⟨e, s, rfl, h8, h9, h10⟩ := accept2 h7
          simp only [List.length_cons] at hs
          exact take4 (by omega) (by omega) hc.1 hc.2 h5 h6 h8 h9 (by omega) (by omega) (ih s (by omega) h10)
        · rw [if_neg hc] at h3; omega
      rw [if_neg c8] at h1 h2
      by_cases c9 : b = 0xF4
      · rw [if_pos c9] at h2
        obtain ⟨c, s, rfl, h3, h4⟩ := accept_head (by decide) (by decide) h2
        unfold later at h3 h4
        rw [if_neg (by decide), if_neg (by decide), if_neg (by decide), if_neg (by decide), if_neg (by decide),
          if_neg (by decide), if_pos rfl] at h3 h4
        by_cases hc : 0x80 ≤ c ∧ c < 0x90
        · rw [if_pos hc] at h4
          obtain ⟨d, s, rfl, h5, h6, h7⟩ := accept3 h4
          obtain ⟨e, s, rfl, h8, h9, h10⟩ := accept2 h7
          simp only [List.length_cons] at hs
          exact take4 (by omega) (by omega) hc.1 (by omega) h5 h6 h8 h9 (by omega) (fun _ => hc.2) (ih s (by omega) h10)
        · rw [if_neg hc] at h3; omega
      rw [if_neg c9] at h1
      omega

/-- A string can be written exactly if it is UTF-8. -/
theorem dumpStr_iff (s : Str) : (∃ t, dumpStr s = some t) ↔ Utf8 s := by
  have h : (dumpStr s).isSome = accept 0 s := by
    unfold dumpStr
    rw [Option.isSome_map, dumpEsc_accept]
  constructor
  · rintro ⟨t, ht⟩
    rw [ht] at h
    exact accept_utf8 _ s (Nat.le_refl _) h.symm
  · intro hu
    rw [utf8_accept hu] at h
    exact Option.isSome_iff_exists.1 h

end Umpire.Events
