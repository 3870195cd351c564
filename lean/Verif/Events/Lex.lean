import Verif.Events.Json
/-!
# What is written is scanned back
-/
set_option autoImplicit false
set_option linter.unusedSimpArgs false
namespace Umpire.Events

/-- Ranges that the scanner must still match in each state of `decode`. -/
def rangesOf : Nat → List (Nat × Nat)
  | 2 => [(0x80, 0xBF)]
  | 3 => [(0x80, 0xBF), (0x80, 0xBF)]
  | 4 => [(0xA0, 0xBF), (0x80, 0xBF)]
  | 5 => [(0x80, 0x9F), (0x80, 0xBF)]
  | 6 => [(0x90, 0xBF), (0x80, 0xBF), (0x80, 0xBF)]
  | 7 => [(0x80, 0xBF), (0x80, 0xBF), (0x80, 0xBF)]
  | 8 => [(0x80, 0x8F), (0x80, 0xBF), (0x80, 0xBF)]
  | _ => []

theorem byteType_big {b : Nat} (h : ¬ b < 256) : byteType b = 8 := by
  unfold byteType; rw [if_neg h]

/-- A number that is no byte is rejected in every state. -/
theorem nextState_big {st b : Nat} (hs : st < 9) (h : ¬ b < 256) : nextState st b = 1 := by
  unfold nextState
  rw [byteType_big h]
  revert st
  decide +kernel

/-- First byte of a sequence. -/
theorem first_byte_tab : ∀ b, b < 256 →
    (nextState 0 b = 1 ∨ (nextState 0 b = 0 ∧ b < 128 ∧ byteType b = 0) ∨
      (2 ≤ nextState 0 b ∧ nextState 0 b < 9 ∧ 128 ≤ b ∧ tails b = some (rangesOf (nextState 0 b)) ∧
        (nextState 0 b = 2 → 2 ≤ (0xFF >>> byteType b) &&& b) ∧
        (nextState 0 b ≠ 4 → nextState 0 b ≠ 6 → 1 ≤ (0xFF >>> byteType b) &&& b))) := by
  decide +kernel

theorem next_byte_tab1 : ∀ st : Fin 9, ∀ b : Fin 256, 2 ≤ st.val → nextState st b ≠ 1 →
    nextState st b < 4 ∧ 128 ≤ b.val ∧ (((rangesOf st).headD (1, 0)).1 ≤ b ∧ b ≤ ((rangesOf st).headD (1, 0)).2 ∧
      rangesOf st = (rangesOf st).headD (1, 0) :: rangesOf (nextState st b)) := by
  decide +kernel

theorem next_byte_tab2 : ∀ st : Fin 9, ∀ b : Fin 256, 2 ≤ st.val → nextState st b ≠ 1 →
    (nextState st b = 0 → st.val = 2) ∧
    (nextState st b = 2 → st.val = 3 ∨ st.val = 5 ∨ (st.val = 4 ∧ 2 ≤ b.val &&& 0x3F)) ∧
    (nextState st b = 3 → st.val = 7 ∨ st.val = 8 ∨ (st.val = 6 ∧ 1 ≤ b.val &&& 0x3F)) := by
  decide +kernel

/-- Bytes inside a sequence. -/
theorem next_byte_tab : ∀ st, st < 9 → 2 ≤ st → ∀ b, b < 256 →
    (nextState st b = 1 ∨
      (nextState st b ≠ 1 ∧ nextState st b < 4 ∧ 128 ≤ b ∧
        (∃ x, x = (rangesOf st).headD (1, 0) ∧ x.1 ≤ b ∧ b ≤ x.2 ∧ rangesOf st = x :: rangesOf (nextState st b)) ∧
        (nextState st b = 0 → st = 2) ∧ (nextState st b = 2 → st = 3 ∨ st = 5 ∨ (st = 4 ∧ 2 ≤ b &&& 0x3F)) ∧
        (nextState st b = 3 → st = 7 ∨ st = 8 ∨ (st = 6 ∧ 1 ≤ b &&& 0x3F)))) := by
  intro st h1 h2 b hb
  by_cases h : nextState st b = 1
  · exact .inl h
  · obtain ⟨h4, h5, h6⟩ := next_byte_tab1 ⟨st, h1⟩ ⟨b, hb⟩ h2 h
    exact .inr ⟨h, h4, h5, ⟨_, rfl, h6⟩, next_byte_tab2 ⟨st, h1⟩ ⟨b, hb⟩ h2 h⟩

/-- Lower bound of the code point so far, enough to see that a code point of several
bytes is at least 128. -/
def CodeOk (st c : Nat) : Prop := (st = 2 → 2 ≤ c) ∧ (st = 3 ∨ st = 5 ∨ st = 7 ∨ st = 8 → 1 ≤ c)

theorem code_shift (b c : Nat) : c * 64 ≤ (b &&& 0x3F) ||| (c <<< 6) := by
  have := @Nat.right_le_or (b &&& 0x3F) (c <<< 6)
  rw [Nat.shiftLeft_eq] at this ⊢
  omega

theorem code_low (b c : Nat) : b &&& 0x3F ≤ (b &&& 0x3F) ||| (c <<< 6) := Nat.left_le_or

/-- Scan a text that does not contain the closing quote. -/
def scanPre (q : Scan) : Str → Option (Str × Scan)
  | [] => some ([], q)
  | b :: s =>
    if q = .text [] ∧ b = 34 then none
    else
      match scanByte q b with
      | some (o, q) => (scanPre q s).map fun x => (o ++ x.1, x.2)
      | none => none

theorem scanPre_scan {s r x : Str} {q q' : Scan} (h : scanPre q s = some (x, q')) :
    scanStr q (s ++ r) = front x (scanStr q' r) := by
  induction s generalizing q x with
  | nil =>
    simp only [scanPre, Option.some.injEq, Prod.mk.injEq] at h
    obtain ⟨rfl, rfl⟩ := h
    show scanStr q r = _
    cases scanStr q r <;> rfl
  | cons b s ih =>
    unfold scanPre at h
    have hu : scanStr q (b :: s ++ r) = if q = .text [] ∧ b = 34 then some ([], s ++ r) else
        match scanByte q b with
        | some (o, q) => front o (scanStr q (s ++ r))
        | none => none := rfl
    rw [hu]
    by_cases hq : q = .text [] ∧ b = 34
    · rw [if_pos hq] at h; cases h
    · rw [if_neg hq] at h ⊢
      cases hb : scanByte q b with
      | none => rw [hb] at h; cases h
      | some y =>
        obtain ⟨o, q1⟩ := y
        rw [hb] at h
        simp only at h ⊢
        cases hp : scanPre q1 s with
        | none => rw [hp] at h; cases h
        | some z =>
          obtain ⟨x1, q2⟩ := z
          rw [hp] at h
          simp only [Option.map_some, Option.some.injEq, Prod.mk.injEq] at h
          obtain ⟨rfl, rfl⟩ := h
          rw [ih hp]
          cases scanStr q2 r with
          | none => rfl
          | some w => simp only [front, List.append_assoc]

/-- An escaped ASCII byte is scanned back. -/
theorem escape_scan : ∀ b, b < 128 → ∀ r, scanStr (.text []) (escape b b ++ r) = front [b] (scanStr (.text []) r) := by
  intro b hb r
  have : ∀ b, b < 128 → scanPre (.text []) (escape b b) = some ([b], .text []) := by decide +kernel
  exact scanPre_scan (this b hb)

/-- `dump_escaped` and `scan_string` are inverse, from any state inside a sequence. -/
theorem dump_scan {s : Str} : ∀ {st c : Nat} {t r : Str}, st < 9 → st ≠ 1 → CodeOk st c → dumpEsc st c s = some t →
    scanStr (.text (rangesOf st)) (t ++ 34 :: r) = some (s, r) := by
  induction s with
  | nil =>
    intro st c t r h1 h2 h3 h
    unfold dumpEsc at h
    by_cases h0 : st = 0
    · rw [if_pos h0] at h
      injection h with h
      subst h h0
      rfl
    · rw [if_neg h0] at h; cases h
  | cons b s ih =>
    intro st c t r h1 h2 h3 h
    unfold dumpEsc at h
    simp only at h
    by_cases hb : b < 256
    case neg => rw [nextState_big h1 hb, if_pos rfl] at h; cases h
    by_cases h0 : st = 0
    · subst h0
      rcases first_byte_tab b hb with h4 | ⟨h4, h5, h6⟩ | ⟨h4, h4', h5, h6, h7, h8⟩
      · rw [h4, if_pos rfl] at h; cases h
      · rw [h4, if_neg (by decide), if_pos rfl] at h
        have hc : nextCode 0 c b = b := by
          unfold nextCode
          rw [if_neg (by simp), h6]
          have : ∀ b, b < 128 → (0xFF >>> 0) &&& b = b := by decide +kernel
          exact this b h5
        rw [hc] at h
        cases hd : dumpEsc 0 b s with
        | none => rw [hd] at h; cases h
        | some t' =>
          rw [hd] at h
          simp only [Option.map_some, Option.some.injEq] at h
          subst h
          have := ih (st := 0) (c := b) (r := r) (by decide) (by decide) ⟨by simp, by simp⟩ hd
          rw [List.append_assoc]
          show scanStr (.text []) _ = _
          rw [escape_scan b h5]
          have h9 : scanStr (.text []) (t' ++ 34 :: r) = some (s, r) := this
          rw [h9]
          rfl
      · have h9 : nextState 0 b ≠ 1 := by omega
        have h10 : nextState 0 b ≠ 0 := by omega
        rw [if_neg h9, if_neg h10] at h
        cases hd : dumpEsc (nextState 0 b) (nextCode 0 c b) s with
        | none => rw [hd] at h; cases h
        | some t' =>
          rw [hd] at h
          simp only [Option.map_some, Option.some.injEq] at h
          subst h
          have hc : nextCode 0 c b = (0xFF >>> byteType b) &&& b := by
            unfold nextCode; rw [if_neg (by simp)]
          have := ih (r := r) h4' h9 (by
            rw [hc]
            exact ⟨h7, fun h => h8 (by omega) (by omega)⟩) hd
          show scanStr (.text []) (b :: (t' ++ 34 :: r)) = _
          unfold scanStr
          rw [if_neg (by rintro ⟨-, h⟩; omega)]
          have hsb : scanByte (.text []) b = some ([b], .text (rangesOf (nextState 0 b))) := by
            unfold scanByte
            simp only
            rw [if_neg (by omega), if_neg (by omega), if_neg (by omega), h6]
            rfl
          rw [hsb]
          simp only
          rw [this]
          rfl
    · rcases next_byte_tab st h1 (by omega) b hb with h4 | ⟨h4, h4', h5, ⟨⟨lo, hi⟩, -, h6, h7, h8⟩, h9, h10, h11⟩
      · rw [h4, if_pos rfl] at h; cases h
      · rw [if_neg h4] at h
        have hc : nextCode st c b = (b &&& 0x3F) ||| (c <<< 6) := by
          unfold nextCode; rw [if_pos h0]
        have hs := code_shift b c
        have hl := code_low b c
        rw [← hc] at hs hl
        have hbt : ∀ t', t = b :: t' → dumpEsc (nextState st b) (nextCode st c b) s = some t' →
            scanStr (.text (rangesOf st)) (t ++ 34 :: r) = some (b :: s, r) := by
          intro t' ht hd
          subst ht
          have := ih (r := r) (by omega) h4 ⟨fun h => by
            rcases h10 h with h | h | h
            · have := h3.2 (.inl h); omega
            · have := h3.2 (.inr (.inl h)); omega
            · omega, fun h => by
            have h : nextState st b = 3 := by omega
            rcases h11 h with h | h | h
            · have := h3.2 (.inr (.inr (.inl h))); omega
            · have := h3.2 (.inr (.inr (.inr h))); omega
            · omega⟩ hd
          rw [h8]
          show scanStr _ (b :: (t' ++ 34 :: r)) = _
          unfold scanStr
          rw [if_neg (by rintro ⟨-, h⟩; omega)]
          have hsb : scanByte (.text ((lo, hi) :: rangesOf (nextState st b))) b = some ([b], .text (rangesOf (nextState st b))) := by
            unfold scanByte
            simp only
            rw [if_pos ⟨h6, h7⟩]
          rw [hsb]
          simp only
          rw [this]
          rfl
        by_cases h12 : nextState st b = 0
        · rw [if_pos h12] at h
          have hc2 := h3.1 (h9 h12)
          have he : escape (nextCode st c b) b = [b] := by
            unfold escape
            repeat rw [if_neg (by omega)]
          rw [he] at h
          cases hd : dumpEsc 0 (nextCode st c b) s with
          | none => rw [hd] at h; cases h
          | some t' =>
            rw [hd] at h
            simp only [Option.map_some, Option.some.injEq] at h
            exact hbt t' h.symm (by rw [h12]; exact hd)
        · rw [if_neg h12] at h
          cases hd : dumpEsc (nextState st b) (nextCode st c b) s with
          | none => rw [hd] at h; cases h
          | some t' =>
            rw [hd] at h
            simp only [Option.map_some, Option.some.injEq] at h
            exact hbt t' h.symm hd

/-- A quoted string is scanned back. -/
theorem dumpEsc_scan {s t r : Str} (h : dumpEsc 0 0 s = some t) : scanStr (.text []) (t ++ 34 :: r) = some (s, r) :=
  dump_scan (st := 0) (c := 0) (by decide) (by decide) ⟨by simp, by simp⟩ h

end Umpire.Events
