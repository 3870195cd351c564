import Verif.Events.Lex
import Verif.Events.Store
/-!
# Tokens of the text that is written
-/
set_option autoImplicit false
set_option linter.unusedSimpArgs false
namespace Umpire.Events

/-! ## Printable text -/

/-- No control characters. -/
def Clean (s : Str) : Prop := ∀ b ∈ s, 32 ≤ b

theorem Clean.append {s t : Str} (h1 : Clean s) (h2 : Clean t) : Clean (s ++ t) := fun b hb =>
  (List.mem_append.1 hb).elim (h1 b) (h2 b)

theorem clean_escape : ∀ b c, 32 ≤ b → c < 32 ∨ 128 ≤ c ∨ c = b → Clean (escape c b) := by
  intro b c hb hc
  unfold escape
  repeat' split
  all_goals try (intro x hx; revert hx; revert x; decide)
  · rename_i h
    intro x hx
    simp only [List.mem_append, List.mem_cons, List.not_mem_nil, or_false] at hx
    have h1 : c / 4096 = 0 := by omega
    have h2 : c / 256 % 16 = 0 := by omega
    have h3 : c / 16 % 16 < 16 := by omega
    have h4 : c % 16 < 16 := by omega
    unfold hexDigit at hx
    rcases hx with (hx | hx) | hx | hx | hx | hx <;> first | omega | (split at hx <;> omega)
  · intro x hx
    simp only [List.mem_cons, List.not_mem_nil, or_false] at hx
    omega

theorem clean_escape' : ∀ b, b < 128 → Clean (escape b b) := by
  intro b hb
  have : ∀ b, b < 128 → ∀ x ∈ escape b b, 32 ≤ x := by decide +kernel
  exact this b hb

/-- What `dump_escaped` writes has no control characters. -/
theorem dumpEsc_clean {s : Str} : ∀ {st c : Nat} {t : Str}, st < 9 → st ≠ 1 → CodeOk st c → dumpEsc st c s = some t →
    Clean t := by
  induction s with
  | nil =>
    intro st c t h1 h2 h3 h
    unfold dumpEsc at h
    by_cases h0 : st = 0
    · rw [if_pos h0] at h
      injection h with h
      subst h
      intro b hb; cases hb
    · rw [if_neg h0] at h; cases h
  | cons b s ih =>
    intro st c t h1 h2 h3 h
    unfold dumpEsc at h
    simp only at h
    by_cases hb : b < 256
    case neg => rw [nextState_big h1 hb, if_pos rfl] at h; cases h
    by_cases h0 : st = 0
    · subst h0
      rcases first_byte_tab b hb with h4 | ⟨h4, h5, h6⟩ | ⟨h4, h4', h5, h6, h7, h8⟩
      · rw [h4, if_pos rfl] at h; cases h
      · rw [h4, if_neg (by decide), if_pos rfl] at h
        have hc : nextCode 0 c b = b := by
          unfold nextCode
          rw [if_neg (by simp), h6]
          have : ∀ b, b < 128 → (0xFF >>> 0) &&& b = b := by decide +kernel
          exact this b h5
        rw [hc] at h
        cases hd : dumpEsc 0 b s with
        | none => rw [hd] at h; cases h
        | some t' =>
          rw [hd] at h
          simp only [Option.map_some, Option.some.injEq] at h
          subst h
          exact (clean_escape' b h5).append (ih (st := 0) (c := b) (by decide) (by decide) ⟨by simp, by simp⟩ hd)
      · have h9 : nextState 0 b ≠ 1 := by omega
        have h10 : nextState 0 b ≠ 0 := by omega
        rw [if_neg h9, if_neg h10] at h
        cases hd : dumpEsc (nextState 0 b) (nextCode 0 c b) s with
        | none => rw [hd] at h; cases h
        | some t' =>
          rw [hd] at h
          simp only [Option.map_some, Option.some.injEq] at h
          subst h
          have hc : nextCode 0 c b = (0xFF >>> byteType b) &&& b := by
            unfold nextCode; rw [if_neg (by simp)]
          have := ih h4' h9 (by
            rw [hc]
            exact ⟨h7, fun h => h8 (by omega) (by omega)⟩) hd
          intro x hx
          rcases List.mem_cons.1 hx with rfl | hx
          · omega
          · exact this x hx
    · rcases next_byte_tab st h1 (by omega) b hb with h4 | ⟨h4, h4', h5, -, h9, h10, h11⟩
      · rw [h4, if_pos rfl] at h; cases h
      · rw [if_neg h4] at h
        have hc : nextCode st c b = (b &&& 0x3F) ||| (c <<< 6) := by
          unfold nextCode; rw [if_pos h0]
        have hs := code_shift b c
        have hl := code_low b c
        rw [← hc] at hs hl
        have hbt : ∀ t', t = b :: t' → dumpEsc (nextState st b) (nextCode st c b) s = some t' → Clean t := by
          intro t' ht hd
          subst ht
          have := ih (by omega) h4 ⟨fun h => by
            rcases h10 h with h | h | h
            · have := h3.2 (.inl h); omega
            · have := h3.2 (.inr (.inl h)); omega
            · omega, fun h => by
            have h : nextState st b = 3 := by omega
            rcases h11 h with h | h | h
            · have := h3.2 (.inr (.inr (.inl h))); omega
            · have := h3.2 (.inr (.inr (.inr h))); omega
            · omega⟩ hd
          intro x hx
          rcases List.mem_cons.1 hx with rfl | hx
          · omega
          · exact this x hx
        by_cases h12 : nextState st b = 0
        · rw [if_pos h12] at h
          have hc2 := h3.1 (h9 h12)
          have he : escape (nextCode st c b) b = [b] := by
            unfold escape
            repeat rw [if_neg (by omega)]
          rw [he] at h
          cases hd : dumpEsc 0 (nextCode st c b) s with
          | none => rw [hd] at h; cases h
          | some t' =>
            rw [hd] at h
            simp only [Option.map_some, Option.some.injEq] at h
            exact hbt t' h.symm (by rw [h12]; exact hd)
        · rw [if_neg h12] at h
          cases hd : dumpEsc (nextState st b) (nextCode st c b) s with
          | none => rw [hd] at h; cases h
          | some t' =>
            rw [hd] at h
            simp only [Option.map_some, Option.some.injEq] at h
            exact hbt t' h.symm hd

/-! ## Tokens -/

/-- A text and its tokens. -/
inductive Lexes : Str → List Tok → Prop
  | nil : Lexes [] []
  | cons {b : Nat} {s r : Str} {t : Tok} {ts : List Tok} : isWs b = false → scan b s = some (t, r) → Lexes r ts →
    Lexes (b :: s) (t :: ts)

/-- The text `p` gives the tokens `ts` whatever follows. -/
def Piece (p : Str) (ts : List Tok) : Prop := ∀ r us, Lexes r us → Lexes (p ++ r) (ts ++ us)

theorem Piece.append {p q : Str} {ts us : List Tok} (h1 : Piece p ts) (h2 : Piece q us) : Piece (p ++ q) (ts ++ us) := by
  intro r vs h
  rw [List.append_assoc, List.append_assoc]
  exact h1 _ _ (h2 _ _ h)

theorem Piece.nil : Piece [] [] := fun _ _ h => h

theorem Piece.lexes {p : Str} {ts : List Tok} (h : Piece p ts) : Lexes p ts := by
  have := h [] [] .nil
  simpa using this

/-- A quoted string. -/
theorem piece_str {s t : Str} (h : dumpStr s = some t) : Piece t [.str s] := by
  unfold dumpStr at h
  cases hd : dumpEsc 0 0 s with
  | none => rw [hd] at h; cases h
  | some x =>
    rw [hd] at h
    simp only [Option.map_some, Option.some.injEq] at h
    subst h
    intro r us hr
    show Lexes (34 :: (x ++ [34] ++ r)) (.str s :: us)
    refine .cons (by decide) ?_ hr
    have : scan 34 (x ++ [34] ++ r) = (scanStr (.text []) (x ++ [34] ++ r)).map fun x => (.str x.1, x.2) := rfl
    rw [this, List.append_assoc]
    have := dumpEsc_scan (r := r) hd
    rw [show ([34] ++ r : Str) = 34 :: r from rfl, this]
    rfl

/-- A punctuation mark. -/
theorem piece_mark {b : Nat} {t : Tok} (hw : isWs b = false) (h : ∀ s, scan b s = some (t, s)) : Piece [b] [t] := by
  intro r us hr
  exact .cons hw (h _) hr

theorem piece_lbrace : Piece [123] [.lbrace] := piece_mark (by decide) fun _ => rfl
theorem piece_rbrace : Piece [125] [.rbrace] := piece_mark (by decide) fun _ => rfl
theorem piece_colon : Piece [58] [.colon] := piece_mark (by decide) fun _ => rfl
theorem piece_comma : Piece [44] [.comma] := piece_mark (by decide) fun _ => rfl

/-! ## Numbers -/

theorem value_append (s t : Str) (a : Nat) : value a (s ++ t) = value (value a s) t := by
  induction s generalizing a with
  | nil => rfl
  | cons x s ih => exact ih _

/-- The digits of a number. -/
theorem decF_spec (f : Nat) : ∀ n, n < 10 ^ f → 0 < f →
    (∀ b ∈ decF f n, 48 ≤ b ∧ b ≤ 57) ∧ (∃ b s, decF f n = b :: s ∧ (b = 48 → n = 0 ∧ s = [])) ∧
    ∀ acc, value acc (decF f n) = acc * 10 ^ (decF f n).length + n := by
  induction f with
  | zero => intro n _ h; omega
  | succ f ih =>
    intro n hn _
    unfold decF
    by_cases h : n < 10
    · rw [if_pos h]
      clear hn ih
      refine ⟨fun b hb => ?_, ⟨48 + n, [], rfl, fun h => ⟨?_, rfl⟩⟩, fun acc => ?_⟩
      · have := List.mem_singleton.1 hb
        omega
      · omega
      · show acc * 10 + (48 + n - 48) = acc * 10 ^ 1 + n
        omega
    · rw [if_neg h]
      have hf : 0 < f := by
        rcases Nat.eq_zero_or_pos f with rfl | h'
        · simp at hn; omega
        · exact h'
      obtain ⟨h1, ⟨b, s, h2, h3⟩, h4⟩ := ih (n / 10) (by
        rw [Nat.pow_succ] at hn
        exact Nat.div_lt_of_lt_mul (by omega)) hf
      refine ⟨fun c hc => ?_, ⟨b, s ++ [48 + n % 10], by rw [h2]; rfl, fun hb => ?_⟩, fun acc => ?_⟩
      · rcases List.mem_append.1 hc with hc | hc
        · exact h1 c hc
        · rw [List.mem_singleton] at hc; omega
      · have := (h3 hb).1; omega
      · rw [value_append, h4, List.length_append]
        show (acc * 10 ^ (decF f (n / 10)).length + n / 10) * 10 + (48 + n % 10 - 48) =
          acc * 10 ^ ((decF f (n / 10)).length + 1) + n
        rw [Nat.pow_succ, ← Nat.mul_assoc]
        clear hn ih h4
        generalize acc * 10 ^ (decF f (n / 10)).length = x
        omega

theorem digits_append {s r : Str} {c : Nat} (h : ∀ b ∈ s, 48 ≤ b ∧ b ≤ 57) (hc : isDigit c = false) :
    digits (s ++ c :: r) = (s, c :: r) := by
  induction s with
  | nil =>
    show digits (c :: r) = _
    unfold digits
    rw [hc]
    rfl
  | cons b s ih =>
    show digits (b :: (s ++ c :: r)) = _
    unfold digits
    have hb : isDigit b = true := by
      unfold isDigit
      exact decide_eq_true (h b (List.mem_cons_self ..))
    rw [hb, if_pos rfl, ih fun b hb => h b (List.mem_cons_of_mem _ hb)]

/-- What may follow a number. -/
def Stop (c : Nat) : Prop := c = 44 ∨ c = 125

theorem scanTail_stop {t : Tok} {c : Nat} {r : Str} (h : Stop c) : scanTail t (c :: r) = some (t, c :: r) := by
  rcases h with rfl | rfl <;> rfl

theorem scanInt_dec {neg : Bool} {n c : Nat} {r : Str} (hn : n < 2 ^ 64) (hc : Stop c) :
    scanInt neg (dec n ++ c :: r) = some (number neg (dec n), c :: r) ∧ value 0 (dec n) = n ∧
    (∃ b s, dec n = b :: s ∧ isDigit b = true) := by
  obtain ⟨h1, ⟨b, s, h2, h3⟩, h4⟩ := decF_spec 20 n (Nat.lt_of_lt_of_le hn (by decide)) (by decide)
  have hv : value 0 (dec n) = n := by
    have := h4 0
    unfold dec
    omega
  have hb := h1 b (by rw [h2]; exact List.mem_cons_self ..)
  have hd : isDigit b = true := by unfold isDigit; exact decide_eq_true hb
  have hdn : dec n = b :: s := h2
  refine ⟨?_, hv, b, s, hdn, hd⟩
  rw [hdn]
  show scanInt neg (b :: (s ++ c :: r)) = _
  unfold scanInt
  simp only
  by_cases h0 : b = 48
  · rw [if_pos h0]
    have := h3 h0
    rw [this.2, h0]
    exact scanTail_stop hc
  · rw [if_neg h0, if_pos hd]
    have hnd : isDigit c = false := by rcases hc with rfl | rfl <;> rfl
    rw [digits_append (fun b hb => h1 b (by rw [h2]; exact List.mem_cons_of_mem _ hb)) hnd]
    exact scanTail_stop hc

/-- An unsigned number in front of a comma or a brace. -/
theorem lexes_uint {n c : Nat} {r : Str} {us : List Tok} (hn : n < 2 ^ 64) (hc : Stop c) (h : Lexes (c :: r) us) :
    Lexes (dec n ++ c :: r) (.uint n :: us) := by
  obtain ⟨h1, h2, b, s, h3, h4⟩ := scanInt_dec (neg := false) (r := r) hn hc
  rw [h3] at h1 ⊢
  have hd : 48 ≤ b ∧ b ≤ 57 := by unfold isDigit at h4; exact of_decide_eq_true h4
  refine .cons ?_ ?_ h
  · unfold isWs
    exact decide_eq_false (by omega)
  · unfold scan
    repeat rw [if_neg (by omega)]
    rw [if_pos h4]
    show scanInt false (b :: s ++ c :: r) = _
    rw [h1, ← h3]
    unfold number
    rw [h2]
    simp only
    rw [if_neg (by decide), if_pos hn]

/-- A signed number in front of a comma or a brace. -/
theorem lexes_int {i : Int} {c : Nat} {r : Str} {us : List Tok} (h1 : -2 ^ 63 ≤ i) (h2 : i < 2 ^ 64) (hc : Stop c)
    (h : Lexes (c :: r) us) :
    Lexes (decI i ++ c :: r) ((if i < 0 then .int i else .uint i.toNat) :: us) := by
  unfold decI
  by_cases h0 : i < 0
  · rw [if_pos h0, if_pos h0]
    obtain ⟨h3, h4, -⟩ := scanInt_dec (neg := true) (n := i.natAbs) (r := r) (by omega) hc
    refine .cons (by decide) ?_ h
    have : scan 45 (dec i.natAbs ++ c :: r) = scanInt true (dec i.natAbs ++ c :: r) := rfl
    rw [show (dec i.natAbs).append (c :: r) = dec i.natAbs ++ c :: r from rfl, this, h3]
    unfold number
    rw [h4]
    simp only
    rw [if_pos True.intro, if_pos (by omega)]
    have : -(i.natAbs : Int) = i := by omega
    rw [this]
  · rw [if_neg h0, if_neg h0]
    have := lexes_uint (n := i.natAbs) (r := r) (by omega) hc h
    have he : i.natAbs = i.toNat := by omega
    rw [he] at this ⊢
    exact this

theorem dec_clean {n : Nat} (hn : n < 2 ^ 64) : Clean (dec n) := by
  obtain ⟨h1, -⟩ := decF_spec 20 n (Nat.lt_of_lt_of_le hn (by decide)) (by decide)
  intro b hb
  have := h1 b hb
  omega

theorem decI_clean {i : Int} (h1 : -2 ^ 63 ≤ i) (h2 : i < 2 ^ 64) : Clean (decI i) := by
  unfold decI
  split
  · intro b hb
    rcases List.mem_cons.1 hb with rfl | hb
    · decide
    · exact dec_clean (n := i.natAbs) (by omega) b hb
  · exact dec_clean (by omega)

/-! ## Enough fuel -/

theorem scanStr_shorter {s r x : Str} : ∀ {q : Scan}, scanStr q s = some (x, r) → r.length < s.length := by
  induction s generalizing x r with
  | nil => intro q h; cases h
  | cons b s ih =>
    intro q h
    unfold scanStr at h
    by_cases hq : q = .text [] ∧ b = 34
    · rw [if_pos hq] at h
      injection h with h
      injection h with h1 h2
      subst h2
      simp
    · rw [if_neg hq] at h
      cases hb : scanByte q b with
      | none => rw [hb] at h; cases h
      | some y =>
        obtain ⟨o, q1⟩ := y
        rw [hb] at h
        simp only at h
        cases hs : scanStr q1 s with
        | none => rw [hs] at h; cases h
        | some z =>
          obtain ⟨x', r'⟩ := z
          rw [hs] at h
          injection h with h
          injection h with h1 h2
          subst h2
          have := ih hs
          simp only [List.length_cons]
          omega

theorem digits_length (s : Str) : (digits s).2.length ≤ s.length := by
  induction s with
  | nil => exact Nat.le_refl _
  | cons b s ih =>
    unfold digits
    split
    · simp only [List.length_cons]; omega
    · exact Nat.le_refl _

theorem digits1_length {s r : Str} (h : digits1 s = some r) : r.length ≤ s.length := by
  unfold digits1 at h
  have := digits_length s
  split at h
  · cases h
  · rename_i x heq
    injection h with h
    subst h
    rw [heq] at this
    exact this

theorem scanExp_length {s r : Str} (h : scanExp s = some r) : r.length ≤ s.length := by
  cases s with
  | nil => cases h
  | cons b s =>
    unfold scanExp at h
    simp only at h
    split at h
    · have := digits1_length h
      simp only [List.length_cons]; omega
    · exact digits1_length h

theorem scanTail_length {t t' : Tok} {s r : Str} (h : scanTail t s = some (t', r)) : r.length ≤ s.length := by
  cases s with
  | nil =>
    injection h with h
    injection h with h1 h2
    subst h2
    exact Nat.le_refl _
  | cons b s =>
    unfold scanTail at h
    simp only at h
    have hexp : ∀ x, (scanExp x).map (fun r => (Tok.float, r)) = some (t', r) → r.length ≤ x.length := by
      intro x hx
      cases he : scanExp x with
      | none => rw [he] at hx; cases hx
      | some y =>
        rw [he] at hx
        simp only [Option.map_some, Option.some.injEq, Prod.mk.injEq] at hx
        rw [← hx.2]
        exact scanExp_length he
    split at h
    · split at h
      · cases h
      · simp only [Option.some.injEq, Prod.mk.injEq] at h
        rw [← h.2]; simp
      · rename_i heq
        have hl := digits1_length heq
        simp only [List.length_cons] at hl ⊢
        split at h
        · have := hexp _ h; omega
        · simp only [Option.some.injEq, Prod.mk.injEq] at h
          rw [← h.2]
          simp only [List.length_cons]; omega
    · split at h
      · have := hexp _ h
        simp only [List.length_cons]; omega
      · simp only [Option.some.injEq, Prod.mk.injEq] at h
        rw [← h.2]; exact Nat.le_refl _

theorem scanInt_length {neg : Bool} {t : Tok} {s r : Str} (h : scanInt neg s = some (t, r)) : r.length < s.length := by
  cases s with
  | nil => cases h
  | cons b s =>
    unfold scanInt at h
    simp only at h
    have := digits_length s
    simp only [List.length_cons]
    split at h
    · have := scanTail_length h; omega
    · split at h
      · have := scanTail_length h; omega
      · cases h

theorem scanLit_length {w s r : Str} {t t' : Tok} (h : scanLit w t s = some (t', r)) : r.length ≤ s.length := by
  unfold scanLit at h
  split at h
  · simp only [Option.some.injEq, Prod.mk.injEq] at h
    rw [← h.2, List.length_drop]; omega
  · cases h

/-- A token consumes at least its first byte. -/
theorem scan_length {b : Nat} {t : Tok} {s r : Str} (h : scan b s = some (t, r)) : r.length ≤ s.length := by
  have hm : ∀ x : Tok × Str, some x = some (t, r) → x.2 = s → r.length ≤ s.length := by
    intro x hx h2
    injection hx with hx
    rw [← h2, hx]
    exact Nat.le_refl _
  unfold scan at h
  by_cases h91 : b = 91
  · rw [if_pos h91] at h; exact hm _ h rfl
  rw [if_neg h91] at h
  by_cases h93 : b = 93
  · rw [if_pos h93] at h; exact hm _ h rfl
  rw [if_neg h93] at h
  by_cases h123 : b = 123
  · rw [if_pos h123] at h; exact hm _ h rfl
  rw [if_neg h123] at h
  by_cases h125 : b = 125
  · rw [if_pos h125] at h; exact hm _ h rfl
  rw [if_neg h125] at h
  by_cases h58 : b = 58
  · rw [if_pos h58] at h; exact hm _ h rfl
  rw [if_neg h58] at h
  by_cases h44 : b = 44
  · rw [if_pos h44] at h; exact hm _ h rfl
  rw [if_neg h44] at h
  by_cases h116 : b = 116
  · rw [if_pos h116] at h; exact scanLit_length h
  rw [if_neg h116] at h
  by_cases h102 : b = 102
  · rw [if_pos h102] at h; exact scanLit_length h
  rw [if_neg h102] at h
  by_cases h110 : b = 110
  · rw [if_pos h110] at h; exact scanLit_length h
  rw [if_neg h110] at h
  by_cases h34 : b = 34
  · rw [if_pos h34] at h
    cases hs : scanStr (.text []) s with
    | none => rw [hs] at h; cases h
    | some x =>
      rw [hs] at h
      simp only [Option.map_some, Option.some.injEq, Prod.mk.injEq] at h
      have := scanStr_shorter (r := x.2) (x := x.1) hs
      rw [← h.2]
      omega
  rw [if_neg h34] at h
  by_cases h45 : b = 45
  · rw [if_pos h45] at h
    exact Nat.le_of_lt (scanInt_length h)
  rw [if_neg h45] at h
  by_cases hd : isDigit b = true
  · rw [if_pos hd] at h
    have := scanInt_length h
    simp only [List.length_cons] at this
    omega
  · rw [if_neg hd] at h
    cases h

/-- The tokens are found. -/
theorem Lexes.lex {s : Str} {ts : List Tok} (h : Lexes s ts) : ∀ n, s.length < n → lex n s = some ts := by
  induction h with
  | nil =>
    intro n hn
    match n, hn with
    | n + 1, _ => rfl
  | @cons b s r t ts hw hs _ ih =>
    intro n hn
    match n, hn with
    | n + 1, hn =>
      have hl := scan_length hs
      simp only [List.length_cons] at hn
      have hk : skipWs (b :: s) = b :: s := by
        unfold skipWs
        rw [hw]
        rfl
      unfold Events.lex
      rw [hk]
      simp only
      rw [hs]
      simp only
      rw [ih n (by omega)]
      rfl

/-- Nothing printable ends a C string. -/
theorem Clean.takeWhile {s : Str} (h : Clean s) : s.takeWhile (· != 0) = s := by
  induction s with
  | nil => rfl
  | cons b s ih =>
    have hb := h b (List.mem_cons_self ..)
    have : (b != 0) = true := by
      rw [bne_iff_ne]; omega
    rw [List.takeWhile_cons, this, if_pos rfl, ih fun b hb => h b (List.mem_cons_of_mem _ hb)]

/-- Parse a printable line with known tokens. -/
theorem parse_of {s : Str} {ts : List Tok} {v : J} (hc : Clean s) (hl : Lexes s ts)
    (hs : steps (.want, []) ts = some (.done v, [])) : parse s = some v := by
  unfold parse
  rw [hc.takeWhile]
  simp only
  rw [hl.lex _ (Nat.lt_succ_self _)]
  simp only
  rw [hs]

end Umpire.Events
