import Verif.Trace.Model
/-!
# Addresses and keys as texts
-/
set_option autoImplicit false
set_option linter.unusedSimpArgs false
namespace Umpire.Trace
open Umpire.Events (Event Str get Rec getEvents hexVal hexF ptrText)
open Umpire.Rebuild (osPtr)

/-- A text as characters. -/
def chars (s : Str) : List Char := s.map Char.ofNat

/-- A string of bytes. -/
def Bytes (s : Str) : Prop := ∀ b ∈ s, b < 256

theorem ofNat_inj {a b : Nat} (ha : a < 256) (hb : b < 256) (h : Char.ofNat a = Char.ofNat b) : a = b := by
  have hv : ∀ n, n < 256 → (Char.ofNat n).toNat = n := by decide +kernel
  have := congrArg Char.toNat h
  rwa [hv a ha, hv b hb] at this

theorem chars_inj {s t : Str} (hs : Bytes s) (ht : Bytes t) (h : chars s = chars t) : s = t := by
  induction s generalizing t with
  | nil => cases t with
    | nil => rfl
    | cons b t => simp [chars] at h
  | cons a s ih =>
    cases t with
    | nil => simp [chars] at h
    | cons b t =>
      simp only [chars, List.map_cons, List.cons.injEq] at h
      rw [ofNat_inj (hs a (by simp)) (ht b (by simp)) h.1,
        ih (fun x hx => hs x (by simp [hx])) (fun x hx => ht x (by simp [hx])) h.2]

theorem chars_append (s t : Str) : chars (s ++ t) = chars s ++ chars t := List.map_append

/-! ## Hexadecimal digits -/

theorem digit_char : ∀ n, n < 16 → Char.ofNat (Events.hexDigit n) = Replay.hexDigit n := by decide +kernel

theorem hexF_chars (f : Nat) : ∀ n, n < 16 ^ f → 0 < f → chars (hexF f n) = (Replay.hexRev n).reverse := by
  induction f with
  | zero => intro n _ h; omega
  | succ f ih =>
    intro n hn _
    unfold hexF Replay.hexRev
    by_cases h : n < 16
    · rw [if_pos h, dif_pos h]
      simp [chars, digit_char n h]
    · rw [if_neg h, dif_neg h]
      have hf : 0 < f := by
        rcases Nat.eq_zero_or_pos f with rfl | h'
        · simp at hn; omega
        · exact h'
      rw [chars_append, ih (n / 16) (by rw [Nat.pow_succ] at hn; exact (Nat.div_lt_iff_lt_mul (by decide)).2 hn) hf,
        List.reverse_cons]
      simp [chars, digit_char (n % 16) (Nat.mod_lt _ (by decide))]

theorem os_ptr {p : Nat} (h : p ≠ 0) : osPtr p = ptrText p := by
  unfold osPtr ptrText
  rw [if_neg h, if_neg h]

theorem ptr_chars {p : Nat} (h0 : p ≠ 0) (h : p < 2 ^ 64) : chars (ptrText p) = Replay.hex p := by
  unfold ptrText Replay.hex
  rw [if_neg h0, chars_append, hexF_chars 16 p (by omega) (by decide)]
  rfl

theorem hexF_mem (f : Nat) : ∀ n, ∀ b ∈ hexF f n, ∃ d, d < 16 ∧ b = Events.hexDigit d := by
  induction f with
  | zero => intro n b hb; simp [hexF] at hb
  | succ f ih =>
    intro n b hb
    unfold hexF at hb
    split at hb
    · rename_i h; simp at hb; exact ⟨n, h, hb⟩
    · rcases List.mem_append.1 hb with hb | hb
      · exact ih _ b hb
      · simp at hb; exact ⟨_, Nat.mod_lt _ (by decide), hb⟩

theorem ptr_bytes (p : Nat) : Bytes (ptrText p) := by
  unfold ptrText
  split
  · unfold Bytes; decide
  · intro b hb
    rcases List.mem_append.1 hb with hb | hb
    · simp only [List.mem_cons, List.not_mem_nil, or_false] at hb; omega
    · obtain ⟨d, hd, rfl⟩ := hexF_mem 16 p b hb
      have : ∀ d, d < 16 → Events.hexDigit d < 256 := by decide
      exact this d hd

theorem ptr_no_paren {p : Nat} (h : p ≠ 0) : 41 ∉ ptrText p := by
  unfold ptrText
  rw [if_neg h]
  intro hb
  rcases List.mem_append.1 hb with hb | hb
  · revert hb; decide
  · obtain ⟨d, hd, hb⟩ := hexF_mem 16 p 41 hb
    have : ∀ d, d < 16 → Events.hexDigit d ≠ 41 := by decide
    exact this d hd hb.symm

/-- The key of an allocation, as text. -/
def textKey (x : Nat × Nat) : Str := ptrText x.1 ++ ptrText x.2

theorem textKey_inj {r p r' p' : Nat} (h0 : r ≠ 0) (h0' : r' ≠ 0) (h1 : r < 2 ^ 64) (h1' : r' < 2 ^ 64) (h2 : p < 2 ^ 64) (h2' : p' < 2 ^ 64)
    (h : textKey (r, p) = textKey (r', p')) : (r, p) = (r', p') := by
  unfold textKey at h
  simp only at h
  by_cases hp : p = 0 <;> by_cases hp' : p' = 0
  · subst hp hp'
    have := List.append_cancel_right h
    rw [← Events.readPtr_ptrText h1, this, Events.readPtr_ptrText h1']
  · exfalso
    have hm : 41 ∈ ptrText r' ++ ptrText p' := by rw [← h, hp]; exact List.mem_append_right _ (by decide)
    rcases List.mem_append.1 hm with hm | hm
    · exact ptr_no_paren h0' hm
    · exact ptr_no_paren hp' hm
  · exfalso
    have hm : 41 ∈ ptrText r ++ ptrText p := by rw [h, hp']; exact List.mem_append_right _ (by decide)
    rcases List.mem_append.1 hm with hm | hm
    · exact ptr_no_paren h0 hm
    · exact ptr_no_paren hp hm
  · have := congrArg chars h
    rw [chars_append, chars_append, ptr_chars h0 h1, ptr_chars hp h2, ptr_chars h0' h1', ptr_chars hp' h2'] at this
    obtain ⟨e1, e2⟩ := Replay.key_inj this
    rw [e1, e2]

/-! ## `stoul` reads addresses -/

theorem digits_hex (f : Nat) : ∀ n, n < 16 ^ f → 0 < f → ∀ m s, digits 16 m (hexF f n ++ s) = digits 16 (m * 16 ^ (hexF f n).length + n) s := by
  have hd : ∀ d, d < 16 → hexVal (Events.hexDigit d) = some d := by decide +kernel
  have one : ∀ d, d < 16 → ∀ m s, digits 16 m (Events.hexDigit d :: s) = digits 16 (16 * m + d) s := by
    intro d h m s
    conv => lhs; unfold digits
    rw [hd d h]
    simp only [if_pos h]
  induction f with
  | zero => intro n _ h; omega
  | succ f ih =>
    intro n hn _ m s
    unfold hexF
    by_cases h : n < 16
    · rw [if_pos h]
      show digits 16 m (Events.hexDigit n :: s) = _
      rw [one n h]
      simp [Nat.mul_comm]
    · rw [if_neg h]
      have hf : 0 < f := by
        rcases Nat.eq_zero_or_pos f with rfl | h'
        · simp at hn; omega
        · exact h'
      have hm := Nat.mod_lt n (show 0 < 16 by decide)
      rw [List.append_assoc, ih (n / 16) (by rw [Nat.pow_succ] at hn; exact (Nat.div_lt_iff_lt_mul (by decide)).2 hn) hf]
      show digits 16 _ (Events.hexDigit (n % 16) :: s) = _
      rw [one _ hm, List.length_append, List.length_singleton, Nat.pow_succ]
      congr 1
      have : 16 * (m * 16 ^ (hexF f (n / 16)).length + n / 16) + n % 16 = 16 * (m * 16 ^ (hexF f (n / 16)).length) + n := by omega
      rw [this, Nat.mul_left_comm, Nat.mul_comm 16]

theorem hexF_ne (f n : Nat) (h : 0 < f) : ∃ d s, d < 16 ∧ hexF f n = Events.hexDigit d :: s := by
  induction f generalizing n with
  | zero => omega
  | succ f ih =>
    unfold hexF
    by_cases hn : n < 16
    · rw [if_pos hn]; exact ⟨n, [], hn, rfl⟩
    · rw [if_neg hn]
      rcases Nat.eq_zero_or_pos f with rfl | hf
      · exact ⟨_, [], Nat.mod_lt _ (by decide), rfl⟩
      · obtain ⟨d, s, hd, he⟩ := ih (n / 16) hf
        exact ⟨d, s ++ _, hd, by rw [he]; rfl⟩

theorem stoul_hex {p : Nat} (h : p < 2 ^ 64) : stoul (b!"0x" ++ hexF 16 p) = some p := by
  obtain ⟨d, s, hd, he⟩ := hexF_ne 16 p (by decide)
  have hdig : ∀ d, d < 16 → isDigit 16 (Events.hexDigit d) = true := by decide +kernel
  have hm : magnitude (b!"0x" ++ hexF 16 p) = some p := by
    have := digits_hex 16 p (by omega) (by decide) 0 []
    rw [he] at this ⊢
    simp only [List.append_nil, Nat.zero_mul, Nat.zero_add] at this
    show magnitude (48 :: 120 :: Events.hexDigit d :: s) = _
    unfold magnitude
    simp only [if_pos (hdig d hd), this]
    rfl
  unfold stoul
  show (match magnitude (b!"0x" ++ hexF 16 p) with | some n => _ | none => _) = _
  rw [hm]
  simp only [if_pos h]
  rfl

theorem stoul_ptr {p : Nat} (h0 : p ≠ 0) (h : p < 2 ^ 64) : stoul (ptrText p) = some p := by
  unfold ptrText
  rw [if_neg h0, stoul_hex h]

theorem stoul_os {p : Nat} (h : p < 2 ^ 64) : stoul (osPtr p) = some p := by
  unfold osPtr
  split
  · rename_i h0; subst h0; rfl
  · exact stoul_hex h

/-! ## Tables under a change of keys -/

section
variable {α β γ : Type} [DecidableEq α] [DecidableEq β]

theorem find_map (f : α → β) {k : α} {L : List (α × γ)} (h : ∀ x ∈ L, f x.1 = f k → x.1 = k) :
    Replay.find (f k) (L.map fun x => (f x.1, x.2)) = Replay.find k L := by
  induction L with
  | nil => rfl
  | cons x L ih =>
    obtain ⟨k', v⟩ := x
    simp only [List.map_cons, Replay.find_cons]
    by_cases hk : k' = k
    · rw [if_pos (by rw [hk]), if_pos hk]
    · rw [if_neg (fun he => hk (h (k', v) (by simp) he)), if_neg hk]
      exact ih fun y hy => h y (by simp [hy])

theorem erase_map (f : α → β) {k : α} {L : List (α × γ)} (h : ∀ x ∈ L, f x.1 = f k → x.1 = k) :
    Replay.erase (f k) (L.map fun x => (f x.1, x.2)) = (Replay.erase k L).map fun x => (f x.1, x.2) := by
  unfold Replay.erase
  induction L with
  | nil => rfl
  | cons x L ih =>
    have ih := ih fun y hy => h y (by simp [hy])
    rw [List.map_cons, List.filter_cons, List.filter_cons]
    by_cases hk : x.1 = k
    · rw [if_neg (by simp [hk]), if_neg (by simp [hk])]; exact ih
    · have hk' : f x.1 ≠ f k := fun he => hk (h x (by simp) he)
      rw [if_pos (by simp [hk']), if_pos (by simp [hk]), List.map_cons, ih]
end

theorem strip_chars {s : Str} (h : Bytes s) : chars (stripBase s) = Replay.stripBase (chars s) := by
  unfold stripBase Replay.stripBase
  have hl : (chars s).length = s.length := List.length_map _
  have hd : (chars s).drop ((chars s).length - 5) = chars (s.drop (s.length - 5)) := by rw [hl]; exact List.map_drop.symm
  have hb : "_base".toList = chars b!"_base" := rfl
  have hiff : (s.length > 5 ∧ s.drop (s.length - 5) = b!"_base") ↔ ((chars s).length > 5 ∧ (chars s).drop ((chars s).length - 5) = "_base".toList) := by
    rw [hd, hl, hb]
    constructor
    · rintro ⟨h1, h2⟩; exact ⟨h1, by rw [h2]⟩
    · rintro ⟨h1, h2⟩
      exact ⟨h1, chars_inj (fun b hb => h b (List.mem_of_mem_drop hb)) (by unfold Bytes; decide) h2⟩
  by_cases hc : s.length > 5 ∧ s.drop (s.length - 5) = b!"_base"
  · rw [if_pos hc, if_pos (hiff.1 hc), hl]; exact List.map_take
  · rw [if_neg hc, if_neg fun hh => hc (hiff.2 hh)]

theorem strip_bytes {s : Str} (h : Bytes s) : Bytes (stripBase s) := by
  unfold stripBase
  split
  · exact fun b hb => h b (List.mem_of_mem_take hb)
  · exact h

end Umpire.Trace
