import Verif.Events.Text
/-!
# Reading back what was written
-/
set_option autoImplicit false
set_option linter.unusedSimpArgs false
namespace Umpire.Events

/-! ## Maps -/

/-- A `std::map`: keys in increasing order. -/
def Sorted {α : Type} (m : List (Str × α)) : Prop := m.Pairwise fun a b => strLt a.1 b.1 = true

theorem strLt_asymm : ∀ s t : Str, strLt s t = true → strLt t s = false := by
  intro s
  induction s with
  | nil => intro t h; cases t <;> rfl
  | cons a s ih =>
    intro t h
    cases t with
    | nil => cases h
    | cons b t =>
      unfold strLt at h ⊢
      by_cases h1 : a < b
      · rw [if_neg (by omega), if_pos h1]
      · rw [if_neg h1] at h
        by_cases h2 : b < a
        · rw [if_pos h2] at h; cases h
        · rw [if_neg h2] at h
          rw [if_neg h2, if_neg h1]
          exact ih t h

theorem set_last {α : Type} {m : List (Str × α)} {k : Str} {v : α} (h : ∀ x ∈ m, strLt x.1 k = true) :
    set k v m = m ++ [(k, v)] := by
  induction m with
  | nil => rfl
  | cons x m ih =>
    obtain ⟨k', v'⟩ := x
    have h1 : strLt k' k = true := h (k', v') (List.mem_cons_self ..)
    unfold set
    rw [strLt_asymm _ _ h1, h1, if_neg (by decide), if_pos rfl, ih fun x hx => h x (List.mem_cons_of_mem _ hx)]
    rfl

/-! ## Objects -/

/-- Tokens of the members of an object with plain values. -/
def memToks {α : Type} (f : α → Tok) : List (Str × α) → List Tok
  | [] => []
  | [(k, v)] => [.str k, .colon, f v]
  | (k, v) :: m => .str k :: .colon :: f v :: .comma :: memToks f m

/-- The text of the value `v` gives the token `f v`. -/
def ValLex {α : Type} (g : α → Option Str) (f : α → Tok) (v : α) : Prop :=
  ∀ x, g v = some x → ∀ c r us, Stop c → Lexes (c :: r) us → Lexes (x ++ c :: r) (f v :: us)

theorem members_lex {α : Type} {g : α → Option Str} {f : α → Tok} {m : List (Str × α)} :
    ∀ {t : Str}, (∀ x ∈ m, ValLex g f x.2) → dumpMembers g m = some t → ∀ r us, Lexes (125 :: r) us →
      Lexes (t ++ 125 :: r) (memToks f m ++ us) := by
  induction m with
  | nil =>
    intro t _ h r us hr
    injection h with h
    subst h
    exact hr
  | cons x m ih =>
    obtain ⟨k, v⟩ := x
    intro t hv h r us hr
    have hv0 := hv (k, v) (List.mem_cons_self ..)
    cases m with
    | nil =>
      unfold dumpMembers at h
      simp only [Option.bind_eq_bind, Option.bind_eq_some_iff, Option.pure_def, Option.some.injEq] at h
      obtain ⟨kt, hk, vt, hvt, rfl⟩ := h
      show Lexes _ (.str k :: (.colon :: f v :: us))
      rw [List.append_assoc]
      refine piece_str hk _ _ ?_
      exact piece_colon _ _ (hv0 vt hvt _ _ _ (.inr rfl) hr)
    | cons y m =>
      unfold dumpMembers at h
      simp only [Option.bind_eq_bind, Option.bind_eq_some_iff, Option.pure_def, Option.some.injEq] at h
      obtain ⟨kt, hk, vt, hvt, mt, hmt, rfl⟩ := h
      show Lexes _ (.str k :: (.colon :: f v :: .comma :: (memToks f (y :: m) ++ us)))
      have := ih (fun x hx => hv x (List.mem_cons_of_mem _ hx)) hmt r us hr
      have h2 := hv0 vt hvt 44 (mt ++ 125 :: r) _ (.inl rfl) (piece_comma _ _ this)
      have h3 := piece_str hk _ _ (piece_colon _ _ h2)
      simpa using h3

theorem obj_piece {α : Type} {g : α → Option Str} {f : α → Tok} {m : List (Str × α)} {t : Str}
    (hv : ∀ x ∈ m, ValLex g f x.2) (h : dumpObj g m = some t) : Piece t (.lbrace :: (memToks f m ++ [.rbrace])) := by
  unfold dumpObj at h
  cases hd : dumpMembers g m with
  | none => rw [hd] at h; cases h
  | some x =>
    rw [hd] at h
    simp only [Option.map_some, Option.some.injEq] at h
    subst h
    intro r us hr
    have h1 := members_lex hv hd r (.rbrace :: us) (piece_rbrace _ _ hr)
    have h2 := piece_lbrace _ _ h1
    simpa using h2

theorem valLex_str (s : Str) : ValLex dumpStr .str s := fun _ hx _ _ _ _ hr => piece_str hx _ _ hr

theorem valLex_uint {n : Nat} (h : n < 2 ^ 64) : ValLex (fun n => some (dec n)) .uint n := by
  intro x hx c r us hc hr
  injection hx with hx
  subst hx
  exact lexes_uint h hc hr

theorem dumpStr_clean {s t : Str} (h : dumpStr s = some t) : Clean t := by
  unfold dumpStr at h
  cases hd : dumpEsc 0 0 s with
  | none => rw [hd] at h; cases h
  | some x =>
    rw [hd] at h
    simp only [Option.map_some, Option.some.injEq] at h
    subst h
    have := dumpEsc_clean (st := 0) (c := 0) (by decide) (by decide) ⟨by simp, by simp⟩ hd
    intro b hb
    rcases List.mem_cons.1 hb with rfl | hb
    · decide
    · rcases List.mem_append.1 hb with hb | hb
      · exact this b hb
      · rw [List.mem_singleton.1 hb]; decide

theorem members_clean {α : Type} {g : α → Option Str} {m : List (Str × α)} :
    ∀ {t : Str}, (∀ x ∈ m, ∀ y, g x.2 = some y → Clean y) → dumpMembers g m = some t → Clean t := by
  induction m with
  | nil =>
    intro t _ h
    injection h with h
    subst h
    intro b hb; cases hb
  | cons x m ih =>
    obtain ⟨k, v⟩ := x
    intro t hv h
    have hv0 := hv (k, v) (List.mem_cons_self ..)
    have hm : ∀ n, 32 ≤ n → ∀ s, Clean s → Clean (n :: s) := by
      intro n hn s hs b hb
      rcases List.mem_cons.1 hb with rfl | hb
      · exact hn
      · exact hs b hb
    cases m with
    | nil =>
      unfold dumpMembers at h
      simp only [Option.bind_eq_bind, Option.bind_eq_some_iff, Option.pure_def, Option.some.injEq] at h
      obtain ⟨kt, hk, vt, hvt, rfl⟩ := h
      exact (dumpStr_clean hk).append (hm 58 (by decide) _ (hv0 vt hvt))
    | cons y m =>
      unfold dumpMembers at h
      simp only [Option.bind_eq_bind, Option.bind_eq_some_iff, Option.pure_def, Option.some.injEq] at h
      obtain ⟨kt, hk, vt, hvt, mt, hmt, rfl⟩ := h
      have := ih (fun x hx => hv x (List.mem_cons_of_mem _ hx)) hmt
      exact ((dumpStr_clean hk).append (hm 58 (by decide) _ (hv0 vt hvt))).append (hm 44 (by decide) _ this)

theorem obj_clean {α : Type} {g : α → Option Str} {m : List (Str × α)} {t : Str}
    (hv : ∀ x ∈ m, ∀ y, g x.2 = some y → Clean y) (h : dumpObj g m = some t) : Clean t := by
  unfold dumpObj at h
  cases hd : dumpMembers g m with
  | none => rw [hd] at h; cases h
  | some x =>
    rw [hd] at h
    simp only [Option.map_some, Option.some.injEq] at h
    subst h
    have := members_clean hv hd
    intro b hb
    rcases List.mem_cons.1 hb with rfl | hb
    · decide
    · rcases List.mem_append.1 hb with hb | hb
      · exact this b hb
      · rw [List.mem_singleton.1 hb]; decide

/-! ## The parser -/

theorem steps_cons (c : Mode × List Frame) (t : Tok) (ts : List Tok) :
    steps c (t :: ts) = (step c t).bind fun c => steps c ts := by
  conv => lhs; unfold steps
  cases step c t <;> rfl

theorem steps_append (a b : List Tok) (c : Mode × List Frame) : steps c (a ++ b) = (steps c a).bind fun c => steps c b := by
  induction a generalizing c with
  | nil => rfl
  | cons t a ih =>
    show steps c (t :: (a ++ b)) = _
    rw [steps_cons, steps_cons]
    cases step c t with
    | none => rfl
    | some c' => exact ih c'

theorem steps_members {α : Type} {f : α → Tok} {val : α → J} (hf : ∀ st v, startVal st (f v) = some (.done (val v), st))
    {m : List (Str × α)} : ∀ {m0 : List (Str × J)} {st : List Frame} {ts : List Tok}, m ≠ [] →
      Sorted (m0 ++ m.map fun x => (x.1, val x.2)) →
      steps (.key m0, st) (memToks f m ++ .rbrace :: ts) =
        steps (.done (.obj (m0 ++ m.map fun x => (x.1, val x.2))), st) ts := by
  induction m with
  | nil => intro m0 st ts h; exact absurd rfl h
  | cons x m ih =>
    obtain ⟨k, v⟩ := x
    intro m0 st ts _ hs
    have hlast : set k (val v) m0 = m0 ++ [(k, val v)] := by
      refine set_last fun x hx => ?_
      exact (List.pairwise_append.1 hs).2.2 x hx (k, val v) (List.mem_cons_self ..)
    have h1 : ∀ us, steps (.key m0, st) (.str k :: .colon :: f v :: us) = steps (.done (val v), .obj m0 k :: st) us := by
      intro us
      show steps (.want, .obj m0 k :: st) (f v :: us) = _
      rw [steps_cons]
      show (startVal (.obj m0 k :: st) (f v)).bind _ = _
      rw [hf]
      rfl
    cases m with
    | nil =>
      show steps (.key m0, st) (.str k :: .colon :: f v :: .rbrace :: ts) = _
      rw [h1]
      show steps (.done (.obj (set k (val v) m0)), st) ts = _
      rw [hlast]
      rfl
    | cons y m =>
      show steps (.key m0, st) (.str k :: .colon :: f v :: .comma :: (memToks f (y :: m) ++ .rbrace :: ts)) = _
      rw [h1]
      show steps (.key (set k (val v) m0), st) (memToks f (y :: m) ++ .rbrace :: ts) = _
      rw [hlast, ih (by simp) (by simpa using hs)]
      simp

theorem steps_obj {α : Type} {f : α → Tok} {val : α → J} (hf : ∀ st v, startVal st (f v) = some (.done (val v), st))
    {m : List (Str × α)} (hs : Sorted m) (st : List Frame) (ts : List Tok) :
    steps (.want, st) (.lbrace :: (memToks f m ++ .rbrace :: ts)) =
      steps (.done (.obj (m.map fun x => (x.1, val x.2))), st) ts := by
  have hs' : Sorted (m.map fun x => (x.1, val x.2)) := List.pairwise_map.2 hs
  show steps (.obj0, st) (memToks f m ++ .rbrace :: ts) = _
  cases m with
  | nil => rfl
  | cons x m =>
    have := steps_members hf (m := x :: m) (m0 := []) (st := st) (ts := ts) (by simp) (by simpa using hs')
    rw [List.nil_append] at this
    rw [← this]
    cases m <;> rfl

theorem toMapAux_eq {α : Type} {val : α → J} {g : J → Option α} (hg : ∀ v, g (val v) = some v) {m : List (Str × α)} :
    ∀ {acc : List (Str × α)}, Sorted (acc ++ m) → toMapAux g (m.map fun x => (x.1, val x.2)) acc = some (acc ++ m) := by
  induction m with
  | nil => intro acc _; simp [toMapAux]
  | cons x m ih =>
    obtain ⟨k, v⟩ := x
    intro acc hs
    rw [List.map_cons]
    unfold toMapAux
    simp only [hg]
    have hlast : set k v acc = acc ++ [(k, v)] := by
      refine set_last fun x hx => ?_
      exact (List.pairwise_append.1 hs).2.2 x hx (k, v) (List.mem_cons_self ..)
    rw [hlast, ih (by simpa using hs)]
    simp

theorem toMap_eq {α : Type} {val : α → J} {g : J → Option α} (hg : ∀ v, g (val v) = some v) {m : List (Str × α)}
    (hs : Sorted m) : (J.obj (m.map fun x => (x.1, val x.2))).toMap g = some m :=
  toMapAux_eq hg (acc := []) (by simpa using hs)

/-! ## Times and sizes -/

/-- The value of a signed number as it is read. -/
def intJ (i : Int) : J := if i < 0 then .int i else .uint i.toNat

theorem startVal_int (st : List Frame) (i : Int) :
    startVal st (if i < 0 then .int i else .uint i.toNat) = some (.done (intJ i), st) := by
  unfold intJ
  split <;> rfl

theorem intJ_long {i : Int} (h1 : -2 ^ 63 ≤ i) (h2 : i < 2 ^ 63) : (intJ i).toLong = some i := by
  unfold intJ
  split
  · rfl
  · show some (asLong i.toNat) = some i
    unfold asLong
    rw [if_pos (by omega)]
    congr 1
    omega

theorem asLong_range {n : Nat} (h : n < 2 ^ 64) : -2 ^ 63 ≤ asLong n ∧ asLong n < 2 ^ 63 := by
  unfold asLong
  split <;> omega

/-- A size printed as a signed number is read back as the same size. -/
theorem intJ_size {n : Nat} (h : n < 2 ^ 64) : (intJ (asLong n)).toNat = some n := by
  unfold intJ asLong
  by_cases h1 : n < 2 ^ 63
  · rw [if_pos h1, if_neg (by omega)]
    rfl
  · rw [if_neg h1, if_pos (by omega)]
    show some (((n : Int) - 2 ^ 64) % 2 ^ 64).toNat = some n
    congr 1
    have : ((n : Int) - 2 ^ 64) % 2 ^ 64 = n := by omega
    rw [this]
    omega

theorem piece_time {i : Int} (h1 : -2 ^ 63 ≤ i) (h2 : i < 2 ^ 64) {c : Nat} {t : Tok} (hc : Stop c) (hp : Piece [c] [t]) :
    Piece (decI i ++ [c]) [if i < 0 then .int i else .uint i.toNat, t] := by
  intro r us hr
  rw [List.append_assoc]
  exact lexes_int h1 h2 hc (hp _ _ hr)

/-! ## Pointers -/

/-- Text that is copied as it is. -/
def PlainB (s : Str) : Prop := ∀ b ∈ s, 32 ≤ b ∧ b < 128 ∧ b ≠ 34 ∧ b ≠ 92

theorem plain_dump {s : Str} (h : PlainB s) (c : Nat) : dumpEsc 0 c s = some s := by
  induction s generalizing c with
  | nil => rfl
  | cons b s ih =>
    obtain ⟨h1, h2, h3, h4⟩ := h b (List.mem_cons_self ..)
    have hn : ∀ b, b < 128 → nextState 0 b = 0 ∧ (0xFF >>> byteType b) &&& b = b := by decide +kernel
    obtain ⟨h5, h6⟩ := hn b h2
    have hc : nextCode 0 c b = b := by
      unfold nextCode
      rw [if_neg (by simp), h6]
    unfold dumpEsc
    simp only
    rw [h5, hc, if_neg (by decide), if_pos rfl, ih (fun b hb => h b (List.mem_cons_of_mem _ hb))]
    have : escape b b = [b] := by
      unfold escape
      repeat rw [if_neg (by omega)]
    rw [this]
    rfl

theorem hexDigit_plain {n : Nat} (h : n < 16) : 48 ≤ hexDigit n ∧ hexDigit n ≤ 102 ∧ hexDigit n ≠ 92 := by
  unfold hexDigit
  split <;> omega

theorem hexF_plain (f : Nat) : ∀ n, PlainB (hexF f n) := by
  induction f with
  | zero => intro n b hb; cases hb
  | succ f ih =>
    intro n b hb
    unfold hexF at hb
    split at hb
    · rename_i h
      have := hexDigit_plain h
      rw [List.mem_singleton.1 hb]
      omega
    · rcases List.mem_append.1 hb with hb | hb
      · exact ih _ b hb
      · have := hexDigit_plain (Nat.mod_lt n (by decide : 16 > 0))
        rw [List.mem_singleton.1 hb]
        omega

theorem ptrText_plain (p : Nat) : PlainB (ptrText p) := by
  unfold ptrText
  split
  · intro b hb; revert b; decide
  · intro b hb
    rcases List.mem_append.1 hb with hb | hb
    · have h : PlainB [48, 120] := by unfold PlainB; decide
      exact h b hb
    · exact hexF_plain _ _ b hb

theorem ptrText_dump (p : Nat) : dumpStr (ptrText p) = some (34 :: ptrText p ++ [34]) := by
  unfold dumpStr
  rw [plain_dump (ptrText_plain p)]
  rfl

/-! ## Lines -/

theorem lines_append {l r : Str} (h : Clean l) : lines (l ++ 10 :: r) = l :: lines r := by
  induction l with
  | nil =>
    show (if 10 = 10 then [] :: lines r else _) = _
    rw [if_pos rfl]
  | cons b l ih =>
    have hb := h b (List.mem_cons_self ..)
    have hu : lines (b :: (l ++ 10 :: r)) = if b = 10 then [] :: lines (l ++ 10 :: r) else
        match lines (l ++ 10 :: r) with
        | [] => [[b]]
        | l :: ls => (b :: l) :: ls := rfl
    show lines (b :: (l ++ 10 :: r)) = _
    rw [hu, if_neg (by omega), ih fun b hb => h b (List.mem_cons_of_mem _ hb)]

end Umpire.Events
