import Verif.Stores.Model
import Verif.Events.Props
/-!
# Proofs about the databases
-/
set_option autoImplicit false
set_option linter.unusedSimpArgs false
namespace Umpire.Stores
open Umpire.Events

/-! ## Literals -/

/-- A text without apostrophes is read as it is. -/
theorem sqlLit_plain {t : Str} (h : 39 ∉ t) (r : Str) (hr : r.head? ≠ some 39) : sqlLit (t ++ 39 :: r) = some (t, r) := by
  induction t with
  | nil =>
    show sqlLit (39 :: r) = _
    unfold sqlLit
    rw [if_pos rfl]
    cases r with
    | nil => rfl
    | cons c r =>
      split
      · rename_i he
        exact absurd (by rw [he]; rfl) hr
      · rfl
  | cons b t ih =>
    have hb : b ≠ 39 := fun e => h (by rw [e]; exact List.mem_cons_self ..)
    show sqlLit (b :: (t ++ 39 :: r)) = _
    unfold sqlLit
    rw [if_neg hb, ih fun h' => h (List.mem_cons_of_mem _ h')]
    rfl

/-- What a literal takes from the text. -/
theorem sqlLit_length (n : Nat) : ∀ {s x r : Str}, s.length ≤ n → sqlLit s = some (x, r) → x.length + r.length + 1 ≤ s.length := by
  induction n with
  | zero =>
    intro s x r hn h
    cases s with
    | nil => cases h
    | cons b s => simp at hn
  | succ n ih =>
    intro s x r hn h
    cases s with
    | nil => cases h
    | cons b s =>
      simp only [List.length_cons] at hn ⊢
      unfold sqlLit at h
      by_cases hb : b = 39
      · rw [if_pos hb] at h
        split at h
        · rename_i s'
          cases hs : sqlLit s' with
          | none => rw [hs] at h; cases h
          | some y =>
            rw [hs] at h
            obtain ⟨y1, y2⟩ := y
            simp only [front, Option.some.injEq, Prod.mk.injEq] at h
            obtain ⟨rfl, rfl⟩ := h
            simp only [List.length_cons] at hn ⊢
            have := ih (by omega) hs
            simp only [List.length_append, List.length_cons, List.length_nil]
            omega
        · simp only [Option.some.injEq, Prod.mk.injEq] at h
          obtain ⟨rfl, rfl⟩ := h
          simp
      · rw [if_neg hb] at h
        cases hs : sqlLit s with
        | none => rw [hs] at h; cases h
        | some y =>
          rw [hs] at h
          obtain ⟨y1, y2⟩ := y
          simp only [front, Option.some.injEq, Prod.mk.injEq] at h
          obtain ⟨rfl, rfl⟩ := h
          have := ih (by omega) hs
          simp only [List.length_append, List.length_cons, List.length_nil]
          omega

/-- An apostrophe in the text makes the literal shorter than the text. -/
theorem sqlLit_short (n : Nat) : ∀ {t x r' : Str}, t.length ≤ n → 39 ∈ t → sqlLit (t ++ b!"'));") = some (x, r') → x.length < t.length := by
  induction n with
  | zero =>
    intro t x r' hn ht
    cases t with
    | nil => cases ht
    | cons b s => simp at hn
  | succ n ih =>
    intro t x r' hn ht h
    cases t with
    | nil => cases ht
    | cons b t =>
      simp only [List.length_cons] at hn ⊢
      rw [List.cons_append] at h
      unfold sqlLit at h
      by_cases hb : b = 39
      · rw [if_pos hb] at h
        split at h
        · rename_i s' he
          cases t with
          | nil =>
            simp only [List.nil_append, List.cons.injEq, true_and] at he
            subst he
            cases h
          | cons c t =>
            simp only [List.cons_append, List.cons.injEq] at he
            obtain ⟨rfl, rfl⟩ := he
            cases hs : sqlLit (t ++ b!"'));") with
            | none => rw [hs] at h; cases h
            | some y =>
              rw [hs] at h
              obtain ⟨y1, y2⟩ := y
              simp only [front, Option.some.injEq, Prod.mk.injEq] at h
              obtain ⟨rfl, rfl⟩ := h
              simp only [List.length_cons] at hn ⊢
              by_cases ht' : 39 ∈ t
              · have := ih (by omega) ht' hs
                simp only [List.length_append, List.length_cons, List.length_nil]
                omega
              · rw [show t ++ b!"'));" = t ++ 39 :: b!"));" from rfl, sqlLit_plain ht' _ (by decide)] at hs
                simp only [Option.some.injEq, Prod.mk.injEq] at hs
                obtain ⟨rfl, -⟩ := hs
                simp only [List.length_append, List.length_cons, List.length_nil]
                omega
        · simp only [Option.some.injEq, Prod.mk.injEq] at h
          obtain ⟨rfl, -⟩ := h
          simp
      · rw [if_neg hb] at h
        have ht' : 39 ∈ t := by
          rcases List.mem_cons.1 ht with h | h
          · exact absurd h.symm hb
          · exact h
        cases hs : sqlLit (t ++ b!"'));") with
        | none => rw [hs] at h; cases h
        | some y =>
          rw [hs] at h
          obtain ⟨y1, y2⟩ := y
          simp only [front, Option.some.injEq, Prod.mk.injEq] at h
          obtain ⟨rfl, rfl⟩ := h
          have := ih (by omega) ht' hs
          simp only [List.length_append, List.length_cons, List.length_nil]
          omega

/-! ## Statements -/

theorem strip_append (p s : Str) : strip p (p ++ s) = some s := by
  unfold strip
  rw [if_pos (by simp), List.drop_left]

theorem strip_eq {p s r : Str} (h : strip p s = some r) : s = p ++ r := by
  unfold strip at h
  split at h
  · rename_i hp
    obtain ⟨t, rfl⟩ := List.isPrefixOf_iff_prefix.1 hp
    simp only [List.drop_left, Option.some.injEq] at h
    rw [h]
  · cases h

theorem strip_length {p s r : Str} (h : strip p s = some r) : p.length + r.length = s.length := by
  rw [strip_eq h, List.length_append]

theorem skipSql_length (s : Str) : ∀ c, (skipSql c s).length ≤ s.length := by
  induction s with
  | nil => intro c; exact Nat.le_refl _
  | cons b s ih =>
    intro c
    unfold skipSql
    have := ih
    split
    · exact Nat.le_succ_of_le (ih _)
    · split
      · exact Nat.le_succ_of_le (ih _)
      · split
        · exact Nat.le_succ_of_le (ih _)
        · exact Nat.le_refl _

theorem skip_head (s : Str) : skipSql false (insertHead ++ s) = insertHead ++ s := by
  show skipSql false (73 :: _) = 73 :: _
  unfold skipSql
  rw [if_neg (by decide), if_neg (by omega), if_neg (by decide)]

/-- One statement and the rest. -/
theorem exec_statement {json : Str → Option Str} {f : Nat} {rows : List Str} {t : Str} (h : 39 ∉ t) :
    exec json (f + 2) rows (statement t) =
      match json t with
      | some y => .done (rows ++ [y])
      | none => .error rows := by
  have hs : statement t = insertHead ++ (t ++ 39 :: b!"));") := by
    unfold statement
    rw [List.append_assoc]
  rw [hs]
  conv => lhs; unfold exec
  rw [skip_head]
  obtain ⟨b, s', hb⟩ : ∃ b s', insertHead ++ (t ++ 39 :: b!"));") = b :: s' := ⟨_, _, rfl⟩
  rw [hb]
  simp only
  rw [← hb, strip_append]
  simp only
  rw [sqlLit_plain h _ (by decide)]
  simp only
  have : strip b!"));" b!"));" = some [] := rfl
  rw [this]
  simp only
  cases json t with
  | none => rfl
  | some y => rfl

/-- What `json` is given in `exec`, if it keeps the text: rows of at most the length of the text without the
36 bytes around a literal. -/
theorem exec_rows {json : Str → Option Str} (hj : ∀ x y, json x = some y → y = x) (f : Nat) :
    ∀ {rows rows' s : List _}, exec json f rows s = .done rows' →
      ∀ y ∈ rows', y ∈ rows ∨ y.length + 36 ≤ s.length := by
  induction f with
  | zero => intro rows rows' s h; cases h
  | succ f ih =>
    intro rows rows' s h y hy
    unfold exec at h
    have hk := skipSql_length s false
    cases hs : skipSql false s with
    | nil =>
      rw [hs] at h
      simp only [SqlOut.done.injEq] at h
      subst h
      exact .inl hy
    | cons b s' =>
      rw [hs] at h hk
      simp only at h
      cases h1 : strip insertHead (b :: s') with
      | some r =>
        rw [h1] at h
        have l1 := strip_length h1
        have l0 : insertHead.length = 32 := rfl
        simp only at h
        cases h2 : sqlLit r with
        | none => rw [h2] at h; cases h
        | some p =>
          rw [h2] at h
          obtain ⟨x, r2⟩ := p
          have l2 := sqlLit_length _ (Nat.le_refl _) h2
          simp only at h
          cases h3 : strip b!"));" r2 with
          | none =>
            rw [h3] at h
            simp only at h
            split at h <;> cases h
          | some r3 =>
            rw [h3] at h
            have l3 := strip_length h3
            simp only [List.length_cons, List.length_nil] at l3
            simp only at h
            cases h4 : json x with
            | none => rw [h4] at h; cases h
            | some z =>
              rw [h4] at h
              simp only at h
              rcases ih h y hy with h5 | h5
              · rcases List.mem_append.1 h5 with h5 | h5
                · exact .inl h5
                · right
                  rw [List.mem_singleton] at h5
                  rw [h5, hj _ _ h4]
                  omega
              · right; omega
      | none =>
        rw [h1] at h
        simp only at h
        cases h2 : strip b!"DELETE FROM EVENTS;" (b :: s') with
        | none => rw [h2] at h; cases h
        | some r =>
          rw [h2] at h
          have l1 := strip_length h2
          simp only at h
          rcases ih h y hy with h5 | h5
          · cases h5
          · right; omega

/-- With an apostrophe the text itself is never stored. -/
theorem exec_quoted {json : Str → Option Str} (hj : ∀ x y, json x = some y → y = x) (f : Nat) {rows rows' : List Str} {t : Str}
    (ht : 39 ∈ t) (h : exec json f rows (statement t) = .done rows') : t ∈ rows' → t ∈ rows := by
  intro hy
  cases f with
  | zero => cases h
  | succ f =>
    have hs : statement t = insertHead ++ (t ++ b!"'));") := by
      unfold statement
      rw [List.append_assoc]
    rw [hs] at h
    unfold exec at h
    rw [skip_head] at h
    obtain ⟨b, s', hb⟩ : ∃ b s', insertHead ++ (t ++ b!"'));") = b :: s' := ⟨_, _, rfl⟩
    rw [hb] at h
    simp only at h
    rw [← hb, strip_append] at h
    simp only at h
    cases h2 : sqlLit (t ++ b!"'));") with
    | none => rw [h2] at h; cases h
    | some p =>
      rw [h2] at h
      obtain ⟨x, r2⟩ := p
      have l2 := sqlLit_length _ (Nat.le_refl _) h2
      have l2' := sqlLit_short _ (Nat.le_refl _) ht h2
      simp only [List.length_append, List.length_cons, List.length_nil] at l2
      simp only at h
      cases h3 : strip b!"));" r2 with
      | none =>
        rw [h3] at h
        simp only at h
        split at h <;> cases h
      | some r3 =>
        rw [h3] at h
        have l3 := strip_length h3
        simp only [List.length_cons, List.length_nil] at l3
        simp only at h
        cases h4 : json x with
        | none => rw [h4] at h; cases h
        | some z =>
          rw [h4] at h
          simp only at h
          rcases exec_rows hj f h t hy with h5 | h5
          · rcases List.mem_append.1 h5 with h5 | h5
            · exact h5
            · rw [List.mem_singleton] at h5
              rw [h5, hj _ _ h4] at l2'
              omega
          · omega

/-! ## The text of an event -/

theorem takeWhile_all {s : Str} (h : ∀ b ∈ s, b ≠ 0) : s.takeWhile (· != 0) = s := by
  induction s with
  | nil => rfl
  | cons b s ih =>
    rw [List.takeWhile_cons, if_pos (by simpa using h b (List.mem_cons_self ..)), ih fun b hb => h b (List.mem_cons_of_mem _ hb)]

theorem statement_nozero {t : Str} (h : Clean t) : (statement t).takeWhile (· != 0) = statement t := by
  apply takeWhile_all
  intro b hb
  unfold statement insertHead at hb
  rcases List.mem_append.1 hb with hb | hb
  · rcases List.mem_append.1 hb with hb | hb
    · rintro rfl; revert hb; decide
    · have := h b hb
      omega
  · rintro rfl; revert hb; decide

theorem run_plain {json : Str → Option Str} {rows : List Str} {t : Str} (h : 39 ∉ t) (hc : Clean t) :
    run true json rows (statement t) =
      match json t with
      | some y => .ok (rows ++ [y])
      | none => .exit rows := by
  unfold run
  rw [if_pos rfl, statement_nozero hc]
  have : (statement t).length + 1 = ((statement t).length - 1) + 2 := by
    unfold statement
    simp only [List.length_append, List.length_cons]
    omega
  rw [this, exec_statement h]
  cases json t <;> rfl

/-- Apostrophes are written as they are. -/
theorem dumpEsc_quote {s : Str} : ∀ {st c : Nat} {t : Str}, st < 9 → st ≠ 1 → CodeOk st c → dumpEsc st c s = some t →
    (39 ∈ t ↔ 39 ∈ s) := by
  induction s with
  | nil =>
    intro st c t _ _ _ h
    unfold dumpEsc at h
    split at h
    · injection h with h; rw [← h]
    · cases h
  | cons b s ih =>
    intro st c t h1 h2 h3 h
    unfold dumpEsc at h
    simp only at h
    by_cases h4 : nextState st b = 1
    · rw [if_pos h4] at h; cases h
    rw [if_neg h4] at h
    by_cases h5 : nextState st b = 0
    · rw [if_pos h5] at h
      have he : 39 ∈ escape (nextCode st c b) b ↔ b = 39 := by
        by_cases hb : b = 39
        · subst hb
          refine ⟨fun _ => rfl, fun _ => ?_⟩
          have := code_last h1 h2 h3 h5
          unfold escape
          repeat rw [if_neg (by omega)]
          exact List.mem_singleton.2 rfl
        · refine ⟨fun h => ?_, fun h => absurd h hb⟩
          exfalso
          have hd : ∀ n, hexDigit n ≠ 39 := by
            intro n
            unfold hexDigit
            split <;> omega
          unfold escape at h
          repeat' split at h
          all_goals try (revert h; decide)
          · rcases List.mem_append.1 h with h | h
            · revert h; decide
            · simp only [List.mem_cons, List.not_mem_nil, or_false] at h
              rcases h with h | h | h | h <;> exact hd _ h.symm
          · exact hb (List.mem_singleton.1 h).symm
      cases hd : dumpEsc 0 (nextCode st c b) s with
      | none => rw [hd] at h; cases h
      | some t' =>
        rw [hd] at h
        simp only [Option.map_some, Option.some.injEq] at h
        rw [← h, List.mem_append, he, List.mem_cons, ih (by decide) (by decide) ⟨by simp, by simp⟩ hd, eq_comm (a := b)]
    · rw [if_neg h5] at h
      obtain ⟨h6, h7⟩ := code_more h1 h2 h3 h4 h5
      cases hd : dumpEsc (nextState st b) (nextCode st c b) s with
      | none => rw [hd] at h; cases h
      | some t' =>
        rw [hd] at h
        simp only [Option.map_some, Option.some.injEq] at h
        rw [← h, List.mem_cons, List.mem_cons, ih h6 h4 h7 hd]

theorem dumpStr_quote {s t : Str} (h : dumpStr s = some t) : 39 ∈ t ↔ 39 ∈ s := by
  unfold dumpStr at h
  cases hd : dumpEsc 0 0 s with
  | none => rw [hd] at h; cases h
  | some x =>
    rw [hd] at h
    simp only [Option.map_some, Option.some.injEq] at h
    rw [← h, ← dumpEsc_quote (by decide) (by decide) ⟨by simp, by simp⟩ hd]
    simp

theorem dec_quote (n : Nat) : 39 ∉ dec n := by
  have : ∀ f n, 39 ∉ decF f n := by
    intro f
    induction f with
    | zero => intro n h; cases h
    | succ f ih =>
      intro n h
      unfold decF at h
      split at h
      · rw [List.mem_singleton] at h; omega
      · rcases List.mem_append.1 h with h | h
        · exact ih _ h
        · rw [List.mem_singleton] at h; omega
  exact this _ _

theorem decI_quote (i : Int) : 39 ∉ decI i := by
  unfold decI
  split
  · intro h
    rcases List.mem_cons.1 h with h | h
    · cases h
    · exact dec_quote _ h
  · exact dec_quote _

theorem ptrText_quote (p : Nat) : 39 ∉ ptrText p := by
  unfold ptrText
  split
  · decide
  · intro h
    rcases List.mem_append.1 h with h | h
    · revert h; decide
    · have : ∀ f n, 39 ∉ hexF f n := by
        intro f
        induction f with
        | zero => intro n h; cases h
        | succ f ih =>
          intro n h
          have hd : ∀ n, hexDigit n ≠ 39 := by
            intro n
            unfold hexDigit
            split <;> omega
          unfold hexF at h
          split at h
          · rw [List.mem_singleton] at h; exact hd _ h.symm
          · rcases List.mem_append.1 h with h | h
            · exact ih _ h
            · rw [List.mem_singleton] at h; exact hd _ h.symm
      exact this _ _ h

theorem members_quote {α : Type} {g : α → Option Str} {Q : α → Prop} (hg : ∀ v t, g v = some t → (39 ∈ t ↔ Q v)) {m : List (Str × α)} :
    ∀ {t : Str}, dumpMembers g m = some t → (39 ∈ t ↔ ∃ x ∈ m, 39 ∈ x.1 ∨ Q x.2) := by
  induction m with
  | nil =>
    intro t h
    unfold dumpMembers at h
    simp only [Option.some.injEq] at h
    rw [← h]
    simp
  | cons x m ih =>
    intro t h
    obtain ⟨k, v⟩ := x
    cases m with
    | nil =>
      unfold dumpMembers at h
      simp only [Option.bind_eq_bind, Option.bind_eq_some_iff, Option.pure_def, Option.some.injEq] at h
      obtain ⟨kt, hk, vt, hv, rfl⟩ := h
      simp [dumpStr_quote hk, hg _ _ hv]
    | cons y m =>
      have hd : ∀ t, dumpMembers g ((k, v) :: y :: m) = some t ↔ ∃ kt, dumpStr k = some kt ∧ ∃ vt, g v = some vt ∧
          ∃ mt, dumpMembers g (y :: m) = some mt ∧ kt ++ 58 :: vt ++ 44 :: mt = t := by
        intro t
        conv => lhs; unfold dumpMembers
        simp only [Option.bind_eq_bind, Option.bind_eq_some_iff, Option.pure_def, Option.some.injEq]
      obtain ⟨kt, hk, vt, hv, mt, hm, rfl⟩ := (hd t).1 h
      have := ih hm
      rw [List.mem_append, List.mem_append, List.mem_cons, List.mem_cons, this, dumpStr_quote hk, hg _ _ hv]
      simp only [List.mem_cons]
      constructor
      · rintro ((h | h | h) | h | ⟨x, hx, h⟩)
        · exact ⟨_, .inl rfl, .inl h⟩
        · cases h
        · exact ⟨_, .inl rfl, .inr h⟩
        · cases h
        · exact ⟨x, .inr hx, h⟩
      · rintro ⟨x, rfl | hx, h⟩
        · rcases h with h | h
          · exact .inl (.inl h)
          · exact .inl (.inr (.inr h))
        · exact .inr (.inr ⟨x, hx, h⟩)

theorem obj_quote {α : Type} {g : α → Option Str} {Q : α → Prop} (hg : ∀ v t, g v = some t → (39 ∈ t ↔ Q v)) {m : List (Str × α)}
    {t : Str} (h : dumpObj g m = some t) : 39 ∈ t ↔ ∃ x ∈ m, 39 ∈ x.1 ∨ Q x.2 := by
  unfold dumpObj at h
  obtain ⟨x, hx, rfl⟩ := Option.map_eq_some_iff.1 h
  rw [← members_quote hg hx]
  simp

/-- The text of a record, if it has one. -/
def text : Rec → Option Str
  | .event e => dumpEvent e
  | .allocate size ref ptr time => some (allocateLine size ref ptr time)
  | .namedAllocate size ref ptr name time => some (namedAllocateLine size ref ptr name time)
  | .deallocate ref ptr time => some (deallocateLine ref ptr time)

/-- The outcomes of `insert`. -/
theorem insert_cases (works : Bool) (json : Str → Option Str) (rows : List Str) (r : Rec) :
    (text r = none ∧ insert works json rows r = .throws rows) ∨
    ∃ t, text r = some t ∧ (insert works json rows r = run works json rows (statement t) ∨ insert works json rows r = .ub) := by
  cases r with
  | event e =>
    unfold insert text
    simp only
    cases dumpEvent e with
    | none => exact .inl ⟨rfl, rfl⟩
    | some t => exact .inr ⟨t, rfl, .inl rfl⟩
  | _ =>
    unfold insert text print
    simp only
    refine .inr ⟨_, rfl, ?_⟩
    split
    · exact .inl rfl
    · exact .inr rfl

theorem text_read {r : Rec} {t : Str} (h : text r = some t) (hw : r.Wf) (hp : r.PlainName) :
    Clean t ∧ ∃ e, readLine t = some e ∧ r.Means e := by
  cases r with
  | event e =>
    obtain ⟨w1, w2, w3, w4, w5, w6⟩ := hw
    obtain ⟨hc, hr⟩ := event_read h w1 w2 w3 w4 w5 w6
    exact ⟨hc, e, hr, rfl⟩
  | allocate size ref ptr time =>
    simp only [text, Option.some.injEq] at h
    subst h
    obtain ⟨w1, w2, w3, w4, w5⟩ := hw
    obtain ⟨hc, hr⟩ := allocate_read (ref := ref) (ptr := ptr) w1 w4 w5
    exact ⟨hc, _, hr, _, _, readPtr_ptrText w2, readPtr_ptrText w3, rfl⟩
  | namedAllocate size ref ptr name time =>
    simp only [text, Option.some.injEq] at h
    subst h
    obtain ⟨w1, w2, w3, w4, w5⟩ := hw
    obtain ⟨hc, hr⟩ := namedAllocate_read (ref := ref) (ptr := ptr) w1 w4 w5 hp.1 hp.2
    exact ⟨hc, _, hr, _, _, readPtr_ptrText w2, readPtr_ptrText w3, rfl⟩
  | deallocate ref ptr time =>
    simp only [text, Option.some.injEq] at h
    subst h
    obtain ⟨w2, w3, w4, w5⟩ := hw
    obtain ⟨hc, hr⟩ := deallocate_read (ref := ref) (ptr := ptr) w4 w5
    exact ⟨hc, _, hr, _, _, readPtr_ptrText w2, readPtr_ptrText w3, rfl⟩

/-- A string of the record has an apostrophe. -/
def Apostrophe : Rec → Prop
  | .event e => 39 ∈ e.name ∨ (∃ x ∈ e.strs, 39 ∈ x.1 ∨ 39 ∈ x.2) ∨ (∃ x ∈ e.nums, 39 ∈ x.1) ∨ (∃ x ∈ e.tags, 39 ∈ x.1 ∨ 39 ∈ x.2)
  | .namedAllocate _ _ _ name _ => 39 ∈ name.takeWhile (· != 0)
  | _ => False

theorem lit_quote {l : Str} (h : 39 ∉ l) {s : Str} : 39 ∈ l ++ s ↔ 39 ∈ s := by
  rw [List.mem_append]
  exact ⟨fun h' => h'.resolve_left h, .inr⟩

theorem text_quote {r : Rec} {t : Str} (h : text r = some t) : 39 ∈ t ↔ Apostrophe r := by
  cases r with
  | event e =>
    simp only [text] at h
    unfold dumpEvent at h
    simp only [Option.bind_eq_bind, Option.bind_eq_some_iff, Option.pure_def, Option.some.injEq] at h
    obtain ⟨ct, hct, nt, hnt, xs, hxs, ss, hss, ts, hts, rfl⟩ := h
    have q1 : 39 ∉ ct := by
      rw [dumpStr_quote hct]
      cases e.cat <;> decide
    have q3 := obj_quote (Q := fun _ => False) (by
      intro v t h
      simp only [Option.some.injEq] at h
      rw [← h]
      exact ⟨dec_quote v, False.elim⟩) hxs
    have q4 := obj_quote (Q := fun v => 39 ∈ v) (fun v t h => dumpStr_quote h) hss
    have q5 := obj_quote (Q := fun v => 39 ∈ v) (fun v t h => dumpStr_quote h) hts
    have q6 := decI_quote e.time
    simp only [or_false] at q3
    simp only [List.append_assoc]
    rw [lit_quote (by decide), lit_quote q1, lit_quote (by decide), List.mem_append, dumpStr_quote hnt, lit_quote (by decide),
      List.mem_append, q3, lit_quote (by decide), List.mem_append, q4, lit_quote (by decide), List.mem_append, q5,
      lit_quote (by decide), lit_quote q6]
    simp only [Apostrophe]
    constructor
    · rintro (h | h | h | h | h)
      · exact .inl h
      · exact .inr (.inr (.inl h))
      · exact .inr (.inl h)
      · exact .inr (.inr (.inr h))
      · exact absurd h (by decide)
    · rintro (h | h | h | h)
      · exact .inl h
      · exact .inr (.inr (.inl h))
      · exact .inr (.inl h)
      · exact .inr (.inr (.inr (.inl h)))
  | allocate size ref ptr time =>
    simp only [text, Option.some.injEq] at h
    subst h
    unfold allocateLine
    simp only [List.append_assoc]
    rw [lit_quote (by decide), lit_quote (decI_quote _), lit_quote (by decide), lit_quote (ptrText_quote _), lit_quote (by decide),
      lit_quote (ptrText_quote _), lit_quote (by decide), lit_quote (decI_quote _)]
    exact ⟨fun h => absurd h (by decide), False.elim⟩
  | namedAllocate size ref ptr name time =>
    simp only [text, Option.some.injEq] at h
    subst h
    unfold namedAllocateLine
    simp only [List.append_assoc]
    rw [lit_quote (by decide), lit_quote (decI_quote _), lit_quote (by decide), lit_quote (ptrText_quote _), lit_quote (by decide),
      lit_quote (ptrText_quote _), lit_quote (by decide), List.mem_append, lit_quote (by decide), lit_quote (decI_quote _)]
    exact ⟨fun h => h.resolve_right (by decide), .inl⟩
  | deallocate ref ptr time =>
    simp only [text, Option.some.injEq] at h
    subst h
    unfold deallocateLine
    simp only [List.append_assoc]
    rw [lit_quote (by decide), lit_quote (ptrText_quote _), lit_quote (by decide),
      lit_quote (ptrText_quote _), lit_quote (by decide), lit_quote (decI_quote _)]
    exact ⟨fun h => absurd h (by decide), False.elim⟩

/-! ## Lengths -/

theorem decF_length (f : Nat) : ∀ n, 0 < f → 1 ≤ (decF f n).length ∧ (decF f n).length ≤ f := by
  induction f with
  | zero => intro n h; omega
  | succ f ih =>
    intro n _
    unfold decF
    split
    · exact ⟨Nat.le_refl _, by simp⟩
    · rw [List.length_append]
      by_cases hf : 0 < f
      · have := ih (n / 10) hf
        simp only [List.length_singleton]
        omega
      · have : f = 0 := by omega
        subst this
        simp [decF]

theorem decF_short (f : Nat) : ∀ n k, n < 10 ^ k → 0 < k → (decF f n).length ≤ k := by
  induction f with
  | zero => intro n k _ _; exact Nat.zero_le _
  | succ f ih =>
    intro n k hn hk
    unfold decF
    split
    · exact hk
    · rw [List.length_append, List.length_singleton]
      obtain ⟨k, rfl⟩ : ∃ j, k = j + 1 := ⟨k - 1, by omega⟩
      rw [Nat.pow_succ] at hn
      have h0 : 0 < k := by
        rcases Nat.eq_zero_or_pos k with rfl | h
        · simp at hn; omega
        · exact h
      have := ih (n / 10) k (Nat.div_lt_of_lt_mul (by omega)) h0
      omega

theorem decI_length {i : Int} (h1 : -2 ^ 63 ≤ i) (h2 : i < 2 ^ 63) : 1 ≤ (decI i).length ∧ (decI i).length ≤ 20 := by
  have hn : i.natAbs < 10 ^ 19 := by
    have : (10 : Nat) ^ 19 = 10000000000000000000 := rfl
    have : (2 : Int) ^ 63 = 9223372036854775808 := rfl
    omega
  have a := decF_length 20 i.natAbs (by decide)
  have b := decF_short 20 i.natAbs 19 hn (by decide)
  unfold decI dec
  split
  · rw [List.length_cons]; omega
  · omega

theorem hexF_length (f : Nat) : ∀ n, 0 < f → 1 ≤ (hexF f n).length ∧ (hexF f n).length ≤ f := by
  induction f with
  | zero => intro n h; omega
  | succ f ih =>
    intro n _
    unfold hexF
    split
    · exact ⟨Nat.le_refl _, by simp⟩
    · rw [List.length_append]
      by_cases hf : 0 < f
      · have := ih (n / 16) hf
        simp only [List.length_singleton]
        omega
      · have : f = 0 := by omega
        subst this
        simp [hexF]

theorem ptrText_length (p : Nat) : 3 ≤ (ptrText p).length ∧ (ptrText p).length ≤ 18 := by
  unfold ptrText
  split
  · decide
  · have := hexF_length 16 p (by decide)
    rw [List.length_append]
    simp only [List.length_cons, List.length_nil]
    omega

theorem allocate_length {size ref ptr : Nat} {time : Int} (hs : size < 2 ^ 64) (h1 : -2 ^ 63 ≤ time) (h2 : time < 2 ^ 63) :
    (statement (allocateLine size ref ptr time)).length + 1 ≤ 512 := by
  obtain ⟨s1, s2⟩ := asLong_range hs
  have a := decI_length s1 s2
  have b := decI_length h1 h2
  have c := ptrText_length ref
  have d := ptrText_length ptr
  unfold statement allocateLine insertHead
  simp only [List.length_append, List.length_cons, List.length_nil]
  omega

theorem deallocate_length {ref ptr : Nat} {time : Int} (h1 : -2 ^ 63 ≤ time) (h2 : time < 2 ^ 63) :
    (statement (deallocateLine ref ptr time)).length + 1 ≤ 512 := by
  have b := decI_length h1 h2
  have c := ptrText_length ref
  have d := ptrText_length ptr
  unfold statement deallocateLine insertHead
  simp only [List.length_append, List.length_cons, List.length_nil]
  omega

theorem named_length {size ref ptr : Nat} {name : Str} {time : Int} (hs : size < 2 ^ 64) (h1 : -2 ^ 63 ≤ time) (h2 : time < 2 ^ 63) :
    (name.takeWhile (· != 0)).length + 224 ≤ (statement (namedAllocateLine size ref ptr name time)).length ∧
    (statement (namedAllocateLine size ref ptr name time)).length ≤ (name.takeWhile (· != 0)).length + 292 := by
  obtain ⟨s1, s2⟩ := asLong_range hs
  have a := decI_length s1 s2
  have b := decI_length h1 h2
  have c := ptrText_length ref
  have d := ptrText_length ptr
  unfold statement namedAllocateLine insertHead
  simp only [List.length_append, List.length_cons, List.length_nil]
  omega

end Umpire.Stores
