import Verif.Events.Line
/-!
# C63: what is recorded is what is read
-/
set_option autoImplicit false
set_option linter.unusedSimpArgs false
namespace Umpire.Events

/-! ## Specification -/

/-- Values that fit the C++ types: maps with increasing keys, 64-bit numbers. -/
def Rec.Wf : Rec → Prop
  | .event e => Sorted e.strs ∧ Sorted e.nums ∧ Sorted e.tags ∧ (∀ x ∈ e.nums, x.2 < 2 ^ 64) ∧
      -2 ^ 63 ≤ e.time ∧ e.time < 2 ^ 63
  | .allocate size ref ptr time | .namedAllocate size ref ptr _ time =>
      size < 2 ^ 64 ∧ ref < 2 ^ 64 ∧ ptr < 2 ^ 64 ∧ -2 ^ 63 ≤ time ∧ time < 2 ^ 63
  | .deallocate ref ptr time => ref < 2 ^ 64 ∧ ptr < 2 ^ 64 ∧ -2 ^ 63 ≤ time ∧ time < 2 ^ 63

/-- The name given to an allocation is UTF-8 without control characters, quotation marks
and backslashes. -/
def Rec.PlainName : Rec → Prop
  | .namedAllocate _ _ _ name _ => Utf8 name ∧ ∀ b ∈ name, 32 ≤ b ∧ b ≠ 34 ∧ b ≠ 92
  | _ => True

/-- Value of a hexadecimal digit. -/
def digitOf (b : Nat) : Nat := if b < 58 then b - 48 else b - 87

/-- The address a text stands for. -/
def readPtr (s : Str) : Nat := if s = b!"(nil)" then 0 else (s.drop 2).foldl (fun a b => 16 * a + digitOf b) 0

/-- The event that a record is to be read back as. -/
def Rec.Means (r : Rec) (e : Event) : Prop :=
  match r with
  | .event e' => e = e'
  | .allocate size ref ptr time =>
    ∃ a p, readPtr a = ref ∧ readPtr p = ptr ∧
      e = { name := b!"allocate", cat := .operation, strs := [(b!"allocator_ref", a), (b!"pointer", p)],
            nums := [(b!"size", size)], tags := [(b!"replay", b!"true")], time := time }
  | .namedAllocate size ref ptr name time =>
    ∃ a p, readPtr a = ref ∧ readPtr p = ptr ∧
      e = { name := b!"named_allocate", cat := .operation,
            strs := [(b!"allocation_name", name), (b!"allocator_ref", a), (b!"pointer", p)],
            nums := [(b!"size", size)], tags := [(b!"replay", b!"true")], time := time }
  | .deallocate ref ptr time =>
    ∃ a p, readPtr a = ref ∧ readPtr p = ptr ∧
      e = { name := b!"deallocate", cat := .operation, strs := [(b!"allocator_ref", a), (b!"pointer", p)],
            nums := [], tags := [(b!"replay", b!"true")], time := time }

/-- `Logged st rs`: calls of `insert` led to the store `st`; `rs` are the records whose
call returned, in order.  `fopen` may succeed or fail each time. -/
inductive Logged : Store → List Rec → Prop
  | new : Logged Store.new []
  | ok {st st' : Store} {rs : List Rec} {r : Rec} (can : Bool) : Logged st rs → insert can st r = .ok st' → Logged st' (rs ++ [r])
  | throws {st st' : Store} {rs : List Rec} {r : Rec} (can : Bool) : Logged st rs → insert can st r = .throws st' → Logged st' rs

/-- The events are what the records are to be read back as, one for one and in order. -/
inductive Reads : List Rec → List Event → Prop
  | nil : Reads [] []
  | cons {r : Rec} {e : Event} {rs : List Rec} {es : List Event} : r.Means e → Reads rs es → Reads (r :: rs) (e :: es)

/-! ## Proofs -/

theorem Reads.snoc {rs : List Rec} {es : List Event} {r : Rec} {e : Event} (h : Reads rs es) (h1 : r.Means e) :
    Reads (rs ++ [r]) (es ++ [e]) := by
  induction h with
  | nil => exact .cons h1 .nil
  | cons h _ ih => exact .cons h ih

theorem hexDigit_digitOf {n : Nat} (h : n < 16) : digitOf (hexDigit n) = n := by
  unfold digitOf hexDigit
  split <;> split <;> omega

theorem hexF_read (f : Nat) : ∀ n, n < 16 ^ f → 0 < f → (hexF f n).foldl (fun a b => 16 * a + digitOf b) 0 = n := by
  induction f with
  | zero => intro n _ h; omega
  | succ f ih =>
    intro n hn _
    unfold hexF
    split
    · rename_i h
      show 16 * 0 + digitOf (hexDigit n) = n
      rw [hexDigit_digitOf h]
      omega
    · rename_i h
      have hf : 0 < f := by
        rcases Nat.eq_zero_or_pos f with rfl | h'
        · simp at hn; omega
        · exact h'
      rw [List.foldl_append, ih (n / 16) (by
        rw [Nat.pow_succ] at hn
        exact (Nat.div_lt_iff_lt_mul (by decide)).2 hn) hf]
      show 16 * (n / 16) + digitOf (hexDigit (n % 16)) = n
      rw [hexDigit_digitOf (Nat.mod_lt _ (by decide))]
      omega

theorem readPtr_ptrText {p : Nat} (h : p < 2 ^ 64) : readPtr (ptrText p) = p := by
  unfold readPtr ptrText
  by_cases h0 : p = 0
  · rw [if_pos h0, if_pos rfl, h0]
  · rw [if_neg h0, if_neg]
    · show (hexF 16 p).foldl _ 0 = p
      exact hexF_read 16 p (by omega) (by decide)
    · intro h
      cases h

/-- A line was appended that reads back as the record. -/
theorem insert_ok {can : Bool} {st st' : Store} {r : Rec} (h : insert can st r = .ok st') (hw : r.Wf) (hp : r.PlainName) :
    ∃ l e, st'.text = st.text ++ (l ++ [10]) ∧ Clean l ∧ readLine l = some e ∧ r.Means e := by
  cases r with
  | event e =>
    unfold insert at h
    simp only at h
    split at h
    · cases hd : dumpEvent e with
      | none => rw [hd] at h; cases h
      | some t =>
        rw [hd] at h
        simp only [Out.ok.injEq] at h
        subst h
        obtain ⟨w1, w2, w3, w4, w5, w6⟩ := hw
        obtain ⟨hc, hr⟩ := event_read hd w1 w2 w3 w4 w5 w6
        exact ⟨t, e, List.append_assoc .., hc, hr, rfl⟩
    · cases h
  | allocate size ref ptr time =>
    unfold insert at h
    simp only at h
    split at h
    · simp only [Out.ok.injEq] at h
      subst h
      obtain ⟨w1, w2, w3, w4, w5⟩ := hw
      obtain ⟨hc, hr⟩ := allocate_read (ref := ref) (ptr := ptr) w1 w4 w5
      exact ⟨_, _, List.append_assoc .., hc, hr, _, _, readPtr_ptrText w2, readPtr_ptrText w3, rfl⟩
    · cases h
  | namedAllocate size ref ptr name time =>
    unfold insert at h
    simp only at h
    split at h
    · simp only [Out.ok.injEq] at h
      subst h
      obtain ⟨w1, w2, w3, w4, w5⟩ := hw
      obtain ⟨hc, hr⟩ := namedAllocate_read (ref := ref) (ptr := ptr) w1 w4 w5 hp.1 hp.2
      exact ⟨_, _, List.append_assoc .., hc, hr, _, _, readPtr_ptrText w2, readPtr_ptrText w3, rfl⟩
    · cases h
  | deallocate ref ptr time =>
    unfold insert at h
    simp only at h
    split at h
    · simp only [Out.ok.injEq] at h
      subst h
      obtain ⟨w2, w3, w4, w5⟩ := hw
      obtain ⟨hc, hr⟩ := deallocate_read (ref := ref) (ptr := ptr) w4 w5
      exact ⟨_, _, List.append_assoc .., hc, hr, _, _, readPtr_ptrText w2, readPtr_ptrText w3, rfl⟩
    · cases h

theorem insert_throws_text {can : Bool} {st st' : Store} {r : Rec} (h : insert can st r = .throws st') : st'.text = st.text := by
  cases r with
  | event e =>
    unfold insert at h
    simp only at h
    split at h
    · cases hd : dumpEvent e with
      | none =>
        rw [hd] at h
        simp only [Out.throws.injEq] at h
        rw [← h]
      | some t => rw [hd] at h; cases h
    · simp only [Out.throws.injEq] at h
      rw [h]
  | _ =>
    unfold insert at h
    simp only at h
    split at h <;> cases h

theorem readLines_append {ls : List Str} : ∀ {es : List Event} {l : Str} {e : Event}, readLines ls = some es → readLine l = some e →
    readLines (ls ++ [l]) = some (es ++ [e]) := by
  induction ls with
  | nil =>
    intro es l e h1 h2
    injection h1 with h1
    subst h1
    show ((readLine l).bind _ : Option (List Event)) = _
    rw [h2]
    rfl
  | cons a ls ih =>
    intro es l e h1 h2
    unfold readLines at h1
    simp only [Option.bind_eq_bind, Option.bind_eq_some_iff, Option.pure_def, Option.some.injEq] at h1
    obtain ⟨x, hx, xs, hxs, rfl⟩ := h1
    show ((readLine a).bind _ : Option (List Event)) = _
    rw [hx]
    show ((readLines (ls ++ [l])).bind _ : Option (List Event)) = _
    rw [ih hxs h2]
    rfl

theorem lines_all {ls : List Str} (h : ∀ l ∈ ls, Clean l) : lines (ls.flatMap (· ++ [10])) = ls := by
  induction ls with
  | nil => rfl
  | cons l ls ih =>
    rw [List.flatMap_cons, List.append_assoc]
    show lines (l ++ 10 :: ls.flatMap (· ++ [10])) = _
    rw [lines_append (h l (List.mem_cons_self ..)), ih fun l hl => h l (List.mem_cons_of_mem _ hl)]

theorem logged_lines {st : Store} {rs : List Rec} (h : Logged st rs) : (∀ r ∈ rs, r.Wf ∧ r.PlainName) →
    ∃ ls es, st.text = ls.flatMap (· ++ [10]) ∧ (∀ l ∈ ls, Clean l) ∧ readLines ls = some es ∧ Reads rs es := by
  induction h with
  | new => exact fun _ => ⟨[], [], rfl, by simp, rfl, .nil⟩
  | @ok st st' rs r can _ hi ih =>
    intro hw
    obtain ⟨ls, es, h1, h2, h3, h4⟩ := ih fun r hr => hw r (List.mem_append_left _ hr)
    obtain ⟨w1, w2⟩ := hw r (by simp)
    obtain ⟨l, e, g1, g2, g3, g4⟩ := insert_ok hi w1 w2
    refine ⟨ls ++ [l], es ++ [e], ?_, ?_, readLines_append h3 g3, ?_⟩
    · rw [g1, h1, List.flatMap_append]
      simp
    · intro x hx
      rcases List.mem_append.1 hx with hx | hx
      · exact h2 x hx
      · rw [List.mem_singleton.1 hx]; exact g2
    · exact h4.snoc g4
  | throws can _ hi ih =>
    intro hw
    obtain ⟨ls, es, h1, h2⟩ := ih hw
    exact ⟨ls, es, by rw [insert_throws_text hi, h1], h2⟩

/-! ## Theorems -/

/-- Reading the log gives exactly the events whose recording returned, in order, each with
the name, category, arguments, tags and time it was recorded with. -/
theorem event_log_round_trip_partial {st : Store} {rs : List Rec} (h : Logged st rs) (hw : ∀ r ∈ rs, r.Wf)
    (hp : ∀ r ∈ rs, r.PlainName) : ∃ es, getEvents st.text = some es ∧ Reads rs es := by
  obtain ⟨ls, es, h1, h2, h3, h4⟩ := logged_lines h fun r hr => ⟨hw r hr, hp r hr⟩
  refine ⟨es, ?_, h4⟩
  unfold getEvents
  rw [h1, lines_all h2, h3]

/-- Recording a generic event in a file that can be opened throws exactly if one of its
strings is not UTF-8. -/
theorem event_insert_throws_iff {can : Bool} {st : Store} (e : Event) (ho : st.isOpen = true ∨ can = true) :
    (∃ st', insert can st (.event e) = .throws st') ↔
      ¬ (Utf8 e.name ∧ (∀ x ∈ e.strs, Utf8 x.1 ∧ Utf8 x.2) ∧ (∀ x ∈ e.nums, Utf8 x.1) ∧ (∀ x ∈ e.tags, Utf8 x.1 ∧ Utf8 x.2)) := by
  rw [← event_some]
  unfold insert
  simp only
  rw [if_pos (by rcases ho with h | h <;> simp [h])]
  cases dumpEvent e with
  | none => exact ⟨fun _ => by simp, fun _ => ⟨_, rfl⟩⟩
  | some t => exact ⟨fun ⟨_, h⟩ => by simp at h, fun h => absurd ⟨t, rfl⟩ h⟩

theorem logged_open {st : Store} {rs : List Rec} (h : Logged st rs) : rs ≠ [] → st.isOpen = true := by
  induction h with
  | new => exact fun h => absurd rfl h
  | @ok st st' rs r can _ hi ih =>
    intro _
    cases r with
    | event e =>
      unfold insert at hi
      simp only at hi
      split at hi
      · cases hd : dumpEvent e with
        | none => rw [hd] at hi; cases hi
        | some t =>
          rw [hd] at hi
          simp only [Out.ok.injEq] at hi
          rw [← hi]
      · cases hi
    | _ =>
      unfold insert at hi
      simp only at hi
      split at hi
      · simp only [Out.ok.injEq] at hi
        rw [← hi]
        assumption
      · cases hi
  | @throws st st' rs r can _ hi ih =>
    intro hr
    have := ih hr
    cases r with
    | event e =>
      unfold insert at hi
      simp only at hi
      split at hi
      · cases hd : dumpEvent e with
        | none =>
          rw [hd] at hi
          simp only [Out.throws.injEq] at hi
          rw [← hi]
        | some t => rw [hd] at hi; cases hi
      · simp only [Out.throws.injEq] at hi
        rw [← hi]; exact this
    | _ =>
      unfold insert at hi
      simp only at hi
      split at hi <;> cases hi

/-- Once something has been recorded, recording is never undefined; the frequent records
do not even throw. -/
theorem event_insert_defined {st : Store} {rs : List Rec} (h : Logged st rs) (hr : rs ≠ []) (can : Bool) (r : Rec) :
    insert can st r ≠ .ub ∧ ((∀ e, r ≠ .event e) → ∃ st', insert can st r = .ok st') := by
  have ho := logged_open h hr
  cases r with
  | event e =>
    refine ⟨?_, fun h => absurd rfl (h e)⟩
    unfold insert
    simp only
    rw [if_pos (by simp [ho])]
    cases dumpEvent e <;> simp
  | allocate size ref ptr time =>
    unfold insert; simp only; rw [if_pos ho]
    exact ⟨by simp, fun _ => ⟨_, rfl⟩⟩
  | namedAllocate size ref ptr name time =>
    unfold insert; simp only; rw [if_pos ho]
    exact ⟨by simp, fun _ => ⟨_, rfl⟩⟩
  | deallocate ref ptr time =>
    unfold insert; simp only; rw [if_pos ho]
    exact ⟨by simp, fun _ => ⟨_, rfl⟩⟩

/-! ## Where it fails -/

/-- An allocation recorded first writes to a file that was never opened. -/
theorem event_first_allocate_counterexample : insert true Store.new (.allocate 64 4096 8192 1) = .ub := rfl

/-- An event to start a log with. -/
def versionEvent : Event :=
  { name := b!"version", cat := .metadata, strs := [], nums := [(b!"major", 2024), (b!"minor", 7)],
    tags := [(b!"replay", b!"true")], time := 1 }

/-- The log after `versionEvent` and one named allocation. -/
def namedLog (name : Str) : Out :=
  match insert true Store.new (.event versionEvent) with
  | .ok st => insert true st (.namedAllocate 64 4096 8192 name 2)
  | o => o

/-- The events in a log. -/
def Out.events : Out → Option (List Event)
  | .ok st => getEvents st.text
  | _ => none

/-- A quotation mark in a name makes the whole log unreadable; the earlier event is lost
as well. -/
theorem event_name_quote_counterexample : ∃ st, namedLog b!"a\"b" = .ok st ∧ getEvents st.text = none := by
  refine ⟨_, rfl, ?_⟩
  decide +kernel

/-- A name can replace the recorded address. -/
theorem event_name_injection_counterexample :
    ((namedLog b!"x\",\"pointer\":\"0xabc").events.map fun es => es.map fun e => e.strs) =
      some [[], [(b!"allocation_name", b!"x"), (b!"allocator_ref", b!"0x1000"), (b!"pointer", b!"0xabc")]] := by
  decide +kernel

/-- A backslash and the letter after it become one character. -/
theorem event_name_backslash_counterexample :
    ((namedLog b!"a\\nb").events.map fun es => es.map fun e => get b!"allocation_name" e.strs) =
      some [none, some [97, 10, 98]] := by
  decide +kernel

/-- A name ends at its first zero byte. -/
theorem event_name_zero_counterexample :
    ((namedLog [97, 0, 98]).events.map fun es => es.map fun e => get b!"allocation_name" e.strs) =
      some [none, some [97]] := by
  decide +kernel

/-! ## The hypotheses can be met -/

/-- A generic event with strings that need escapes: a quotation mark, a newline, a letter of two bytes. -/
def makeEvent : Event :=
  { name := b!"make_allocator", cat := .operation,
    strs := [(b!"allocator_name", [34, 10, 0xC3, 0xA9]), (b!"allocator_ref", b!"0x10")], nums := [(b!"arg0", 2 ^ 64 - 1)],
    tags := [(b!"replay", b!"true")], time := -5 }

example : ∃ st rs, Logged st rs ∧ (∀ r ∈ rs, r.Wf) ∧ (∀ r ∈ rs, r.PlainName) ∧ rs.length = 4 := by
  have h0 := Logged.new
  obtain ⟨s1, h1⟩ : ∃ s, insert true Store.new (.event makeEvent) = .ok s := ⟨_, rfl⟩
  have g1 := Logged.ok true h0 h1
  obtain ⟨s2, h2⟩ := (event_insert_defined g1 (by simp) true (.allocate (2 ^ 64 - 1) 16 4096 3)).2 (by simp)
  have g2 := Logged.ok true g1 h2
  obtain ⟨s3, h3⟩ := (event_insert_defined g2 (by simp) true (.namedAllocate 8 16 4160 b!"field u" 4)).2 (by simp)
  have g3 := Logged.ok true g2 h3
  obtain ⟨s4, h4⟩ := (event_insert_defined g3 (by simp) true (.deallocate 16 4096 5)).2 (by simp)
  have g4 := Logged.ok true g3 h4
  refine ⟨_, _, g4, ?_, ?_, rfl⟩
  · intro r hr
    simp at hr
    rcases hr with rfl | rfl | rfl | rfl
    · refine ⟨?_, ?_, ?_, ?_, ?_, ?_⟩
      · unfold Sorted makeEvent; simp [strLt]
      · unfold Sorted makeEvent; simp
      · unfold Sorted makeEvent; simp
      · unfold makeEvent; simp
      · unfold makeEvent; simp
      · unfold makeEvent; simp
    · unfold Rec.Wf; simp
    · unfold Rec.Wf; simp
    · unfold Rec.Wf; simp
  · intro r hr
    simp at hr
    rcases hr with rfl | rfl | rfl | rfl
    · trivial
    · trivial
    · exact ⟨⟨"field u".toList, by decide⟩, by decide⟩
    · trivial

/-- A name that is not UTF-8 cannot be recorded. -/
example : ∃ st', insert true Store.new (.event { makeEvent with name := [0xFF] }) = .throws st' := ⟨_, rfl⟩

end Umpire.Events
