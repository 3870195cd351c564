import Verif.Stores.Logic
/-!
# C76: what a database of events holds
-/
set_option autoImplicit false
set_option linter.unusedSimpArgs false
namespace Umpire.Stores
open Umpire.Events

/-! ## Specification -/

/-- The function `json` of SQLite keeps the meaning of every text it is given (it may
rewrite white space). -/
def Faithful (json : Str → Option Str) : Prop :=
  ∀ t j, parse t = some j → ∃ t', json t = some t' ∧ parse t' = some j

/-- The least that `json` may do: refuse what is no JSON, keep the rest. -/
def keep (t : Str) : Option Str := if (parse t).isSome then some t else none

/-- Strings without apostrophes, values in range, names that JSON writes as they are. -/
def Good (r : Rec) : Prop := r.Wf ∧ r.PlainName ∧ ¬ Apostrophe r

/-- All strings of a generic event are UTF-8. -/
def AllUtf8 : Rec → Prop
  | .event e => Utf8 e.name ∧ (∀ x ∈ e.strs, Utf8 x.1 ∧ Utf8 x.2) ∧ (∀ x ∈ e.nums, Utf8 x.1) ∧ (∀ x ∈ e.tags, Utf8 x.1 ∧ Utf8 x.2)
  | _ => True

/-- The name given to an allocation has at most `n` bytes. -/
def NameAtMost (n : Nat) : Rec → Prop
  | .namedAllocate _ _ _ name _ => name.length ≤ n
  | _ => True

/-- `Stored P json rows rs`: calls of `insert` with records that meet `P` led from an empty
table to `rows`; `rs` are the records whose call returned, in order.  Calls may throw, and
a process that ended may be followed by another one on the same file. -/
inductive Stored (P : Rec → Prop) (json : Str → Option Str) : List Str → List Rec → Prop
  | new : Stored P json [] []
  | ok {rows rows' : List Str} {rs : List Rec} {r : Rec} (works : Bool) : Stored P json rows rs → P r →
      insert works json rows r = .ok rows' → Stored P json rows' (rs ++ [r])
  | throws {rows rows' : List Str} {rs : List Rec} {r : Rec} (works : Bool) : Stored P json rows rs → P r →
      insert works json rows r = .throws rows' → Stored P json rows' rs
  | exit {rows rows' : List Str} {rs : List Rec} {r : Rec} (works : Bool) : Stored P json rows rs → P r →
      insert works json rows r = .exit rows' → Stored P json rows' rs

/-- A list split at a byte. -/
def splitOn (c : Nat) : Str → List Str
  | [] => [[]]
  | b :: s =>
    if b = c then [] :: splitOn c s
    else
      match splitOn c s with
      | [] => [[b]]
      | l :: ls => (b :: l) :: ls

/-- `key=value`, neither empty. -/
def readPair (s : Str) : Option (Str × Str) :=
  match splitOn 61 s with
  | [k, v] => if k = [] ∨ v = [] then none else some (k, v)
  | _ => none

/-- A decimal number. -/
def readInt (s : Str) : Option Int :=
  match s with
  | 45 :: ds => if ds ≠ [] ∧ ds.all isDigit then some (- (value 0 ds : Int)) else none
  | ds => if ds ≠ [] ∧ ds.all isDigit then some (value 0 ds) else none

/-- A pair with a number. -/
def readField (s : Str) : Option (Str × Int) := do
  let (k, v) ← readPair s
  let i ← readInt v
  return (k, i)

/-- Results of all elements. -/
def each {α β : Type} (f : α → Option β) : List α → Option (List β)
  | [] => some []
  | a :: as => do
    let b ← f a
    let bs ← each f as
    return b :: bs

/-- What a line of the InfluxDB protocol says. -/
structure Point where
  name : Str
  symbols : List (Str × Str)
  fields : List (Str × Int)
  time : Int
deriving DecidableEq, Repr

/-- One line of the InfluxDB protocol, without escapes: name and symbols separated by
commas, a space, at least one field, a space, the time. -/
def readPoint (s : Str) : Option Point :=
  match splitOn 10 s with
  | [l, []] =>
    match splitOn 32 l with
    | [h, f, t] =>
      match splitOn 44 h with
      | [] => none
      | n :: ss => do
        let symbols ← each readPair ss
        let fields ← each readField (splitOn 44 f)
        let time ← readInt t
        return ⟨n, symbols, fields, time⟩
    | _ => none
  | _ => none

/-- What the line of an event is to say. -/
def Event.point (e : Event) : Point :=
  ⟨e.name, e.strs ++ e.tags, e.nums.map fun x => (x.1, (x.2 : Int)), e.time⟩

/-- A string without the bytes that the protocol uses. -/
def Word (s : Str) : Prop := s ≠ [] ∧ ∀ b ∈ s, b ≠ 0 ∧ b ≠ 10 ∧ b ≠ 32 ∧ b ≠ 44 ∧ b ≠ 61

/-- All strings of the event are such strings. -/
def Words (e : Event) : Prop :=
  Word e.name ∧ (∀ x ∈ e.strs, Word x.1 ∧ Word x.2) ∧ (∀ x ∈ e.tags, Word x.1 ∧ Word x.2) ∧ ∀ x ∈ e.nums, Word x.1

/-! ## SQLite -/

theorem keep_faithful : Faithful keep := by
  intro t j h
  refine ⟨t, ?_, h⟩
  unfold keep
  rw [h]
  rfl

theorem keep_same (x y : Str) (h : keep x = some y) : y = x := by
  unfold keep at h
  split at h
  · injection h with h; exact h.symm
  · cases h

theorem readLine_congr {t t' : Str} {j : J} (h : parse t = some j) (h' : parse t' = some j) : readLine t' = readLine t := by
  unfold readLine
  rw [h, h']

theorem readLine_parse {t : Str} {e : Event} (h : readLine t = some e) : ∃ j, parse t = some j := by
  unfold readLine at h
  cases hp : parse t with
  | none => rw [hp] at h; cases h
  | some j => exact ⟨j, rfl⟩

/-- A record that is written leaves one more row. -/
theorem run_good {json : Str → Option Str} (hj : Faithful json) {rows : List Str} {r : Rec} {t : Str} (h : text r = some t)
    (hg : Good r) : ∃ y e, run true json rows (statement t) = .ok (rows ++ [y]) ∧ readLine y = some e ∧ r.Means e := by
  obtain ⟨hw, hp, hq⟩ := hg
  obtain ⟨hc, e, he, hm⟩ := text_read h hw hp
  obtain ⟨j, hj'⟩ := readLine_parse he
  obtain ⟨t', h1, h2⟩ := hj t j hj'
  refine ⟨t', e, ?_, by rw [readLine_congr hj' h2, he], hm⟩
  rw [run_plain (by rw [text_quote h]; exact hq) hc, h1]

theorem run_not (json : Str → Option Str) (rows : List Str) (s : Str) : run false json rows s = .exit rows := by
  unfold run
  rw [if_neg (by decide)]

theorem stored_rows {json : Str → Option Str} (hj : Faithful json) {rows : List Str} {rs : List Rec} (h : Stored Good json rows rs) :
    ∃ es, readLines rows = some es ∧ Reads rs es := by
  have key : ∀ (works : Bool) (rows : List Str) (r : Rec), Good r →
      (∃ y e, insert works json rows r = .ok (rows ++ [y]) ∧ readLine y = some e ∧ r.Means e) ∨
      insert works json rows r = .throws rows ∨ insert works json rows r = .exit rows ∨ insert works json rows r = .ub := by
    intro works rows r hg
    rcases insert_cases works json rows r with ⟨-, h⟩ | ⟨t, ht, h | h⟩
    · exact .inr (.inl h)
    · cases works with
      | true =>
        obtain ⟨y, e, h1, h2, h3⟩ := run_good hj (rows := rows) ht hg
        exact .inl ⟨y, e, by rw [h, h1], h2, h3⟩
      | false => exact .inr (.inr (.inl (by rw [h, run_not])))
    · exact .inr (.inr (.inr h))
  induction h with
  | new => exact ⟨[], rfl, .nil⟩
  | ok works _ hg hi ih =>
    obtain ⟨es, h1, h2⟩ := ih
    rcases key works _ _ hg with ⟨y, e, h3, h4, h5⟩ | h | h | h
    · rw [h3] at hi
      simp only [Out.ok.injEq] at hi
      subst hi
      exact ⟨es ++ [e], readLines_append h1 h4, h2.snoc h5⟩
    all_goals rw [h] at hi; cases hi
  | throws works _ hg hi ih =>
    rcases key works _ _ hg with ⟨y, e, h, -⟩ | h | h | h
    all_goals rw [h] at hi; cases hi
    exact ih
  | exit works _ hg hi ih =>
    rcases key works _ _ hg with ⟨y, e, h, -⟩ | h | h | h
    all_goals rw [h] at hi; cases hi
    exact ih

/-- Reading the database gives exactly the events whose recording returned, in order, also
if calls failed and the program was started again. -/
theorem sqlite_round_trip_partial {json : Str → Option Str} (hj : Faithful json) {rows : List Str} {rs : List Rec}
    (h : Stored Good json rows rs) : ∃ es, getEvents rows = some es ∧ Reads rs es := stored_rows hj h

/-- Such a record is stored whenever the database can be written, its strings are UTF-8 and
its name is short: 219 bytes at most. -/
theorem sqlite_insert_partial {json : Str → Option Str} (hj : Faithful json) (rows : List Str) {r : Rec} (hg : Good r)
    (hu : AllUtf8 r) (hn : NameAtMost 219 r) :
    ∃ y e, insert true json rows r = .ok (rows ++ [y]) ∧ getEvents [y] = some [e] ∧ r.Means e := by
  have fin : ∀ {t}, text r = some t → insert true json rows r = run true json rows (statement t) →
      ∃ y e, insert true json rows r = .ok (rows ++ [y]) ∧ getEvents [y] = some [e] ∧ r.Means e := by
    intro t ht h
    obtain ⟨y, e, h1, h2, h3⟩ := run_good hj (rows := rows) ht hg
    refine ⟨y, e, by rw [h, h1], ?_, h3⟩
    unfold getEvents readLines
    rw [h2]
    rfl
  obtain ⟨hw, -, -⟩ := id hg
  cases r with
  | event e =>
    obtain ⟨t, ht⟩ := (event_some e).2 hu
    refine fin (t := t) ht ?_
    unfold insert
    simp only
    rw [ht]
  | allocate size ref ptr time =>
    refine fin rfl ?_
    obtain ⟨w1, -, -, w4, w5⟩ := hw
    unfold insert print
    simp only
    rw [if_pos (allocate_length w1 w4 w5)]
  | namedAllocate size ref ptr name time =>
    refine fin rfl ?_
    obtain ⟨w1, -, -, w4, w5⟩ := hw
    unfold insert print
    simp only
    have h1 := named_length (ref := ref) (ptr := ptr) (name := name) w1 w4 w5
    have h2 := (List.takeWhile_sublist (l := name) (· != 0)).length_le
    have h3 : name.length ≤ 219 := hn
    rw [if_pos (by omega)]
  | deallocate ref ptr time =>
    refine fin rfl ?_
    obtain ⟨-, -, w4, w5⟩ := hw
    unfold insert print
    simp only
    rw [if_pos (deallocate_length w4 w5)]

/-- A record overflows the buffer of the statement only if it has a name of more than 219
bytes, and certainly if it has 288 or more. -/
theorem sqlite_overflow {json : Str → Option Str} (works : Bool) (rows : List Str) {r : Rec} (hw : r.Wf) :
    (insert works json rows r = .ub → ∃ size ref ptr name time, r = .namedAllocate size ref ptr name time ∧ 219 < name.length) ∧
    (∀ size ref ptr name time, r = .namedAllocate size ref ptr name time → 0 ∉ name → 288 ≤ name.length →
      insert works json rows r = .ub) := by
  have hrun : ∀ s, run works json rows s ≠ .ub := by
    intro s h
    unfold run at h
    split at h
    · split at h <;> cases h
    · cases h
  constructor
  · intro h
    cases r with
    | event e =>
      unfold insert at h
      simp only at h
      split at h
      · exact absurd h (hrun _)
      · cases h
    | allocate size ref ptr time =>
      obtain ⟨w1, -, -, w4, w5⟩ := hw
      unfold insert print at h
      simp only at h
      rw [if_pos (allocate_length w1 w4 w5)] at h
      exact absurd h (hrun _)
    | namedAllocate size ref ptr name time =>
      obtain ⟨w1, -, -, w4, w5⟩ := hw
      refine ⟨size, ref, ptr, name, time, rfl, ?_⟩
      apply Classical.byContradiction
      intro hl
      unfold insert print at h
      simp only at h
      have h1 := named_length (ref := ref) (ptr := ptr) (name := name) w1 w4 w5
      have h2 := (List.takeWhile_sublist (l := name) (· != 0)).length_le
      rw [if_pos (by omega)] at h
      exact absurd h (hrun _)
    | deallocate ref ptr time =>
      obtain ⟨-, -, w4, w5⟩ := hw
      unfold insert print at h
      simp only at h
      rw [if_pos (deallocate_length w4 w5)] at h
      exact absurd h (hrun _)
  · rintro size ref ptr name time rfl hz hl
    obtain ⟨w1, -, -, w4, w5⟩ := hw
    unfold insert print
    simp only
    have h1 := named_length (ref := ref) (ptr := ptr) (name := name) w1 w4 w5
    rw [takeWhile_all fun b hb h => hz (h ▸ hb)] at h1
    rw [if_neg (by omega)]

/-- If the call returns, the text of the event is in the table exactly if no string of it
has an apostrophe. -/
theorem sqlite_stored_iff {works : Bool} {rows rows' : List Str} {e : Event} {t : Str} (hw : (Rec.event e).Wf)
    (ht : dumpEvent e = some t) (hn : t ∉ rows) (h : insert works keep rows (.event e) = .ok rows') :
    t ∈ rows' ↔ ¬ Apostrophe (.event e) := by
  have ht' : text (.event e) = some t := ht
  obtain ⟨hc, -⟩ := text_read ht' hw trivial
  have h' : run works keep rows (statement t) = .ok rows' := by
    unfold insert at h
    simp only at h
    rw [ht] at h
    exact h
  cases works with
  | false => rw [run_not] at h'; cases h'
  | true =>
    rw [← text_quote ht']
    constructor
    · intro hm hq
      unfold run at h'
      rw [if_pos rfl, statement_nozero hc] at h'
      cases hx : exec keep ((statement t).length + 1) rows (statement t) with
      | done rows'' =>
        rw [hx] at h'
        simp only [Out.ok.injEq] at h'
        subst h'
        exact hn (exec_quoted keep_same _ hq hx hm)
      | error _ => rw [hx] at h'; cases h'
      | other => rw [hx] at h'; cases h'
    · intro hq
      rw [run_plain hq hc] at h'
      cases hk : keep t with
      | none => rw [hk] at h'; cases h'
      | some y =>
        rw [hk] at h'
        simp only [Out.ok.injEq] at h'
        rw [← h', keep_same _ _ hk]
        simp

/-! ### Where it fails -/

/-- The table after `versionEvent` and one named allocation. -/
def namedTable (name : Str) : Out :=
  match insert true keep [] (.event versionEvent) with
  | .ok rows => insert true keep rows (.namedAllocate 64 4096 8192 name 2)
  | o => o

/-- The events in the table. -/
def Out.events : Out → Option (List Event)
  | .ok rows => getEvents rows
  | _ => none

/-- The number of rows when the program ends. -/
def Out.exitRows : Out → Option Nat
  | .exit rows => some rows.length
  | _ => none

/-- An apostrophe in a name ends the program. -/
theorem sqlite_apostrophe_counterexample : (namedTable b!"it's").exitRows = some 1 := by decide +kernel

/-- Two apostrophes in a name become one. -/
theorem sqlite_two_apostrophes_counterexample :
    ((namedTable b!"it''s").events.map fun es => es.map fun e => get b!"allocation_name" e.strs) = some [none, some b!"it's"] := by
  decide +kernel

/-- A name can delete everything recorded before, and itself. -/
theorem sqlite_delete_counterexample : namedTable b!"x\"}}'));DELETE FROM EVENTS;--" = .ok [] := by decide +kernel

/-- A name of 300 bytes overflows the buffer. -/
theorem sqlite_overflow_counterexample : namedTable (List.replicate 300 97) = .ub := by decide +kernel

/-- A database that cannot be written ends the program. -/
theorem sqlite_exit_counterexample {json : Str → Option Str} (rows : List Str) :
    insert false json rows (.allocate 64 4096 8192 1) = .exit rows ∧ Good (.allocate 64 4096 8192 1) := by
  refine ⟨?_, ⟨by decide, by decide, by decide, by decide, by decide⟩, trivial, id⟩
  unfold insert print
  simp only
  rw [if_pos (allocate_length (by decide) (by decide) (by decide)), run_not]

/-! ## QuestDB -/

theorem splitOn_free {c : Nat} {s : Str} (h : c ∉ s) : splitOn c s = [s] := by
  induction s with
  | nil => rfl
  | cons b s ih =>
    unfold splitOn
    rw [if_neg fun e => h (by rw [e]; exact List.mem_cons_self ..), ih fun h' => h (List.mem_cons_of_mem _ h')]

theorem splitOn_append {c : Nat} {s r : Str} (h : c ∉ s) : splitOn c (s ++ c :: r) = s :: splitOn c r := by
  induction s with
  | nil =>
    show splitOn c (c :: r) = _
    conv => lhs; unfold splitOn
    rw [if_pos rfl]
  | cons b s ih =>
    show splitOn c (b :: (s ++ c :: r)) = _
    conv => lhs; unfold splitOn
    rw [if_neg fun e => h (by rw [e]; exact List.mem_cons_self ..), ih fun h' => h (List.mem_cons_of_mem _ h')]

theorem readPair_word {k v : Str} (hk : Word k) (hv : Word v) : readPair (k ++ 61 :: v) = some (k, v) := by
  unfold readPair
  rw [splitOn_append fun h => (hk.2 _ h).2.2.2.2 rfl, splitOn_free fun h => (hv.2 _ h).2.2.2.2 rfl]
  simp only
  rw [if_neg]
  rintro (h | h)
  · exact hk.1 h
  · exact hv.1 h

theorem dec_word {n : Nat} (hn : n < 2 ^ 64) : dec n ≠ [] ∧ (∀ b ∈ dec n, 48 ≤ b ∧ b ≤ 57) ∧ value 0 (dec n) = n := by
  have h20 : n < 10 ^ 20 := by
    have : (10 : Nat) ^ 20 = 100000000000000000000 := rfl
    have : (2 : Nat) ^ 64 = 18446744073709551616 := rfl
    omega
  obtain ⟨h1, ⟨b, s, h2, -⟩, h3⟩ := decF_spec 20 n h20 (by decide)
  refine ⟨?_, h1, ?_⟩
  · unfold dec; rw [h2]; simp
  · have := h3 0
    unfold dec
    omega

theorem decI_word {i : Int} (h1 : -2 ^ 63 ≤ i) (h2 : i < 2 ^ 63) : Word (decI i) ∧ readInt (decI i) = some i := by
  have p : (2 : Int) ^ 63 = 9223372036854775808 := rfl
  have q : (2 : Nat) ^ 64 = 18446744073709551616 := rfl
  obtain ⟨d1, d2, d3⟩ := dec_word (n := i.natAbs) (by omega)
  have hall : (dec i.natAbs).all isDigit = true := by
    rw [List.all_eq_true]
    intro b hb
    unfold isDigit
    simpa using d2 b hb
  unfold decI
  split
  · rename_i hneg
    refine ⟨⟨by simp, ?_⟩, ?_⟩
    · intro b hb
      rcases List.mem_cons.1 hb with rfl | hb
      · decide
      · have := d2 b hb
        omega
    · unfold readInt
      simp only
      rw [if_pos ⟨d1, hall⟩, d3]
      congr 1
      omega
  · rename_i hneg
    refine ⟨⟨d1, ?_⟩, ?_⟩
    · intro b hb
      have := d2 b hb
      omega
    · unfold readInt
      split
      · rename_i ds he
        have := d2 45 (by rw [he]; exact List.mem_cons_self ..)
        omega
      · rw [if_pos ⟨d1, hall⟩, d3]
        congr 1
        omega

theorem asInt_range (n : Nat) : -2 ^ 63 ≤ asInt n ∧ asInt n < 2 ^ 63 := by
  have p : (2 : Int) ^ 63 = 9223372036854775808 := rfl
  have p' : (2 : Int) ^ 32 = 4294967296 := rfl
  have q : (2 : Nat) ^ 32 = 4294967296 := rfl
  have q' : (2 : Nat) ^ 31 = 2147483648 := rfl
  unfold asInt
  split <;> omega

theorem asInt_eq {n : Nat} : asInt n = (n : Int) ↔ n < 2 ^ 31 := by
  have p' : (2 : Int) ^ 32 = 4294967296 := rfl
  have q : (2 : Nat) ^ 32 = 4294967296 := rfl
  have q' : (2 : Nat) ^ 31 = 2147483648 := rfl
  unfold asInt
  split <;> omega

theorem readField_word {k : Str} {n : Nat} (hk : Word k) : readField (k ++ 61 :: decI (asInt n)) = some (k, asInt n) := by
  obtain ⟨a, b⟩ := decI_word (asInt_range n).1 (asInt_range n).2
  unfold readField
  rw [readPair_word hk a]
  simp only [Option.bind_eq_bind, Option.bind_some]
  rw [b]
  rfl

/-- A byte that no string of the event has is not in the pairs. -/
theorem pairs_free {c : Nat} (h1 : c ≠ 44) (h2 : c ≠ 61) {m : List (Str × Str)} (h : ∀ x ∈ m, c ∉ x.1 ∧ c ∉ x.2) : c ∉ pairs m := by
  induction m with
  | nil => intro h; cases h
  | cons x m ih =>
    obtain ⟨k, v⟩ := x
    obtain ⟨a, b⟩ := h (k, v) (List.mem_cons_self ..)
    have := ih fun x hx => h x (List.mem_cons_of_mem _ hx)
    unfold pairs
    simp only [List.cons_append, List.append_assoc, List.mem_cons, List.mem_append, not_or]
    exact ⟨h1, a, h2, b, this⟩

theorem fields_free {c : Nat} (h2 : c ≠ 61) (hd : c < 45 ∨ 57 < c) {sep : Str} (hs : c ∉ sep) {m : List (Str × Nat)}
    (h : ∀ x ∈ m, c ∉ x.1) : c ∉ fields sep m := by
  induction m with
  | nil => intro h; cases h
  | cons x m ih =>
    obtain ⟨k, v⟩ := x
    have a := h (k, v) (List.mem_cons_self ..)
    have := ih fun x hx => h x (List.mem_cons_of_mem _ hx)
    have b : c ∉ decI (asInt v) := by
      have r := asInt_range v
      have p : (2 : Int) ^ 63 = 9223372036854775808 := rfl
      have q : (2 : Nat) ^ 64 = 18446744073709551616 := rfl
      obtain ⟨-, d2, -⟩ := dec_word (n := (asInt v).natAbs) (by omega)
      intro hc
      unfold decI at hc
      split at hc
      · rcases List.mem_cons.1 hc with hc | hc
        · omega
        · have := d2 _ hc; omega
      · have := d2 _ hc; omega
    unfold fields
    simp only [List.cons_append, List.append_assoc, List.mem_cons, List.mem_append, not_or]
    exact ⟨a, h2, b, hs, this⟩

/-- The symbols that are read. -/
theorem symbols_read {m : List (Str × Str)} : ∀ {n : Str}, 44 ∉ n → (∀ x ∈ m, Word x.1 ∧ Word x.2) →
    ∃ ss, splitOn 44 (n ++ pairs m) = n :: ss ∧ each readPair ss = some m := by
  induction m with
  | nil =>
    intro n hn _
    refine ⟨[], ?_, rfl⟩
    show splitOn 44 (n ++ []) = _
    rw [List.append_nil, splitOn_free hn]
  | cons x m ih =>
    intro n hn h
    obtain ⟨k, v⟩ := x
    obtain ⟨a, b⟩ := h (k, v) (List.mem_cons_self ..)
    obtain ⟨ss, h1, h2⟩ := ih (n := k ++ 61 :: v) (by
      simp only [List.mem_append, List.mem_cons, not_or]
      exact ⟨fun h => (a.2 _ h).2.2.2.1 rfl, by decide, fun h => (b.2 _ h).2.2.2.1 rfl⟩)
      fun x hx => h x (List.mem_cons_of_mem _ hx)
    refine ⟨(k ++ 61 :: v) :: ss, ?_, ?_⟩
    · have : n ++ pairs ((k, v) :: m) = n ++ 44 :: ((k ++ 61 :: v) ++ pairs m) := by
        simp [pairs]
      rw [this, splitOn_append hn, h1]
    · unfold each
      rw [readPair_word a b, h2]
      rfl

theorem pairs_append (a b : List (Str × Str)) : pairs (a ++ b) = pairs a ++ pairs b := by
  induction a with
  | nil => rfl
  | cons x a ih =>
    obtain ⟨k, v⟩ := x
    show 44 :: k ++ 61 :: v ++ pairs (a ++ b) = 44 :: k ++ 61 :: v ++ pairs a ++ pairs b
    rw [ih]
    simp

/-- A line with a comma after the last field is refused. -/
theorem fields_comma {m : List (Str × Nat)} (h : ∀ x ∈ m, Word x.1) : each readField (splitOn 44 (fields [44] m)) = none := by
  induction m with
  | nil => rfl
  | cons x m ih =>
    obtain ⟨k, v⟩ := x
    have a := h (k, v) (List.mem_cons_self ..)
    have := ih fun x hx => h x (List.mem_cons_of_mem _ hx)
    have w := (decI_word (asInt_range v).1 (asInt_range v).2).1
    have e : fields [44] ((k, v) :: m) = (k ++ 61 :: decI (asInt v)) ++ 44 :: fields [44] m := by
      simp [fields]
    rw [e, splitOn_append (by
      simp only [List.mem_append, List.mem_cons, not_or]
      exact ⟨fun h => (a.2 _ h).2.2.2.1 rfl, by decide, fun h => (w.2 _ h).2.2.2.1 rfl⟩)]
    unfold each
    rw [readField_word a, this]
    rfl

/-- What is read from the fields. -/
def oneField : List (Str × Nat) → Option (List (Str × Int))
  | [(k, v)] => some [(k, asInt v)]
  | _ => none

theorem each_fields {m : List (Str × Nat)} (h : ∀ x ∈ m, Word x.1) :
    each readField (splitOn 44 (fields (if m.length > 1 then [44] else []) m)) = oneField m := by
  match m, h with
  | [], _ => rfl
  | [(k, v)], h =>
    have a := h (k, v) (List.mem_cons_self ..)
    have w := (decI_word (asInt_range v).1 (asInt_range v).2).1
    have e : fields (if [(k, v)].length > 1 then [44] else []) [(k, v)] = k ++ 61 :: decI (asInt v) := by
      simp [fields]
    rw [e, splitOn_free (by
      simp only [List.mem_append, List.mem_cons, not_or]
      exact ⟨fun h => (a.2 _ h).2.2.2.1 rfl, by decide, fun h => (w.2 _ h).2.2.2.1 rfl⟩)]
    unfold each
    rw [readField_word a]
    rfl
  | x :: y :: m, h =>
    rw [if_pos (by simp only [List.length_cons]; omega), fields_comma h]
    rfl

/-- What is read from a line. -/
theorem read_packet {e : Event} (hw : Words e) (h1 : -2 ^ 63 ≤ e.time) (h2 : e.time < 2 ^ 63) :
    readPoint (sent (.event e)) =
      match e.nums with
      | [(k, v)] => some ⟨e.name, e.strs ++ e.tags, [(k, asInt v)], e.time⟩
      | _ => none := by
  obtain ⟨w1, w2, w3, w4⟩ := hw
  have wt := decI_word h1 h2
  have wp : ∀ x ∈ e.strs ++ e.tags, Word x.1 ∧ Word x.2 := by
    intro x hx
    rcases List.mem_append.1 hx with hx | hx
    · exact w2 x hx
    · exact w3 x hx
  generalize hsep : (if e.nums.length > 1 then [44] else [] : Str) = sep
  have hs : ∀ c, c ≠ 44 → c ∉ sep := by
    intro c hc
    rw [← hsep]
    split
    · simpa using hc
    · simp
  have head : ∀ c, c = 0 ∨ c = 10 ∨ c = 32 → c ∉ e.name ++ pairs (e.strs ++ e.tags) := by
    intro c hc
    rw [List.mem_append, not_or]
    refine ⟨fun h => ?_, pairs_free (by omega) (by omega) fun x hx => ⟨fun h => ?_, fun h => ?_⟩⟩
    · have := w1.2 _ h; omega
    · have := (wp x hx).1.2 _ h; omega
    · have := (wp x hx).2.2 _ h; omega
  have flds : ∀ c, c = 0 ∨ c = 10 ∨ c = 32 → c ∉ fields sep e.nums := by
    intro c hc
    refine fields_free (by omega) (by omega) (hs c (by omega)) fun x hx h => ?_
    have := (w4 x hx).2 _ h; omega
  have tm : ∀ c, c = 0 ∨ c = 10 ∨ c = 32 → c ∉ decI e.time := by
    intro c hc h
    have := wt.1.2 _ h; omega
  have hp : packet e = ((e.name ++ pairs (e.strs ++ e.tags)) ++ 32 :: (fields sep e.nums ++ 32 :: decI e.time)) ++ 10 :: [] := by
    unfold packet
    rw [hsep, pairs_append]
    simp
  have hz : sent (.event e) = packet e := by
    show (packet e).takeWhile _ = _
    apply takeWhile_all
    rintro b hb rfl
    rw [hp] at hb
    simp only [List.mem_append, List.mem_cons] at hb
    have a := head 0 (.inl rfl)
    rw [List.mem_append] at a
    rcases hb with (hb | hb | hb | hb | hb) | hb | hb
    · exact a hb
    · cases hb
    · exact flds 0 (.inl rfl) hb
    · cases hb
    · exact tm 0 (.inl rfl) hb
    · cases hb
    · cases hb
  rw [hz, hp]
  unfold readPoint
  rw [splitOn_append (by
    have a := head 10 (.inr (.inl rfl))
    simp only [List.mem_append (s := e.name ++ _), List.mem_append (s := fields _ _), List.mem_cons]
    rintro (h | h | h | h | h)
    · exact a h
    · cases h
    · exact flds 10 (.inr (.inl rfl)) h
    · cases h
    · exact tm 10 (.inr (.inl rfl)) h)]
  show (match splitOn 32 _ with | [h, f, t] => _ | _ => none) = _
  rw [splitOn_append (head 32 (.inr (.inr rfl))), splitOn_append (flds 32 (.inr (.inr rfl))), splitOn_free (tm 32 (.inr (.inr rfl)))]
  obtain ⟨ss, s1, s2⟩ := symbols_read (m := e.strs ++ e.tags) (n := e.name) (fun h => (w1.2 _ h).2.2.2.1 rfl) wp
  simp only
  rw [s1]
  simp only
  rw [s2, ← hsep, each_fields w4, wt.2]
  match e.nums with
  | [] => rfl
  | [(k, v)] => rfl
  | _ :: _ :: _ => rfl

/-- The line sent for an event says what the event says exactly if the event has one
numeric argument and that is below 2³¹. -/
theorem quest_line_iff {e : Event} (hw : Words e) (h1 : -2 ^ 63 ≤ e.time) (h2 : e.time < 2 ^ 63) :
    readPoint (sent (.event e)) = some (Event.point e) ↔ ∃ k v, e.nums = [(k, v)] ∧ v < 2 ^ 31 := by
  rw [read_packet hw h1 h2]
  unfold Event.point
  match hn : e.nums with
  | [] => exact ⟨fun h => (by cases h), fun ⟨_, _, h, _⟩ => (by cases h)⟩
  | [(k, v)] =>
    simp only [Option.some.injEq, Point.mk.injEq, true_and, and_true, List.map_cons, List.map_nil, List.cons.injEq, Prod.mk.injEq]
    rw [asInt_eq]
    constructor
    · exact fun h => ⟨k, v, ⟨rfl, rfl⟩, h⟩
    · rintro ⟨k', v', ⟨rfl, rfl⟩, h⟩
      exact h
  | _ :: _ :: _ => exact ⟨fun h => (by cases h), fun ⟨_, _, h, _⟩ => (by cases h)⟩

/-- An event with no numeric argument or with several is refused by the server. -/
theorem quest_line_refused {e : Event} (hw : Words e) (h1 : -2 ^ 63 ≤ e.time) (h2 : e.time < 2 ^ 63) (hn : e.nums.length ≠ 1) :
    readPoint (sent (.event e)) = none := by
  rw [read_packet hw h1 h2]
  match h : e.nums with
  | [] => rfl
  | [(k, v)] => rw [h] at hn; exact absurd rfl hn
  | _ :: _ :: _ => rfl

/-- Allocations and deallocations are not sent, and nothing is ever read back. -/
theorem quest_lost_counterexample (rs : List Rec) :
    questEvents (rs ++ [.allocate 64 4096 8192 1]) = [] ∧
    ∀ r ∈ [Rec.allocate 64 4096 8192 1, .namedAllocate 64 4096 8192 b!"u" 1, .deallocate 4096 8192 2], sent r = [] := by
  refine ⟨rfl, ?_⟩
  decide

/-- A large number is sent as a different one: `2 ^ 32 + 1` as `1`. -/
theorem quest_number_counterexample :
    (readPoint (sent (.event ⟨b!"e", .operation, [], [(b!"size", 2 ^ 32 + 1)], [], 5⟩))).map (·.fields) = some [(b!"size", 1)] := by
  decide +kernel

/-- A newline in a string makes a second line. -/
theorem quest_newline_counterexample :
    (splitOn 10 (sent (.event ⟨b!"e", .operation, [(b!"n", b!"a a=1 1\nforged")], [(b!"size", 1)], [], 5⟩))).map
      (fun l => (readPoint (l ++ [10])).map (·.name)) = [some b!"e", some b!"forged", none] := by
  decide +kernel

/-! ## The hypotheses can be met -/

example : ∃ rows rs, Stored Good keep rows rs ∧ rs.length = 4 := by
  have step : ∀ {rows rs r}, Stored Good keep rows rs → Good r → AllUtf8 r → NameAtMost 219 r →
      ∃ rows', Stored Good keep rows' (rs ++ [r]) := by
    intro rows rs r h g u n
    obtain ⟨y, e, h1, -⟩ := sqlite_insert_partial keep_faithful rows g u n
    exact ⟨_, .ok true h g h1⟩
  have gv : Good (.event versionEvent) := by
    refine ⟨⟨?_, ?_, ?_, ?_, ?_, ?_⟩, trivial, ?_⟩
    · unfold Sorted versionEvent; simp
    · unfold Sorted versionEvent; simp [strLt]
    · unfold Sorted versionEvent; simp
    · unfold versionEvent; simp
    · unfold versionEvent; simp
    · unfold versionEvent; simp
    · unfold Apostrophe versionEvent; simp
  obtain ⟨_, h1⟩ := step (.new (P := Good) (json := keep)) gv
    ((event_some versionEvent).1 ⟨_, rfl⟩) trivial
  obtain ⟨_, h2⟩ := step h1 (r := .allocate (2 ^ 64 - 1) 16 4096 3) ⟨by unfold Rec.Wf; simp, trivial, id⟩ trivial trivial
  obtain ⟨_, h3⟩ := step h2 (r := .namedAllocate 8 16 4160 b!"field u" 4)
    ⟨by unfold Rec.Wf; simp, ⟨⟨"field u".toList, by decide⟩, by decide⟩, by unfold Apostrophe; decide⟩ trivial
    (by unfold NameAtMost; decide)
  obtain ⟨_, h4⟩ := step h3 (r := .deallocate 16 4096 5) ⟨by unfold Rec.Wf; simp, trivial, id⟩ trivial trivial
  exact ⟨_, _, h4, rfl⟩

/-- An event with a number that the server understands. -/
def numberEvent : Event := ⟨b!"set_thing", .operation, [(b!"ref", b!"0x10")], [(b!"size", 77)], [(b!"replay", b!"true")], 5⟩

example : Words numberEvent ∧ ∃ k v, numberEvent.nums = [(k, v)] ∧ v < 2 ^ 31 := by
  refine ⟨⟨⟨by decide, by decide⟩, ?_, ?_, ?_⟩, _, _, rfl, by decide⟩
  all_goals
    intro x hx
    simp only [numberEvent, List.mem_singleton] at hx
    subst hx
    first
      | exact ⟨⟨by decide, by decide⟩, by decide, by decide⟩
      | exact ⟨by decide, by decide⟩

end Umpire.Stores
