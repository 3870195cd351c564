import Verif.Log.Model
/-!
# What is in the log (C74)
-/
set_option autoImplicit false
set_option linter.unusedSimpArgs false
namespace Umpire.Log

/-! ## The specification -/

/-- The level a value of `UMPIRE_LOG_LEVEL` stands for, whatever the case of its letters. -/
def wanted (e : Str) : Level :=
  if e.map Char.toUpper = "ERROR".toList then .error
  else if e.map Char.toUpper = "WARNING".toList then .warning
  else if e.map Char.toUpper = "DEBUG".toList then .debug
  else .info

/-- Messages of the second level are wanted at the first. -/
def severe : Level → Level → Bool
  | _, .error => true
  | .error, _ => false
  | _, .warning => true
  | .warning, _ => false
  | _, .info => true
  | .info, _ => false
  | .debug, .debug => true

/-- A message in the log, without the end of the line. -/
def body (m : Msg) : Str :=
  ['['] ++ (match m.level with
    | .error => "ERROR".toList
    | .warning => "WARNING".toList
    | .info => "INFO".toList
    | .debug => "DEBUG".toList) ++ "][".toList ++ m.file ++ [':'] ++ Nat.toDigits 10 m.line ++
    "]: ".toList ++ m.func ++ [' '] ++ m.text

/-- What the log should have. -/
def expected (level : Level) (ms : List Msg) : Str :=
  (ms.filter fun m => severe level m.level).flatMap fun m => body m ++ ['\n']

/-- The lines of a text. -/
def lines : Str → Str → List Str
  | acc, [] => if acc = [] then [] else [acc]
  | acc, c :: l => if c = '\n' then acc :: lines [] l else lines (acc ++ [c]) l

/-! ## Levels -/

theorem same_true {s t : Str} (hl : s.length = t.length) {b : Bool} (h : same s t = some b) :
    b = true ↔ s.map Char.toUpper = t.map Char.toUpper := by
  induction s generalizing t with
  | nil =>
    cases t with
    | nil => simp [same] at h; simp [← h]
    | cons b t => simp at hl
  | cons a s ih =>
    cases t with
    | nil => simp at hl
    | cons c t =>
      simp only [same] at h
      by_cases hw : wild a
      · rw [if_pos hw] at h; exact nomatch h
      · rw [if_neg hw] at h
        by_cases he : a.toUpper = c.toUpper
        · rw [if_pos he] at h
          rw [ih (by simpa using hl) h]
          simp [he]
        · rw [if_neg he] at h
          simp at h
          simp [← h, he]

theorem matches_iff {s : Str} {l : Level} {b : Bool} (h : matches' s l.name = some b) :
    b = true ↔ s.map Char.toUpper = l.name := by
  have hn : l.name.map Char.toUpper = l.name := by cases l <;> decide
  unfold matches' at h
  by_cases hl : s.length = l.name.length
  · rw [if_pos hl] at h
    rw [same_true hl h, hn]
  · rw [if_neg hl] at h
    injection h with h
    simp only [← h, Bool.false_eq_true, false_iff]
    intro h2
    exact hl (by rw [← h2, List.length_map])

/-- The level is the one that the variable stands for. -/
theorem level_spec {e : Str} {l : Level} (h : levelOf (some e) = some l) : l = wanted e := by
  simp only [levelOf, levels, search] at h
  unfold wanted
  cases h1 : matches' e Level.error.name with
  | none => rw [h1] at h; exact nomatch h
  | some b =>
    rw [h1] at h
    have i1 : _ ↔ e.map Char.toUpper = "ERROR".toList := matches_iff h1
    cases b with
    | true => rw [if_pos (i1.1 rfl)]; simp at h; exact h.symm
    | false =>
      rw [if_neg (fun h => by simpa using i1.2 h)]
      cases h2 : matches' e Level.warning.name with
      | none => rw [h2] at h; exact nomatch h
      | some b =>
        rw [h2] at h
        have i2 : _ ↔ e.map Char.toUpper = "WARNING".toList := matches_iff h2
        cases b with
        | true => rw [if_pos (i2.1 rfl)]; simp at h; exact h.symm
        | false =>
          rw [if_neg (fun h => by simpa using i2.2 h)]
          cases h3 : matches' e Level.info.name with
          | none => rw [h3] at h; exact nomatch h
          | some b =>
            rw [h3] at h
            have i3 : _ ↔ e.map Char.toUpper = "INFO".toList := matches_iff h3
            cases b with
            | true =>
              simp at h
              have := i3.1 rfl
              rw [if_neg (by rw [this]; decide)]
              exact h.symm
            | false =>
              cases h4 : matches' e Level.debug.name with
              | none => rw [h4] at h; exact nomatch h
              | some b =>
                rw [h4] at h
                have i4 : _ ↔ e.map Char.toUpper = "DEBUG".toList := matches_iff h4
                cases b with
                | true => rw [if_pos (i4.1 rfl)]; simp at h; exact h.symm
                | false =>
                  rw [if_neg (fun h => by simpa using i4.2 h)]
                  simp at h; exact h.symm

theorem same_some {s : Str} (h : ∀ c ∈ s, c.toNat < 128) (t : Str) : ∃ b, same s t = some b := by
  induction s generalizing t with
  | nil => exact ⟨true, by cases t <;> rfl⟩
  | cons a s ih =>
    cases t with
    | nil => exact ⟨true, rfl⟩
    | cons c t =>
      have hw : wild a = false := by
        have := h a (.head _)
        simp [wild]; omega
      simp only [same, hw]
      by_cases he : a.toUpper = c.toUpper
      · simp only [Bool.false_eq_true, if_false, if_pos he]
        exact ih (fun c hc => h c (.tail _ hc)) t
      · simp only [Bool.false_eq_true, if_false, if_neg he]
        exact ⟨false, rfl⟩

/-- ASCII values are safe. -/
theorem level_defined {e : Str} (h : ∀ c ∈ e, c.toNat < 128) : levelOf (some e) = some (wanted e) := by
  have key : ∀ ls, ∃ l, search e ls = some l := by
    intro ls
    induction ls with
    | nil => exact ⟨_, rfl⟩
    | cons l ls ih =>
      simp only [search]
      have : ∃ b, matches' e l.name = some b := by
        unfold matches'
        by_cases hl : e.length = l.name.length
        · rw [if_pos hl]; exact same_some h _
        · rw [if_neg hl]; exact ⟨_, rfl⟩
      obtain ⟨b, hb⟩ := this
      rw [hb]
      cases b with
      | true => exact ⟨_, rfl⟩
      | false => exact ih
  obtain ⟨l, hl⟩ := key levels
  have h1 : levelOf (some e) = some l := hl
  rw [h1, level_spec h1]

/-- Other values may be undefined behaviour: `toupper` of a negative `char`. -/
theorem level_counterexample : levelOf (some "DEBUÇ".toList) = none := by decide

/-- Exactly the bytes from 128 to 254 are beyond `toupper`: 255 is `EOF` and harmless. -/
theorem level_wild (n : Nat) (h : n < 256) : levelOf (some ["DEBU".toList, [Char.ofNat n]].flatten) = none ↔ 128 ≤ n ∧ n ≤ 254 := by
  have key : ∀ i : Fin 256, levelOf (some ["DEBU".toList, [Char.ofNat i.val]].flatten) = none ↔ 128 ≤ i.val ∧ i.val ≤ 254 := by decide +kernel
  exact key ⟨n, h⟩

/-- Without the variable, errors, warnings and information are shown and debugging is not. -/
theorem level_unset : ∃ l, levelOf none = some l ∧ enabled l .error = true ∧ enabled l .warning = true ∧ enabled l .info = true ∧
    enabled l .debug = false := ⟨_, rfl, by decide⟩

theorem enabled_iff (a b : Level) : enabled a b = severe a b := by cases a <;> cases b <;> rfl

example : levelOf (some "debug".toList) = some .debug := level_defined (by decide)
example : levelOf (some "verbose".toList) = some .info := level_defined (by decide)

/-! ## What is written -/

/-- The stream that is written to. -/
def Io.dst (o : Io) : Sink :=
  match o.to with
  | .stdout => o.out
  | .buffer => o.file

/-- The other one. -/
def Io.other (o : Io) : Sink :=
  match o.to with
  | .stdout => o.file
  | .buffer => o.out

def Sys.dst (y : Sys) : Target → Nat → Bool
  | .stdout => y.out
  | .buffer => y.file

def Io.Live (o : Io) : Prop := o.to = .stdout ∨ o.attached = true

/-- `s` was written, or a part of it and the stream is bad. -/
structure Wrote (o o' : Io) (s : Str) : Prop where
  to : o'.to = o.to
  attached : o'.attached = o.attached
  static : o'.static = o.static
  other : o'.other = o.other
  data : ∃ t, o'.dst.data = o.dst.data ++ t ∧ t <+: s ∧ (o'.bad = false → t = s ∧ o.bad = false) ∧
    (o.bad = true → t = [] ∧ o'.bad = true)

theorem Wrote.refl (o : Io) : Wrote o o [] :=
  ⟨rfl, rfl, rfl, rfl, [], by simp, List.prefix_refl _, fun h => ⟨rfl, h⟩, fun h => ⟨rfl, h⟩⟩

theorem Wrote.bad {o : Io} (h : o.bad = true) (s : Str) : Wrote o o s :=
  ⟨rfl, rfl, rfl, rfl, [], by simp, List.nil_prefix, fun h' => by simp [h] at h', fun h => ⟨rfl, h⟩⟩

theorem Wrote.trans {o p q : Io} {s t : Str} (h : Wrote o p s) (k : Wrote p q t) : Wrote o q (s ++ t) := by
  obtain ⟨a, ha1, ha2, ha3, ha4⟩ := h.data
  obtain ⟨b, hb1, hb2, hb3, hb4⟩ := k.data
  refine ⟨k.to.trans h.to, k.attached.trans h.attached, k.static.trans h.static, k.other.trans h.other,
    a ++ b, by rw [hb1, ha1, List.append_assoc], ?_, fun hq => ?_, fun ho => ?_⟩
  · cases hp : p.bad with
    | true =>
      rw [(hb4 hp).1, List.append_nil]
      exact ha2.trans (List.prefix_append _ _)
    | false =>
      rw [(ha3 hp).1]
      exact (List.prefix_append_right_inj s).2 hb2
  · have h1 := hb3 hq
    have h2 := ha3 h1.2
    exact ⟨by rw [h1.1, h2.1], h2.2⟩
  · have h1 := ha4 ho
    have h2 := hb4 h1.2
    exact ⟨by rw [h1.1, h2.1]; rfl, h2.2⟩

theorem Wrote.live {o p : Io} {s : Str} (h : Wrote o p s) (hl : o.Live) : p.Live := by
  unfold Io.Live; rw [h.to, h.attached]; exact hl

theorem byte_wrote {y : Sys} {o : Io} {c : Char} (hl : o.Live) (hb : o.bad = false) : Wrote o (o.byte y c) [c] := by
  have put : ∀ (ok : Nat → Bool) (s : Sink), ∃ t, (s.put ok c).1.data = s.data ++ t ∧ t <+: [c] ∧
      ((!(s.put ok c).2) = false → t = [c]) := by
    intro ok s
    unfold Sink.put
    by_cases h : ok s.tries = true
    · simp only [h, if_true]
      exact ⟨[c], rfl, List.prefix_refl _, fun _ => rfl⟩
    · simp only [h, if_false]
      exact ⟨[], by simp, List.nil_prefix, fun h => by simp at h⟩
  unfold Io.byte
  cases ht : o.to with
  | stdout =>
    obtain ⟨t, h1, h2, h3⟩ := put y.out o.out
    refine ⟨ht.symm, rfl, rfl, ?_, t, ?_, h2, fun h => ⟨h3 h, hb⟩, fun h => by simp [hb] at h⟩
    · simp only [Io.other, ht]
    · simpa only [Io.dst, ht] using h1
  | buffer =>
    have ha : o.attached = true := by
      rcases hl with h | h
      · rw [ht] at h; exact nomatch h
      · exact h
    simp only [ha, if_true]
    obtain ⟨t, h1, h2, h3⟩ := put y.file o.file
    refine ⟨ht.symm, ha.symm, rfl, ?_, t, ?_, h2, fun h => ⟨h3 h, hb⟩, fun h => by simp [hb] at h⟩
    · simp only [Io.other, ht]
    · simpa only [Io.dst, ht] using h1

theorem insert_wrote {y : Sys} {o : Io} (hl : o.Live) (s : Str) : Wrote o (o.insert y s) s := by
  induction s generalizing o with
  | nil => exact .refl o
  | cons c s ih =>
    simp only [Io.insert]
    cases hb : o.bad with
    | true => simpa using Wrote.bad hb (c :: s)
    | false =>
      have h := byte_wrote (y := y) (c := c) hl hb
      simpa using h.trans (ih (h.live hl))

theorem flush_wrote {y : Sys} {o : Io} : Wrote o (o.flush y) [] := by
  unfold Io.flush
  cases hb : o.bad with
  | true => simpa using Wrote.bad hb []
  | false =>
    simp only [Bool.false_eq_true, if_false]
    cases ht : o.to with
    | stdout =>
      refine ⟨ht.symm ▸ rfl, rfl, rfl, ?_, [], ?_, List.prefix_refl _, fun h => ⟨rfl, hb⟩, fun h => by simp [hb] at h⟩
      · simp only [Io.other, ht]
      · simp only [Io.dst, ht, Sink.sync, List.append_nil]
    | buffer =>
      cases ha : o.attached with
      | false => simpa using Wrote.refl o
      | true =>
        simp only [if_true]
        refine ⟨ht.symm, ha.symm, rfl, ?_, [], ?_, List.prefix_refl _, fun h => ⟨rfl, hb⟩, fun h => by simp [hb] at h⟩
        · simp only [Io.other, ht]
        · simp only [Io.dst, ht, Sink.sync, List.append_nil]

theorem foldl_wrote {y : Sys} {o : Io} (hl : o.Live) (ps : List Str) :
    Wrote o (ps.foldl (Io.insert y) o) ps.flatten := by
  induction ps generalizing o with
  | nil => exact .refl o
  | cons p ps ih =>
    have h := insert_wrote (y := y) hl p
    simpa using h.trans (ih (h.live hl))

theorem pieces_body (m : Msg) : (pieces m).flatten = body m ++ ['\n'] := by
  unfold pieces body
  cases m.level <;> simp [Level.name]

theorem log_wrote {y : Sys} {level : Level} {o : Io} (hl : o.Live) (m : Msg) :
    Wrote o (o.log y level m) (expected level [m]) := by
  unfold Io.log
  rw [enabled_iff]
  cases hs : severe level m.level with
  | false => simpa [expected, hs] using Wrote.refl o
  | true =>
    have h := foldl_wrote (y := y) hl (pieces m)
    have := h.trans (flush_wrote (y := y))
    rw [pieces_body] at this
    simpa [expected, hs] using this

theorem expected_append (level : Level) (a b : List Msg) :
    expected level (a ++ b) = expected level a ++ expected level b := by
  simp [expected, List.filter_append]

/-- Messages one after the other. -/
def Io.logs (y : Sys) (level : Level) (o : Io) (ms : List Msg) : Io := ms.foldl (Io.log y level) o

theorem logs_wrote {y : Sys} {level : Level} {o : Io} (hl : o.Live) (ms : List Msg) :
    Wrote o (o.logs y level ms) (expected level ms) := by
  induction ms generalizing o with
  | nil => exact .refl o
  | cons m ms ih =>
    have h := log_wrote (y := y) (level := level) hl m
    have := h.trans (ih (h.live hl))
    rw [← expected_append] at this
    exact this

/-! Without failures nothing becomes bad. -/

theorem byte_good {y : Sys} {o : Io} {c : Char} (h : ∀ k, y.dst o.to k = true) (hb : o.bad = false) :
    (o.byte y c).bad = false := by
  unfold Io.byte
  cases ht : o.to with
  | stdout => rw [ht] at h; simp [Sink.put, show y.out o.out.tries = true from h _]
  | buffer =>
    rw [ht] at h
    cases ha : o.attached with
    | true => simp [Sink.put, show y.file o.file.tries = true from h _]
    | false => simpa using hb

theorem byte_to {y : Sys} {o : Io} {c : Char} : (o.byte y c).to = o.to := by
  unfold Io.byte
  cases ht : o.to with
  | stdout => rfl
  | buffer => cases ha : o.attached <;> simp [ht]

theorem insert_good {y : Sys} {o : Io} (h : ∀ k, y.dst o.to k = true) (hb : o.bad = false) (s : Str) :
    (o.insert y s).bad = false ∧ (o.insert y s).to = o.to := by
  induction s generalizing o with
  | nil => exact ⟨hb, rfl⟩
  | cons c s ih =>
    simp only [Io.insert, hb, Bool.false_eq_true, if_false]
    have := ih (o := o.byte y c) (by rw [byte_to]; exact h) (byte_good h hb)
    rw [byte_to] at this
    exact this

theorem foldl_good {y : Sys} {o : Io} (h : ∀ k, y.dst o.to k = true) (hb : o.bad = false) (ps : List Str) :
    (ps.foldl (Io.insert y) o).bad = false ∧ (ps.foldl (Io.insert y) o).to = o.to := by
  induction ps generalizing o with
  | nil => exact ⟨hb, rfl⟩
  | cons p ps ih =>
    obtain ⟨h1, h2⟩ := insert_good h hb p
    have := ih (o := o.insert y p) (by rw [h2]; exact h) h1
    rw [h2] at this
    exact this

theorem flush_good {y : Sys} {o : Io} (h : ∀ k, y.dst o.to k = true) (hb : o.bad = false) :
    (o.flush y).bad = false ∧ (o.flush y).to = o.to := by
  refine ⟨?_, flush_wrote.to⟩
  unfold Io.flush
  simp only [hb, Bool.false_eq_true, if_false]
  cases ht : o.to with
  | stdout => rw [ht] at h; simp [Sink.sync, show y.out o.out.tries = true from h _]
  | buffer =>
    rw [ht] at h
    cases ha : o.attached with
    | true => simp [Sink.sync, show y.file o.file.tries = true from h _]
    | false => simpa using hb

theorem logs_good {y : Sys} {level : Level} {o : Io} (h : ∀ k, y.dst o.to k = true) (hb : o.bad = false)
    (ms : List Msg) : (o.logs y level ms).bad = false := by
  induction ms generalizing o with
  | nil => exact hb
  | cons m ms ih =>
    have key : (o.log y level m).bad = false ∧ (o.log y level m).to = o.to := by
      unfold Io.log
      cases he : enabled level m.level with
      | false => simpa using hb
      | true =>
        simp only [if_true]
        obtain ⟨h1, h2⟩ := foldl_good h hb (pieces m)
        obtain ⟨h3, h4⟩ := flush_good (o := (pieces m).foldl (Io.insert y) o) (by rw [h2]; exact h) h1
        exact ⟨h3, h4.trans h2⟩
    exact ih (o := o.log y level m) (by rw [key.2]; exact h) key.1

/-! Nothing is attached. -/

theorem idle_insert {y : Sys} {o : Io} (ht : o.to = .buffer) (ha : o.attached = false) (s : Str) : o.insert y s = o := by
  induction s with
  | nil => rfl
  | cons c s ih =>
    have : o.byte y c = o := by simp [Io.byte, ht, ha]
    simp only [Io.insert, this, ih, ite_self]

theorem idle_logs {y : Sys} {level : Level} {o : Io} (ht : o.to = .buffer) (ha : o.attached = false)
    (ms : List Msg) : o.logs y level ms = o := by
  induction ms with
  | nil => rfl
  | cons m ms ih =>
    have h1 : ∀ ps : List Str, ps.foldl (Io.insert y) o = o := by
      intro ps
      induction ps with
      | nil => rfl
      | cons p ps ih => rw [List.foldl_cons, idle_insert ht ha]; exact ih
    have : o.log y level m = o := by
      simp [Io.log, h1, Io.flush, ht, ha]
    show (o.log y level m).logs y level ms = o
    rw [this]; exact ih

/-! ## Files -/

theorem digits_no_dot {n : Nat} : '.' ∉ Nat.toDigits 10 n := by
  intro h
  have := Nat.isDigit_of_mem_toDigits (by decide) (by decide) h
  simp [Char.isDigit] at this

theorem toDigits_inj {m n : Nat} (h : Nat.toDigits 10 m = Nat.toDigits 10 n) : m = n := by
  have := Nat.ofDigitChars_ten_toDigits (n := m)
  rw [h, Nat.ofDigitChars_ten_toDigits] at this
  exact this.symm

/-- The text behind the last dot. -/
theorem cut {a b x y : Str} (hx : '.' ∉ x) (hy : '.' ∉ y) (h : a ++ ['.'] ++ x = b ++ ['.'] ++ y) : a = b ∧ x = y := by
  have key : ∀ (u v : Str), '.' ∉ v → (u ++ ['.'] ++ v).reverse.takeWhile (fun c => c ≠ '.') = v.reverse := by
    intro u v hv
    rw [List.append_assoc, List.reverse_append, List.reverse_append]
    simp only [List.reverse_cons, List.reverse_nil, List.nil_append, List.append_assoc, List.singleton_append]
    rw [List.takeWhile_append_of_pos (by
      intro c hc
      have : c ∈ v := List.mem_reverse.1 hc
      simp only [ne_eq, decide_not, Bool.not_eq_true', decide_eq_false_iff_not]
      intro he; subst he; exact hv this)]
    simp
  have h1 := key a x hx
  rw [h, key b y hy] at h1
  have h2 : x = y := (List.reverse_inj.1 h1).symm
  subst h2
  refine ⟨?_, rfl⟩
  have := List.append_cancel_right h
  exact List.append_cancel_right this

theorem name_inj {d d' b b' e : Str} {p p' i i' : Nat} (h : fileName d b p i e = fileName d' b' p' i' e) :
    p = p' ∧ i = i' := by
  unfold fileName at h
  have h := List.append_cancel_right (List.append_cancel_right h)
  obtain ⟨h1, h2⟩ := cut digits_no_dot digits_no_dot h
  obtain ⟨-, h4⟩ := cut digits_no_dot digits_no_dot h1
  exact ⟨toDigits_inj h4, toDigits_inj h2⟩

theorem pickFrom_none {fs : Fs} {d b e : Str} {p : Nat} : ∀ {fuel id : Nat}, pickFrom fs d b p e fuel id = none →
    ∀ i, i < fuel → fs.exists' (fileName d b p (id + i) e) = true
  | 0, _, _, i, hi => absurd hi (Nat.not_lt_zero i)
  | fuel + 1, id, h, i, hi => by
    simp only [pickFrom] at h
    by_cases hx : fs.exists' (fileName d b p id e) = true
    · rw [if_pos hx] at h
      cases i with
      | zero => exact hx
      | succ i =>
        have := pickFrom_none h i (by omega)
        rwa [show id + 1 + i = id + (i + 1) by omega] at this
    · rw [if_neg hx] at h; exact nomatch h

theorem pickFrom_some {fs : Fs} {d b e n : Str} {p : Nat} : ∀ {fuel id : Nat}, pickFrom fs d b p e fuel id = some n →
    ∃ i, n = fileName d b p (id + i) e ∧ fs.exists' n = false ∧ ∀ j, j < i → fs.exists' (fileName d b p (id + j) e) = true
  | 0, _, h => nomatch h
  | fuel + 1, id, h => by
    simp only [pickFrom] at h
    by_cases hx : fs.exists' (fileName d b p id e) = true
    · rw [if_pos hx] at h
      obtain ⟨i, h1, h2, h3⟩ := pickFrom_some h
      refine ⟨i + 1, by rw [h1, show id + 1 + i = id + (i + 1) by omega], h2, fun j hj => ?_⟩
      cases j with
      | zero => exact hx
      | succ j =>
        have := h3 j (by omega)
        rwa [show id + 1 + j = id + (j + 1) by omega] at this
    · rw [if_neg hx] at h
      injection h with h
      exact ⟨0, h.symm, by rw [← h]; simpa using hx, fun j hj => absurd hj (Nat.not_lt_zero j)⟩

theorem exists_mem {fs : Fs} {n : Str} (h : fs.exists' n = true) : n ∈ fs.map (·.1) := by
  unfold Fs.exists' Fs.get at h
  cases hf : fs.find? (fun e => e.1 = n) with
  | none => rw [hf] at h; exact nomatch h
  | some e =>
    have h1 := List.find?_some hf
    have h2 := List.mem_of_find?_eq_some hf
    exact List.mem_map.2 ⟨e, h2, by simpa using h1⟩

/-- A name is always found. -/
theorem pick_some (fs : Fs) (d b e : Str) (p : Nat) : ∃ n, pick fs d b p e = some n := by
  cases h : pick fs d b p e with
  | some n => exact ⟨n, rfl⟩
  | none =>
    exfalso
    have all := pickFrom_none h
    have nd : ((List.range (fs.length + 1)).map fun i => fileName d b p (0 + i) e).Nodup := by
      refine (List.pairwise_map).2 (List.Pairwise.imp ?_ List.nodup_range)
      intro i j hij he
      exact hij (by have := (name_inj he).2; omega)
    have := nd.length_le_of_subset (l₂ := fs.map (·.1)) fun x hx => by
      obtain ⟨i, hi, rfl⟩ := List.mem_map.1 hx
      exact exists_mem (all i (List.mem_range.1 hi))
    simp at this
    omega

theorem get_find {fs : Fs} {n : Str} {e : Entry} (h : fs.get n = some e) : ∃ x ∈ fs, x.2 = e := by
  unfold Fs.get at h
  cases hf : fs.find? (fun x => x.1 = n) with
  | none => rw [hf] at h; exact nomatch h
  | some x =>
    rw [hf] at h
    exact ⟨x, List.mem_of_find?_eq_some hf, by simpa using h⟩

/-- All files can be read. -/
def Fs.Readable (fs : Fs) : Prop := ∀ x ∈ fs, x.2.readable = true

theorem absent_of {fs : Fs} {n : Str} (hr : fs.Readable) (h : fs.exists' n = false) : fs.get n = none := by
  cases hg : fs.get n with
  | none => rfl
  | some e =>
    obtain ⟨x, hx, he⟩ := get_find hg
    have := hr x hx
    simp [Fs.exists', hg, ← he, this] at h

theorem open_others {fs fs' : Fs} {c : Bool} {n : Str} (h : fs.open' c n = some fs') (n' : Str) (hn : n' ≠ n) :
    fs'.get n' = fs.get n' := by
  unfold Fs.open' at h
  cases hg : fs.get n with
  | none =>
    rw [hg] at h
    cases c with
    | false => simp at h
    | true =>
      simp at h
      subst h
      simp [Fs.get, List.find?_cons, Ne.symm hn]
  | some e =>
    rw [hg] at h
    cases hw : e.writable with
    | false => simp [hw] at h
    | true =>
      simp [hw] at h
      subst h
      simp only [Fs.get, List.find?_cons]
      rw [decide_eq_false (Ne.symm hn)]
      simp only
      rw [List.find?_filter]
      congr 2
      funext x
      by_cases hx : x.1 = n'
      · simp [hx, hn]
      · simp [hx]

theorem open_empty {fs fs' : Fs} {c : Bool} {n : Str} (h : fs.open' c n = some fs') :
    ∃ e, fs'.get n = some e ∧ e.data = [] := by
  unfold Fs.open' at h
  cases hg : fs.get n with
  | none =>
    rw [hg] at h
    cases c with
    | false => simp at h
    | true => simp at h; subst h; exact ⟨⟨true, true, []⟩, by simp [Fs.get], rfl⟩
  | some e =>
    rw [hg] at h
    cases hw : e.writable with
    | false => simp [hw] at h
    | true => simp [hw] at h; subst h; exact ⟨{ e with data := [] }, by simp [Fs.get, hw], rfl⟩

/-- A successful first initialization with logging: the buffer and the file. -/
theorem init_file {o o' : Io} {p : Place} {fs : Fs} (h : o.init p true = (o', fs, true)) (hs : o.static = .absent) :
    ∃ n, pick p.fs p.dir p.base p.pid "log".toList = some n ∧ p.fs.open' p.mayCreate n = some fs ∧
      o' = { o with to := .buffer, bad := false, attached := true, static := .opened n } := by
  unfold Io.init at h
  cases hp : p.present with
  | false => simp [hp] at h
  | true =>
    simp only [hp, hs, Bool.not_true, Bool.false_eq_true, if_false] at h
    obtain ⟨n, hn⟩ := pick_some p.fs p.dir p.base "log".toList p.pid
    rw [hn] at h
    simp only at h
    cases hop : p.fs.open' p.mayCreate n with
    | none => rw [hop] at h; simp at h
    | some fs' =>
      rw [hop] at h
      simp only [Prod.mk.injEq] at h
      exact ⟨n, hn, by rw [hop, h.2.1], h.1.symm⟩

/-! ## The log -/

/-- The log file has the messages of the wanted level and the more severe ones, complete
and in order; if writing fails, what was written before. -/
theorem log_file {y : Sys} {e : Str} {level : Level} {p : Place} {o : Io} {fs : Fs}
    (hl : levelOf (some e) = some level) (hi : Io.start.init p true = (o, fs, true)) (ms : List Msg) :
    (o.logs y level ms).file.data <+: expected (wanted e) ms ∧
      ((∀ k, y.file k = true) → (o.logs y level ms).file.data = expected (wanted e) ms) := by
  obtain ⟨n, -, -, rfl⟩ := init_file hi rfl
  rw [← level_spec hl]
  generalize ho : ({ Io.start with to := .buffer, bad := false, attached := true, static := .opened n } : Io) = o
  have hlive : o.Live := .inr (by rw [← ho])
  have w := logs_wrote (y := y) (level := level) hlive ms
  obtain ⟨t, h1, h2, h3, -⟩ := w.data
  have hto : o.to = .buffer := by rw [← ho]
  have hd : (o.logs y level ms).file.data = t := by
    have : (o.logs y level ms).dst = (o.logs y level ms).file := by simp [Io.dst, w.to, hto]
    rw [← this, h1]
    simp [Io.dst, hto, ← ho, Io.start]
  refine ⟨by rw [hd]; exact h2, fun hy => ?_⟩
  rw [hd]
  exact (h3 (logs_good (by rw [hto]; exact hy) (by rw [← ho]) ms)).1

/-- After the initialization nothing goes to the standard output, whatever the level. -/
theorem stdout_silent {y : Sys} {level : Level} {o o' : Io} {p : Place} {b c : Bool} {fs : Fs}
    (hi : o.init p b = (o', fs, c)) (ms : List Msg) : (o'.logs y level ms).out = o.out := by
  have key : o'.to = .buffer ∧ o'.out = o.out := by
    have h1 : (o.init p b).1.to = .buffer ∧ (o.init p b).1.out = o.out := by
      unfold Io.init
      simp only
      repeat' split
      all_goals exact ⟨rfl, rfl⟩
    rw [hi] at h1
    exact h1
  cases ha : o'.attached with
  | false => rw [idle_logs key.1 ha]; exact key.2
  | true =>
    have w := logs_wrote (y := y) (level := level) (o := o') (.inr ha) ms
    have h1 := w.other
    simp only [Io.other, w.to, key.1] at h1
    rw [h1]; exact key.2

/-- Messages before the initialization go to the standard output. -/
theorem early_stdout {y : Sys} (level : Level) (hy : ∀ k, y.out k = true) (ms : List Msg) :
    (Io.start.logs y level ms).out.data = expected level ms := by
  have w := logs_wrote (y := y) (level := level) (o := Io.start) (.inl rfl) ms
  obtain ⟨t, h1, -, h3, -⟩ := w.data
  rw [(h3 (logs_good (o := Io.start) (y := y) hy rfl ms)).1] at h1
  simp only [Io.dst, w.to, show Io.start.to = .stdout from rfl] at h1
  exact h1

/-- If the variable is not set, no message goes anywhere. -/
theorem unset_silent {y : Sys} {level : Level} {p : Place} {o : Io} {fs : Fs} {c : Bool}
    (hi : Io.start.init p false = (o, fs, c)) (ms : List Msg) :
    (o.logs y level ms).out.data = [] ∧ (o.logs y level ms).file.data = [] ∧ fs = p.fs := by
  have h : o.to = .buffer ∧ o.attached = false ∧ o.out.data = [] ∧ o.file.data = [] ∧ fs = p.fs := by
    cases hp : p.present with
    | false =>
      simp only [Io.init, hp, Bool.not_false, if_true, Prod.mk.injEq] at hi
      rw [← hi.1, ← hi.2.1]; exact ⟨rfl, rfl, rfl, rfl, rfl⟩
    | true =>
      simp only [Io.init, hp, Bool.not_true, Bool.not_false, Bool.false_eq_true, if_false, if_true, Prod.mk.injEq] at hi
      rw [← hi.1, ← hi.2.1]; exact ⟨rfl, rfl, rfl, rfl, rfl⟩
  rw [idle_logs h.1 h.2.1]
  exact h.2.2

theorem lines_line {s : Str} (h : '\n' ∉ s) (acc r : Str) : lines acc (s ++ '\n' :: r) = (acc ++ s) :: lines [] r := by
  induction s generalizing acc with
  | nil => simp [lines]
  | cons c s ih =>
    have hc : c ≠ '\n' := fun he => h (by rw [he]; exact .head _)
    simp only [List.cons_append, lines, if_neg hc]
    rw [ih (fun hm => h (.tail _ hm))]
    simp

/-- If no part of a message has an end of line, the lines of the log are the messages. -/
theorem log_lines {level : Level} {ms : List Msg}
    (h : ∀ m ∈ ms, '\n' ∉ m.func ∧ '\n' ∉ m.text ∧ '\n' ∉ m.file) :
    lines [] (expected level ms) = (ms.filter fun m => severe level m.level).map body := by
  induction ms with
  | nil => rfl
  | cons m ms ih =>
    have hb : '\n' ∉ body m := by
      obtain ⟨h1, h2, h3⟩ := h m (.head _)
      have h4 : '\n' ∉ Nat.toDigits 10 m.line := fun hm => by
        have := Nat.isDigit_of_mem_toDigits (by decide) (by decide) hm
        simp [Char.isDigit] at this
      unfold body
      cases m.level <;> simp [h1, h2, h3, h4]
    have ih := ih fun m hm => h m (.tail _ hm)
    unfold expected at ih ⊢
    cases hs : severe level m.level with
    | false => simpa [hs] using ih
    | true =>
      simp only [List.filter_cons, hs, if_true, List.flatMap_cons, List.map_cons, List.append_assoc, List.singleton_append]
      rw [lines_line hb, ih]
      rfl

/-! ## The file -/

/-- The log goes to a new file and no other is touched, if all files can be read. -/
theorem new_file {o o' : Io} {p : Place} {fs : Fs} (h : o.init p true = (o', fs, true)) (hs : o.static = .absent)
    (hr : p.fs.Readable) : ∃ n, o'.static = .opened n ∧ p.fs.get n = none ∧ fs.get n = some ⟨true, true, []⟩ ∧
      ∀ n', n' ≠ n → fs.get n' = p.fs.get n' := by
  obtain ⟨n, h1, h2, rfl⟩ := init_file h hs
  obtain ⟨i, -, h4, -⟩ := pickFrom_some h1
  have h5 := absent_of hr h4
  refine ⟨n, rfl, h5, ?_, fun n' hn => open_others h2 n' hn⟩
  unfold Fs.open' at h2
  rw [h5] at h2
  cases hc : p.mayCreate with
  | false => simp [hc] at h2
  | true => simp [hc] at h2; rw [← h2]; simp [Fs.get]

/-- The number in the name is the first that is free. -/
theorem file_number {o o' : Io} {p : Place} {fs : Fs} (h : o.init p true = (o', fs, true)) (hs : o.static = .absent) :
    ∃ id, o'.static = .opened (fileName p.dir p.base p.pid id "log".toList) ∧
      ∀ j, j < id → p.fs.exists' (fileName p.dir p.base p.pid j "log".toList) = true := by
  obtain ⟨n, h1, -, rfl⟩ := init_file h hs
  obtain ⟨i, h3, -, h5⟩ := pickFrom_some h1
  simp only [Nat.zero_add] at h3 h5
  exact ⟨i, by rw [h3], h5⟩

/-- Processes with different numbers never have the same file, whatever their
directories and base names are and whenever they look. -/
theorem other_process {o₁ o₂ o₁' o₂' : Io} {p₁ p₂ : Place} {fs₁ fs₂ : Fs} {n₁ n₂ : Str}
    (h₁ : o₁.init p₁ true = (o₁', fs₁, true)) (h₂ : o₂.init p₂ true = (o₂', fs₂, true))
    (s₁ : o₁.static = .absent) (s₂ : o₂.static = .absent) (hp : p₁.pid ≠ p₂.pid)
    (e₁ : o₁'.static = .opened n₁) (e₂ : o₂'.static = .opened n₂) : n₁ ≠ n₂ := by
  obtain ⟨i, a, -⟩ := file_number h₁ s₁
  obtain ⟨j, b, -⟩ := file_number h₂ s₂
  rw [e₁] at a; rw [e₂] at b
  injection a with a; injection b with b
  rw [a, b]
  exact fun he => hp (name_inj he).1

/-- Processes with the same number (on two hosts) have different files if one looks after
the other has opened its file. -/
theorem later_process {o₁ o₂ o₁' o₂' : Io} {p₁ p₂ : Place} {fs₁ fs₂ : Fs} {n₁ n₂ : Str}
    (h₁ : o₁.init p₁ true = (o₁', fs₁, true)) (h₂ : o₂.init p₂ true = (o₂', fs₂, true))
    (s₁ : o₁.static = .absent) (s₂ : o₂.static = .absent) (hr : p₁.fs.Readable) (hp : p₂.fs = fs₁)
    (e₁ : o₁'.static = .opened n₁) (e₂ : o₂'.static = .opened n₂) : n₁ ≠ n₂ := by
  obtain ⟨n, a1, -, a2, -⟩ := new_file h₁ s₁ hr
  rw [e₁] at a1; injection a1 with a1; subst a1
  obtain ⟨m, b1, b2, rfl⟩ := init_file h₂ s₂
  injection e₂ with e₂; subst e₂
  obtain ⟨i, -, b4, -⟩ := pickFrom_some b1
  rintro rfl
  rw [hp] at b4
  simp [Fs.exists', a2] at b4

/-- The first initialization succeeds where files can be created. -/
theorem init_possible {o : Io} {p : Place} (hs : o.static = .absent) (hp : p.present = true)
    (hc : p.mayCreate = true) (hr : p.fs.Readable) (b : Bool) : (o.init p b).2.2 = true := by
  unfold Io.init
  simp only [hp, Bool.not_true, Bool.false_eq_true, if_false]
  cases b with
  | false => rfl
  | true =>
    obtain ⟨n, hn⟩ := pick_some p.fs p.dir p.base "log".toList p.pid
    obtain ⟨i, -, h4, -⟩ := pickFrom_some hn
    simp only [hs, hn, Fs.open', absent_of hr h4, hc, Bool.not_true, Bool.false_eq_true, if_false, if_true]

/-- Initializing again keeps the file. -/
theorem init_again {o : Io} {p : Place} {n : Str} (hs : o.static = .opened n) (hp : p.present = true) :
    (o.init p true).2.2 = true ∧ (o.init p true).1.static = .opened n ∧ (o.init p true).2.1 = p.fs ∧
      (o.init p true).1.file = o.file := by
  unfold Io.init
  simp [hp, hs]

/-- Without the directory the first use of the library throws. -/
theorem missing_directory {o : Io} {p : Place} (hp : p.present = false) (b : Bool) : (o.init p b).2.2 = false := by
  simp [Io.init, hp]

/-- … and so it does forever after the file could not be opened once. -/
theorem failed_forever {o : Io} (hs : o.static = .failed) (p : Place) :
    (o.init p true).2.2 = false ∧ (o.init p true).1.static = .failed := by
  unfold Io.init
  cases hp : p.present <;> simp [hs]

/-! ## Counterexamples -/

abbrev here : Place := ⟨[], ".".toList, "umpire".toList, 42, true, true⟩
abbrev hello : Msg := ⟨.warning, "f".toList, "hello".toList, "a.cpp".toList, 7⟩
abbrev oops : Msg := ⟨.error, "g".toList, "oops".toList, "b.cpp".toList, 8⟩

/-- A run: the hypotheses of `log_file`. -/
example : ∃ o fs, Io.start.init here true = (o, fs, true) ∧
    (o.logs ⟨fun _ => true, fun _ => true⟩ .warning [hello, oops]).file.data =
      "[WARNING][a.cpp:7]: f hello\n[ERROR][b.cpp:8]: g oops\n".toList :=
  ⟨_, _, rfl, by decide +kernel⟩

/-- The file `./umpire.42.0.log` exists and cannot be read. -/
abbrev secret : Place :=
  ⟨[("./umpire.42.0.log".toList, ⟨false, true, "data".toList⟩)], ".".toList, "umpire".toList, 42, true, true⟩

/-- A file that exists but cannot be read is taken for none and truncated. -/
theorem unreadable_counterexample : ∃ (p : Place) (n : Str) (o : Io) (fs : Fs),
    Io.start.init p true = (o, fs, true) ∧ (p.fs.get n).map (·.data) = some "data".toList ∧
      (fs.get n).map (·.data) = some [] :=
  ⟨secret, "./umpire.42.0.log".toList, _, _, rfl, by decide +kernel, by decide +kernel⟩

/-- Two processes with the same number that look at the same time have the same file. -/
theorem race_counterexample : ∃ (fs fs₁ fs₂ : Fs) (n : Str), fs.Readable ∧
    pick fs ".".toList "umpire".toList 42 "log".toList = some n ∧ fs.open' true n = some fs₁ ∧
    pick fs ".".toList "umpire".toList 42 "log".toList = some n ∧ fs₁.open' true n = some fs₂ :=
  ⟨[], _, _, _, fun _ h => (nomatch h), rfl, rfl, rfl, rfl⟩

/-- One write that fails, and nothing is logged any more although the file can be written
again. -/
theorem failed_write_counterexample : ∃ (y : Sys) (o : Io) (fs : Fs), Io.start.init here true = (o, fs, true) ∧
    (∀ k, k ≠ 1 → y.file k = true) ∧ ∀ ms, (o.logs y .debug (oops :: ms)).file.data = ['['] := by
  refine ⟨⟨fun _ => true, fun k => k ≠ 1⟩, _, _, rfl, fun k hk => by simp [hk], fun ms => ?_⟩
  simp only [Io.logs, List.foldl_cons]
  generalize ho : Io.log _ _ _ oops = o'
  have hb : o'.bad = true := by rw [← ho]; decide +kernel
  have ht : o'.to = .buffer := by rw [← ho]; decide +kernel
  have ha : o'.attached = true := by rw [← ho]; decide +kernel
  have hd : o'.file.data = ['['] := by rw [← ho]; decide +kernel
  have w := logs_wrote (y := ⟨fun _ => true, fun k => k ≠ 1⟩) (level := .debug) (o := o') (.inr ha) ms
  obtain ⟨t, h1, -, -, h4⟩ := w.data
  rw [(h4 hb).1] at h1
  simp only [Io.dst, w.to, ht, hd, List.append_nil] at h1
  exact h1

/-- A message with an end of line looks like two. -/
theorem forged_counterexample : ∃ m m₁ m₂ : Msg, m.level = .info ∧ m₁.level = .info ∧ m₂.level = .error ∧
    expected .info [m] = expected .info [m₁, m₂] :=
  ⟨⟨.info, "f".toList, "a\n[ERROR][x.cpp:1]: g b".toList, "x.cpp".toList, 1⟩,
   ⟨.info, "f".toList, "a".toList, "x.cpp".toList, 1⟩, ⟨.error, "g".toList, "b".toList, "x.cpp".toList, 1⟩,
   rfl, rfl, rfl, by decide +kernel⟩

/-- The pieces of two threads in some order. -/
inductive Shuffle {α : Type} : List α → List α → List α → Prop where
  | nil : Shuffle [] [] []
  | left {a : α} {x y z : List α} : Shuffle x y z → Shuffle (a :: x) y (a :: z)
  | right {a : α} {x y z : List α} : Shuffle x y z → Shuffle x (a :: y) (a :: z)

/-- Messages of two threads may be mixed: there is no lock around the insertions.
(`std::ostream` does not even allow this.) -/
theorem threads_counterexample : ∃ z : List Str, Shuffle (pieces hello) (pieces oops) z ∧
    z.flatten ≠ expected .debug [hello, oops] ∧ z.flatten ≠ expected .debug [oops, hello] :=
  ⟨_, .left (.right (.left (.left (.left (.left (.left (.left (.left (.left (.left (.right (.right (.right (.right
    (.right (.right (.right (.right (.right .nil))))))))))))))))))), by decide +kernel, by decide +kernel⟩

end Umpire.Log
