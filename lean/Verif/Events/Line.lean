import Verif.Events.Read
import Verif.Events.Utf8
/-!
# One line of the log
-/
set_option autoImplicit false
set_option linter.unusedSimpArgs false
namespace Umpire.Events

/-! ## Strings that are written as they are -/

/-- Nothing that JSON writes differently. -/
def Raw (s : Str) : Prop := ∀ b ∈ s, 32 ≤ b ∧ b ≠ 34 ∧ b ≠ 92

/-- The last byte of a character. -/
theorem code_last {st c b : Nat} (h1 : st < 9) (h2 : st ≠ 1) (h3 : CodeOk st c) (h : nextState st b = 0) :
    nextCode st c b = b ∨ 128 ≤ nextCode st c b := by
  by_cases hb : b < 256
  case neg => rw [nextState_big h1 hb] at h; cases h
  by_cases h0 : st = 0
  · subst h0
    rcases first_byte_tab b hb with h4 | ⟨-, h5, h6⟩ | ⟨h4, -⟩
    · omega
    · left
      unfold nextCode
      rw [if_neg (by simp), h6]
      have : ∀ b, b < 128 → (0xFF >>> 0) &&& b = b := by decide +kernel
      exact this b h5
    · omega
  · rcases next_byte_tab st h1 (by omega) b hb with h4 | ⟨-, -, -, -, h9, -⟩
    · omega
    · right
      have hc : nextCode st c b = (b &&& 0x3F) ||| (c <<< 6) := by
        unfold nextCode; rw [if_pos h0]
      have hs := code_shift b c
      rw [← hc] at hs
      have := h3.1 (h9 h)
      omega

/-- A byte inside a character. -/
theorem code_more {st c b : Nat} (h1 : st < 9) (h2 : st ≠ 1) (h3 : CodeOk st c) (h : nextState st b ≠ 1) (h0' : nextState st b ≠ 0) :
    nextState st b < 9 ∧ CodeOk (nextState st b) (nextCode st c b) := by
  by_cases hb : b < 256
  case neg => exact absurd (nextState_big h1 hb) h
  by_cases h0 : st = 0
  · subst h0
    rcases first_byte_tab b hb with h4 | ⟨h4, -⟩ | ⟨-, h4, -, -, h7, h8⟩
    · exact absurd h4 h
    · exact absurd h4 h0'
    · have hc : nextCode 0 c b = (0xFF >>> byteType b) &&& b := by
        unfold nextCode; rw [if_neg (by simp)]
      refine ⟨h4, ?_⟩
      rw [hc]
      exact ⟨h7, fun h => h8 (by omega) (by omega)⟩
  · rcases next_byte_tab st h1 (by omega) b hb with h4 | ⟨-, h4, -, -, -, h10, h11⟩
    · exact absurd h4 h
    · have hc : nextCode st c b = (b &&& 0x3F) ||| (c <<< 6) := by
        unfold nextCode; rw [if_pos h0]
      have hs := code_shift b c
      have hl := code_low b c
      rw [← hc] at hs hl
      refine ⟨by omega, fun h => ?_, fun h => ?_⟩
      · rcases h10 h with h | h | h
        · have := h3.2 (.inl h); omega
        · have := h3.2 (.inr (.inl h)); omega
        · omega
      · rcases h11 (by omega) with h | h | h
        · have := h3.2 (.inr (.inr (.inl h))); omega
        · have := h3.2 (.inr (.inr (.inr h))); omega
        · omega

theorem raw_dump {s : Str} : ∀ {st c : Nat} {t : Str}, st < 9 → st ≠ 1 → CodeOk st c → Raw s → dumpEsc st c s = some t →
    t = s := by
  induction s with
  | nil =>
    intro st c t _ _ _ _ h
    unfold dumpEsc at h
    split at h
    · injection h with h; exact h.symm
    · cases h
  | cons b s ih =>
    intro st c t h1 h2 h3 hr h
    have hr' : Raw s := fun b hb => hr b (List.mem_cons_of_mem _ hb)
    obtain ⟨r1, r2, r3⟩ := hr b (List.mem_cons_self ..)
    unfold dumpEsc at h
    simp only at h
    by_cases h4 : nextState st b = 1
    · rw [if_pos h4] at h; cases h
    rw [if_neg h4] at h
    by_cases h5 : nextState st b = 0
    · rw [if_pos h5] at h
      have he : escape (nextCode st c b) b = [b] := by
        have := code_last h1 h2 h3 h5
        unfold escape
        repeat rw [if_neg (by omega)]
      rw [he] at h
      cases hd : dumpEsc 0 (nextCode st c b) s with
      | none => rw [hd] at h; cases h
      | some t' =>
        rw [hd] at h
        simp only [Option.map_some, Option.some.injEq] at h
        rw [← h, ih (by decide) (by decide) ⟨by simp, by simp⟩ hr' hd]
        rfl
    · rw [if_neg h5] at h
      obtain ⟨h6, h7⟩ := code_more h1 h2 h3 h4 h5
      cases hd : dumpEsc (nextState st b) (nextCode st c b) s with
      | none => rw [hd] at h; cases h
      | some t' =>
        rw [hd] at h
        simp only [Option.map_some, Option.some.injEq] at h
        rw [← h, ih h6 h4 h7 hr' hd]

/-- Quotation marks are all that is added. -/
theorem raw_dumpStr {s : Str} (hu : Utf8 s) (hr : Raw s) : dumpStr s = some (34 :: s ++ [34]) := by
  obtain ⟨t, ht⟩ := (dumpStr_iff s).2 hu
  unfold dumpStr at ht ⊢
  cases hd : dumpEsc 0 0 s with
  | none => rw [hd] at ht; cases ht
  | some x => rw [raw_dump (st := 0) (c := 0) (by decide) (by decide) ⟨by simp, by simp⟩ hr hd]; rfl

/-! ## Tokens that are written in one way -/

/-- The text of a mark or plain string. -/
def render1 : Tok → Str
  | .str s => 34 :: s ++ [34]
  | .lbrace => [123]
  | .rbrace => [125]
  | .colon => [58]
  | .comma => [44]
  | _ => []

def render (ts : List Tok) : Str := ts.flatMap render1

def Simple : Tok → Prop
  | .str s => dumpStr s = some (34 :: s ++ [34])
  | .lbrace | .rbrace | .colon | .comma => True
  | _ => False

theorem piece_render {ts : List Tok} (h : ∀ t ∈ ts, Simple t) : Piece (render ts) ts := by
  induction ts with
  | nil => exact Piece.nil
  | cons t ts ih =>
    have h1 : Piece (render1 t) [t] := by
      have h := h t (List.mem_cons_self ..)
      cases t with
      | str s => exact piece_str h
      | lbrace => exact piece_lbrace
      | rbrace => exact piece_rbrace
      | colon => exact piece_colon
      | comma => exact piece_comma
      | _ => cases h
    exact h1.append (ih fun t ht => h t (List.mem_cons_of_mem _ ht))

theorem render_clean {ts : List Tok} (h : ∀ t ∈ ts, Simple t) : Clean (render ts) := by
  intro b hb
  obtain ⟨t, ht, hb⟩ := List.mem_flatMap.1 hb
  have h := h t ht
  cases t with
  | str s => exact dumpStr_clean h b hb
  | lbrace => rw [List.mem_singleton.1 hb]; decide
  | rbrace => rw [List.mem_singleton.1 hb]; decide
  | colon => rw [List.mem_singleton.1 hb]; decide
  | comma => rw [List.mem_singleton.1 hb]; decide
  | _ => cases h

/-! ## The fixed layouts -/

def timeTok (i : Int) : Tok := if i < 0 then .int i else .uint i.toNat

def sizeTok (n : Nat) : Tok := timeTok (asLong n)

def allocHead (name : Str) : List Tok :=
  [.lbrace, .str b!"category", .colon, .str b!"operation", .comma, .str b!"name", .colon, .str name, .comma,
    .str b!"numeric_args", .colon, .lbrace, .str b!"size", .colon]

def pointers (ref ptr : Nat) : List Tok :=
  [.str b!"allocator_ref", .colon, .str (ptrText ref), .comma, .str b!"pointer", .colon, .str (ptrText ptr)]

def allocTail : List Tok :=
  [.rbrace, .comma, .str b!"tags", .colon, .lbrace, .str b!"replay", .colon, .str b!"true", .rbrace, .comma, .str b!"timestamp", .colon]

def allocMid : List Tok := [.comma, .str b!"string_args", .colon, .lbrace]

theorem allocateLine_eq (size ref ptr : Nat) (time : Int) : allocateLine size ref ptr time =
    render (allocHead b!"allocate") ++ ((decI (asLong size) ++ [125]) ++ (render (allocMid ++ pointers ref ptr ++ allocTail) ++
      (decI time ++ [125]))) := by
  unfold allocateLine allocHead allocMid pointers allocTail render
  simp only [List.flatMap_cons, List.flatMap_nil, render1, List.cons_append, List.nil_append, List.append_assoc, List.append_nil]

set_option maxRecDepth 4000 in
theorem namedAllocateLine_eq (size ref ptr : Nat) (name : Str) (time : Int) : namedAllocateLine size ref ptr name time =
    render (allocHead b!"named_allocate") ++ ((decI (asLong size) ++ [125]) ++
      (render (allocMid ++ pointers ref ptr ++ [.comma, .str b!"allocation_name", .colon, .str (name.takeWhile (· != 0))] ++ allocTail) ++
      (decI time ++ [125]))) := by
  unfold namedAllocateLine allocHead allocMid pointers allocTail render
  simp only [List.flatMap_cons, List.flatMap_nil, render1, List.cons_append, List.nil_append, List.append_assoc, List.append_nil]

theorem deallocateLine_eq (ref ptr : Nat) (time : Int) : deallocateLine ref ptr time =
    render ([.lbrace, .str b!"category", .colon, .str b!"operation", .comma, .str b!"name", .colon, .str b!"deallocate"] ++
      allocMid ++ pointers ref ptr ++ allocTail) ++ (decI time ++ [125]) := by
  unfold deallocateLine allocMid pointers allocTail render
  simp only [List.flatMap_cons, List.flatMap_nil, render1, List.cons_append, List.nil_append, List.append_assoc, List.append_nil]

instance (t : Tok) : Decidable (Simple t) := by
  cases t <;> unfold Simple <;> infer_instance

theorem simple_pointers (ref ptr : Nat) : ∀ t ∈ pointers ref ptr, Simple t := by
  intro t ht
  simp only [pointers, List.mem_cons, List.not_mem_nil, or_false] at ht
  rcases ht with h | h | h | h | h | h | h <;> subst h
  · decide
  · trivial
  · exact ptrText_dump ref
  · trivial
  · decide
  · trivial
  · exact ptrText_dump ptr

theorem simple_append {a b : List Tok} (h1 : ∀ t ∈ a, Simple t) (h2 : ∀ t ∈ b, Simple t) : ∀ t ∈ a ++ b, Simple t :=
  fun t ht => (List.mem_append.1 ht).elim (h1 t) (h2 t)

theorem simple_mid : ∀ t ∈ allocMid, Simple t := by decide
theorem simple_tail : ∀ t ∈ allocTail, Simple t := by decide +kernel

theorem clean_time {i : Int} (h1 : -2 ^ 63 ≤ i) (h2 : i < 2 ^ 63) : Clean (decI i ++ [125]) :=
  (decI_clean h1 (by omega)).append (by unfold Clean; decide)

theorem piece_timeTok {i : Int} (h1 : -2 ^ 63 ≤ i) (h2 : i < 2 ^ 63) : Piece (decI i ++ [125]) [timeTok i, .rbrace] :=
  piece_time h1 (by omega) (.inr rfl) piece_rbrace

theorem step_timeTok (i : Int) (st : List Frame) (ts : List Tok) :
    steps (.want, st) (timeTok i :: ts) = steps (.done (intJ i), st) ts := by
  rw [steps_cons]
  show (startVal st (timeTok i)).bind _ = _
  unfold timeTok
  rw [startVal_int]
  rfl

/-! ## Reading a line -/

theorem readLine_of {l : Str} {ts : List Tok} {v : J} (hc : Clean l) (hp : Piece l ts)
    (hs : steps (.want, []) ts = some (.done v, [])) : readLine l = fromJson v := by
  unfold readLine
  rw [parse_of hc hp.lexes hs]

/-- The tags of the fixed records. -/
def replayTags : List (Str × Str) := [(b!"replay", b!"true")]

theorem steps_then {c c' : Mode × List Frame} {a b : List Tok} (h : steps c a = some c') : steps c (a ++ b) = steps c' b := by
  rw [steps_append, h]; rfl

theorem allocate_read {size ref ptr : Nat} {time : Int} (hs : size < 2 ^ 64) (h1 : -2 ^ 63 ≤ time) (h2 : time < 2 ^ 63) :
    Clean (allocateLine size ref ptr time) ∧ readLine (allocateLine size ref ptr time) =
      some { name := b!"allocate", cat := .operation, strs := [(b!"allocator_ref", ptrText ref), (b!"pointer", ptrText ptr)],
             nums := [(b!"size", size)], tags := replayTags, time := time } := by
  obtain ⟨hs1, hs2⟩ := asLong_range hs
  have hh : ∀ t ∈ allocHead b!"allocate", Simple t := by decide +kernel
  have hm := simple_append (simple_append simple_mid (simple_pointers ref ptr)) simple_tail
  have hc : Clean (allocateLine size ref ptr time) := by
    rw [allocateLine_eq]
    exact (render_clean hh).append ((clean_time hs1 hs2).append ((render_clean hm).append (clean_time h1 h2)))
  have hp := (piece_render hh).append ((piece_timeTok hs1 hs2).append ((piece_render hm).append (piece_timeTok h1 h2)))
  rw [← allocateLine_eq] at hp
  refine ⟨hc, ?_⟩
  rw [readLine_of (v := .obj [(b!"category", .str b!"operation"), (b!"name", .str b!"allocate"),
    (b!"numeric_args", .obj [(b!"size", intJ (asLong size))]),
    (b!"string_args", .obj [(b!"allocator_ref", .str (ptrText ref)), (b!"pointer", .str (ptrText ptr))]),
    (b!"tags", .obj [(b!"replay", .str b!"true")]), (b!"timestamp", intJ time)]) hc hp ?_]
  · unfold fromJson
    show ((get b!"name" _).bind _ : Option Event) = _
    have e1 : (intJ (asLong size)).toNat = some size := intJ_size hs
    have e2 : (intJ time).toLong = some time := intJ_long h1 h2
    simp [get, optMap, J.toMap, toMapAux, J.toStr, J.toCat, set, e1, e2, replayTags, strLt]
  · rw [steps_then (c' := (.want, [.obj [] b!"size", .obj [(b!"category", .str b!"operation"), (b!"name", .str b!"allocate")] b!"numeric_args"])) (by rfl)]
    show steps _ (timeTok _ :: _) = _
    rw [step_timeTok]
    show steps _ (.rbrace :: (allocMid ++ pointers ref ptr ++ allocTail ++ _)) = _
    rw [steps_cons]
    show steps _ _ = _
    rw [steps_then (c' := (.want, [.obj [(b!"category", .str b!"operation"), (b!"name", .str b!"allocate"),
      (b!"numeric_args", .obj [(b!"size", intJ (asLong size))]),
      (b!"string_args", .obj [(b!"allocator_ref", .str (ptrText ref)), (b!"pointer", .str (ptrText ptr))]),
      (b!"tags", .obj [(b!"replay", .str b!"true")])] b!"timestamp"])) (by rfl)]
    rw [step_timeTok]
    rfl

theorem namedAllocate_read {size ref ptr : Nat} {name : Str} {time : Int} (hs : size < 2 ^ 64) (h1 : -2 ^ 63 ≤ time)
    (h2 : time < 2 ^ 63) (hu : Utf8 name) (hr : Raw name) :
    Clean (namedAllocateLine size ref ptr name time) ∧ readLine (namedAllocateLine size ref ptr name time) =
      some { name := b!"named_allocate", cat := .operation,
             strs := [(b!"allocation_name", name), (b!"allocator_ref", ptrText ref), (b!"pointer", ptrText ptr)],
             nums := [(b!"size", size)], tags := replayTags, time := time } := by
  obtain ⟨hs1, hs2⟩ := asLong_range hs
  have hn : name.takeWhile (· != 0) = name := Clean.takeWhile fun b hb => (hr b hb).1
  have hh : ∀ t ∈ allocHead b!"named_allocate", Simple t := by decide +kernel
  have hname : ∀ t ∈ [Tok.comma, .str b!"allocation_name", .colon, .str name], Simple t := by
    intro t ht
    simp only [List.mem_cons, List.not_mem_nil, or_false] at ht
    rcases ht with h | h | h | h <;> subst h
    · trivial
    · decide
    · trivial
    · exact raw_dumpStr hu hr
  have hm := simple_append (simple_append (simple_append simple_mid (simple_pointers ref ptr)) hname) simple_tail
  have heq := namedAllocateLine_eq size ref ptr name time
  rw [hn] at heq
  have hc : Clean (namedAllocateLine size ref ptr name time) := by
    rw [heq]
    exact (render_clean hh).append ((clean_time hs1 hs2).append ((render_clean hm).append (clean_time h1 h2)))
  have hp := (piece_render hh).append ((piece_timeTok hs1 hs2).append ((piece_render hm).append (piece_timeTok h1 h2)))
  rw [← heq] at hp
  refine ⟨hc, ?_⟩
  rw [readLine_of (v := .obj [(b!"category", .str b!"operation"), (b!"name", .str b!"named_allocate"),
    (b!"numeric_args", .obj [(b!"size", intJ (asLong size))]),
    (b!"string_args", .obj [(b!"allocation_name", .str name), (b!"allocator_ref", .str (ptrText ref)),
      (b!"pointer", .str (ptrText ptr))]),
    (b!"tags", .obj [(b!"replay", .str b!"true")]), (b!"timestamp", intJ time)]) hc hp ?_]
  · unfold fromJson
    show ((get b!"name" _).bind _ : Option Event) = _
    have e1 : (intJ (asLong size)).toNat = some size := intJ_size hs
    have e2 : (intJ time).toLong = some time := intJ_long h1 h2
    simp [get, optMap, J.toMap, toMapAux, J.toStr, J.toCat, set, e1, e2, replayTags, strLt]
  · rw [steps_then (c' := (.want, [.obj [] b!"size", .obj [(b!"category", .str b!"operation"), (b!"name", .str b!"named_allocate")] b!"numeric_args"])) (by rfl)]
    show steps _ (timeTok _ :: _) = _
    rw [step_timeTok]
    show steps _ (.rbrace :: ((allocMid ++ pointers ref ptr ++ _ ++ allocTail) ++ _)) = _
    rw [steps_cons]
    show steps _ _ = _
    rw [steps_then (c' := (.want, [.obj [(b!"category", .str b!"operation"), (b!"name", .str b!"named_allocate"),
      (b!"numeric_args", .obj [(b!"size", intJ (asLong size))]),
      (b!"string_args", .obj [(b!"allocation_name", .str name), (b!"allocator_ref", .str (ptrText ref)),
        (b!"pointer", .str (ptrText ptr))]),
      (b!"tags", .obj [(b!"replay", .str b!"true")])] b!"timestamp"])) (by rfl)]
    rw [step_timeTok]
    rfl

theorem deallocate_read {ref ptr : Nat} {time : Int} (h1 : -2 ^ 63 ≤ time) (h2 : time < 2 ^ 63) :
    Clean (deallocateLine ref ptr time) ∧ readLine (deallocateLine ref ptr time) =
      some { name := b!"deallocate", cat := .operation, strs := [(b!"allocator_ref", ptrText ref), (b!"pointer", ptrText ptr)],
             nums := [], tags := replayTags, time := time } := by
  have hh : ∀ t ∈ [Tok.lbrace, .str b!"category", .colon, .str b!"operation", .comma, .str b!"name", .colon,
      .str b!"deallocate"], Simple t := by decide +kernel
  have hm := simple_append (simple_append (simple_append hh simple_mid) (simple_pointers ref ptr)) simple_tail
  have hc : Clean (deallocateLine ref ptr time) := by
    rw [deallocateLine_eq]
    exact (render_clean hm).append (clean_time h1 h2)
  have hp := (piece_render hm).append (piece_timeTok h1 h2)
  rw [← deallocateLine_eq] at hp
  refine ⟨hc, ?_⟩
  rw [readLine_of (v := .obj [(b!"category", .str b!"operation"), (b!"name", .str b!"deallocate"),
    (b!"string_args", .obj [(b!"allocator_ref", .str (ptrText ref)), (b!"pointer", .str (ptrText ptr))]),
    (b!"tags", .obj [(b!"replay", .str b!"true")]), (b!"timestamp", intJ time)]) hc hp ?_]
  · unfold fromJson
    show ((get b!"name" _).bind _ : Option Event) = _
    have e2 : (intJ time).toLong = some time := intJ_long h1 h2
    simp [get, optMap, J.toMap, toMapAux, J.toStr, J.toCat, set, e2, replayTags, strLt]
  · rw [steps_then (c' := (.want, [.obj [(b!"category", .str b!"operation"), (b!"name", .str b!"deallocate"),
      (b!"string_args", .obj [(b!"allocator_ref", .str (ptrText ref)), (b!"pointer", .str (ptrText ptr))]),
      (b!"tags", .obj [(b!"replay", .str b!"true")])] b!"timestamp"])) (by rfl)]
    rw [step_timeTok]
    rfl

/-! ## The generic record -/

theorem cat_simple (c : Cat) : dumpStr c.text = some (34 :: c.text ++ [34]) := by cases c <;> decide +kernel

theorem event_read {e : Event} {t : Str} (h : dumpEvent e = some t) (hstrs : Sorted e.strs) (hnums : Sorted e.nums)
    (htags : Sorted e.tags) (hn : ∀ x ∈ e.nums, x.2 < 2 ^ 64) (h1 : -2 ^ 63 ≤ e.time) (h2 : e.time < 2 ^ 63) :
    Clean t ∧ readLine t = some e := by
  unfold dumpEvent at h
  simp only [Option.bind_eq_bind, Option.bind_eq_some_iff, Option.pure_def, Option.some.injEq] at h
  obtain ⟨ct, hct, nt, hnt, xs, hxs, ss, hss, ts, hts, rfl⟩ := h
  have k1 : ∀ t ∈ [Tok.lbrace, .str b!"category", .colon], Simple t := by decide +kernel
  have k2 : ∀ t ∈ [Tok.comma, .str b!"name", .colon], Simple t := by decide +kernel
  have k3 : ∀ t ∈ [Tok.comma, .str b!"numeric_args", .colon], Simple t := by decide +kernel
  have k4 : ∀ t ∈ [Tok.comma, .str b!"string_args", .colon], Simple t := by decide +kernel
  have k5 : ∀ t ∈ [Tok.comma, .str b!"tags", .colon], Simple t := by decide +kernel
  have k6 : ∀ t ∈ [Tok.comma, .str b!"timestamp", .colon], Simple t := by decide +kernel
  have vs : ∀ m : List (Str × Str), ∀ x ∈ m, ∀ y, dumpStr x.2 = some y → Clean y := fun _ _ _ _ h => dumpStr_clean h
  have vn : ∀ x ∈ e.nums, ∀ y, some (dec x.2) = some y → Clean y := by
    intro x hx y h
    injection h with h
    rw [← h]
    exact dec_clean (hn x hx)
  have heq : b!"{\"category\":" ++ ct ++ b!",\"name\":" ++ nt ++ b!",\"numeric_args\":" ++ xs ++
      b!",\"string_args\":" ++ ss ++ b!",\"tags\":" ++ ts ++ b!",\"timestamp\":" ++ decI e.time ++ b!"}" =
      render [.lbrace, .str b!"category", .colon] ++ (ct ++ (render [.comma, .str b!"name", .colon] ++ (nt ++
      (render [.comma, .str b!"numeric_args", .colon] ++ (xs ++ (render [.comma, .str b!"string_args", .colon] ++ (ss ++
      (render [.comma, .str b!"tags", .colon] ++ (ts ++ (render [.comma, .str b!"timestamp", .colon] ++
      (decI e.time ++ [125]))))))))))) := by
    unfold render
    simp only [List.flatMap_cons, List.flatMap_nil, render1, List.cons_append, List.nil_append, List.append_assoc, List.append_nil]
  rw [heq]
  have hc := (render_clean k1).append ((dumpStr_clean hct).append ((render_clean k2).append ((dumpStr_clean hnt).append
    ((render_clean k3).append ((obj_clean vn hxs).append ((render_clean k4).append ((obj_clean (vs _) hss).append
    ((render_clean k5).append ((obj_clean (vs _) hts).append ((render_clean k6).append (clean_time h1 h2)))))))))))
  have hp := (piece_render k1).append ((piece_str hct).append ((piece_render k2).append ((piece_str hnt).append
    ((piece_render k3).append ((obj_piece (f := .uint) (fun x hx => valLex_uint (hn x hx)) hxs).append ((piece_render k4).append
    ((obj_piece (f := .str) (fun x _ => valLex_str x.2) hss).append ((piece_render k5).append
    ((obj_piece (f := .str) (fun x _ => valLex_str x.2) hts).append ((piece_render k6).append (piece_timeTok h1 h2)))))))))))
  refine ⟨hc, ?_⟩
  have fs : ∀ st v, startVal st (.str v) = some (.done (.str v), st) := fun _ _ => rfl
  have fn : ∀ st v, startVal st (.uint v) = some (.done (.uint v), st) := fun _ _ => rfl
  rw [readLine_of (v := .obj [(b!"category", .str e.cat.text), (b!"name", .str e.name),
    (b!"numeric_args", .obj (e.nums.map fun x => (x.1, .uint x.2))),
    (b!"string_args", .obj (e.strs.map fun x => (x.1, .str x.2))),
    (b!"tags", .obj (e.tags.map fun x => (x.1, .str x.2))), (b!"timestamp", intJ e.time)]) hc hp ?_]
  · unfold fromJson
    show ((get b!"name" _).bind _ : Option Event) = _
    have e1 : (J.obj (e.nums.map fun x => (x.1, .uint x.2))).toMap J.toNat = some e.nums :=
      toMap_eq (val := J.uint) (g := J.toNat) (fun _ => rfl) hnums
    have e2 : (J.obj (e.strs.map fun x => (x.1, .str x.2))).toMap J.toStr = some e.strs :=
      toMap_eq (val := J.str) (g := J.toStr) (fun _ => rfl) hstrs
    have e3 : (J.obj (e.tags.map fun x => (x.1, .str x.2))).toMap J.toStr = some e.tags :=
      toMap_eq (val := J.str) (g := J.toStr) (fun _ => rfl) htags
    have e4 : (intJ e.time).toLong = some e.time := intJ_long h1 h2
    have e5 : (J.str e.cat.text).toCat = e.cat := by cases e.cat <;> decide +kernel
    have e6 : (J.str e.name).toStr = some e.name := rfl
    simp [get, optMap, e1, e2, e3, e4, e5, e6]
  · show steps (.want, [.obj [(b!"category", .str e.cat.text), (b!"name", .str e.name)] b!"numeric_args"])
      (.lbrace :: ((memToks .uint e.nums ++ [.rbrace]) ++ _)) = _
    rw [List.append_assoc]
    show steps _ (.lbrace :: (memToks .uint e.nums ++ .rbrace :: _)) = _
    rw [steps_obj fn hnums]
    show steps (.want, [.obj [(b!"category", .str e.cat.text), (b!"name", .str e.name),
      (b!"numeric_args", .obj (e.nums.map fun x => (x.1, .uint x.2)))] b!"string_args"])
      (.lbrace :: ((memToks .str e.strs ++ [.rbrace]) ++ _)) = _
    rw [List.append_assoc]
    show steps _ (.lbrace :: (memToks .str e.strs ++ .rbrace :: _)) = _
    rw [steps_obj fs hstrs]
    show steps (.want, [.obj [(b!"category", .str e.cat.text), (b!"name", .str e.name),
      (b!"numeric_args", .obj (e.nums.map fun x => (x.1, .uint x.2))),
      (b!"string_args", .obj (e.strs.map fun x => (x.1, .str x.2)))] b!"tags"])
      (.lbrace :: ((memToks .str e.tags ++ [.rbrace]) ++ _)) = _
    rw [List.append_assoc]
    show steps _ (.lbrace :: (memToks .str e.tags ++ .rbrace :: _)) = _
    rw [steps_obj fs htags]
    show steps (.want, _) (timeTok e.time :: [.rbrace]) = _
    rw [step_timeTok]
    rfl

/-- What can be dumped. -/
theorem members_some {α : Type} {g : α → Option Str} {m : List (Str × α)} :
    (∃ t, dumpMembers g m = some t) ↔ ∀ x ∈ m, (∃ t, dumpStr x.1 = some t) ∧ ∃ t, g x.2 = some t := by
  induction m with
  | nil => exact ⟨fun _ x hx => (by cases hx), fun _ => ⟨_, rfl⟩⟩
  | cons x m ih =>
    obtain ⟨k, v⟩ := x
    cases m with
    | nil =>
      unfold dumpMembers
      simp only [Option.bind_eq_bind, Option.bind_eq_some_iff, Option.pure_def, Option.some.injEq, List.mem_singleton]
      constructor
      · rintro ⟨t, kt, hk, vt, hv, -⟩ x rfl
        exact ⟨⟨kt, hk⟩, vt, hv⟩
      · intro h
        obtain ⟨⟨kt, hk⟩, vt, hv⟩ := h _ rfl
        exact ⟨_, kt, hk, vt, hv, rfl⟩
    | cons y m =>
      have hd : ∀ t, dumpMembers g ((k, v) :: y :: m) = some t ↔ ∃ kt, dumpStr k = some kt ∧ ∃ vt, g v = some vt ∧
          ∃ mt, dumpMembers g (y :: m) = some mt ∧ kt ++ 58 :: vt ++ 44 :: mt = t := by
        intro t
        conv => lhs; unfold dumpMembers
        simp only [Option.bind_eq_bind, Option.bind_eq_some_iff, Option.pure_def, Option.some.injEq]
      constructor
      · rintro ⟨t, ht⟩ x hx
        obtain ⟨kt, hk, vt, hv, mt, hm, -⟩ := (hd t).1 ht
        rcases List.mem_cons.1 hx with rfl | hx
        · exact ⟨⟨kt, hk⟩, vt, hv⟩
        · exact ih.1 ⟨mt, hm⟩ x hx
      · intro h
        obtain ⟨⟨kt, hk⟩, vt, hv⟩ := h _ (List.mem_cons_self ..)
        obtain ⟨mt, hm⟩ := ih.2 fun x hx => h x (List.mem_cons_of_mem _ hx)
        exact ⟨_, (hd _).2 ⟨kt, hk, vt, hv, mt, hm, rfl⟩⟩

theorem obj_some {α : Type} {g : α → Option Str} {m : List (Str × α)} :
    (∃ t, dumpObj g m = some t) ↔ ∀ x ∈ m, (∃ t, dumpStr x.1 = some t) ∧ ∃ t, g x.2 = some t := by
  rw [← members_some]
  unfold dumpObj
  constructor
  · rintro ⟨t, h⟩
    obtain ⟨x, hx, -⟩ := Option.map_eq_some_iff.1 h
    exact ⟨x, hx⟩
  · rintro ⟨t, h⟩
    exact ⟨_, by rw [h]; rfl⟩

theorem event_some (e : Event) : (∃ t, dumpEvent e = some t) ↔
    Utf8 e.name ∧ (∀ x ∈ e.strs, Utf8 x.1 ∧ Utf8 x.2) ∧ (∀ x ∈ e.nums, Utf8 x.1) ∧ (∀ x ∈ e.tags, Utf8 x.1 ∧ Utf8 x.2) := by
  have hs : ∀ m : List (Str × Str), (∃ t, dumpObj dumpStr m = some t) ↔ ∀ x ∈ m, Utf8 x.1 ∧ Utf8 x.2 := by
    intro m
    rw [obj_some]
    simp only [dumpStr_iff]
  have hn : (∃ t, dumpObj (fun n => some (dec n)) e.nums = some t) ↔ ∀ x ∈ e.nums, Utf8 x.1 := by
    rw [obj_some]
    simp only [dumpStr_iff]
    constructor
    · exact fun h x hx => (h x hx).1
    · exact fun h x hx => ⟨h x hx, _, rfl⟩
  rw [← hs, ← hs, ← hn, ← dumpStr_iff]
  unfold dumpEvent
  simp only [Option.bind_eq_bind, Option.bind_eq_some_iff, Option.pure_def, Option.some.injEq]
  constructor
  · rintro ⟨t, ct, hct, nt, hnt, xs, hxs, ss, hss, ts, hts, -⟩
    exact ⟨⟨_, hnt⟩, ⟨_, hss⟩, ⟨_, hxs⟩, ⟨_, hts⟩⟩
  · rintro ⟨⟨_, hnt⟩, ⟨_, hss⟩, ⟨_, hxs⟩, ⟨_, hts⟩⟩
    exact ⟨_, _, cat_simple e.cat, _, hnt, _, hxs, _, hss, _, hts, rfl⟩

end Umpire.Events
