import Verif.Trace.Keys
/-!
# The interpreter on texts does what the interpreter on numbers does
-/
set_option autoImplicit false
set_option linter.unusedSimpArgs false
namespace Umpire.Trace
open Umpire.Events (Event Str get Rec getEvents ptrText)
open Umpire.Replay (Op Call Ev C)
open Umpire.Rebuild (Entry Opts Did Made Fits Faithful Same strArg numArg toInt makeEvent resourceEvent osPtr compileResource)

/-! ## Specification -/

/-- The name. -/
def What.name : What → Str
  | .resource n => n
  | .made m => m.name

/-- What a note is about: the events of the program in `Replay`. -/
def Note.ev : Note → Ev
  | .make ref w _ _ => .make ref (chars w.name)
  | .alloc ref ptr size _ => .alloc ref ptr size
  | .dealloc ref ptr _ => .dealloc ref ptr
  | .realloc1 ref cur size _ _ _ => .realloc1 ref cur size
  | .realloc2 ref new _ _ => .realloc2 ref new
  | .setDefault ref _ _ => .setDefault ref
  | .coalesce nm _ => .coalesce (chars nm)
  | .release ref _ _ => .release ref
  | .quiet _ => .quiet
  | .memset _ => .other

/-- The times that can be recorded. -/
def TimeOk (t : Int) : Prop := -2 ^ 63 ≤ t ∧ t < 2 ^ 63

/-- An address of an object. -/
def RefOk (r : Nat) : Prop := r ≠ 0 ∧ r < 2 ^ 64

/-- Creations that survive a replay with the options (C67). -/
def What.Ok (o : Opts) : What → Prop
  | .resource n => Fits n ∧ Bytes n
  | .made m => m.strat.Wf ∧ Faithful o m ∧ Bytes m.name

/-- Notes whose values have the types of C++. -/
def Note.Ok (o : Opts) : Note → Prop
  | .make ref w _ t => RefOk ref ∧ w.Ok o ∧ TimeOk t
  | .alloc ref ptr size t => RefOk ref ∧ ptr < 2 ^ 64 ∧ size < 2 ^ 64 ∧ TimeOk t
  | .dealloc ref ptr t => RefOk ref ∧ ptr < 2 ^ 64 ∧ TimeOk t
  | .realloc1 ref cur size _ _ t => RefOk ref ∧ cur < 2 ^ 64 ∧ size < 2 ^ 64 ∧ TimeOk t
  | .realloc2 ref new _ t => RefOk ref ∧ new < 2 ^ 64 ∧ TimeOk t
  | .setDefault ref _ t => RefOk ref ∧ TimeOk t
  | .coalesce nm t => Bytes nm ∧ TimeOk t
  | .release ref _ t => RefOk ref ∧ TimeOk t
  | .quiet e => Rec.Wf (.event e) ∧
      ((e.cat ≠ .operation ∧ e.name ≠ b!"version") ∨
        (e.cat = .operation ∧ (e.name = b!"copy" ∨ e.name = b!"move" ∨ e.name = b!"register_external_allocation" ∨
          e.name = b!"deregister_external_allocation")))
  | .memset e => Rec.Wf (.event e) ∧ e.cat = .operation ∧ e.name = b!"memset"

/-- What was created, in order. -/
def created : List Note → List What
  | [] => []
  | .make _ w _ _ :: l => w :: created l
  | _ :: l => created l

/-- Replay makes what was created. -/
def Right (o : Opts) : What → Did → Prop
  | .resource n, d => d = .got n
  | .made m, d => ∃ m', d = .made m' ∧ Same o m m'

/-! ## Reading back exactly -/

/-- The event that is read for a record. -/
def readBack : Rec → Event
  | .event e => e
  | .allocate size ref ptr t =>
    { name := b!"allocate", cat := .operation, strs := [(b!"allocator_ref", ptrText ref), (b!"pointer", ptrText ptr)],
      nums := [(b!"size", size)], tags := Events.replayTags, time := t }
  | .namedAllocate size ref ptr name t =>
    { name := b!"named_allocate", cat := .operation,
      strs := [(b!"allocation_name", name), (b!"allocator_ref", ptrText ref), (b!"pointer", ptrText ptr)],
      nums := [(b!"size", size)], tags := Events.replayTags, time := t }
  | .deallocate ref ptr t =>
    { name := b!"deallocate", cat := .operation, strs := [(b!"allocator_ref", ptrText ref), (b!"pointer", ptrText ptr)],
      nums := [], tags := Events.replayTags, time := t }

theorem insert_reads {can : Bool} {st st' : Events.Store} {r : Rec} (h : Events.insert can st r = .ok st') (hw : r.Wf) (hp : r.PlainName) :
    ∃ l, st'.text = st.text ++ (l ++ [10]) ∧ Events.Clean l ∧ Events.readLine l = some (readBack r) ∧ 72 ≤ l.length := by
  cases r with
  | event e =>
    unfold Events.insert at h
    simp only at h
    split at h
    · cases hd : Events.dumpEvent e with
      | none => rw [hd] at h; cases h
      | some t =>
        rw [hd] at h
        simp only [Events.Out.ok.injEq] at h
        subst h
        obtain ⟨w1, w2, w3, w4, w5, w6⟩ := hw
        obtain ⟨hc, hr⟩ := Events.event_read hd w1 w2 w3 w4 w5 w6
        refine ⟨t, List.append_assoc .., hc, hr, ?_⟩
        unfold Events.dumpEvent at hd
        simp only [Option.bind_eq_bind, Option.bind_eq_some_iff, Option.pure_def, Option.some.injEq] at hd
        obtain ⟨ct, hct, nt, hnt, xs, hxs, ss, hss, ts, hts, rfl⟩ := hd
        simp only [List.length_append, List.length_cons, List.length_nil]
        omega
    · cases h
  | allocate size ref ptr time =>
    unfold Events.insert at h
    simp only at h
    split at h
    · simp only [Events.Out.ok.injEq] at h
      subst h
      obtain ⟨w1, w2, w3, w4, w5⟩ := hw
      obtain ⟨hc, hr⟩ := Events.allocate_read (ref := ref) (ptr := ptr) w1 w4 w5
      refine ⟨_, List.append_assoc .., hc, hr, ?_⟩
      unfold Events.allocateLine
      simp only [List.length_append, List.length_cons, List.length_nil]
      omega
    · cases h
  | namedAllocate size ref ptr name time =>
    unfold Events.insert at h
    simp only at h
    split at h
    · simp only [Events.Out.ok.injEq] at h
      subst h
      obtain ⟨w1, w2, w3, w4, w5⟩ := hw
      obtain ⟨hc, hr⟩ := Events.namedAllocate_read (ref := ref) (ptr := ptr) w1 w4 w5 hp.1 hp.2
      refine ⟨_, List.append_assoc .., hc, hr, ?_⟩
      unfold Events.namedAllocateLine
      simp only [List.length_append, List.length_cons, List.length_nil]
      omega
    · cases h
  | deallocate ref ptr time =>
    unfold Events.insert at h
    simp only at h
    split at h
    · simp only [Events.Out.ok.injEq] at h
      subst h
      obtain ⟨w2, w3, w4, w5⟩ := hw
      obtain ⟨hc, hr⟩ := Events.deallocate_read (ref := ref) (ptr := ptr) w4 w5
      refine ⟨_, List.append_assoc .., hc, hr, ?_⟩
      unfold Events.deallocateLine
      simp only [List.length_append, List.length_cons, List.length_nil]
      omega
    · cases h

theorem logged_lines {st : Events.Store} {rs : List Rec} (h : Events.Logged st rs) : (∀ r ∈ rs, r.Wf ∧ r.PlainName) →
    ∃ ls, st.text = ls.flatMap (· ++ [10]) ∧ (∀ l ∈ ls, Events.Clean l) ∧ Events.readLines ls = some (rs.map readBack) ∧
      ∀ l ∈ ls, 72 ≤ l.length := by
  induction h with
  | new => exact fun _ => ⟨[], rfl, by simp, rfl, by simp⟩
  | @ok st st' rs r can _ hi ih =>
    intro hw
    obtain ⟨ls, h1, h2, h3, h4⟩ := ih fun r hr => hw r (List.mem_append_left _ hr)
    obtain ⟨w1, w2⟩ := hw r (by simp)
    obtain ⟨l, g1, g2, g3, g4⟩ := insert_reads hi w1 w2
    refine ⟨ls ++ [l], ?_, ?_, ?_, ?_⟩
    · rw [g1, h1, List.flatMap_append]; simp
    · intro x hx
      rcases List.mem_append.1 hx with hx | hx
      · exact h2 x hx
      · rw [List.mem_singleton.1 hx]; exact g2
    · rw [List.map_append]; exact Events.readLines_append h3 g3
    · intro x hx
      rcases List.mem_append.1 hx with hx | hx
      · exact h4 x hx
      · rw [List.mem_singleton.1 hx]; exact g4
  | throws can _ hi ih =>
    intro hw
    obtain ⟨ls, h1, h2⟩ := ih hw
    exact ⟨ls, by rw [Events.insert_throws_text hi, h1], h2⟩

/-- Reading gives the records exactly; every record takes at least 72 bytes. -/
theorem log_reads {st : Events.Store} {rs : List Rec} (h : Events.Logged st rs) (hw : ∀ r ∈ rs, r.Wf ∧ r.PlainName) :
    getEvents st.text = some (rs.map readBack) ∧ 72 * rs.length ≤ st.text.length := by
  obtain ⟨ls, h1, h2, h3, h4⟩ := logged_lines h hw
  constructor
  · unfold getEvents
    rw [h1, Events.lines_all h2, h3]
  · have hl : ls.length = rs.length := by
      have : ∀ (ls : List Str) (es : List Event), Events.readLines ls = some es → ls.length = es.length := by
        intro ls
        induction ls with
        | nil => intro es h; injection h with h; rw [← h]; rfl
        | cons a ls ih =>
          intro es h
          unfold Events.readLines at h
          simp only [Option.bind_eq_bind, Option.bind_eq_some_iff, Option.pure_def, Option.some.injEq] at h
          obtain ⟨x, _, xs, hxs, rfl⟩ := h
          rw [List.length_cons, List.length_cons, ih xs hxs]
      simpa using this _ _ h3
    rw [← hl, h1]
    clear h1 h2 h3 hl
    induction ls with
    | nil => simp
    | cons l ls ih =>
      have := h4 l (by simp)
      have := ih fun l hl => h4 l (by simp [hl])
      simp only [List.flatMap_cons, List.length_append, List.length_cons, List.length_nil] at this ⊢
      omega

/-! ## Simulation -/

/-- The two interpreters agree; `L` are the allocations in the table. -/
structure Sim (t : T) (c : C) (L : List ((Nat × Nat) × Nat)) : Prop where
  ops : c.ops = t.ops
  slot : c.slot = t.slot
  refs : c.refs = t.refs
  line : c.line = t.line
  flag : c.flag = t.flag
  nAlloc : c.nAlloc = t.entries.length
  tids : t.ids = L.map fun x => (textKey x.1, x.2)
  cids : c.ids = L.map fun x => (Replay.key x.1.1 x.1.2, x.2)
  okL : ∀ x ∈ L, RefOk x.1.1 ∧ x.1.2 < 2 ^ 64
  names : c.names = t.names.map fun x => (chars x.1, x.2)
  bytes : ∀ x ∈ t.names, Bytes x.1

theorem sim_init : Sim .init .init [] where
  ops := rfl
  slot := rfl
  refs := rfl
  line := rfl
  flag := rfl
  nAlloc := rfl
  tids := rfl
  cids := rfl
  okL := by simp
  names := rfl
  bytes := by simp [T.init]

/-- The key on numbers. -/
def numKey (x : Nat × Nat) : List Char := Replay.key x.1 x.2

theorem Sim.tfind {t : T} {c : C} {L : List ((Nat × Nat) × Nat)} (h : Sim t c L) {r p : Nat} (hr : RefOk r) (hp : p < 2 ^ 64) :
    Replay.find (textKey (r, p)) t.ids = Replay.find (Replay.key r p) c.ids ∧
    Replay.erase (textKey (r, p)) t.ids = (Replay.erase (r, p) L).map (fun x => (textKey x.1, x.2)) ∧
    Replay.erase (Replay.key r p) c.ids = (Replay.erase (r, p) L).map (fun x => (Replay.key x.1.1 x.1.2, x.2)) := by
  have h1 : ∀ x ∈ L, textKey x.1 = textKey (r, p) → x.1 = (r, p) := by
    intro x hx he
    obtain ⟨g1, g2⟩ := h.okL x hx
    exact textKey_inj g1.1 hr.1 g1.2 hr.2 g2 hp he
  have h2 : ∀ x ∈ L, numKey x.1 = numKey (r, p) → x.1 = (r, p) := by
    intro x hx he
    obtain ⟨e1, e2⟩ := Replay.key_inj he
    exact Prod.ext e1 e2
  refine ⟨?_, ?_, ?_⟩
  · rw [h.tids, find_map textKey h1]
    rw [h.cids]
    exact (find_map numKey h2).symm
  · rw [h.tids]; exact erase_map textKey h1
  · rw [h.cids]; exact erase_map numKey h2

theorem Sim.nfind {t : T} {c : C} {L : List ((Nat × Nat) × Nat)} (h : Sim t c L) {n : Str} (hn : Bytes n) :
    Replay.find (chars n) c.names = Replay.find n t.names := by
  rw [h.names]
  exact find_map chars fun x hx he => chars_inj (h.bytes x hx) hn he

theorem erase_sub {α β : Type} [DecidableEq α] {k : α} {l : List (α × β)} {x : α × β} (h : x ∈ Replay.erase k l) : x ∈ l :=
  (List.mem_filter.1 h).1

theorem Sim.next {t : T} {c : C} {L : List ((Nat × Nat) × Nat)} (h : Sim t c L) :
    Sim { t with line := t.line + 1 } { c with line := c.line + 1 } L :=
  { h with line := by show c.line + 1 = t.line + 1; rw [h.line] }

theorem Sim.index {t : T} {c : C} {L : List ((Nat × Nat) × Nat)} (h : Sim t c L) {r : Nat} {s : Str} (hs : Trace.stoul s = some r) :
    t.index s = Replay.find r c.refs := by
  unfold T.index
  rw [hs, h.refs]
  rfl

/-- A new operation, nothing else. -/
theorem Sim.push {t : T} {c : C} {L : List ((Nat × Nat) × Nat)} (h : Sim t c L) (o : Op) : Sim (t.push o) (c.push o) L :=
  { h with
    ops := by show c.ops ++ [o] = t.ops ++ [o]; rw [h.ops]
    slot := rfl }

/-- A new operation and a new allocation. -/
theorem Sim.enter {t : T} {c : C} {L : List ((Nat × Nat) × Nat)} (h : Sim t c L) {r p : Nat} (hr : RefOk r) (hp : p < 2 ^ 64) (i : Nat) :
    Sim { t with ids := (textKey (r, p), i) :: t.ids } { c with ids := (Replay.key r p, i) :: c.ids } (((r, p), i) :: L) :=
  { h with
    tids := by rw [List.map_cons, h.tids]
    cids := by rw [List.map_cons, h.cids]
    okL := by
      intro x hx
      rcases List.mem_cons.1 hx with rfl | hx
      · exact ⟨hr, hp⟩
      · exact h.okL x hx }

/-- An allocation goes. -/
theorem Sim.leave {t : T} {c : C} {L : List ((Nat × Nat) × Nat)} (h : Sim t c L) {r p : Nat} (hr : RefOk r) (hp : p < 2 ^ 64) :
    Sim { t with ids := Replay.erase (textKey (r, p)) t.ids } { c with ids := Replay.erase (Replay.key r p) c.ids } (Replay.erase (r, p) L) :=
  { h with
    tids := (h.tfind hr hp).2.1
    cids := (h.tfind hr hp).2.2
    okL := fun x hx => h.okL x (erase_sub hx) }

theorem sim_alloc {t : T} {c c' : C} {L : List ((Nat × Nat) × Nat)} (h : Sim t c L) {e : Event} {r p n : Nat} (hr : RefOk r) (hp : p < 2 ^ 64)
    (h1 : strArg e b!"allocator_ref" = ptrText r) (h2 : strArg e b!"pointer" = ptrText p) (h3 : numArg e b!"size" = n)
    (hc : Replay.compileAllocate c r p n = some c') : ∃ t' L', t.allocate e = some t' ∧ Sim t' c' L' ∧ t'.major = t.major ∧ t'.entries = t.entries := by
  unfold Replay.compileAllocate at hc
  unfold T.allocate
  rw [h.flag] at hc
  have hk : keyOf e b!"pointer" = textKey (r, p) := by unfold keyOf textKey; rw [h1, h2]
  by_cases hf : t.flag = true
  · rw [if_pos hf] at hc ⊢
    obtain rfl := Option.some.inj hc
    exact ⟨t, L, rfl, h, rfl, rfl⟩
  · rw [if_neg hf] at hc ⊢
    rw [hk, h1, h3, h.index (stoul_ptr hr.1 hr.2), (h.tfind hr hp).1]
    cases hi : Replay.find r c.refs with
    | none => rw [hi] at hc; simp at hc
    | some a =>
      rw [hi] at hc
      simp only at hc
      cases hj : Replay.find (Replay.key r p) c.ids with
      | some j => rw [hj] at hc; simp at hc
      | none =>
        rw [hj] at hc
        obtain rfl := Option.some.inj hc
        refine ⟨_, ((r, p), Replay.viaInt t.ops.length) :: L, rfl, ?_, rfl, rfl⟩
        have hp' := (h.push { Op.zero with kind := .allocate, line := t.line, alloc := a, size := n }).enter hr hp (Replay.viaInt t.ops.length)
        rw [h.line, h.ops]
        exact hp'

theorem sim_dealloc {t : T} {c c' : C} {L : List ((Nat × Nat) × Nat)} (h : Sim t c L) {e : Event} {r p : Nat} (hr : RefOk r) (hp : p < 2 ^ 64)
    (h1 : strArg e b!"allocator_ref" = ptrText r) (h2 : strArg e b!"pointer" = ptrText p)
    (hc : Replay.compileDeallocate c r p = some c') : ∃ t' L', t.deallocate e = some t' ∧ Sim t' c' L' ∧ t'.major = t.major ∧ t'.entries = t.entries := by
  unfold Replay.compileDeallocate at hc
  unfold T.deallocate
  rw [h.flag] at hc
  have hk : keyOf e b!"pointer" = textKey (r, p) := by unfold keyOf textKey; rw [h1, h2]
  by_cases hf : t.flag = true
  · rw [if_pos hf] at hc ⊢
    obtain rfl := Option.some.inj hc
    exact ⟨t, L, rfl, h, rfl, rfl⟩
  · rw [if_neg hf] at hc ⊢
    rw [hk, h1, h.index (stoul_ptr hr.1 hr.2), (h.tfind hr hp).1]
    cases hi : Replay.find r c.refs with
    | none => rw [hi] at hc; cases hj : Replay.find (Replay.key r p) c.ids <;> rw [hj] at hc <;> simp at hc
    | some a =>
      rw [hi] at hc
      cases hj : Replay.find (Replay.key r p) c.ids with
      | none =>
        rw [hj] at hc
        obtain rfl := Option.some.inj hc
        exact ⟨t, L, rfl, h, rfl, rfl⟩
      | some j =>
        rw [hj] at hc
        obtain rfl := Option.some.inj hc
        refine ⟨_, Replay.erase (r, p) L, rfl, ?_, rfl, rfl⟩
        rw [h.line]
        exact (h.push { Op.zero with kind := .deallocate, line := t.line, alloc := a, src0 := j }).leave hr hp

theorem sim_realloc1 {t : T} {c c' : C} {L : List ((Nat × Nat) × Nat)} (h : Sim t c L) {e : Event} {r p n : Nat} (hr : RefOk r) (hp : p < 2 ^ 64)
    (h1 : strArg e b!"allocator_ref" = osPtr r) (h2 : strArg e b!"current_ptr" = osPtr p) (h3 : numArg e b!"size" = n)
    (hc : Replay.compileRealloc1 c r p n = some c') : ∃ t' L', t.realloc1 e = some t' ∧ Sim t' c' L' ∧ t'.major = t.major ∧ t'.entries = t.entries := by
  unfold Replay.compileRealloc1 at hc
  unfold T.realloc1
  rw [h2, stoul_os hp, h1, h3]
  simp only at hc ⊢
  rw [h.index (stoul_os hr.2)]
  by_cases h0 : p = 0
  · rw [if_pos h0] at hc ⊢
    cases hi : Replay.find r c.refs with
    | none => rw [hi] at hc; simp at hc
    | some a =>
      rw [hi] at hc
      simp only [if_pos h0] at hc ⊢
      obtain rfl := Option.some.inj hc
      exact ⟨_, L, rfl, { h with flag := rfl, slot := by simp only; rw [h.line] }, rfl, rfl⟩
  · have hk : keyOf e b!"current_ptr" = textKey (r, p) := by unfold keyOf textKey; rw [h1, h2, os_ptr hr.1, os_ptr h0]
    rw [if_neg h0] at hc ⊢
    rw [hk, (h.tfind hr hp).1]
    cases hj : Replay.find (Replay.key r p) c.ids with
    | none => rw [hj] at hc; simp at hc
    | some j =>
      rw [hj] at hc
      cases hi : Replay.find r c.refs with
      | none => rw [hi] at hc; simp at hc
      | some a =>
        rw [hi] at hc
        simp only [if_neg h0] at hc ⊢
        obtain rfl := Option.some.inj hc
        exact ⟨_, _, rfl, { h.leave hr hp with flag := rfl, slot := by simp only; rw [h.line] }, rfl, rfl⟩

theorem sim_realloc2 {t : T} {c c' : C} {L : List ((Nat × Nat) × Nat)} (h : Sim t c L) {e : Event} {r p : Nat} (hr : RefOk r) (hp : p < 2 ^ 64)
    (h0 : p ≠ 0) (h1 : strArg e b!"allocator_ref" = osPtr r) (h2 : strArg e b!"new_ptr" = osPtr p)
    (hc : Replay.compileRealloc2 c r p = some c') : ∃ t' L', t.realloc2 e = some t' ∧ Sim t' c' L' ∧ t'.major = t.major ∧ t'.entries = t.entries := by
  unfold Replay.compileRealloc2 at hc
  unfold T.realloc2
  have hk : keyOf e b!"new_ptr" = textKey (r, p) := by unfold keyOf textKey; rw [h1, h2, os_ptr hr.1, os_ptr h0]
  rw [hk, (h.tfind hr hp).1]
  cases hj : Replay.find (Replay.key r p) c.ids with
  | some j => rw [hj] at hc; simp at hc
  | none =>
    rw [hj] at hc
    obtain rfl := Option.some.inj hc
    refine ⟨_, ((r, p), Replay.viaInt t.ops.length) :: L, rfl, ?_, rfl, rfl⟩
    rw [h.slot, h.ops]
    exact { (h.push t.slot).enter hr hp (Replay.viaInt t.ops.length) with flag := rfl }

theorem sim_on {t : T} {c c' : C} {L : List ((Nat × Nat) × Nat)} (h : Sim t c L) {k : Replay.Kind} {e : Event} {r : Nat} (hr : RefOk r)
    (h1 : strArg e b!"allocator_ref" = osPtr r)
    (hc : Replay.compileOn k c r = some c') : ∃ t' L', t.on k e = some t' ∧ Sim t' c' L' ∧ t'.major = t.major ∧ t'.entries = t.entries := by
  unfold Replay.compileOn at hc
  unfold T.on
  rw [h1, h.index (stoul_os hr.2)]
  cases hi : Replay.find r c.refs with
  | none => rw [hi] at hc; simp at hc
  | some a =>
    rw [hi] at hc
    obtain rfl := Option.some.inj hc
    refine ⟨_, L, rfl, ?_, rfl, rfl⟩
    rw [h.line]
    exact h.push _

theorem sim_coalesce {t : T} {c c' : C} {L : List ((Nat × Nat) × Nat)} (h : Sim t c L) {e : Event} {nm : Str} (hb : Bytes nm)
    (h1 : get b!"allocator_name" e.tags = some nm)
    (hc : Replay.compileCoalesce c (chars nm) = some c') : ∃ t' L', t.coalesce e = some t' ∧ Sim t' c' L' ∧ t'.major = t.major ∧ t'.entries = t.entries := by
  unfold Replay.compileCoalesce at hc
  unfold T.coalesce
  rw [h1]
  simp only [Option.getD_some] at hc ⊢
  rw [← strip_chars hb, h.nfind (strip_bytes hb)] at hc
  obtain rfl := Option.some.inj hc
  refine ⟨_, L, rfl, ?_, rfl, rfl⟩
  rw [h.line]
  have hp := h.push { Op.zero with kind := .coalesce, line := t.line, alloc := (Replay.find (stripBase nm) t.names).getD 0 }
  cases hj : Replay.find (stripBase nm) t.names with
  | some j => rw [hj] at hp; exact hp
  | none =>
    rw [hj] at hp
    exact { hp with
      names := by
        show (chars (stripBase nm), 0) :: c.names = _
        rw [List.map_cons, h.names]
      bytes := by
        intro x hx
        rcases List.mem_cons.1 hx with rfl | hx
        · exact strip_bytes hb
        · exact h.bytes x hx }

theorem sim_make {t : T} {c c' : C} {L : List ((Nat × Nat) × Nat)} (h : Sim t c L) {e : Event} {x : Entry} {r : Nat} {nm : Str} (hr : RefOk r)
    (hb : Bytes nm) (h1 : strArg e b!"allocator_ref" = osPtr r) (h2 : get b!"allocator_name" e.tags = some nm)
    (hc : Replay.compileMake c r (chars nm) = some c') :
    ∃ t' L', t.make e x = some t' ∧ Sim t' c' L' ∧ t'.major = t.major ∧ t'.entries = t.entries ++ [x] := by
  unfold Replay.compileMake at hc
  unfold T.make
  rw [h1, h2, stoul_os hr.2, ← h.nAlloc]
  by_cases hl : c.nAlloc + 1 ≥ Replay.maxAllocators
  · rw [if_pos hl] at hc; simp at hc
  · rw [if_neg hl] at hc
    simp only [if_neg hl]
    obtain rfl := Option.some.inj hc
    refine ⟨_, L, rfl, ?_, rfl, rfl⟩
    rw [h.line]
    exact { h.push { Op.zero with kind := .creation, line := t.line, alloc := c.nAlloc } with
      refs := by show (r, c.nAlloc) :: c.refs = (r, c.nAlloc) :: t.refs; rw [h.refs]
      names := by
        show (chars nm, c.nAlloc) :: c.names = List.map _ ((nm, c.nAlloc) :: t.names)
        rw [List.map_cons, h.names]
      bytes := by
        intro y hy
        rcases List.mem_cons.1 hy with rfl | hy
        · exact hb
        · exact h.bytes y hy
      nAlloc := by show c.nAlloc + 1 = (t.entries ++ [x]).length; rw [h.nAlloc, List.length_append]; rfl }

theorem makeEvent_fields (ref : Nat) (m : Made) (tm : Int) :
    (makeEvent ref m tm).name = b!"make_allocator" ∧ (makeEvent ref m tm).cat = .operation ∧
    get b!"allocator_name" (makeEvent ref m tm).tags = some m.name := by
  have hn := Rebuild.putArgs_name (.str m.base :: m.strat.args) 0
    { name := b!"make_allocator", cat := .operation,
      strs := Events.set b!"type" (Rebuild.mangled m.strat.cls) (Events.set b!"allocator_ref" (osPtr ref) []),
      nums := [(b!"introspection", if m.tracked then 1 else 0)],
      tags := Events.set b!"replay" b!"true" (Events.set b!"allocator_name" m.name []), time := tm }
  refine ⟨hn.1, hn.2.1, ?_⟩
  unfold makeEvent
  rw [hn.2.2.1]
  rfl

theorem get_set_ne {α : Type} {k k' : Str} {v : α} {m : List (Str × α)} (h : k ≠ k') : get k (Events.set k' v m) = get k m := by
  induction m with
  | nil => simp [Events.set, Events.get, h.symm, h]
  | cons x m ih =>
    obtain ⟨k'', v''⟩ := x
    unfold Events.set
    split
    · simp [Events.get, h, h.symm]
    · split
      · unfold Events.get
        split
        · rfl
        · exact ih
      · rename_i g1 g2
        have : k' = k'' := Rebuild.strLt_eq _ _ (by simpa using g1) (by simpa using g2)
        subst this
        simp [Events.get, h, h.symm]

theorem putArgs_get {k : Str} (hk : ∀ i, Rebuild.argKey i ≠ k) (l : List Rebuild.Arg) : ∀ (i : Nat) (e : Event),
    get k (Rebuild.putArgs i l e).strs = get k e.strs := by
  induction l with
  | nil => intro i e; rfl
  | cons a l ih =>
    intro i e
    cases a with
    | str s =>
      show get k (Rebuild.putArgs (i + 1) l { e with strs := Events.set (Rebuild.argKey i) s e.strs }).strs = _
      rw [ih]
      exact get_set_ne (hk i).symm
    | num n => exact ih _ _

theorem makeEvent_ref (ref : Nat) (m : Made) (tm : Int) : strArg (makeEvent ref m tm) b!"allocator_ref" = osPtr ref := by
  unfold strArg makeEvent
  rw [putArgs_get (k := b!"allocator_ref") (fun i h => by simp [Rebuild.argKey] at h)]
  rfl

/-- One note. -/
theorem step_sim {o : Opts} {t : T} {c c' : C} {L : List ((Nat × Nat) × Nat)} {v : Nat} (h : Sim t c L) (hm : t.major = some v) (hv : 2 ≤ v)
    {n : Note} (hn : n.Ok o) (hnz : ∀ r p, n.ev = .realloc2 r p → p ≠ 0) (hc : Replay.compileEv c n.ev = some c') :
    ∃ t' L', step false t (readBack n.record) = some t' ∧ Sim t' c' L' ∧ t'.major = some v ∧
      ∃ xs, t'.entries = t.entries ++ xs ∧ xs.length = (created [n]).length ∧
        ∀ x ∈ xs, ∀ w ∈ created [n], Right o w (Rebuild.make o x) := by
  have hx := h.next
  have fin : ∀ (c' : C) (f : Option T), created [n] = [] → step false t (readBack n.record) = f →
      (∃ t' L', f = some t' ∧ Sim t' c' L' ∧ t'.major = t.major ∧ t'.entries = t.entries) →
      ∃ t' L', step false t (readBack n.record) = some t' ∧ Sim t' c' L' ∧ t'.major = some v ∧
        ∃ xs, t'.entries = t.entries ++ xs ∧ xs.length = (created [n]).length ∧
          ∀ x ∈ xs, ∀ w ∈ created [n], Right o w (Rebuild.make o x) := by
    rintro c' f hcr hf ⟨t', L', h1, h2, h3, h4⟩
    exact ⟨t', L', by rw [hf, h1], h2, by rw [h3, hm], [], by simp [h4], by rw [hcr]; rfl, by simp⟩
  cases n with
  | make ref w tr tm =>
    obtain ⟨hr, hw, _⟩ := hn
    have hce : created [Note.make ref w tr tm] = [w] := rfl
    rw [hce]
    cases w with
    | resource nm =>
      obtain ⟨hf, hb⟩ := hw
      obtain ⟨t', L', h1, h2, h3, h4⟩ := sim_make (e := resourceEvent ref nm tr tm) (x := ⟨.resource, true, nm, [], 0, {}⟩) hx hr hb rfl rfl hc
      have hcr : compileResource (resourceEvent ref nm tr tm) = some ⟨.resource, true, nm, [], 0, {}⟩ := by
        have : compileResource (resourceEvent ref nm tr tm) = (Rebuild.copyString nm).bind fun n => some ⟨.resource, true, n, [], 0, {}⟩ := rfl
        rw [this, Rebuild.copy_fits hf]
        rfl
      refine ⟨t', L', ?_, h2, by rw [h3]; exact hm, [_], h4, rfl, ?_⟩
      · rw [← h1]
        show (match compileResource (resourceEvent ref nm tr tm) with | none => none | some x => _) = _
        rw [hcr]
        rfl
      · simp only [List.mem_singleton, forall_eq]
        show Rebuild.make o _ = _
        unfold Rebuild.make
        rw [Rebuild.type_same (by simp) (by simp)]
    | made m =>
      obtain ⟨hwf, hf, hb⟩ := hw
      obtain ⟨m', hre, hs⟩ := (Rebuild.rebuild_iff_partial o v ref m tm hv hwf).2 hf
      obtain ⟨g1, g2, g3⟩ := makeEvent_fields ref m tm
      unfold Rebuild.rebuild at hre
      split at hre
      · rename_i x hxx
        obtain ⟨t', L', h1, h2, h3, h4⟩ := sim_make (e := makeEvent ref m tm) (x := x) hx hr hb (makeEvent_ref ref m tm) g3 hc
        refine ⟨t', L', ?_, h2, by rw [h3]; exact hm, [x], h4, rfl, ?_⟩
        · show step false t (makeEvent ref m tm) = _
          rw [← h1]
          unfold step
          simp only [g1, g2, hm, hxx]
          rfl
        · simp only [List.mem_singleton, forall_eq]
          exact ⟨m', hre, hs⟩
      · simp at hre
  | alloc ref ptr size tm =>
    obtain ⟨hr, hp, _, _⟩ := hn
    exact fin _ _ rfl rfl (sim_alloc hx hr hp rfl rfl rfl hc)
  | dealloc ref ptr tm =>
    obtain ⟨hr, hp, _⟩ := hn
    exact fin _ _ rfl rfl (sim_dealloc hx hr hp rfl rfl hc)
  | realloc1 ref cur size nm async tm =>
    obtain ⟨hr, hp, _, _⟩ := hn
    exact fin _ _ rfl rfl (sim_realloc1 hx hr hp rfl rfl rfl hc)
  | realloc2 ref new nm tm =>
    obtain ⟨hr, hp, _⟩ := hn
    exact fin _ _ rfl rfl (sim_realloc2 hx hr hp (hnz ref new rfl) rfl rfl hc)
  | setDefault ref nm tm =>
    exact fin _ _ rfl rfl (sim_on hx hn.1 rfl hc)
  | coalesce nm tm =>
    exact fin _ _ rfl rfl (sim_coalesce hx hn.1 rfl hc)
  | release ref nm tm =>
    exact fin _ _ rfl rfl (sim_on hx hn.1 rfl hc)
  | quiet e =>
    obtain rfl := Option.some.inj hc
    refine fin _ (some { t with line := t.line + 1 }) rfl ?_ ⟨_, L, rfl, hx, rfl, rfl⟩
    show step false t e = _
    unfold step
    rcases hn.2 with ⟨h1, h2⟩ | ⟨h1, h2⟩
    · simp only [h2, and_false, if_false, h1, not_false_eq_true, ne_eq, if_true]
    · simp only [h1, ne_eq, not_true, false_and, if_false]
      rcases h2 with h2 | h2 | h2 | h2 <;> simp [h2, counted]
  | memset e => simp [Note.ev, Replay.compileEv] at hc

end Umpire.Trace
