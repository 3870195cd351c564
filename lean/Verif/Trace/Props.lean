import Verif.Trace.Sim
/-!
# C68: running the tool on the log of a program makes the calls of the program
-/
set_option autoImplicit false
set_option linter.unusedSimpArgs false
namespace Umpire.Trace
open Umpire.Events (Event Str get Rec getEvents ptrText Logged)
open Umpire.Replay (Op Call Ev C Act P Done program perform)
open Umpire.Rebuild (Entry Opts Did Made Fits Faithful Same strArg numArg toInt makeEvent resourceEvent osPtr compileResource)

/-! ## Specification -/

/-- The event recorded when the library starts (ResourceManager.cpp:101-108). -/
def versionEvent (major minor patch : Nat) (rc : Str) (t : Int) : Event :=
  { name := b!"version", cat := .metadata, strs := [(b!"rc", rc)],
    nums := [(b!"major", major), (b!"minor", minor), (b!"patch", patch)], tags := [], time := t }

/-- `s` is the log of a program that did `xs`: the version of the library first, then the notes, which are
about the events of the program. -/
structure LogOf (o : Opts) (xs : List Act) (d : Done) (notes : List Note) (log : Str) : Prop where
  ran : program .init xs = some d
  about : notes.map Note.ev = d.evs
  ok : ∀ n ∈ notes, n.Ok o
  text : ∃ st major minor patch rc t, st.text = log ∧ 2 ≤ major ∧ major < 2 ^ 31 ∧ minor < 2 ^ 31 ∧ patch < 2 ^ 31 ∧ TimeOk t ∧
    Logged st (.event (versionEvent major minor patch rc t) :: notes.map Note.record)

/-- What the program did, with the pointers the replay got; creations are what the replay has to make. -/
def Matches (o : Opts) (ret : Nat → Nat) (ws : List What) : Call → Do → Prop
  | .create a, x => ∃ w d, ws[a]? = some w ∧ x = .create (some d) ∧ Right o w d
  | c, x => x = .call (c.withPtrs ret)

/-- Two lists agree, element for element. -/
inductive All₂ {α β : Type} (R : α → β → Prop) : List α → List β → Prop
  | nil : All₂ R [] []
  | cons {a : α} {b : β} {l : List α} {m : List β} : R a b → All₂ R l m → All₂ R (a :: l) (b :: m)

/-! ## Proofs -/

theorem created_append (l m : List Note) : created (l ++ m) = created l ++ created m := by
  induction l with
  | nil => rfl
  | cons n l ih => cases n <;> simp [created, ih]

theorem created_cons (n : Note) (l : List Note) : created (n :: l) = created [n] ++ created l := created_append [n] l

theorem created_short (n : Note) : (created [n]).length ≤ 1 := by cases n <;> simp [created]

theorem steps_sim {o : Opts} {v : Nat} (hv : 2 ≤ v) (notes : List Note) : ∀ {t : T} {c c' : C} {L : List ((Nat × Nat) × Nat)}, Sim t c L → t.major = some v →
    (∀ n ∈ notes, n.Ok o) → (∀ n ∈ notes, ∀ r p, n.ev = .realloc2 r p → p ≠ 0) → Replay.compileAll c (notes.map Note.ev) = some c' →
    ∃ t' L', ∃ xs : List Entry, interpret false t (notes.map fun n => readBack n.record) = (true, t') ∧ Sim t' c' L' ∧
      t'.entries = t.entries ++ xs ∧ xs.length = (created notes).length ∧
      ∀ (i : Nat) w, (created notes)[i]? = some w → ∃ x, xs[i]? = some x ∧ Right o w (Rebuild.make o x) := by
  induction notes with
  | nil =>
    intro t c c' L h hm _ _ hc
    obtain rfl := Option.some.inj hc
    exact ⟨t, L, [], rfl, h, by simp, rfl, by simp [created]⟩
  | cons n notes ih =>
    intro t c c' L h hm hok hnz hc
    simp only [List.map_cons, Replay.compileAll] at hc
    cases hc1 : Replay.compileEv c n.ev with
    | none => rw [hc1] at hc; simp at hc
    | some c1 =>
      rw [hc1] at hc
      obtain ⟨t1, L1, s1, s2, s3, xs, e1, e2, e3⟩ := step_sim h hm hv (hok n (by simp)) (hnz n (by simp)) hc1
      obtain ⟨t2, L2, ys, r1, r2, r3, r4, r5⟩ := ih s2 s3 (fun m hm => hok m (by simp [hm])) (fun m hm => hnz m (by simp [hm])) hc
      refine ⟨t2, L2, xs ++ ys, ?_, r2, by rw [r3, e1, List.append_assoc], ?_, ?_⟩
      · simp only [List.map_cons, interpret, s1]; exact r1
      · rw [created_cons, List.length_append, List.length_append, e2, r4]
      · intro i w hw
        rw [created_cons] at hw
        by_cases hi : i < xs.length
        · rw [List.getElem?_append_left (by omega)] at hw
          refine ⟨xs[i], by rw [List.getElem?_append_left hi, List.getElem?_eq_getElem hi], ?_⟩
          exact e3 _ (List.getElem_mem hi) _ (List.mem_of_getElem? hw)
        · rw [List.getElem?_append_right (by omega), ← e2] at hw
          obtain ⟨x, g1, g2⟩ := r5 _ _ hw
          exact ⟨x, by rw [List.getElem?_append_right (by omega)]; exact g1, g2⟩

theorem inner_no2 {inner : List Ev} (h : inner.all Replay.innerOk = true) {r p : Nat} : Ev.realloc2 r p ∉ inner := by
  intro hm
  have := List.all_eq_true.1 h _ hm
  simp [Replay.innerOk] at this

/-- A `reallocate` that returns does not return null. -/
theorem perform_nz {s : P} {x : Act} {d : Done} (hd : perform s x = some d) {r p : Nat} (hm : Ev.realloc2 r p ∈ d.evs) : p ≠ 0 := by
  cases x with
  | realloc a id n q inner =>
    simp only [perform] at hd
    split at hd
    · simp at hd
    · split at hd
      · rename_i hi
        have hno := inner_no2 hi.2 (r := r) (p := p)
        split at hd
        · split at hd
          · rename_i hf
            obtain rfl := Option.some.inj hd
            simp only [List.mem_cons, List.mem_append, reduceCtorEq, false_or, hno, Ev.realloc2.injEq, List.not_mem_nil, or_false] at hm
            rw [hm.2]; exact (Replay.fresh_spec hf).1
          · simp at hd
        · split at hd
          · simp at hd
          · split at hd
            · rename_i hf
              obtain rfl := Option.some.inj hd
              simp only [List.mem_cons, List.mem_append, reduceCtorEq, false_or, hno, Ev.realloc2.injEq, List.not_mem_nil, or_false] at hm
              rw [hm.2]; exact (Replay.fresh_spec hf.2).1
            · simp at hd
      · simp at hd
  | reallocFail a id n inner =>
    simp only [perform] at hd
    split at hd
    · simp at hd
    · split at hd
      · rename_i hi
        have hno := inner_no2 hi (r := r) (p := p)
        split at hd
        · obtain rfl := Option.some.inj hd
          simp [hno] at hm
        · split at hd
          · simp at hd
          · split at hd
            · obtain rfl := Option.some.inj hd
              simp [hno] at hm
            · simp at hd
      · simp at hd
  | reallocRace a n q m q' =>
    simp only [perform] at hd
    split at hd
    · simp at hd
    · split at hd
      · rename_i hf
        obtain rfl := Option.some.inj hd
        simp only [List.mem_cons, reduceCtorEq, false_or, Ev.realloc2.injEq, List.not_mem_nil, or_false] at hm
        rw [hm.2]; exact (Replay.fresh_spec hf.2.2).1
      · simp at hd
  | make ref nm =>
    simp only [perform] at hd
    split at hd
    · obtain rfl := Option.some.inj hd; simp at hm
    · simp at hd
  | alloc a n q =>
    simp only [perform] at hd
    split at hd
    · simp at hd
    · split at hd
      · obtain rfl := Option.some.inj hd; simp at hm
      · simp at hd
  | free id =>
    simp only [perform] at hd
    split at hd
    · simp at hd
    · split at hd
      · simp at hd
      · obtain rfl := Option.some.inj hd; simp at hm
  | stray a q =>
    simp only [perform] at hd
    split at hd
    · simp at hd
    · split at hd
      · obtain rfl := Option.some.inj hd; simp at hm
      · simp at hd
  | setDefault a =>
    simp only [perform] at hd
    split at hd
    · simp at hd
    · obtain rfl := Option.some.inj hd; simp at hm
  | coalesce a =>
    simp only [perform] at hd
    split at hd
    · simp at hd
    · obtain rfl := Option.some.inj hd; simp at hm
  | release a =>
    simp only [perform] at hd
    split at hd
    · simp at hd
    · obtain rfl := Option.some.inj hd; simp at hm
  | quiet => obtain rfl := Option.some.inj hd; simp at hm
  | memset => obtain rfl := Option.some.inj hd; simp at hm

theorem program_nz {xs : List Act} : ∀ {s : P} {d : Done}, program s xs = some d → ∀ {r p : Nat}, Ev.realloc2 r p ∈ d.evs → p ≠ 0 := by
  induction xs with
  | nil =>
    intro s d hd r p hm
    obtain rfl := Option.some.inj hd
    simp at hm
  | cons x xs ih =>
    intro s d hd r p hm
    simp only [program] at hd
    cases hp : perform s x with
    | none => rw [hp] at hd; simp at hd
    | some d1 =>
      rw [hp] at hd
      cases ht : program d1.next xs with
      | none => simp only [ht] at hd; simp at hd
      | some d2 =>
        simp only [ht, Option.some.injEq] at hd; subst hd
        rcases List.mem_append.1 hm with hm | hm
        · exact perform_nz hp hm
        · exact ih ht hm

/-- The creations of a program are numbered in order. -/
theorem perform_creates {s : P} {x : Act} {d : Done} (hd : perform s x = some d) :
    d.next.as.length = s.as.length + (d.evs.filter fun e => match e with | .make _ _ => true | _ => false).length ∧
    ∀ a, Call.create a ∈ d.calls → a < d.next.as.length := by
  have hin : ∀ inner : List Ev, inner.all Replay.innerOk = true →
      (inner.filter fun e => match e with | .make _ _ => true | _ => false) = [] := by
    intro inner hi
    rw [List.filter_eq_nil_iff]
    intro e he
    have := List.all_eq_true.1 hi e he
    cases e <;> simp [Replay.innerOk] at this ⊢
  cases x with
  | realloc a id n q inner =>
    simp only [perform] at hd
    split at hd
    · simp at hd
    · split at hd
      · rename_i hi
        have h0 := hin inner hi.2
        split at hd
        · split at hd
          · obtain rfl := Option.some.inj hd
            simp [P.born, h0]
          · simp at hd
        · split at hd
          · simp at hd
          · split at hd
            · obtain rfl := Option.some.inj hd
              simp [P.born, P.without, h0]
            · simp at hd
      · simp at hd
  | reallocFail a id n inner =>
    simp only [perform] at hd
    split at hd
    · simp at hd
    · split at hd
      · rename_i hi
        have h0 := hin inner hi
        split at hd
        · obtain rfl := Option.some.inj hd
          simp [h0]
        · split at hd
          · simp at hd
          · split at hd
            · obtain rfl := Option.some.inj hd
              simp [h0]
            · simp at hd
      · simp at hd
  | reallocRace a n q m q' =>
    simp only [perform] at hd
    split at hd
    · simp at hd
    · split at hd
      · obtain rfl := Option.some.inj hd
        simp [P.born]
      · simp at hd
  | make ref nm =>
    simp only [perform] at hd
    split at hd
    · obtain rfl := Option.some.inj hd; simp [P.tick]
    · simp at hd
  | alloc a n q =>
    simp only [perform] at hd
    split at hd
    · simp at hd
    · split at hd
      · obtain rfl := Option.some.inj hd; simp [P.born]
      · simp at hd
  | free id =>
    simp only [perform] at hd
    split at hd
    · simp at hd
    · split at hd
      · simp at hd
      · obtain rfl := Option.some.inj hd; simp [P.tick, P.without]
  | stray a q =>
    simp only [perform] at hd
    split at hd
    · simp at hd
    · split at hd
      · obtain rfl := Option.some.inj hd; simp
      · simp at hd
  | setDefault a =>
    simp only [perform] at hd
    split at hd
    · simp at hd
    · obtain rfl := Option.some.inj hd; simp [P.tick]
  | coalesce a =>
    simp only [perform] at hd
    split at hd
    · simp at hd
    · obtain rfl := Option.some.inj hd; simp [P.tick]
  | release a =>
    simp only [perform] at hd
    split at hd
    · simp at hd
    · obtain rfl := Option.some.inj hd; simp [P.tick]
  | quiet => obtain rfl := Option.some.inj hd; simp
  | memset => obtain rfl := Option.some.inj hd; simp

theorem program_creates {xs : List Act} : ∀ {s : P} {d : Done}, program s xs = some d →
    d.next.as.length = s.as.length + (d.evs.filter fun e => match e with | .make _ _ => true | _ => false).length ∧
    ∀ a, Call.create a ∈ d.calls → a < d.next.as.length := by
  induction xs with
  | nil =>
    intro s d hd
    obtain rfl := Option.some.inj hd
    simp
  | cons x xs ih =>
    intro s d hd
    simp only [program] at hd
    cases hp : perform s x with
    | none => rw [hp] at hd; simp at hd
    | some d1 =>
      rw [hp] at hd
      cases ht : program d1.next xs with
      | none => simp only [ht] at hd; simp at hd
      | some d2 =>
        simp only [ht, Option.some.injEq] at hd; subst hd
        obtain ⟨g1, g2⟩ := perform_creates hp
        obtain ⟨k1, k2⟩ := ih ht
        constructor
        · simp only [List.filter_append, List.length_append]; omega
        · intro a ha
          rcases List.mem_append.1 ha with ha | ha
          · have := g2 a ha; simp only; omega
          · exact k2 a ha

theorem created_count (notes : List Note) :
    ((notes.map Note.ev).filter fun e => match e with | .make _ _ => true | _ => false).length = (created notes).length := by
  induction notes with
  | nil => rfl
  | cons n notes ih =>
    rw [created_cons, List.length_append, List.map_cons, List.filter_cons]
    cases n <;> simp [Note.ev, created, ih] <;> omega

theorem note_wf {o : Opts} {n : Note} (h : n.Ok o) : n.record.Wf ∧ n.record.PlainName := by
  have hs0 : ∀ {α : Type} (k : Str) (v : α), Events.Sorted [(k, v)] := fun k v => by simp [Events.Sorted]
  have hs00 : ∀ {α : Type}, Events.Sorted ([] : List (Str × α)) := by intro α; simp [Events.Sorted]
  have ht : ∀ nm, Events.Sorted (tagsOf nm) := fun nm => Rebuild.set_sorted (hs0 _ _)
  cases n with
  | make ref w tr t =>
    obtain ⟨_, hw, ht1, ht2⟩ := h
    cases w with
    | resource n => exact ⟨Rebuild.resourceEvent_wf ht1 ht2, trivial⟩
    | made m => exact ⟨Rebuild.makeEvent_wf hw.1 ht1 ht2, trivial⟩
  | alloc ref ptr size t =>
    obtain ⟨hr, hp, hs, ht1, ht2⟩ := h
    exact ⟨⟨hs, hr.2, hp, ht1, ht2⟩, trivial⟩
  | dealloc ref ptr t =>
    obtain ⟨hr, hp, ht1, ht2⟩ := h
    exact ⟨⟨hr.2, hp, ht1, ht2⟩, trivial⟩
  | realloc1 ref cur size nm async t =>
    obtain ⟨hr, hp, hs, ht1, ht2⟩ := h
    refine ⟨⟨Rebuild.set_sorted (hs0 _ _), hs0 _ _, ?_, by simpa [realloc1Event] using hs, ht1, ht2⟩, trivial⟩
    show Events.Sorted (if async then _ else _)
    split
    · exact Rebuild.set_sorted (ht nm)
    · exact ht nm
  | realloc2 ref new nm t =>
    obtain ⟨hr, hp, ht1, ht2⟩ := h
    exact ⟨⟨Rebuild.set_sorted (hs0 _ _), hs00, hs0 _ _, by simp [realloc2Event], ht1, ht2⟩, trivial⟩
  | setDefault ref nm t => exact ⟨⟨hs0 _ _, hs00, ht nm, by simp [onEvent], h.2.1, h.2.2⟩, trivial⟩
  | coalesce nm t => exact ⟨⟨hs00, hs00, ht nm, by simp [coalesceEvent], h.2.1, h.2.2⟩, trivial⟩
  | release ref nm t => exact ⟨⟨hs0 _ _, hs00, ht nm, by simp [onEvent], h.2.1, h.2.2⟩, trivial⟩
  | quiet e => exact ⟨h.1, trivial⟩
  | memset e => exact ⟨h.1, trivial⟩

theorem version_wf {major minor patch : Nat} {rc : Str} {t : Int} (h1 : major < 2 ^ 31) (h2 : minor < 2 ^ 31) (h3 : patch < 2 ^ 31)
    (ht : TimeOk t) : Rec.Wf (.event (versionEvent major minor patch rc t)) := by
  refine ⟨by simp [Events.Sorted, versionEvent], ?_, by simp [Events.Sorted, versionEvent], ?_, ht.1, ht.2⟩
  · simp [Events.Sorted, versionEvent, Events.strLt]
  · intro x hx
    simp only [versionEvent, List.mem_cons, List.not_mem_nil, or_false] at hx
    rcases hx with rfl | rfl | rfl <;> simp only <;> omega

theorem LogOf.reads {o : Opts} {xs : List Act} {d : Done} {notes : List Note} {log : Str} (h : LogOf o xs d notes log) :
    ∃ e v, getEvents log = some (e :: notes.map fun n => readBack n.record) ∧ 2 ≤ v ∧
      step false .init e = some { T.init with line := 1, major := some v } ∧ 72 * (notes.length + 1) ≤ log.length := by
  obtain ⟨st, major, minor, patch, rc, t, ht, h1, h2, h3, h4, h5, hl⟩ := h.text
  obtain ⟨g1, g2⟩ := log_reads hl (fun r hr => by
    rcases List.mem_cons.1 hr with rfl | hr
    · exact ⟨version_wf h2 h3 h4 h5, trivial⟩
    · obtain ⟨n, hn, rfl⟩ := List.mem_map.1 hr
      exact note_wf (h.ok n hn))
  rw [ht] at g1 g2
  refine ⟨versionEvent major minor patch rc t, major, ?_, h1, ?_, by simpa using g2⟩
  · rw [g1]
    simp [readBack]
  · have hm : (toInt major).toNat = major := by
      unfold toInt
      rw [Nat.mod_eq_of_lt (by omega), if_pos h2]
      rfl
    show some { T.init with line := 1, major := some (toInt major).toNat } = _
    rw [hm]

theorem all₂_map {α β : Type} {R : α → β → Prop} {f : α → β} {l : List α} (h : ∀ a ∈ l, R a (f a)) : All₂ R l (l.map f) := by
  induction l with
  | nil => exact .nil
  | cons a l ih => exact .cons (h a (by simp)) (ih fun b hb => h b (by simp [hb]))

/-- Compiling the notes of a clean program succeeds, and running the table makes the calls of the program. -/
theorem compile_notes {o : Opts} {xs : List Act} {d : Done} {notes : List Note} {v : Nat} (hran : program .init xs = some d)
    (habout : notes.map Note.ev = d.evs) (hok : ∀ n ∈ notes, n.Ok o) (hv : 2 ≤ v) (hcl : Replay.cleanRun .init xs = true) :
    ∃ t, interpret false { T.init with line := 1, major := some v } (notes.map fun n => readBack n.record) = (true, t) ∧
      ∀ ret, ∃ l, t.run o ret = some l ∧ All₂ (Matches o ret (created notes)) d.calls l := by
  have hq : program .init (.quiet :: xs) = some ⟨d.next, .quiet :: d.evs, d.calls⟩ := by
    simp only [program, perform, hran]; rfl
  have hqc : Replay.cleanRun .init (.quiet :: xs) = true := by
    simp only [Replay.cleanRun, perform, hcl, Bool.and_true]; rfl
  obtain ⟨c, hb, hrep⟩ := Replay.replay_faithful_partial hq hqc
  have hs : Sim { T.init with line := 1, major := some v } { C.init with line := 1 } [] := { sim_init with line := rfl }
  have hc : Replay.compileAll { C.init with line := 1 } (notes.map Note.ev) = some c := by rw [habout]; exact hb
  obtain ⟨t', L', ys, r1, r2, r3, r4, r5⟩ := steps_sim hv notes hs rfl hok (fun n hn r p hp => by
    have : Ev.realloc2 r p ∈ d.evs := by rw [← habout, ← hp]; exact List.mem_map_of_mem hn
    exact program_nz hran this) hc
  obtain ⟨k1, k2⟩ := program_creates hran
  have hlen : d.next.as.length = (created notes).length := by
    rw [← created_count, habout, k1]; simp [P.init]
  refine ⟨t', r1, fun ret => ?_⟩
  refine ⟨(d.calls.map (Call.withPtrs ret)).map (toDo o t'.entries), by unfold T.run; rw [← r2.ops, hrep ret]; rfl, ?_⟩
  rw [List.map_map]
  apply all₂_map
  intro x hx
  cases x with
  | create a =>
    have ha := k2 a hx
    rw [hlen] at ha
    obtain ⟨y, y1, y2⟩ := r5 a _ (List.getElem?_eq_getElem ha)
    refine ⟨_, _, List.getElem?_eq_getElem ha, ?_, y2⟩
    have hent : t'.entries = ys := by rw [r3]; rfl
    show Do.create (t'.entries[a]?.map (Rebuild.make o)) = _
    rw [hent, y1]; rfl
  | _ => rfl

/-- The same, from the log. -/
theorem compile_log {o : Opts} {xs : List Act} {d : Done} {notes : List Note} {log : Str} (h : LogOf o xs d notes log)
    (hcl : Replay.cleanRun .init xs = true) :
    ∃ es t, getEvents log = some es ∧ interpret false .init es = (true, t) ∧
      ∀ ret, ∃ l, t.run o ret = some l ∧ All₂ (Matches o ret (created notes)) d.calls l := by
  obtain ⟨e, v, g1, g2, g3, _⟩ := h.reads
  obtain ⟨t', r1, r2⟩ := compile_notes h.ran h.about h.ok g2 hcl
  exact ⟨_, t', g1, by simp only [interpret, g3]; exact r1, r2⟩

theorem program_append {ys zs : List Act} : ∀ {s : P} {d : Done}, program s (ys ++ zs) = some d →
    ∃ d1 d2, program s ys = some d1 ∧ program d1.next zs = some d2 ∧ d = ⟨d2.next, d1.evs ++ d2.evs, d1.calls ++ d2.calls⟩ := by
  induction ys with
  | nil => intro s d h; exact ⟨_, d, rfl, h, rfl⟩
  | cons y ys ih =>
    intro s d h
    simp only [List.cons_append, program] at h ⊢
    cases hp : perform s y with
    | none => rw [hp] at h; simp at h
    | some d0 =>
      rw [hp] at h
      cases ht : program d0.next (ys ++ zs) with
      | none => simp only [ht] at h; simp at h
      | some d' =>
        simp only [ht, Option.some.injEq] at h; subst h
        obtain ⟨d1, d2, e1, e2, rfl⟩ := ih ht
        simp only [e1]
        exact ⟨_, d2, rfl, e2, by simp⟩

theorem interpret_append {nd : Bool} {l m : List Event} : ∀ {t t' : T}, interpret nd t l = (true, t') → interpret nd t (l ++ m) = interpret nd t' m := by
  induction l with
  | nil => intro t t' h; simp only [interpret, Prod.mk.injEq, true_and] at h; rw [← h]; rfl
  | cons e l ih =>
    intro t t' h
    simp only [List.cons_append, interpret] at h ⊢
    cases hs : step nd t e with
    | none => rw [hs] at h; simp at h
    | some t1 => rw [hs] at h; exact ih h

/-! ## C68 -/

/-- C68.  For every program, with every sequence of returned addresses, that reallocates and sets
memory as `cleanRun` says, and every log of it: running the tool (the first time, or with
`--recompile`) makes exactly the calls of the program, in order, with the same sizes, on the same
allocators; every creation makes what was created; and every later run on the file left behind
does the same. -/
theorem replay_log_partial {o : Opts} {xs : List Act} {d : Done} {notes : List Note} {log : Str} (h : LogOf o xs d notes log)
    (hcl : Replay.cleanRun .init xs = true) (bin : Option T) (force : Bool) (hf : bin = none ∨ force = true) :
    ∃ t, ∀ ret, ∃ l, tool o force false bin log ret = (some l, some t) ∧ All₂ (Matches o ret (created notes)) d.calls l ∧
      ∀ ret' log', ∃ l', tool o false false (some t) log' ret' = (some l', some t) ∧ All₂ (Matches o ret' (created notes)) d.calls l' := by
  obtain ⟨es, t, g1, g2, g3⟩ := compile_log h hcl
  refine ⟨t, fun ret => ?_⟩
  obtain ⟨l, l1, l2⟩ := g3 ret
  refine ⟨l, ?_, l2, fun ret' log' => ?_⟩
  · have : buildOps force false bin log = (true, t) := by
      unfold buildOps
      rcases hf with rfl | rfl
      · cases force <;> simp only [g1, g2]
      · simp only [g1, g2]
    unfold tool
    simp only [this, l1, if_true]
  · obtain ⟨l', m1, m2⟩ := g3 ret'
    exact ⟨l', by unfold tool buildOps; simp only [m1, if_true], m2⟩

/-- At most one operation per event. -/
theorem step_grows {nd : Bool} {t t' : T} {e : Event} (h : step nd t e = some t') : t'.ops.length ≤ t.ops.length + 1 := by
  have hp : ∀ (t : T) (o : Op), (t.push o).ops.length = t.ops.length + 1 := by intro t o; simp [T.push]
  unfold step at h
  extract_lets t1 at h
  have h1 : t1.ops = t.ops := rfl
  rw [← h1]
  clear_value t1
  split at h
  · obtain rfl := Option.some.inj h; simp
  split at h
  · obtain rfl := Option.some.inj h; simp
  split at h
  · unfold T.allocate at h
    split at h
    · obtain rfl := Option.some.inj h; simp
    · split at h
      · simp at h
      · split at h
        · simp at h
        · obtain rfl := Option.some.inj h; simp [T.push]
  split at h
  · unfold T.deallocate at h
    split at h
    · obtain rfl := Option.some.inj h; simp
    · split at h
      · simp at h
      · obtain rfl := Option.some.inj h; simp
      · obtain rfl := Option.some.inj h; simp [T.push]
  have mk : ∀ (t1 t2 : T) (x : Entry), T.make t1 e x = some t2 → t2.ops.length ≤ t1.ops.length + 1 := by
    intro t1 t2 x h
    unfold T.make at h
    split at h
    · simp at h
    · split at h
      · simp at h
      · obtain rfl := Option.some.inj h; simp [T.push]
  have on : ∀ (k : Replay.Kind) (t1 t2 : T), T.on k t1 e = some t2 → t2.ops.length ≤ t1.ops.length + 1 := by
    intro k t1 t2 h
    unfold T.on at h
    split at h
    · simp at h
    · obtain rfl := Option.some.inj h; simp [T.push]
  split at h
  · split at h
    · simp at h
    · split at h
      · simp at h
      · exact mk _ _ _ h
  split at h
  · split at h
    · simp at h
    · exact mk _ _ _ h
  split at h
  · split at h
    · unfold T.realloc1 at h
      split at h
      · simp at h
      · split at h
        · obtain rfl := Option.some.inj h; simp
        · simp at h
    · unfold T.realloc2 at h
      split at h
      · simp at h
      · obtain rfl := Option.some.inj h; simp [T.push]
  split at h
  · exact on _ _ _ h
  split at h
  · unfold T.coalesce at h
    obtain rfl := Option.some.inj h; simp [T.push]
  split at h
  · exact on _ _ _ h
  split at h
  · obtain rfl := Option.some.inj h; simp
  · simp at h

theorem interpret_grows {nd : Bool} : ∀ (es : List Event) (t : T), (interpret nd t es).2.ops.length ≤ t.ops.length + es.length := by
  intro es
  induction es with
  | nil => intro t; simp [interpret]
  | cons e es ih =>
    intro t
    unfold interpret
    split
    · simp
    · rename_i t' hs
      have h1 := step_grows hs
      have h2 := ih t'
      simp only [List.length_cons]; omega

/-- C68: the file is as long as the table with one operation and the log (ReplayFile.cpp:130-132), an operation
takes 72 bytes.  For every log that the library writes, of whatever records, the slot that an event is
compiled into ends inside the file. -/
theorem table_fits {st : Events.Store} {rs : List Rec} (hl : Logged st rs) (hw : ∀ r ∈ rs, r.Wf ∧ r.PlainName)
    {before after : List Event} {e : Event} (hes : getEvents st.text = some (before ++ e :: after)) (nd : Bool) (header : Nat) :
    header + 72 * ((interpret nd .init before).2.ops.length + 1) ≤ (header + 72) + st.text.length := by
  obtain ⟨g1, g2⟩ := log_reads hl hw
  rw [hes] at g1
  have hlen : (before ++ e :: after).length = rs.length := by rw [Option.some.inj g1, List.length_map]
  have := interpret_grows (nd := nd) before .init
  simp only [List.length_append, List.length_cons] at hlen
  have h1 : T.init.ops.length = 1 := rfl
  omega

/-- C68 is false when compiling fails.  Whatever the log: if the first run ends with an error, it has made no
call, and the next run on the same log ends without one, having made the calls of the events before
the one that could not be compiled, and no other. -/
theorem second_run_silent_counterexample {o : Opts} {nd : Bool} {log : Str} {bin : Option T} {force : Bool} (hf : bin = none ∨ force = true)
    (hfail : (buildOps force nd bin log).1 = false) (ret : Nat → Nat) :
    (tool o force nd bin log ret).1 = none ∧
      ∃ t, (tool o force nd bin log ret).2 = some t ∧ tool o false nd (some t) log ret = (t.run o ret, some t) ∧
        ((getEvents log = none ∧ t = .init) ∨
          ∃ before e after, getEvents log = some (before ++ e :: after) ∧ interpret nd .init before = (true, t) ∧ step nd t e = none) := by
  have hb : buildOps force nd bin log = (match getEvents log with | none => (false, .init) | some es => interpret nd .init es) := by
    unfold buildOps
    rcases hf with rfl | rfl
    · cases force <;> rfl
    · rfl
  refine ⟨by unfold tool; simp [hfail], _, rfl, by unfold tool buildOps; simp, ?_⟩
  cases hg : getEvents log with
  | none => rw [hg] at hb; exact .inl ⟨rfl, by rw [hb]⟩
  | some es =>
    rw [hg] at hb
    simp only at hb
    right
    rw [hb] at hfail ⊢
    clear hb hg
    have key : ∀ (es : List Event) (t : T), (interpret nd t es).1 = false →
        ∃ before e after, es = before ++ e :: after ∧ interpret nd t before = (true, (interpret nd t es).2) ∧
          step nd (interpret nd t es).2 e = none := by
      intro es
      induction es with
      | nil => intro t h; simp [interpret] at h
      | cons e es ih =>
        intro t h
        cases hs : step nd t e with
        | none => exact ⟨[], e, es, rfl, by simp [interpret, hs], by simp [interpret, hs]⟩
        | some t' =>
          simp only [interpret, hs] at h ⊢
          obtain ⟨b, e', a, q1, q2, q3⟩ := ih t' h
          refine ⟨e :: b, e', a, by rw [q1]; rfl, ?_, q3⟩
          simp only [interpret, hs]; exact q2
    obtain ⟨b, e, a, q1, q2, q3⟩ := key es .init hfail
    exact ⟨b, e, a, by rw [q1], q2, q3⟩

/-- C68 is false for programs that call `memset` on recorded memory: the first run makes no call at all and
ends with an error; the second run, with the same arguments, ends without one and makes the calls up
to the first `memset` only. -/
theorem memset_counterexample {o : Opts} {ys zs : List Act} {d : Done} {notes : List Note} {log : Str}
    (h : LogOf o (ys ++ .memset :: zs) d notes log) (hcl : Replay.cleanRun .init ys = true) (ret : Nat → Nat) :
    ∃ dy t l, program .init ys = some dy ∧ tool o false false none log ret = (none, some t) ∧
      tool o false false (some t) log ret = (some l, some t) ∧ All₂ (Matches o ret (created notes)) dy.calls l := by
  obtain ⟨dy, dz, h1, h2, rfl⟩ := program_append h.ran
  have hev : ∃ rest, dz.evs = .other :: rest := by
    simp only [program, perform] at h2
    cases hz : program dy.next zs with
    | none => rw [hz] at h2; simp at h2
    | some d2 => rw [hz] at h2; simp only [Option.some.injEq] at h2; subst h2; exact ⟨_, rfl⟩
  obtain ⟨rest, hev⟩ := hev
  have hab := h.about
  simp only [hev] at hab
  obtain ⟨n1, n23, rfl, a1, a2⟩ := List.map_eq_append_iff.1 hab
  obtain ⟨n2, n3, rfl, a3, a4⟩ := List.map_eq_cons_iff.1 a2
  obtain ⟨e, v, g1, g2, g3, _⟩ := h.reads
  obtain ⟨t, r1, r2⟩ := compile_notes h1 a1 (fun n hn => h.ok n (by simp [hn])) g2 hcl
  obtain ⟨l, l1, l2⟩ := r2 ret
  have hst : step false t (readBack n2.record) = none := by
    cases n2 with
    | memset e =>
      obtain ⟨_, hc, hn⟩ := h.ok (.memset e) (by simp)
      show step false t e = none
      unfold step
      simp only [hc, hn, ne_eq, not_true_eq_false, false_and, if_false]
      have ne : ∀ s ∈ [b!"allocate", b!"deallocate", b!"make_allocator", b!"make_memory_resource", b!"reallocate", b!"set_default_allocator",
          b!"coalesce", b!"release"], ¬b!"memset" = s := by decide
      rw [if_neg (ne _ (by decide)), if_neg (ne _ (by decide)), if_neg (ne _ (by decide)), if_neg (ne _ (by decide)), if_neg (ne _ (by decide)),
        if_neg (ne _ (by decide)), if_neg (ne _ (by decide)), if_neg (ne _ (by decide)), if_neg (by decide)]
    | _ => simp [Note.ev] at a3
  have hint : interpret false .init (e :: (n1 ++ n2 :: n3).map fun n => readBack n.record) = (false, t) := by
    simp only [interpret, g3, List.map_append, List.map_cons]
    rw [interpret_append r1]
    simp only [interpret, hst]
  refine ⟨dy, t, l, h1, ?_, ?_, ?_⟩
  · unfold tool buildOps; simp only [g1, hint]; rfl
  · unfold tool buildOps; simp only [l1, if_true]
  · -- creations before the `memset` have the same numbers
    have mono : ∀ c x, Matches o ret (created n1) c x → Matches o ret (created (n1 ++ n2 :: n3)) c x := by
      intro c x hx
      cases c with
      | create a =>
        obtain ⟨w, d, q1, q2, q3⟩ := hx
        refine ⟨w, d, ?_, q2, q3⟩
        rw [created_append, List.getElem?_append_left (List.getElem?_eq_some_iff.1 q1).1]; exact q1
      | _ => exact hx
    clear l1 hint
    revert l2
    generalize dy.calls = cs
    intro l2
    induction l2 with
    | nil => exact .nil
    | cons hh _ ih => exact .cons (mono _ _ hh) ih

/-- The operations the tool knows (ReplayInterpreter.cpp:112-161). -/
def known : List Str :=
  [b!"allocate", b!"deallocate", b!"make_allocator", b!"make_memory_resource", b!"copy", b!"move", b!"reallocate",
   b!"set_default_allocator", b!"coalesce", b!"release", b!"register_external_allocation", b!"deregister_external_allocation"]

theorem step_unknown {nd : Bool} {t : T} {e : Event} (hc : e.cat = .operation) (hn : e.name ∉ known) : step nd t e = none := by
  have ne : ∀ x ∈ known, ¬ e.name = x := fun x hx h => hn (h ▸ hx)
  unfold step
  simp only [hc, ne_eq, not_true_eq_false, false_and, if_false]
  rw [if_neg (ne _ (by decide)), if_neg (ne _ (by decide)), if_neg (ne _ (by decide)), if_neg (ne _ (by decide)), if_neg (ne _ (by decide)),
    if_neg (ne _ (by decide)), if_neg (ne _ (by decide)), if_neg (ne _ (by decide)), if_neg]
  intro hm
  have sub : ∀ x ∈ counted, x ∈ known := by decide
  exact hn (sub _ hm)

theorem interpret_stops {nd : Bool} {es : List Event} {e : Event} (he : e ∈ es) (hs : ∀ t, step nd t e = none) :
    ∀ t, (interpret nd t es).1 = false := by
  induction es with
  | nil => cases he
  | cons x es ih =>
    intro t
    rcases List.mem_cons.mp he with rfl | he
    · simp [interpret, hs t]
    · simp only [interpret]
      split
      · rfl
      · exact ih he _

/-- One record of an operation the tool does not know, anywhere in the log: compiling ends with an error and no call is made. -/
theorem unknown_refused {st : Events.Store} {rs : List Rec} (hl : Logged st rs) (hw : ∀ r ∈ rs, r.Wf ∧ r.PlainName) {r : Rec}
    (hr : r ∈ rs) (hc : (readBack r).cat = .operation) (hn : (readBack r).name ∉ known) {o : Opts} {nd force : Bool} {bin : Option T}
    (hf : bin = none ∨ force = true) (ret : Nat → Nat) : (tool o force nd bin st.text ret).1 = none := by
  have hg := (log_reads hl hw).1
  have hb : (buildOps force nd bin st.text).1 = false := by
    have h1 : (interpret nd .init (rs.map readBack)).1 = false :=
      interpret_stops (List.mem_map.mpr ⟨r, hr, rfl⟩) (fun t => step_unknown hc hn) _
    have h2 : buildOps force nd bin st.text = interpret nd .init (rs.map readBack) := by
      unfold buildOps
      rcases hf with rfl | rfl
      · cases force <;> simp [hg]
      · simp [hg]
    rw [h2]; exact h1
  unfold tool
  simp [hb]

/-- C68 is false for every program that allocates memory with a name (`Allocator::allocate(name, bytes)`, the way to allocate shared
memory): its log cannot be replayed, not even the part before. -/
theorem named_counterexample {st : Events.Store} {rs : List Rec} (hl : Logged st rs) (hw : ∀ r ∈ rs, r.Wf ∧ r.PlainName)
    {size ref ptr : Nat} {name : Str} {t : Int} (hr : .namedAllocate size ref ptr name t ∈ rs) {o : Opts} {nd force : Bool}
    {bin : Option T} (hf : bin = none ∨ force = true) (ret : Nat → Nat) : (tool o force nd bin st.text ret).1 = none :=
  unknown_refused hl hw hr rfl (by show b!"named_allocate" ∉ known; decide) hf ret

/-- C68 is false for a log that changed: without `--recompile` the calls of the old log are made,
whatever the new log holds. -/
theorem stale_counterexample {o : Opts} {nd : Bool} (t : T) (log log' : Str) (ret : Nat → Nat) :
    tool o false nd (some t) log ret = tool o false nd (some t) log' ret := rfl

/-! ### The hypotheses can be met -/

/-- Records that can be written make a log. -/
theorem can_log (rs : List Rec) : ∀ {st : Events.Store} {rs0 : List Rec}, Logged st rs0 → st.isOpen = true →
    (∀ r ∈ rs, ∀ e, r = .event e → (Events.dumpEvent e).isSome = true) → ∃ st', Logged st' (rs0 ++ rs) := by
  induction rs with
  | nil => intro st rs0 h _ _; exact ⟨st, by simpa using h⟩
  | cons r rs ih =>
    intro st rs0 h ho hw
    have : ∃ st1, Events.insert true st r = .ok st1 ∧ st1.isOpen = true := by
      cases r with
      | event e =>
        obtain ⟨t, ht⟩ := Option.isSome_iff_exists.1 (hw _ (by simp) e rfl)
        exact ⟨{ st with isOpen := true, text := st.text ++ t ++ [10] }, by simp [Events.insert, ho, ht], rfl⟩
      | allocate => exact ⟨{ st with text := _ }, if_pos ho, ho⟩
      | namedAllocate => exact ⟨{ st with text := _ }, if_pos ho, ho⟩
      | deallocate => exact ⟨{ st with text := _ }, if_pos ho, ho⟩
    obtain ⟨st1, h1, h2⟩ := this
    obtain ⟨st', hs⟩ := ih (.ok true h h1) h2 (fun r hr => hw r (by simp [hr]))
    exact ⟨st', by simpa using hs⟩

/-- A program with a resource, a pool, blocks at an address that is used twice, a reallocation and a release. -/
def demoActs : List Act :=
  [.make 0x100 (chars b!"HOST"), .make 0x200 (chars b!"pool"), .alloc 1 64 0x1000, .quiet, .alloc 0 8 0x2000, .free 3, .alloc 1 32 0x1000,
   .realloc 1 6 128 0x3000 [.alloc 0x200 0x3000 128, .dealloc 0x200 0x1000], .coalesce 1, .setDefault 1, .free 7, .release 1]

/-- A pool. -/
def demoPool : Made := ⟨b!"pool", true, b!"HOST", .pool .quick [1048576, 65536, 64] none⟩

/-- An event that is only counted. -/
def demoMove : Event := { name := b!"copy", cat := .operation, strs := [], nums := [], tags := [], time := 5 }

/-- What is recorded for it. -/
def demoNotes : List Note :=
  [.make 0x100 (.resource b!"HOST") true 1, .make 0x200 (.made demoPool) true 2, .alloc 0x200 0x1000 64 3, .quiet demoMove, .alloc 0x100 0x2000 8 4,
   .dealloc 0x200 0x1000 5, .alloc 0x200 0x1000 32 6, .realloc1 0x200 0x1000 128 b!"pool" false 7, .alloc 0x200 0x3000 128 8,
   .dealloc 0x200 0x1000 9, .realloc2 0x200 0x3000 b!"pool" 10, .coalesce b!"pool" 11, .setDefault 0x200 b!"pool" 12, .dealloc 0x200 0x3000 13,
   .release 0x200 b!"pool" 14]

theorem demo_log (extra : List Note)
    (hd : ∀ n ∈ extra, ∀ e, n.record = .event e → (Events.dumpEvent e).isSome = true) :
    ∃ st, Logged st (.event (versionEvent 2025 3 0 b!"" 0) :: (demoNotes ++ extra).map Note.record) := by
  obtain ⟨t, ht⟩ := Option.isSome_iff_exists.1 (show (Events.dumpEvent (versionEvent 2025 3 0 b!"" 0)).isSome = true by decide +kernel)
  have h1 : Logged { Events.Store.new with isOpen := true, text := Events.Store.new.text ++ t ++ [10] } ([] ++ [.event (versionEvent 2025 3 0 b!"" 0)]) :=
    .ok true .new (by simp [Events.insert, ht])
  have hall : ∀ n ∈ demoNotes, ∀ e, n.record = .event e → (Events.dumpEvent e).isSome = true := by
    intro n hn e he
    have : ∀ n ∈ demoNotes, (match n.record with | .event e => (Events.dumpEvent e).isSome | _ => true) = true := by decide +kernel
    have := this n hn
    rw [he] at this; exact this
  obtain ⟨st, hs⟩ := can_log ((demoNotes ++ extra).map Note.record) h1 rfl (by
    intro r hr e he
    obtain ⟨n, hn, rfl⟩ := List.mem_map.1 hr
    rcases List.mem_append.1 hn with hn | hn
    · exact hall n hn e he
    · exact hd n hn e he)
  exact ⟨st, by simpa using hs⟩

theorem demo_ok : ∀ n ∈ demoNotes, n.Ok {} := by
  intro n hn
  simp only [demoNotes, List.mem_cons, List.not_mem_nil, or_false] at hn
  rcases hn with rfl | rfl | rfl | rfl | rfl | rfl | rfl | rfl | rfl | rfl | rfl | rfl | rfl | rfl | rfl
  case inr.inl =>
    refine ⟨⟨by decide, by decide⟩, ⟨by simp [Rebuild.Strat.Wf, demoPool], ⟨⟨by decide, by decide⟩, ⟨by decide, by decide⟩, by simp [demoPool]⟩, by simp [Bytes, demoPool]⟩, by decide, by decide⟩
  case inr.inr.inr.inl =>
    refine ⟨⟨by simp [demoMove, Events.Sorted], by simp [demoMove, Events.Sorted], by simp [demoMove, Events.Sorted], by simp [demoMove], by decide, by decide⟩, .inr ⟨rfl, .inl rfl⟩⟩
  all_goals simp [Note.Ok, RefOk, TimeOk, What.Ok, Fits, Bytes]

example : ∃ d log, LogOf {} demoActs d demoNotes log ∧ Replay.cleanRun .init demoActs = true ∧
    d.calls = [.create 0, .create 1, .allocate 1 64, .allocate 0 8, .deallocate 1 3, .allocate 1 32, .reallocate 1 6 128, .coalesce 1,
      .setDefault 1, .deallocate 1 7, .release 1] := by
  obtain ⟨st, hs⟩ := demo_log [] (by simp)
  refine ⟨_, st.text, ⟨rfl, by decide +kernel, demo_ok, st, 2025, 3, 0, _, 0, rfl, by decide, by decide, by decide, by decide, by unfold TimeOk; decide, by simpa using hs⟩, by decide +kernel, by decide +kernel⟩

/-- The event of a `memset`. -/
def demoMemset : Event :=
  { name := b!"memset", cat := .operation, strs := [(b!"src", b!"0x2000")], nums := [(b!"size", 8), (b!"value", 0)], tags := [], time := 15 }

example : ∃ d notes log, LogOf {} (demoActs ++ .memset :: [.free 4]) d notes log ∧ Replay.cleanRun .init demoActs = true ∧
    Call.deallocate 0 4 ∈ d.calls := by
  obtain ⟨st, hs⟩ := demo_log [.memset demoMemset, .dealloc 0x100 0x2000 16] (by
    intro n hn e he
    have : ∀ n ∈ [Note.memset demoMemset, .dealloc 0x100 0x2000 16],
        (match n.record with | .event e => (Events.dumpEvent e).isSome | _ => true) = true := by decide +kernel
    have := this n hn
    rw [he] at this; exact this)
  refine ⟨_, demoNotes ++ [.memset demoMemset, .dealloc 0x100 0x2000 16], st.text,
    ⟨rfl, by decide +kernel, ?_, st, 2025, 3, 0, _, 0, rfl, by decide, by decide, by decide, by decide, by unfold TimeOk; decide, hs⟩,
    by decide +kernel, by decide +kernel⟩
  intro n hn
  rcases List.mem_append.1 hn with hn | hn
  · exact demo_ok n hn
  · simp only [List.mem_cons, List.not_mem_nil, or_false] at hn
    rcases hn with rfl | rfl
    · exact ⟨⟨by simp [demoMemset, Events.Sorted], by simp [demoMemset, Events.Sorted, Events.strLt], by simp [demoMemset, Events.Sorted], by simp [demoMemset], by decide, by decide⟩, rfl, rfl⟩
    · exact ⟨⟨by decide, by decide⟩, by decide, by decide, by decide⟩

/-- The log of a program that also allocates shared memory by name. -/
example : ∃ st rs, Logged st rs ∧ (∀ r ∈ rs, r.Wf ∧ r.PlainName) ∧ Rec.namedAllocate 64 0x100 0x2000 b!"field u" 4 ∈ rs ∧
    Rec.allocate 8 0x100 0x1000 3 ∈ rs := by
  obtain ⟨t, ht⟩ := Option.isSome_iff_exists.1 (show (Events.dumpEvent (versionEvent 2025 3 0 b!"" 0)).isSome = true by decide +kernel)
  have h1 : Logged { Events.Store.new with isOpen := true, text := Events.Store.new.text ++ t ++ [10] } ([] ++ [.event (versionEvent 2025 3 0 b!"" 0)]) :=
    .ok true .new (by simp [Events.insert, ht])
  obtain ⟨st, hs⟩ := can_log [.allocate 8 0x100 0x1000 3, .namedAllocate 64 0x100 0x2000 b!"field u" 4] h1 rfl (by
    intro r hr e he; subst he; simp at hr)
  refine ⟨st, _, hs, ?_, by simp, by simp⟩
  intro r hr
  simp only [List.nil_append, List.cons_append, List.mem_cons, List.not_mem_nil, or_false] at hr
  rcases hr with rfl | rfl | rfl
  · refine ⟨⟨?_, ?_, ?_, ?_, by decide, by decide⟩, trivial⟩
    all_goals simp [versionEvent, Events.Sorted, Events.strLt]
  · exact ⟨by unfold Events.Rec.Wf; simp, trivial⟩
  · exact ⟨by unfold Events.Rec.Wf; simp, ⟨"field u".toList, by decide⟩, by decide⟩

end Umpire.Trace
