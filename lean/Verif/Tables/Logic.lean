import Verif.Tables.Model
/-!
# Races of calls in general (C75)

For calls that are lists of accesses under locks: when two threads can get to a race, and
that there is always a thread that can go on.
-/
set_option autoImplicit false
set_option linter.unusedSimpArgs false
namespace Umpire.Tables
open Conc (Arr upd)

variable {T : Type} [DecidableEq T]

/-- Two calls have accesses that can meet: to the same memory, one writing, not both under the
mutex of the map, and the calls do not take the same mutex. -/
def Meet (s s' : Shape) : Prop := ∃ g ∈ s.segs, ∃ g' ∈ s'.segs, ∃ a ∈ g.accs, ∃ a' ∈ g'.accs, a.obj = a'.obj ∧
  (a.write = true ∨ a'.write = true) ∧ (g.locked = false ∨ g'.locked = false) ∧ (s.outer = none ∨ s.outer ≠ s'.outer)

theorem Meet.symm {s s' : Shape} (h : Meet s s') : Meet s' s := by
  obtain ⟨g, hg, g', hg', a, ha, a', ha', ho, hw, hl, hk⟩ := h
  refine ⟨g', hg', g, hg, a', ha', a, ha, ho.symm, hw.symm, hl.symm, ?_⟩
  rcases hk with hk | hk
  · rw [hk]
    cases s'.outer with
    | none => exact .inl rfl
    | some k => exact .inr (by intro h; cases h)
  · exact .inr (Ne.symm hk)

/-- The mutexes a thread has. -/
def Holds (k : Lock) : Thread → Prop
  | .idle _ => False
  | .busy s _ _ => s.outer = some k
  | .mapped s _ _ _ => k = .map ∨ s.outer = some k

/-- A thread is somewhere in its program. -/
def Within (p : List Shape) : Thread → Prop
  | .idle todo => ∀ s ∈ todo, s ∈ p
  | .busy s segs todo => s ∈ p ∧ (∀ g ∈ segs, ∃ g' ∈ s.segs, g.locked = g'.locked ∧ ∀ a ∈ g.accs, a ∈ g'.accs) ∧ ∀ s ∈ todo, s ∈ p
  | .mapped s as segs todo => s ∈ p ∧ (∃ g' ∈ s.segs, g'.locked = true ∧ ∀ a ∈ as, a ∈ g'.accs) ∧
      (∀ g ∈ segs, ∃ g' ∈ s.segs, g.locked = g'.locked ∧ ∀ a ∈ g.accs, a ∈ g'.accs) ∧ ∀ s ∈ todo, s ∈ p

structure Ok (P : T → List Shape) (c : Conf T) : Prop where
  held : ∀ k t, c.lock k = some t ↔ Holds k (c.thr t)
  within : ∀ t, Within (P t) (c.thr t)

theorem within_upd {P : T → List Shape} {thr : T → Thread} (h : ∀ t, Within (P t) (thr t)) {t : T} {th : Thread} (ht : Within (P t) th) :
    ∀ u, Within (P u) (upd thr t th u) := by
  intro u
  unfold upd
  by_cases e : u = t
  · rw [if_pos e, e]; exact ht
  · rw [if_neg e]; exact h u

theorem held_same {lock : Lock → Option T} {thr : T → Thread} (h : ∀ k t, lock k = some t ↔ Holds k (thr t)) {t : T} {th : Thread}
    (ht : ∀ k, Holds k th ↔ Holds k (thr t)) : ∀ k u, lock k = some u ↔ Holds k (upd thr t th u) := by
  intro k u
  unfold upd
  by_cases e : u = t
  · rw [if_pos e, ht k, e]; exact h k t
  · rw [if_neg e]; exact h k u

theorem held_take {lock : Lock → Option T} {thr : T → Thread} (h : ∀ k t, lock k = some t ↔ Holds k (thr t)) {t : T} {th : Thread} {k₀ : Lock}
    (hf : lock k₀ = none) (ht : ∀ k, Holds k th ↔ k = k₀ ∨ Holds k (thr t)) : ∀ k u, upd lock k₀ (some t) k = some u ↔ Holds k (upd thr t th u) := by
  intro k u
  unfold upd
  by_cases ek : k = k₀
  · rw [if_pos ek]
    by_cases e : u = t
    · rw [if_pos e, ht k, e]; exact ⟨fun _ => .inl ek, fun _ => rfl⟩
    · rw [if_neg e, ← h k u, ek, hf]
      exact ⟨fun h => absurd (Option.some.inj h).symm e, fun h => nomatch h⟩
  · rw [if_neg ek]
    by_cases e : u = t
    · rw [if_pos e, ht k, e, h k t]; exact ⟨.inr, fun h => h.resolve_left ek⟩
    · rw [if_neg e]; exact h k u

theorem held_give {lock : Lock → Option T} {thr : T → Thread} (h : ∀ k t, lock k = some t ↔ Holds k (thr t)) {t : T} {th : Thread} {k₀ : Lock}
    (hh : Holds k₀ (thr t)) (ht : ∀ k, Holds k th ↔ Holds k (thr t) ∧ k ≠ k₀) : ∀ k u, upd lock k₀ none k = some u ↔ Holds k (upd thr t th u) := by
  intro k u
  unfold upd
  by_cases ek : k = k₀
  · rw [if_pos ek]
    by_cases e : u = t
    · rw [if_pos e, ht k]; exact ⟨fun h => (nomatch h), fun h => absurd ek h.2⟩
    · rw [if_neg e, ← h k u, ek, (h k₀ t).mpr hh]
      exact ⟨fun h => (nomatch h), fun h => absurd (Option.some.inj h).symm e⟩
  · rw [if_neg ek]
    by_cases e : u = t
    · rw [if_pos e, ht k, e, h k t]; exact ⟨fun h => ⟨h, ek⟩, fun h => h.1⟩
    · rw [if_neg e]; exact h k u

theorem Ok.step {P : T → List Shape} (hP : ∀ t, ∀ s ∈ P t, s.outer ≠ some .map) {c c' : Conf T} (h : Ok P c) (hs : Step c c') : Ok P c' := by
  cases hs with
  | @enter t s todo k hi ho hf =>
    have hw := h.within t
    rw [hi] at hw
    refine ⟨held_take h.held hf fun k' => ?_, within_upd h.within ⟨hw s (.head _), fun g hg => ⟨g, hg, rfl, fun _ h => h⟩, fun s' hs => hw s' (.tail _ hs)⟩⟩
    rw [hi]
    show s.outer = some k' ↔ _ ∨ False
    rw [ho]
    exact ⟨fun h => .inl (Option.some.inj h).symm, fun h => by rw [h.resolve_right id]⟩
  | @start t s todo hi ho =>
    have hw := h.within t
    rw [hi] at hw
    refine ⟨held_same h.held fun k' => ?_, within_upd h.within ⟨hw s (.head _), fun g hg => ⟨g, hg, rfl, fun _ h => h⟩, fun s' hs => hw s' (.tail _ hs)⟩⟩
    rw [hi]
    show s.outer = some k' ↔ False
    rw [ho]
    exact ⟨fun h => (nomatch h), False.elim⟩
  | @acc t s a as segs todo hi =>
    have hw := h.within t
    rw [hi] at hw
    obtain ⟨w1, w2, w3⟩ := hw
    refine ⟨held_same h.held fun k' => by rw [hi]; exact Iff.rfl, within_upd h.within ⟨w1, fun g hg => ?_, w3⟩⟩
    rcases List.mem_cons.mp hg with rfl | hg
    · obtain ⟨g', h1, h2, h3⟩ := w2 _ (.head _)
      exact ⟨g', h1, h2, fun a ha => h3 a (.tail _ ha)⟩
    · exact w2 g (.tail _ hg)
  | @next t s segs todo hi =>
    have hw := h.within t
    rw [hi] at hw
    obtain ⟨w1, w2, w3⟩ := hw
    exact ⟨held_same h.held fun k' => by rw [hi]; exact Iff.rfl, within_upd h.within ⟨w1, fun g hg => w2 g (.tail _ hg), w3⟩⟩
  | @lock t s as segs todo hi hf =>
    have hw := h.within t
    rw [hi] at hw
    obtain ⟨w1, w2, w3⟩ := hw
    refine ⟨held_take h.held hf fun k' => ?_, within_upd h.within ⟨w1, ?_, fun g hg => w2 g (.tail _ hg), w3⟩⟩
    · rw [hi]; exact Iff.rfl
    · obtain ⟨g', h1, h2, h3⟩ := w2 _ (.head _)
      exact ⟨g', h1, h2.symm, h3⟩
  | @accMapped t s a as segs todo hi =>
    have hw := h.within t
    rw [hi] at hw
    obtain ⟨w1, ⟨g', h1, h2, h3⟩, w2, w3⟩ := hw
    exact ⟨held_same h.held fun k' => by rw [hi]; exact Iff.rfl, within_upd h.within ⟨w1, ⟨g', h1, h2, fun a ha => h3 a (.tail _ ha)⟩, w2, w3⟩⟩
  | @unlock t s segs todo hi =>
    have hw := h.within t
    rw [hi] at hw
    obtain ⟨w1, -, w2, w3⟩ := hw
    refine ⟨held_give h.held (by rw [hi]; exact .inl rfl) fun k' => ?_, within_upd h.within ⟨w1, w2, w3⟩⟩
    rw [hi]
    exact ⟨fun (e : s.outer = some k') => ⟨.inr e, fun e2 => hP t s w1 (e2 ▸ e)⟩, fun e => e.1.resolve_left e.2⟩
  | @leave t s todo k hi ho =>
    have hw := h.within t
    rw [hi] at hw
    refine ⟨held_give h.held (by rw [hi]; exact ho) fun k' => ?_, within_upd h.within hw.2.2⟩
    rw [hi]
    exact ⟨False.elim, fun e => e.2 (Option.some.inj (e.1.symm.trans ho))⟩
  | @finish t s todo hi ho =>
    have hw := h.within t
    rw [hi] at hw
    refine ⟨held_same h.held fun k' => ?_, within_upd h.within hw.2.2⟩
    rw [hi]
    exact ⟨False.elim, fun e => nomatch e.symm.trans ho⟩

omit [DecidableEq T] in
theorem Ok.begin' (P : T → List Shape) : Ok P (begin' P) :=
  ⟨fun _ _ => ⟨fun h => (nomatch h), False.elim⟩, fun _ _ h => h⟩

theorem Ok.steps {P : T → List Shape} (hP : ∀ t, ∀ s ∈ P t, s.outer ≠ some .map) {c : Conf T} (h : Steps (Tables.begin' P) c) : Ok P c := by
  induction h with
  | refl => exact Ok.begin' P
  | step _ hs ih => exact ih.step hP hs

/-- The access a thread is about to make is of its call, with the locks of the call. -/
theorem pending_of {p : List Shape} {th : Thread} {a : Acc} (hw : Within p th) (ha : th.pending = some a) : ∃ s ∈ p, ∃ g ∈ s.segs, a ∈ g.accs ∧
    (∀ k, s.outer = some k → Holds k th) ∧ (g.locked = true → Holds .map th) := by
  match th, hw, ha with
  | .busy s (⟨false, b :: as⟩ :: segs) todo, hw, ha =>
    cases ha
    obtain ⟨g', h1, h2, h3⟩ := hw.2.1 _ (.head _)
    exact ⟨s, hw.1, g', h1, h3 _ (.head _), fun _ h => h, fun h => nomatch h2.trans h⟩
  | .mapped s (b :: as) segs todo, hw, ha =>
    cases ha
    obtain ⟨g', h1, h2, h3⟩ := hw.2.1
    exact ⟨s, hw.1, g', h1, h3 _ (.head _), fun _ h => .inr h, fun _ => .inl rfl⟩

theorem meet_of_race {P : T → List Shape} (hP : ∀ t, ∀ s ∈ P t, s.outer ≠ some .map) {c : Conf T} (h : Steps (begin' P) c) (hr : Race c) :
    ∃ t t', t ≠ t' ∧ ∃ s ∈ P t, ∃ s' ∈ P t', Meet s s' := by
  obtain ⟨t, t', a, a', hne, h1, h2, ho, hw⟩ := hr
  have ok := Ok.steps hP h
  obtain ⟨s, hs, g, hg, hag, hk, hm⟩ := pending_of (ok.within t) h1
  obtain ⟨s', hs', g', hg', hag', hk', hm'⟩ := pending_of (ok.within t') h2
  have one : ∀ k, Holds k (c.thr t) → Holds k (c.thr t') → False := by
    intro k e e'
    have e := (ok.held k t).mpr e
    rw [(ok.held k t').mpr e'] at e
    exact hne (Option.some.inj e).symm
  refine ⟨t, t', hne, s, hs, s', hs', g, hg, g', hg', a, hag, a', hag', ho, hw, ?_, ?_⟩
  · cases e : g.locked with
    | false => exact .inl rfl
    | true =>
      cases e' : g'.locked with
      | false => exact .inr rfl
      | true => exact (one _ (hm e) (hm' e')).elim
  · cases e : s.outer with
    | none => exact .inl rfl
    | some k => exact .inr fun e' => one k (hk k e) (hk' k e'.symm)

/-! ## Getting to a race -/

/-- Thread `t` alone goes to `th`; the locks afterwards are `l`. -/
def Goes (c : Conf T) (t : T) (l : Lock → Option T) (th : Thread) : Prop :=
  ∃ c', Steps c c' ∧ c'.lock = l ∧ c'.thr t = th ∧ ∀ u, u ≠ t → c'.thr u = c.thr u

theorem Steps.trans {c c' c'' : Conf T} (h : Steps c c') (h' : Steps c' c'') : Steps c c'' := by
  induction h' with
  | refl => exact h
  | step _ hs ih => exact ih.step hs

theorem Goes.trans {c : Conf T} {t : T} {l l' : Lock → Option T} {th th' : Thread} (h : Goes c t l th)
    (h' : ∀ c', c'.lock = l → c'.thr t = th → Goes c' t l' th') : Goes c t l' th' := by
  obtain ⟨c', h1, h2, h3, h4⟩ := h
  obtain ⟨c'', g1, g2, g3, g4⟩ := h' c' h2 h3
  exact ⟨c'', h1.trans g1, g2, g3, fun u hu => (g4 u hu).trans (h4 u hu)⟩

theorem Goes.refl {c : Conf T} {t : T} : Goes c t c.lock (c.thr t) := ⟨c, .refl, rfl, rfl, fun _ _ => rfl⟩

theorem Goes.step {c : Conf T} {t : T} {l : Lock → Option T} {th : Thread} (h : Step c ⟨l, upd c.thr t th⟩) : Goes c t l th :=
  ⟨_, .step .refl h, rfl, if_pos rfl, fun _ hu => if_neg hu⟩

theorem goes_accs {as as' : List Acc} {s : Shape} {segs : List Seg} {todo : List Shape} {t : T} : ∀ {c : Conf T},
    c.thr t = .busy s (⟨false, as ++ as'⟩ :: segs) todo → Goes c t c.lock (.busy s (⟨false, as'⟩ :: segs) todo) := by
  induction as with
  | nil => intro c h; have := Goes.refl (c := c) (t := t); rw [h] at this; exact this
  | cons a as ih =>
    intro c h
    exact (Goes.step (.acc h)).trans fun c' h1 h2 => h1 ▸ ih h2

theorem goes_mapped {as as' : List Acc} {s : Shape} {segs : List Seg} {todo : List Shape} {t : T} : ∀ {c : Conf T},
    c.thr t = .mapped s (as ++ as') segs todo → Goes c t c.lock (.mapped s as' segs todo) := by
  induction as with
  | nil => intro c h; have := Goes.refl (c := c) (t := t); rw [h] at this; exact this
  | cons a as ih =>
    intro c h
    exact (Goes.step (.accMapped h)).trans fun c' h1 h2 => h1 ▸ ih h2

omit [DecidableEq T] in
theorem upd_back {l : Lock → Option T} {k : Lock} {x : Option T} (h : l k = none) : upd (upd l k x) k none = l := by
  funext k'
  unfold upd
  by_cases e : k' = k
  · rw [if_pos e, e, h]
  · rw [if_neg e, if_neg e]

theorem goes_seg {g : Seg} {s : Shape} {segs : List Seg} {todo : List Shape} {t : T} {c : Conf T} (h : c.thr t = .busy s (g :: segs) todo)
    (hf : c.lock .map = none) : Goes c t c.lock (.busy s segs todo) := by
  obtain ⟨b, as⟩ := g
  cases b with
  | false =>
    have h : c.thr t = .busy s (⟨false, as ++ []⟩ :: segs) todo := by rw [List.append_nil]; exact h
    exact (goes_accs h).trans fun c' h1 h2 => h1 ▸ Goes.step (.next h2)
  | true =>
    refine (Goes.step (.lock h hf)).trans fun c' h1 h2 => ?_
    have h2 : c'.thr t = .mapped s (as ++ []) segs todo := by rw [List.append_nil]; exact h2
    refine (goes_mapped h2).trans fun c'' g1 g2 => ?_
    have : Goes c'' t (upd c''.lock .map none) (.busy s segs todo) := Goes.step (.unlock g2)
    rw [g1, h1, upd_back hf] at this
    exact this

theorem goes_segs {gs : List Seg} {s : Shape} {segs : List Seg} {todo : List Shape} {t : T} : ∀ {c : Conf T},
    c.thr t = .busy s (gs ++ segs) todo → c.lock .map = none → Goes c t c.lock (.busy s segs todo) := by
  induction gs with
  | nil => intro c h _; have := Goes.refl (c := c) (t := t); rw [h] at this; exact this
  | cons g gs ih =>
    intro c h hf
    exact (goes_seg h hf).trans fun c' h1 h2 => h1 ▸ ih h2 (h1 ▸ hf)

/-- The locks in a call. -/
def inCall (l : Lock → Option T) (t : T) (s : Shape) : Lock → Option T :=
  match s.outer with
  | some k => upd l k (some t)
  | none => l

theorem goes_in {s : Shape} {todo : List Shape} {t : T} {c : Conf T} (h : c.thr t = .idle (s :: todo)) (hf : ∀ k, s.outer = some k → c.lock k = none) :
    Goes c t (inCall c.lock t s) (.busy s s.segs todo) := by
  unfold inCall
  cases ho : s.outer with
  | none => exact Goes.step (.start h ho)
  | some k => exact Goes.step (.enter h ho (hf k ho))

omit [DecidableEq T] in
theorem inCall_map {l : Lock → Option T} {t : T} {s : Shape} (hs : s.outer ≠ some .map) (hf : l .map = none) : inCall l t s .map = none := by
  unfold inCall
  cases ho : s.outer with
  | none => exact hf
  | some k =>
    show upd l k (some t) .map = none
    unfold upd
    rw [if_neg (fun e => hs (by rw [ho, ← e]))]; exact hf

theorem goes_call {s : Shape} {todo : List Shape} {t : T} {c : Conf T} (h : c.thr t = .idle (s :: todo)) (hs : s.outer ≠ some .map)
    (hf : ∀ k, c.lock k = none) : Goes c t c.lock (.idle todo) := by
  refine (goes_in h fun k _ => hf k).trans fun c' h1 h2 => ?_
  have h2 : c'.thr t = .busy s (s.segs ++ []) todo := by rw [List.append_nil]; exact h2
  refine (goes_segs h2 (h1 ▸ inCall_map hs (hf _))).trans fun c'' g1 g2 => ?_
  cases ho : s.outer with
  | none =>
    have := Goes.step (.finish g2 ho)
    rw [g1, h1] at this
    unfold inCall at this
    rw [ho] at this
    exact this
  | some k =>
    have := Goes.step (.leave g2 ho)
    rw [g1, h1] at this
    unfold inCall at this
    rw [ho] at this
    have this : Goes c'' t (upd (upd c.lock k (some t)) k none) (.idle todo) := this
    rw [upd_back (hf k)] at this
    exact this

theorem goes_calls {pre todo : List Shape} {t : T} : ∀ {c : Conf T}, c.thr t = .idle (pre ++ todo) → (∀ s ∈ pre, s.outer ≠ some .map) →
    (∀ k, c.lock k = none) → Goes c t c.lock (.idle todo) := by
  induction pre with
  | nil => intro c h _ _; have := Goes.refl (c := c) (t := t); rw [h] at this; exact this
  | cons s pre ih =>
    intro c h hs hf
    exact (goes_call h (hs s (.head _)) hf).trans fun c' h1 h2 => h1 ▸ ih h2 (fun s h => hs s (.tail _ h)) (h1 ▸ hf)

/-- A thread goes to an access of a call, if the locks of the call are free. -/
theorem goes_to {s : Shape} {todo : List Shape} {t : T} {c : Conf T} (h : c.thr t = .idle (s :: todo)) (hs : s.outer ≠ some .map)
    (hf : ∀ k, s.outer = some k → c.lock k = none) (hm : c.lock .map = none) {g : Seg} (hg : g ∈ s.segs) {a : Acc} (ha : a ∈ g.accs) :
    ∃ c', Steps c c' ∧ (c'.thr t).pending = some a ∧ (∀ u, u ≠ t → c'.thr u = c.thr u) ∧
      (g.locked = false → c'.lock = inCall c.lock t s) := by
  obtain ⟨g1, g2, hg⟩ := List.append_of_mem hg
  obtain ⟨a1, a2, ha⟩ := List.append_of_mem ha
  have hgo : Goes c t (inCall c.lock t s) (.busy s (g :: g2) todo) := by
    refine (goes_in h hf).trans fun c' h1 h2 => ?_
    rw [hg] at h2
    exact h1 ▸ goes_segs h2 (h1 ▸ inCall_map hs hm)
  obtain ⟨b, as⟩ := g
  cases ha
  cases b with
  | false =>
    have : Goes c t (inCall c.lock t s) (.busy s (⟨false, a :: a2⟩ :: g2) todo) := hgo.trans fun c' h1 h2 => h1 ▸ goes_accs h2
    obtain ⟨c', h1, h2, h3, h4⟩ := this
    exact ⟨c', h1, by rw [h3]; rfl, h4, fun _ => h2⟩
  | true =>
    have : Goes c t (upd (inCall c.lock t s) .map (some t)) (.mapped s (a :: a2) g2 todo) := by
      refine hgo.trans fun c' h1 h2 => ?_
      refine (Goes.step (.lock h2 (h1 ▸ inCall_map hs hm))).trans fun c'' e1 e2 => ?_
      rw [h1] at e1
      exact e1 ▸ goes_mapped e2
    obtain ⟨c', h1, h2, h3, h4⟩ := this
    exact ⟨c', h1, by rw [h3]; rfl, h4, fun e => nomatch e⟩

theorem race_of_meet {P : T → List Shape} (hP : ∀ t, ∀ s ∈ P t, s.outer ≠ some .map) {t t' : T} (hne : t ≠ t') {s s' : Shape} (hs : s ∈ P t)
    (hs' : s' ∈ P t') {g g' : Seg} (hg : g ∈ s.segs) (hg' : g' ∈ s'.segs) {a a' : Acc} (ha : a ∈ g.accs) (ha' : a' ∈ g'.accs)
    (ho : a.obj = a'.obj) (hw : a.write = true ∨ a'.write = true) (hl : g.locked = false) (hk : s.outer = none ∨ s.outer ≠ s'.outer) :
    ∃ c, Steps (begin' P) c ∧ Race c := by
  obtain ⟨p1, p2, hp⟩ := List.append_of_mem hs
  obtain ⟨q1, q2, hq⟩ := List.append_of_mem hs'
  have hn := hP t s hs
  have hn' := hP t' s' hs'
  -- both threads come to their calls
  obtain ⟨c1, r1, l1, t1, o1⟩ := goes_calls (c := begin' P) (t := t) (pre := p1) (todo := s :: p2) (by show Thread.idle (P t) = _; rw [hp])
    (fun x hx => hP t x (by rw [hp]; exact List.mem_append_left _ hx)) fun _ => rfl
  have l1 : ∀ k, c1.lock k = none := fun k => by rw [l1]; rfl
  obtain ⟨c2, r2, l2, t2, o2⟩ := goes_calls (c := c1) (t := t') (pre := q1) (todo := s' :: q2)
    (by rw [o1 t' hne.symm]; show Thread.idle (P t') = _; rw [hq]) (fun x hx => hP t' x (by rw [hq]; exact List.mem_append_left _ hx)) l1
  have l2 : ∀ k, c2.lock k = none := fun k => by rw [l2]; exact l1 k
  -- the first goes to its access
  obtain ⟨c3, r3, t3, o3, l3⟩ := goes_to (c := c2) (t := t) (by rw [o2 t hne]; exact t1) hn (fun k _ => l2 k) (l2 _) hg ha
  have l3 := l3 hl
  -- and then the second
  have hfree : ∀ k, s.outer ≠ some k → c3.lock k = none := by
    intro k hk
    rw [l3]
    unfold inCall
    cases e : s.outer with
    | none => exact l2 k
    | some k' =>
      show upd c2.lock k' (some t) k = none
      unfold upd
      rw [if_neg (fun e' => hk (by rw [e, e']))]
      exact l2 k
  obtain ⟨c4, r4, t4, o4, -⟩ := goes_to (c := c3) (t := t') (by rw [o3 t' hne.symm]; exact t2) hn' (fun k e => hfree k (by
    rcases hk with hk | hk
    · rw [hk]; intro h; cases h
    · rw [← e]; exact hk)) (hfree _ hn) hg' ha'
  exact ⟨c4, ((r1.trans r2).trans r3).trans r4, t, t', a, a', hne, by rw [o4 t hne]; exact t3, t4, ho, hw⟩

/-- A race can come about exactly if two threads have calls with accesses that can meet. -/
theorem race_shapes {P : T → List Shape} (hP : ∀ t, ∀ s ∈ P t, s.outer ≠ some .map) :
    (∃ c, Steps (begin' P) c ∧ Race c) ↔ ∃ t t', t ≠ t' ∧ ∃ s ∈ P t, ∃ s' ∈ P t', Meet s s' := by
  constructor
  · rintro ⟨c, h, hr⟩
    exact meet_of_race hP h hr
  · rintro ⟨t, t', hne, s, hs, s', hs', hm⟩
    obtain ⟨g, hg, g', hg', a, ha, a', ha', ho, hw, hl, hk⟩ := id hm
    rcases hl with hl | hl
    · exact race_of_meet hP hne hs hs' hg hg' ha ha' ho hw hl hk
    · have hk' : s'.outer = none ∨ s'.outer ≠ s.outer := by
        obtain ⟨_, _, _, _, _, _, _, _, _, _, _, h⟩ := hm.symm
        exact h
      exact race_of_meet hP hne.symm hs' hs hg' hg ha' ha ho.symm hw.symm hl hk'

/-- Somebody can always go on. -/
theorem progress {P : T → List Shape} (hP : ∀ t, ∀ s ∈ P t, s.outer ≠ some .map) {c : Conf T} (h : Steps (begin' P) c) {t : T}
    (ht : c.thr t ≠ .idle []) : ∃ c', Step c c' := by
  have ok := Ok.steps hP h
  have mapped : ∀ u s as segs todo, c.thr u = .mapped s as segs todo → ∃ c', Step c c' := by
    intro u s as segs todo e
    cases as with
    | nil => exact ⟨_, .unlock e⟩
    | cons a as => exact ⟨_, .accMapped e⟩
  cases hm : c.lock .map with
  | some u =>
    have hu := (ok.held .map u).mp hm
    have hw := ok.within u
    match e : c.thr u, hu, hw with
    | .busy s segs todo, hu, hw => exact absurd hu (hP u s hw.1)
    | .mapped s as segs todo, _, _ => exact mapped u s as segs todo e
    | .idle todo, hu, _ => exact hu.elim
  | none =>
    have busy : ∀ u s segs todo, c.thr u = .busy s segs todo → ∃ c', Step c c' := by
      intro u s segs todo e
      match segs, e with
      | [], e =>
        cases ho : s.outer with
        | none => exact ⟨_, .finish e ho⟩
        | some k => exact ⟨_, .leave e ho⟩
      | ⟨false, []⟩ :: segs, e => exact ⟨_, .next e⟩
      | ⟨false, a :: as⟩ :: segs, e => exact ⟨_, .acc e⟩
      | ⟨true, as⟩ :: segs, e => exact ⟨_, .lock e hm⟩
    match e : c.thr t with
    | .mapped s as segs todo => exact mapped t s as segs todo e
    | .busy s segs todo => exact busy t s segs todo e
    | .idle [] => exact absurd e ht
    | .idle (s :: todo) =>
      cases ho : s.outer with
      | none => exact ⟨_, .start e ho⟩
      | some k =>
        cases hk : c.lock k with
        | none => exact ⟨_, .enter e ho hk⟩
        | some u =>
          have hu := (ok.held k u).mp hk
          match e : c.thr u, hu with
          | .busy s segs todo, _ => exact busy u s segs todo e
          | .mapped s as segs todo, _ => exact mapped u s as segs todo e
          | .idle todo, hu => exact hu.elim

end Umpire.Tables
