import Verif.Conc.Lock
/-!
# Concurrent use is equivalent to sequential use (C37)
-/
set_option autoImplicit false
set_option linter.unusedSimpArgs false
namespace Umpire.Conc

variable {G A V K T : Type}

/-! ## Reading a body from its first action -/

theorem Part.inv {S : Type} {π : G → S} {b b' : Body G A V} {s s'' : S} (h : Part π b s b' s'') :
    (b' = b ∧ s'' = s) ∨ ∃ (R : G → A → G → Prop) (f : A → Body G A V) (a : A) (s' : S), b = .act R f ∧ On π R s a s' ∧ Part π (f a) s' b' s'' := by
  induction h with
  | refl => exact .inl ⟨rfl, rfl⟩
  | @snoc s1 s2 R f a h1 hR ih =>
    rcases ih with ⟨hb, hs⟩ | ⟨R', f', a', s', hb, hR', h'⟩
    · subst hs
      exact .inr ⟨R, f, a, s2, hb.symm, hR, .refl⟩
    · exact .inr ⟨R', f', a', s', hb, hR', .snoc h' hR⟩

theorem Part.act_inv {S : Type} {π : G → S} {R : G → A → G → Prop} {f : A → Body G A V} {v : V} {s s'' : S}
    (h : Part π (.act R f) s (.ret v) s'') : ∃ (a : A) (s' : S), On π R s a s' ∧ Part π (f a) s' (.ret v) s'' := by
  rcases h.inv with ⟨hb, _⟩ | ⟨R', f', a, s', hb, hR, h'⟩
  · cases hb
  · cases hb; exact ⟨a, s', hR, h'⟩

theorem Part.ret_inv {S : Type} {π : G → S} {v v' : V} {s s'' : S} (h : Part (A := A) π (.ret v) s (.ret v') s'') : v' = v ∧ s'' = s := by
  rcases h.inv with ⟨hb, hs⟩ | ⟨R', f', a, s', hb, hR, h'⟩
  · cases hb; exact ⟨rfl, hs⟩
  · cases hb

theorem On.same {R : G → A → G → Prop} {g g' : G} {a : A} (h : On (fun x => x) R g a g') : R g a g' := by
  obtain ⟨g1, g2, hR, h1, h2⟩ := h
  subst h1; subst h2; exact hR

/-! ## One thread-safe allocator -/

variable [DecidableEq T]

theorem frame_one {b : Body G A V} : b.Frame (fun (_ : Unit) (g : G) => g) () := by
  induction b with
  | ret v => exact .ret
  | act R f ih => exact .act (fun g a g' _ j hj => absurd rfl hj) ih

theorem thr_frame_one {p : Thr G A V Unit} : p.Frame (fun (_ : Unit) (g : G) => g) := by
  induction p with
  | stop => exact .stop
  | call k b next ih => exact .call frame_one ih

omit [DecidableEq T] in
theorem onLock_one (log : List (Done G A V Unit T)) : onLock () log = log.map fun d => (d.b, d.v) := by
  unfold onLock
  rw [List.filter_eq_self.mpr (by intro d _; simp)]

/-- C37.  Any number of threads, any programs, any schedule, all calls through handles of
one `ThreadSafeAllocator`: the completed calls, taken one after the other in the order
in which they completed, lead from the initial state to the present one with the same
results, and the calls of each thread are a beginning of its program.  The state is the
whole state of the process, what happens inside a call is arbitrary. -/
theorem threadsafe_serial {g0 : G} {P : T → Thr G A V Unit} {c : Config G A V Unit T} (h : Reach g0 P c)
    (hq : ∀ t, ∃ p, c.thr t = .idle p) :
    Seq (fun g : G => g) g0 (c.log.map fun d => (d.b, d.v)) c.g ∧ ∀ t, Path (P t) (ofThread t c.log) (c.thr t).prog := by
  have ok := h.ok (π := fun (_ : Unit) (g : G) => g) (fun t => thr_frame_one)
  refine ⟨?_, ok.path⟩
  obtain ⟨s, h1, h2, _⟩ := ok.seq ()
  have hl : c.lock () = none := by
    cases hl : c.lock () with
    | none => rfl
    | some t =>
      obtain ⟨b0, b, next, hb⟩ := ok.held () t hl
      obtain ⟨p, hp⟩ := hq t
      rw [hb] at hp; cases hp
  have h2 : c.g = s := h2 hl
  rw [onLock_one] at h1
  rw [h2]; exact h1

/-- The same at any moment, also in the middle of calls: the completed calls lead to a
state from which the one call in progress, if there is one, has led to the present
state. -/
theorem threadsafe_serial_prefix {g0 : G} {P : T → Thr G A V Unit} {c : Config G A V Unit T} (h : Reach g0 P c) :
    ∃ s, Seq (fun g : G => g) g0 (c.log.map fun d => (d.b, d.v)) s ∧
      ((∀ t, ∃ p, c.thr t = .idle p) ∧ c.g = s ∨
        ∃ t b0 b next, c.thr t = .busy () b0 b next ∧ Part (fun g : G => g) b0 s b c.g ∧ ∀ t', t' ≠ t → ∃ p, c.thr t' = .idle p) := by
  have ok := h.ok (π := fun (_ : Unit) (g : G) => g) (fun t => thr_frame_one)
  obtain ⟨s, h1, h2, h3⟩ := ok.seq ()
  rw [onLock_one] at h1
  refine ⟨s, h1, ?_⟩
  cases hl : c.lock () with
  | none =>
    refine .inl ⟨fun t => ?_, h2 hl⟩
    cases ht : c.thr t with
    | idle p => exact ⟨p, rfl⟩
    | busy k b0 b next => rw [ok.owner t k b0 b next ht] at hl; cases hl
  | some t =>
    obtain ⟨b0, b, next, hb⟩ := ok.held () t hl
    refine .inr ⟨t, b0, b, next, hb, h3 t b0 b next hb, fun t' ht => ?_⟩
    cases ht' : c.thr t' with
    | idle p => exact ⟨p, rfl⟩
    | busy k b0' b' next' =>
      have := ok.owner t' k b0' b' next' ht'
      rw [hl] at this; cases this; exact absurd rfl ht

/-! ## Several thread-safe allocators -/

variable [DecidableEq K]

/-- C37, several thread-safe allocators over separate strategies (`π k` is the state
beneath allocator `k`; everything else, such as the system heap and the map of
allocations, answers arbitrarily and is changed by all).  The calls on each allocator
are equivalent to a sequential use of it with the same results and the same answers
from outside, and each thread does its program. -/
theorem threadsafe_serial_each {S : Type} {π : K → G → S} {g0 : G} {P : T → Thr G A V K} (hP : ∀ t, (P t).Frame π)
    {c : Config G A V K T} (h : Reach g0 P c) (hq : ∀ t, ∃ p, c.thr t = .idle p) :
    (∀ k, Seq (π k) (π k g0) (onLock k c.log) (π k c.g)) ∧ ∀ t, Path (P t) (ofThread t c.log) (c.thr t).prog := by
  have ok := h.ok hP
  refine ⟨fun k => ?_, ok.path⟩
  obtain ⟨s, h1, h2, _⟩ := ok.seq k
  have hl : c.lock k = none := by
    cases hl : c.lock k with
    | none => rfl
    | some t =>
      obtain ⟨b0, b, next, hb⟩ := ok.held k t hl
      obtain ⟨p, hp⟩ := hq t
      rw [hb] at hp; cases hp
  rw [h2 hl]; exact h1

/-- All actions of a body under the lock `k` see and change only the part of `k`. -/
inductive Body.Local {S : Type} (π : K → G → S) (k : K) : Body G A V → Prop where
  | ret {v : V} : Body.Local π k (.ret v)
  | act {R : G → A → G → Prop} {f : A → Body G A V} (hR : ∀ g a g', R g a g' → ∀ j, j ≠ k → π j g' = π j g)
      (hL : ∀ g a g' h, R g a g' → π k h = π k g → ∃ h', R h a h' ∧ π k h' = π k g')
      (hf : ∀ a, Body.Local π k (f a)) : Body.Local π k (.act R f)

inductive Thr.Local {S : Type} (π : K → G → S) : Thr G A V K → Prop where
  | stop : Thr.Local π .stop
  | call {k : K} {b : Body G A V} {next : V → Thr G A V K} (hb : b.Local π k) (hn : ∀ v, Thr.Local π (next v)) :
      Thr.Local π (.call k b next)

omit [DecidableEq K] in
theorem Body.Local.frame {S : Type} {π : K → G → S} {k : K} {b : Body G A V} (h : b.Local π k) : b.Frame π k := by
  induction h with
  | ret => exact .ret
  | act hR _ _ ih => exact .act hR ih

omit [DecidableEq K] in
theorem Thr.Local.frame {S : Type} {π : K → G → S} {p : Thr G A V K} (h : p.Local π) : p.Frame π := by
  induction h with
  | stop => exact .stop
  | call hb _ ih => exact .call hb.frame ih

omit [DecidableEq K] in
/-- Actions on the part of `k` can be done in any state with the same part. -/
theorem Part.lift {S : Type} {π : K → G → S} {k : K} {b b' : Body G A V} {s s' : S} (h : Part (π k) b s b' s') (hb : b.Local π k)
    {g : G} (hg : π k g = s) :
    ∃ g', Part (fun x : G => x) b g b' g' ∧ π k g' = s' ∧ (∀ j, j ≠ k → π j g' = π j g) ∧ b'.Local π k := by
  induction h with
  | refl => exact ⟨g, .refl, hg, fun _ _ => rfl, hb⟩
  | @snoc s1 s2 R f a h1 hR ih =>
    obtain ⟨g1, hp, hg1, hfr, hl⟩ := ih
    obtain ⟨u, u', hu, hu1, hu2⟩ := hR
    cases hl with
    | act hR' hL hf =>
      obtain ⟨g2, hg2, hg3⟩ := hL u a u' g1 hu (by rw [hg1, hu1])
      exact ⟨g2, .snoc hp ⟨g1, g2, hg2, rfl, rfl⟩, by rw [hg3, hu2], fun j hj => by rw [hR' _ _ _ hg2 j hj, hfr j hj], hf a⟩

omit [DecidableEq K] in
/-- The bodies of completed and running calls are calls of the programs. -/
theorem Path.local {S : Type} {π : K → G → S} {p p' : Thr G A V K} {l : List (K × Body G A V × V)} (h : Path p l p') (hp : p.Local π) :
    p'.Local π ∧ ∀ e ∈ l, e.2.1.Local π e.1 := by
  induction h with
  | nil => exact ⟨hp, fun e he => by cases he⟩
  | cons h ih =>
    cases hp with
    | call hb hn =>
      obtain ⟨h1, h2⟩ := ih (hn _)
      refine ⟨h1, fun e he => ?_⟩
      rcases List.mem_cons.mp he with he | he
      · subst he; exact hb
      · exact h2 e he

/-- C37, several thread-safe allocators whose calls see and change nothing but what is
beneath them: the whole state and all results are those of the completed calls done one
after the other, in the order in which they completed. -/
theorem threadsafe_serial_all {S : Type} {π : K → G → S} (hinj : ∀ g g', (∀ k, π k g = π k g') → g = g') {g0 : G} {P : T → Thr G A V K}
    (hP : ∀ t, (P t).Local π) {c : Config G A V K T} (h : Reach g0 P c) (hq : ∀ t, ∃ p, c.thr t = .idle p) :
    Seq (fun g : G => g) g0 (c.log.map fun d => (d.b, d.v)) c.g ∧ ∀ t, Path (P t) (ofThread t c.log) (c.thr t).prog := by
  have key : ∃ gs : G, Seq (fun g : G => g) g0 (c.log.map fun d => (d.b, d.v)) gs ∧ (∀ k, c.lock k = none → π k c.g = π k gs) ∧
      ∀ t k b0 b next, c.thr t = .busy k b0 b next → Part (π k) b0 (π k gs) b (π k c.g) := by
    clear hq
    induction h with
    | init => exact ⟨g0, .nil, fun _ _ => rfl, fun t k b0 b next hb => by cases hb⟩
    | @step c c' hr hs ih =>
      have ok := hr.ok (fun t => (hP t).frame)
      obtain ⟨gs, h1, h2, h3⟩ := ih
      cases hs with
      | @lock t k b next hi hf =>
        refine ⟨gs, h1, fun k' hl => h2 k' ?_, fun t' k' b0 b' next' hb => ?_⟩
        · have hl : upd c.lock k (some t) k' = none := hl
          unfold upd at hl
          by_cases hk : k' = k
          · rw [if_pos hk] at hl; cases hl
          · rw [if_neg hk] at hl; exact hl
        · have hb : upd c.thr t (.busy k b b next) t' = .busy k' b0 b' next' := hb
          show Part (π k') b0 (π k' gs) b' (π k' c.g)
          unfold upd at hb
          by_cases ht : t' = t
          · rw [if_pos ht] at hb
            cases hb
            rw [h2 _ hf]; exact .refl
          · rw [if_neg ht] at hb; exact h3 t' k' b0 b' next' hb
      | @act t k b0 R f next a g' hb hR =>
        have hfr : ∀ j, j ≠ k → π j g' = π j c.g := by
          have hft := ok.frame t
          rw [hb] at hft
          cases hft.1 with
          | act h1 _ => exact h1 _ _ _ hR
        have hown := ok.owner t k b0 _ next hb
        refine ⟨gs, h1, fun k' hl => ?_, fun t' k' b0' b' next' hb' => ?_⟩
        · have hl : c.lock k' = none := hl
          have hk : k' ≠ k := by rintro rfl; rw [hown] at hl; cases hl
          show π k' g' = π k' gs
          rw [hfr k' hk]; exact h2 k' hl
        · have hb' : upd c.thr t (.busy k b0 (f a) next) t' = .busy k' b0' b' next' := hb'
          show Part (π k') b0' (π k' gs) b' (π k' g')
          unfold upd at hb'
          by_cases ht : t' = t
          · rw [if_pos ht] at hb'
            cases hb'
            exact .snoc (h3 t _ b0 _ next hb) ⟨_, _, hR, rfl, rfl⟩
          · rw [if_neg ht] at hb'
            have hk : k' ≠ k := by
              intro hk
              have := ok.owner t' k' b0' b' next' hb'
              rw [hk, hown] at this
              cases this
              exact ht rfl
            rw [hfr k' hk]
            exact h3 t' k' b0' b' next' hb'
      | @unlock t k b0 v next hb =>
        have hpath := ok.path t
        rw [hb] at hpath
        have hloc : b0.Local π k := by
          have := (Path.local hpath (hP t)).1
          cases this with
          | call hb _ => exact hb
        have hown := ok.owner t k b0 _ next hb
        obtain ⟨g2, hp, hg2, hfr, _⟩ := (h3 t k b0 _ next hb).lift hloc rfl
        refine ⟨g2, ?_, fun k' hl => ?_, fun t' k' b0' b' next' hb' => ?_⟩
        · show Seq (fun g : G => g) g0 ((c.log ++ [(⟨t, k, b0, v⟩ : Done G A V K T)]).map fun d => (d.b, d.v)) g2
          rw [List.map_append]
          exact h1.snoc hp
        · have hl : upd c.lock k none k' = none := hl
          show π k' c.g = π k' g2
          unfold upd at hl
          by_cases hk : k' = k
          · rw [hk, hg2]
          · rw [if_neg hk] at hl; rw [hfr k' hk]; exact h2 k' hl
        · have hb' : upd c.thr t (.idle (next v)) t' = .busy k' b0' b' next' := hb'
          show Part (π k') b0' (π k' g2) b' (π k' c.g)
          unfold upd at hb'
          by_cases ht : t' = t
          · rw [if_pos ht] at hb'; cases hb'
          · rw [if_neg ht] at hb'
            have hk : k' ≠ k := by
              intro hk
              have := ok.owner t' k' b0' b' next' hb'
              rw [hk, hown] at this
              cases this
              exact ht rfl
            rw [hfr k' hk]
            exact h3 t' k' b0' b' next' hb'
  have ok := h.ok (fun t => (hP t).frame)
  obtain ⟨gs, h1, h2, _⟩ := key
  refine ⟨?_, ok.path⟩
  have : c.g = gs := hinj _ _ fun k => h2 k (by
    cases hl : c.lock k with
    | none => rfl
    | some t =>
      obtain ⟨b0, b, next, hb⟩ := ok.held k t hl
      obtain ⟨p, hp⟩ := hq t
      rw [hb] at hp; cases hp)
  rw [this]; exact h1

/-! ## No deadlock -/

/-- Some action of every body is always possible. -/
inductive Body.Live : Body G A V → Prop where
  | ret {v : V} : Body.Live (.ret v)
  | act {R : G → A → G → Prop} {f : A → Body G A V} (hR : ∀ g, ∃ a g', R g a g') (hf : ∀ a, Body.Live (f a)) : Body.Live (.act R f)

inductive Thr.Live : Thr G A V K → Prop where
  | stop : Thr.Live .stop
  | call {k : K} {b : Body G A V} {next : V → Thr G A V K} (hb : b.Live) (hn : ∀ v, Thr.Live (next v)) : Thr.Live (.call k b next)

theorem Reach.live {g0 : G} {P : T → Thr G A V K} (hP : ∀ t, (P t).Live) {c : Config G A V K T} (h : Reach g0 P c) (t : T) :
    match c.thr t with
    | .idle p => p.Live
    | .busy _ _ b next => b.Live ∧ ∀ v, (next v).Live := by
  induction h generalizing t with
  | init => exact hP t
  | @step c c' _ hs ih =>
    cases hs with
    | @lock t' k b next hi hf =>
      show match upd c.thr t' (.busy k b b next) t with | .idle p => p.Live | .busy _ _ b next => b.Live ∧ ∀ v, (next v).Live
      unfold upd
      by_cases ht : t = t'
      · have := ih t'
        rw [hi] at this
        rw [if_pos ht]
        cases this with
        | call hb hn => exact ⟨hb, hn⟩
      · rw [if_neg ht]; exact ih t
    | @act t' k b0 R f next a g' hb hR =>
      show match upd c.thr t' (.busy k b0 (f a) next) t with | .idle p => p.Live | .busy _ _ b next => b.Live ∧ ∀ v, (next v).Live
      unfold upd
      by_cases ht : t = t'
      · have := ih t'
        rw [hb] at this
        rw [if_pos ht]
        obtain ⟨h1, h2⟩ := this
        cases h1 with
        | act _ hf => exact ⟨hf a, h2⟩
      · rw [if_neg ht]; exact ih t
    | @unlock t' k b0 v next hb =>
      show match upd c.thr t' (.idle (next v)) t with | .idle p => p.Live | .busy _ _ b next => b.Live ∧ ∀ v, (next v).Live
      unfold upd
      by_cases ht : t = t'
      · have := ih t'
        rw [hb] at this
        rw [if_pos ht]; exact this.2 v
      · rw [if_neg ht]; exact ih t

/-- Threads never block each other forever: as long as some thread has work left, some
thread can do a step. -/
theorem threadsafe_no_deadlock {g0 : G} {P : T → Thr G A V K} (hP : ∀ t, (P t).Live) {c : Config G A V K T} (h : Reach g0 P c)
    (hw : ∃ t, c.thr t ≠ .idle .stop) : ∃ c', Step c c' := by
  have ok := h.ok (π := fun (_ : K) (_ : G) => ()) (fun t => by
    have : ∀ p : Thr G A V K, p.Frame (fun (_ : K) (_ : G) => ()) := by
      intro p
      induction p with
      | stop => exact .stop
      | call k b next ih =>
        refine .call ?_ ih
        clear ih
        induction b with
        | ret v => exact .ret
        | act R f ih => exact .act (fun _ _ _ _ _ _ => rfl) ih
    exact this _)
  have busy : ∀ t k b0 b next, c.thr t = .busy k b0 b next → ∃ c', Step c c' := by
    intro t k b0 b next hb
    have hl := h.live hP t
    rw [hb] at hl
    cases b with
    | ret v => exact ⟨_, .unlock hb⟩
    | act R f =>
      cases hl.1 with
      | act hR _ =>
        obtain ⟨a, g', hR⟩ := hR c.g
        exact ⟨_, .act hb hR⟩
  obtain ⟨t, ht⟩ := hw
  cases h1 : c.thr t with
  | busy k b0 b next => exact busy t k b0 b next h1
  | idle p =>
    cases p with
    | stop => exact absurd h1 ht
    | call k b next =>
      cases hl : c.lock k with
      | none => exact ⟨_, .lock h1 hl⟩
      | some t' =>
        obtain ⟨b0, b', next', hb⟩ := ok.held k t' hl
        exact busy t' k b0 b' next' hb

end Umpire.Conc
