/-!
# Threads using thread-safe allocators

Model of `Allocator::thread_safe_allocate`, `thread_safe_named_allocate` and
`thread_safe_deallocate` (src/umpire/Allocator.inl:50-66): a call through a handle of
a `ThreadSafeAllocator` locks the mutex of that strategy, runs the body of
`do_allocate`, `do_named_allocate` or `do_deallocate`, and unlocks when it leaves, also
by an exception (`std::lock_guard`).

The body is any code: a tree of atomic actions on the global state, each with an
answer on which the rest depends.  Nothing is assumed about what the actions of the
strategies beneath do or how they are cut into atomic actions; actions of components
with a lock of their own (`AllocationMap`, `malloc`) are single actions.

A thread is any program that calls through handles, each call depending on the
results of the earlier ones.  The steps of all threads interleave arbitrarily.

Not modelled: weak memory (the mutex orders everything done under it), forced
termination of threads.
-/
set_option autoImplicit false
namespace Umpire.Conc

variable {G A V K T : Type}

/-- The body of a call: `V` are results (a value or an exception), `A` the answers of
actions, `G` the global state. -/
inductive Body (G A V : Type) where
  | ret (v : V)
  | act (R : G → A → G → Prop) (k : A → Body G A V)

/-- The program of a thread: calls under the lock `k`. -/
inductive Thr (G A V K : Type) where
  | stop
  | call (k : K) (b : Body G A V) (next : V → Thr G A V K)

/-- A thread at some moment: between calls, or in a call that began as `b0` and has `b`
left to do. -/
inductive TS (G A V K : Type) where
  | idle (p : Thr G A V K)
  | busy (k : K) (b0 b : Body G A V) (next : V → Thr G A V K)

/-- A completed call. -/
structure Done (G A V K T : Type) where
  t : T
  k : K
  b : Body G A V
  v : V

/-- Global state, owner of each lock, threads, and the completed calls in the order in
which they completed. -/
structure Config (G A V K T : Type) where
  g : G
  lock : K → Option T
  thr : T → TS G A V K
  log : List (Done G A V K T)

/-- Change a function at one place. -/
def upd {X Y : Type} [DecidableEq X] (f : X → Y) (x : X) (y : Y) : X → Y := fun z => if z = x then y else f z

variable [DecidableEq K] [DecidableEq T]

/-- One step of one thread. -/
inductive Step : Config G A V K T → Config G A V K T → Prop where
  /-- the constructor of `lock_guard` -/
  | lock {c : Config G A V K T} {t : T} {k : K} {b : Body G A V} {next : V → Thr G A V K}
      (hi : c.thr t = .idle (.call k b next)) (hf : c.lock k = none) :
      Step c ⟨c.g, upd c.lock k (some t), upd c.thr t (.busy k b b next), c.log⟩
  /-- an action of the body -/
  | act {c : Config G A V K T} {t : T} {k : K} {b0 : Body G A V} {R : G → A → G → Prop} {f : A → Body G A V}
      {next : V → Thr G A V K} {a : A} {g' : G} (hb : c.thr t = .busy k b0 (.act R f) next) (hR : R c.g a g') :
      Step c ⟨g', c.lock, upd c.thr t (.busy k b0 (f a) next), c.log⟩
  /-- the destructor of `lock_guard` -/
  | unlock {c : Config G A V K T} {t : T} {k : K} {b0 : Body G A V} {v : V} {next : V → Thr G A V K}
      (hb : c.thr t = .busy k b0 (.ret v) next) :
      Step c ⟨c.g, upd c.lock k none, upd c.thr t (.idle (next v)), c.log ++ [⟨t, k, b0, v⟩]⟩

/-- Everything that can happen from `g0` with the given programs. -/
inductive Reach (g0 : G) (P : T → Thr G A V K) : Config G A V K T → Prop where
  | init : Reach g0 P ⟨g0, fun _ => none, fun t => .idle (P t), []⟩
  | step {c c' : Config G A V K T} (h : Reach g0 P c) (hs : Step c c') : Reach g0 P c'

/-! ## Specification: one call after the other -/

/-- The effect of an action on the part `π` of the state. -/
def On {S : Type} (π : G → S) (R : G → A → G → Prop) (s : S) (a : A) (s' : S) : Prop := ∃ g g', R g a g' ∧ π g = s ∧ π g' = s'

/-- Some actions of a body, without interruption. -/
inductive Part {S : Type} (π : G → S) : Body G A V → S → Body G A V → S → Prop where
  | refl {b : Body G A V} {s : S} : Part π b s b s
  | snoc {b : Body G A V} {s s' s'' : S} {R : G → A → G → Prop} {f : A → Body G A V} {a : A}
      (h : Part π b s (.act R f) s') (hR : On π R s' a s'') : Part π b s (f a) s''

/-- Calls one after the other, with their results. -/
inductive Seq {S : Type} (π : G → S) : S → List (Body G A V × V) → S → Prop where
  | nil {s : S} : Seq π s [] s
  | cons {s s' s'' : S} {b : Body G A V} {v : V} {l : List (Body G A V × V)}
      (h : Part π b s (.ret v) s') (hl : Seq π s' l s'') : Seq π s ((b, v) :: l) s''

/-- `p` becomes `p'` by doing the calls with the given results. -/
inductive Path : Thr G A V K → List (K × Body G A V × V) → Thr G A V K → Prop where
  | nil {p : Thr G A V K} : Path p [] p
  | cons {k : K} {b : Body G A V} {next : V → Thr G A V K} {v : V} {l : List (K × Body G A V × V)} {p : Thr G A V K}
      (h : Path (next v) l p) : Path (.call k b next) ((k, b, v) :: l) p

/-- The calls under a lock, and the calls of a thread. -/
def onLock (k : K) (log : List (Done G A V K T)) : List (Body G A V × V) :=
  (log.filter fun d => d.k = k).map fun d => (d.b, d.v)

def ofThread (t : T) (log : List (Done G A V K T)) : List (K × Body G A V × V) :=
  (log.filter fun d => d.t = t).map fun d => (d.k, d.b, d.v)

/-- The program a thread has still to do, from its current call on. -/
def TS.prog : TS G A V K → Thr G A V K
  | .idle p => p
  | .busy k b0 _ next => .call k b0 next

theorem Seq.snoc {S : Type} {π : G → S} {s s' s'' : S} {l : List (Body G A V × V)} {b : Body G A V} {v : V} (h : Seq π s l s')
    (hb : Part π b s' (.ret v) s'') : Seq π s (l ++ [(b, v)]) s'' := by
  induction h with
  | nil => exact .cons hb .nil
  | cons h _ ih => exact .cons h (ih hb)

omit [DecidableEq K] in
theorem Path.snoc {p : Thr G A V K} {l : List (K × Body G A V × V)} {k : K} {b : Body G A V} {next : V → Thr G A V K} {v : V}
    (h : Path p l (.call k b next)) : Path p (l ++ [(k, b, v)]) (next v) := by
  generalize hq : Thr.call k b next = q at h
  induction h with
  | nil => subst hq; exact .cons .nil
  | cons h ih => exact .cons (ih hq)

/-! ## Which programs are covered -/

/-- All actions of a body under the lock `k` leave the parts of the other locks alone. -/
inductive Body.Frame {S : Type} (π : K → G → S) (k : K) : Body G A V → Prop where
  | ret {v : V} : Body.Frame π k (.ret v)
  | act {R : G → A → G → Prop} {f : A → Body G A V} (hR : ∀ g a g', R g a g' → ∀ j, j ≠ k → π j g' = π j g)
      (hf : ∀ a, Body.Frame π k (f a)) : Body.Frame π k (.act R f)

inductive Thr.Frame {S : Type} (π : K → G → S) : Thr G A V K → Prop where
  | stop : Thr.Frame π .stop
  | call {k : K} {b : Body G A V} {next : V → Thr G A V K} (hb : b.Frame π k) (hn : ∀ v, Thr.Frame π (next v)) :
      Thr.Frame π (.call k b next)

/-- What holds of every reachable configuration. -/
structure Ok {S : Type} (π : K → G → S) (g0 : G) (P : T → Thr G A V K) (c : Config G A V K T) : Prop where
  frame : ∀ t, match c.thr t with
    | .idle p => p.Frame π
    | .busy k _ b next => b.Frame π k ∧ ∀ v, (next v).Frame π
  owner : ∀ t k b0 b next, c.thr t = .busy k b0 b next → c.lock k = some t
  held : ∀ k t, c.lock k = some t → ∃ b0 b next, c.thr t = .busy k b0 b next
  seq : ∀ k, ∃ s, Seq (π k) (π k g0) (onLock k c.log) s ∧ (c.lock k = none → π k c.g = s) ∧
    ∀ t b0 b next, c.thr t = .busy k b0 b next → Part (π k) b0 s b (π k c.g)
  path : ∀ t, Path (P t) (ofThread t c.log) (c.thr t).prog

theorem Ok.step {S : Type} {π : K → G → S} {g0 : G} {P : T → Thr G A V K} {c c' : Config G A V K T} (h : Ok π g0 P c) (hs : Step c c') :
    Ok π g0 P c' := by
  cases hs with
  | @lock t k b next hi hf =>
    have hft := h.frame t
    rw [hi] at hft
    have hft : Thr.Frame π (.call k b next) := hft
    have hno : ∀ t' b0 b next, c.thr t' ≠ .busy k b0 b next := fun t' b0 b next hb => by
      rw [h.owner t' k b0 b next hb] at hf; cases hf
    refine ⟨fun t' => ?_, fun t' k' b0 b' next' hb => ?_, fun k' t' hl => ?_, fun k' => ?_, fun t' => ?_⟩
    · show match upd c.thr t (.busy k b b next) t' with | .idle p => p.Frame π | .busy k _ b next => b.Frame π k ∧ ∀ v, (next v).Frame π
      unfold upd
      by_cases ht : t' = t
      · rw [if_pos ht]
        cases hft with
        | call hb hn => exact ⟨hb, hn⟩
      · rw [if_neg ht]; exact h.frame t'
    · have hb : upd c.thr t (.busy k b b next) t' = .busy k' b0 b' next' := hb
      show upd c.lock k (some t) k' = some t'
      unfold upd at hb ⊢
      by_cases ht : t' = t
      · rw [if_pos ht] at hb
        cases hb
        rw [if_pos rfl, ht]
      · rw [if_neg ht] at hb
        have := h.owner t' k' b0 b' next' hb
        by_cases hk : k' = k
        · subst hk; rw [hf] at this; cases this
        · rw [if_neg hk]; exact this
    · have hl : upd c.lock k (some t) k' = some t' := hl
      show ∃ b0 b' next', upd c.thr t (.busy k b b next) t' = .busy k' b0 b' next'
      unfold upd at hl ⊢
      by_cases hk : k' = k
      · rw [if_pos hk] at hl
        cases hl
        rw [if_pos rfl, hk]
        exact ⟨_, _, _, rfl⟩
      · rw [if_neg hk] at hl
        obtain ⟨b0, b', next', hb⟩ := h.held k' t' hl
        by_cases ht : t' = t
        · subst ht; rw [hi] at hb; cases hb
        · rw [if_neg ht]; exact ⟨b0, b', next', hb⟩
    · obtain ⟨s, h1, h2, h3⟩ := h.seq k'
      refine ⟨s, h1, fun hl => h2 ?_, fun t' b0 b' next' hb => ?_⟩
      · have hl : upd c.lock k (some t) k' = none := hl
        unfold upd at hl
        by_cases hk : k' = k
        · rw [if_pos hk] at hl; cases hl
        · rw [if_neg hk] at hl; exact hl
      · have hb : upd c.thr t (.busy k b b next) t' = .busy k' b0 b' next' := hb
        unfold upd at hb
        by_cases ht : t' = t
        · rw [if_pos ht] at hb
          cases hb
          show Part (π k) b s b (π k c.g)
          rw [h2 hf]
          exact .refl
        · rw [if_neg ht] at hb; exact h3 t' b0 b' next' hb
    · show Path (P t') (ofThread t' c.log) (upd c.thr t (.busy k b b next) t').prog
      have := h.path t'
      unfold upd
      by_cases ht : t' = t
      · rw [if_pos ht]; subst ht; rw [hi] at this; exact this
      · rw [if_neg ht]; exact this
  | @act t k b0 R f next a g' hb hR =>
    have hft := h.frame t
    rw [hb] at hft
    have hft : Body.Frame π k (.act R f) ∧ ∀ v, (next v).Frame π := hft
    obtain ⟨hfr, hfa⟩ : (∀ g a g', R g a g' → ∀ j, j ≠ k → π j g' = π j g) ∧ ∀ a, (f a).Frame π k := by
      cases hft.1 with
      | act h1 h2 => exact ⟨h1, h2⟩
    have hown := h.owner t k b0 _ next hb
    refine ⟨fun t' => ?_, fun t' k' b0' b' next' hb' => ?_, fun k' t' hl => ?_, fun k' => ?_, fun t' => ?_⟩
    · show match upd c.thr t (.busy k b0 (f a) next) t' with | .idle p => p.Frame π | .busy k _ b next => b.Frame π k ∧ ∀ v, (next v).Frame π
      unfold upd
      by_cases ht : t' = t
      · rw [if_pos ht]; exact ⟨hfa a, hft.2⟩
      · rw [if_neg ht]; exact h.frame t'
    · have hb' : upd c.thr t (.busy k b0 (f a) next) t' = .busy k' b0' b' next' := hb'
      unfold upd at hb'
      by_cases ht : t' = t
      · rw [if_pos ht] at hb'
        cases hb'
        rw [ht]; exact hown
      · rw [if_neg ht] at hb'; exact h.owner t' k' b0' b' next' hb'
    · obtain ⟨b1, b', next', hb'⟩ := h.held k' t' hl
      show ∃ b0' b' next', upd c.thr t (.busy k b0 (f a) next) t' = .busy k' b0' b' next'
      unfold upd
      by_cases ht : t' = t
      · subst ht
        rw [hb] at hb'
        cases hb'
        rw [if_pos rfl]; exact ⟨_, _, _, rfl⟩
      · rw [if_neg ht]; exact ⟨_, _, _, hb'⟩
    · obtain ⟨s, h1, h2, h3⟩ := h.seq k'
      refine ⟨s, h1, fun hl => ?_, fun t' b0' b' next' hb' => ?_⟩
      · have hl : c.lock k' = none := hl
        have hk : k' ≠ k := by rintro rfl; rw [hown] at hl; cases hl
        show π k' g' = s
        rw [hfr _ _ _ hR k' hk]
        exact h2 hl
      · have hb' : upd c.thr t (.busy k b0 (f a) next) t' = .busy k' b0' b' next' := hb'
        show Part (π k') b0' s b' (π k' g')
        unfold upd at hb'
        by_cases ht : t' = t
        · rw [if_pos ht] at hb'
          cases hb'
          exact .snoc (h3 t b0 _ next hb) ⟨_, _, hR, rfl, rfl⟩
        · rw [if_neg ht] at hb'
          have hk : k' ≠ k := by
            intro hk
            have := h.owner t' k' b0' b' next' hb'
            rw [hk, hown] at this
            cases this
            exact ht rfl
          rw [hfr _ _ _ hR k' hk]
          exact h3 t' b0' b' next' hb'
    · show Path (P t') (ofThread t' c.log) (upd c.thr t (.busy k b0 (f a) next) t').prog
      have := h.path t'
      unfold upd
      by_cases ht : t' = t
      · rw [if_pos ht]; subst ht; rw [hb] at this; exact this
      · rw [if_neg ht]; exact this
  | @unlock t k b0 v next hb =>
    have hft := h.frame t
    rw [hb] at hft
    have hft : Body.Frame π k (.ret v) ∧ ∀ v, (next v).Frame π := hft
    have hown := h.owner t k b0 _ next hb
    refine ⟨fun t' => ?_, fun t' k' b0' b' next' hb' => ?_, fun k' t' hl => ?_, fun k' => ?_, fun t' => ?_⟩
    · show match upd c.thr t (.idle (next v)) t' with | .idle p => p.Frame π | .busy k _ b next => b.Frame π k ∧ ∀ v, (next v).Frame π
      unfold upd
      by_cases ht : t' = t
      · rw [if_pos ht]; exact hft.2 v
      · rw [if_neg ht]; exact h.frame t'
    · have hb' : upd c.thr t (.idle (next v)) t' = .busy k' b0' b' next' := hb'
      show upd c.lock k none k' = some t'
      unfold upd at hb' ⊢
      by_cases ht : t' = t
      · rw [if_pos ht] at hb'; cases hb'
      · rw [if_neg ht] at hb'
        have := h.owner t' k' b0' b' next' hb'
        by_cases hk : k' = k
        · subst hk; rw [hown] at this; cases this; exact absurd rfl ht
        · rw [if_neg hk]; exact this
    · have hl : upd c.lock k none k' = some t' := hl
      show ∃ b0' b' next', upd c.thr t (.idle (next v)) t' = .busy k' b0' b' next'
      unfold upd at hl ⊢
      by_cases hk : k' = k
      · rw [if_pos hk] at hl; cases hl
      · rw [if_neg hk] at hl
        obtain ⟨b1, b', next', hb'⟩ := h.held k' t' hl
        by_cases ht : t' = t
        · subst ht; rw [hb] at hb'; cases hb'; exact absurd rfl hk
        · rw [if_neg ht]; exact ⟨_, _, _, hb'⟩
    · obtain ⟨s, h1, h2, h3⟩ := h.seq k'
      by_cases hk : k' = k
      · subst hk
        refine ⟨π k' c.g, ?_, fun _ => rfl, fun t' b0' b' next' hb' => ?_⟩
        · show Seq (π k') (π k' g0) (onLock k' (c.log ++ [⟨t, k', b0, v⟩])) (π k' c.g)
          unfold onLock
          rw [List.filter_append, List.map_append, List.filter_cons_of_pos (by simp)]
          exact h1.snoc (h3 t b0 _ next hb)
        · have hb' : upd c.thr t (.idle (next v)) t' = .busy k' b0' b' next' := hb'
          unfold upd at hb'
          by_cases ht : t' = t
          · rw [if_pos ht] at hb'; cases hb'
          · rw [if_neg ht] at hb'
            have := h.owner t' k' b0' b' next' hb'
            rw [hown] at this; cases this; exact absurd rfl ht
      · refine ⟨s, ?_, fun hl => h2 ?_, fun t' b0' b' next' hb' => ?_⟩
        · show Seq (π k') (π k' g0) (onLock k' (c.log ++ [⟨t, k, b0, v⟩])) s
          unfold onLock
          rw [List.filter_append, List.filter_cons_of_neg (by simp [Ne.symm hk]), List.filter_nil, List.append_nil]
          exact h1
        · have hl : upd c.lock k none k' = none := hl
          unfold upd at hl
          rw [if_neg hk] at hl; exact hl
        · have hb' : upd c.thr t (.idle (next v)) t' = .busy k' b0' b' next' := hb'
          unfold upd at hb'
          by_cases ht : t' = t
          · rw [if_pos ht] at hb'; cases hb'
          · rw [if_neg ht] at hb'; exact h3 t' b0' b' next' hb'
    · show Path (P t') (ofThread t' (c.log ++ [⟨t, k, b0, v⟩])) (upd c.thr t (.idle (next v)) t').prog
      have := h.path t'
      unfold upd ofThread
      rw [List.filter_append, List.map_append]
      by_cases ht : t' = t
      · subst ht
        rw [hb] at this
        rw [if_pos rfl, List.filter_cons_of_pos (by simp)]
        exact this.snoc
      · rw [if_neg ht, List.filter_cons_of_neg (by simp [Ne.symm ht]), List.filter_nil, List.map_nil, List.append_nil]
        exact this

theorem Reach.ok {S : Type} {π : K → G → S} {g0 : G} {P : T → Thr G A V K} (hP : ∀ t, (P t).Frame π) {c : Config G A V K T}
    (h : Reach g0 P c) : Ok π g0 P c := by
  induction h with
  | init =>
    refine ⟨hP, fun t k b0 b next hb => ?_, fun k t hl => ?_, fun k => ⟨π k g0, .nil, fun _ => rfl, fun t b0 b next hb => ?_⟩,
      fun t => .nil⟩
    · cases hb
    · cases hl
    · cases hb
  | step _ hs ih => exact ih.step hs

end Umpire.Conc
