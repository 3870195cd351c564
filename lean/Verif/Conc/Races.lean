import Verif.Conc.Lock
/-!
# Which memory is touched under which lock (C38)

Strategies form an arrangement; a call through a handle touches the state of the
handle's strategy and of strategies beneath it.  Only a handle of a
`ThreadSafeAllocator` locks (Allocator.cpp:18-28, Allocator.inl:106-119), and it locks
only the mutex of that one strategy: `ThreadSafeAllocator::allocate`
(ThreadSafeAllocator.cpp:24-32), through which calls from strategies above come, does
not lock.

`AllocationMap` has its own mutex and is left out; so are the event recorder and the
logger.
-/
set_option autoImplicit false
namespace Umpire.Conc

/-- A strategy, with the strategies it calls. -/
inductive Kind where
  | resource
  | pool (ps : List Nat)
  | tsa (p : Nat)
deriving DecidableEq, Repr

/-- An arrangement of strategies. -/
abbrev Arr := Nat → Kind

/-- Memory that is not protected by a lock of its own. -/
inductive Obj where
  /-- members of a strategy: chunk lists, maps -/
  | own (n : Nat)
  /-- `m_current_size`, `m_high_watermark`, `m_allocation_count` of a strategy -/
  | stat (n : Nat)
  /-- the pool for zero-byte requests (ResourceManager.cpp: `m_zero_byte_pool`) -/
  | zero
deriving DecidableEq, Repr

/-- An access: to what, and whether it writes. -/
structure Acc where
  obj : Obj
  write : Bool
deriving DecidableEq, Repr

/-- `Does arr n l`: `l` can be the accesses of `allocate` or `deallocate` of strategy `n`.
A strategy above calls `allocate_internal` or `deallocate_internal`
(AllocationStrategy.cpp:20-30, 49-55), which first update the statistics.
A pool writes its own state, and calls strategies beneath any number of times. -/
inductive Does (arr : Arr) : Nat → List Acc → Prop where
  | resource {n : Nat} (h : arr n = .resource) : Does arr n []
  | tsa {n p : Nat} {l : List Acc} (h : arr n = .tsa p) (hl : Does arr p l) : Does arr n (⟨.stat p, false⟩ :: ⟨.stat p, true⟩ :: l)
  | done {n : Nat} {ps : List Nat} (h : arr n = .pool ps) : Does arr n [⟨.own n, true⟩]
  | own {n : Nat} {ps : List Nat} {w : Bool} {l : List Acc} (h : arr n = .pool ps) (hl : Does arr n l) : Does arr n (⟨.own n, w⟩ :: l)
  | call {n : Nat} {ps : List Nat} {m : Nat} {l' l : List Acc} (h : arr n = .pool ps) (hm : m ∈ ps) (h' : Does arr m l') (hl : Does arr n l) :
      Does arr n (⟨.stat m, false⟩ :: ⟨.stat m, true⟩ :: (l' ++ l))

/-- Calls through a handle. -/
inductive CallKind where
  | alloc | allocZero | dealloc | deallocZero | getter
deriving DecidableEq, Repr

/-- Update of the statistics of the handle's strategy (Inspector.cpp:16-58). -/
def statAcc (h : Nat) : List Acc := [⟨.stat h, false⟩, ⟨.stat h, true⟩]

/-- The accesses of a whole call (Allocator.inl:21-48, 68-112; AllocateNull.cpp:22-48; the
getters of Allocator.cpp:46-66).  `deallocateNull` looks into the zero-byte pool also for
ordinary pointers. -/
inductive Whole (arr : Arr) (h : Nat) : CallKind → List Acc → Prop where
  | alloc {l : List Acc} (hl : Does arr h l) : Whole arr h .alloc (l ++ statAcc h)
  | allocZero : Whole arr h .allocZero ([⟨.zero, false⟩, ⟨.zero, true⟩] ++ statAcc h)
  | dealloc {l : List Acc} (hl : Does arr h l) : Whole arr h .dealloc (statAcc h ++ ⟨.zero, false⟩ :: l)
  | deallocZero : Whole arr h .deallocZero (statAcc h ++ [⟨.zero, false⟩, ⟨.zero, true⟩])
  | getter : Whole arr h .getter [⟨.stat h, false⟩]

/-- A call with its accesses; an exception cuts it short. -/
structure Job where
  h : Nat
  kind : CallKind
  acc : List Acc

def Job.Ok (arr : Arr) (j : Job) : Prop := ∃ l, Whole arr j.h j.kind l ∧ j.acc <+: l

/-- Allocator.cpp:24, Allocator.inl:106-119: only handles of thread-safe allocators lock, and
only for allocate and deallocate. -/
def Job.locks (arr : Arr) (j : Job) : Bool :=
  match arr j.h, j.kind with
  | .tsa _, .getter => false
  | .tsa _, _ => true
  | _, _ => false

/-- A thread: between calls, or in a call with some accesses left. -/
inductive RT where
  | idle (todo : List Job)
  | busy (j : Job) (rest : List Acc) (todo : List Job)

structure RC (T : Type) where
  lock : Nat → Option T
  thr : T → RT

variable {T : Type} [DecidableEq T]

inductive RStep (arr : Arr) : RC T → RC T → Prop where
  | lock {c : RC T} {t : T} {j : Job} {todo : List Job} (hi : c.thr t = .idle (j :: todo)) (hl : j.locks arr = true) (hf : c.lock j.h = none) :
      RStep arr c ⟨upd c.lock j.h (some t), upd c.thr t (.busy j j.acc todo)⟩
  | start {c : RC T} {t : T} {j : Job} {todo : List Job} (hi : c.thr t = .idle (j :: todo)) (hl : j.locks arr = false) :
      RStep arr c ⟨c.lock, upd c.thr t (.busy j j.acc todo)⟩
  | acc {c : RC T} {t : T} {j : Job} {a : Acc} {rest : List Acc} {todo : List Job} (hb : c.thr t = .busy j (a :: rest) todo) :
      RStep arr c ⟨c.lock, upd c.thr t (.busy j rest todo)⟩
  | unlock {c : RC T} {t : T} {j : Job} {todo : List Job} (hb : c.thr t = .busy j [] todo) (hl : j.locks arr = true) :
      RStep arr c ⟨upd c.lock j.h none, upd c.thr t (.idle todo)⟩
  | finish {c : RC T} {t : T} {j : Job} {todo : List Job} (hb : c.thr t = .busy j [] todo) (hl : j.locks arr = false) :
      RStep arr c ⟨c.lock, upd c.thr t (.idle todo)⟩

inductive RReach (arr : Arr) (P : T → List Job) : RC T → Prop where
  | init : RReach arr P ⟨fun _ => none, fun t => .idle (P t)⟩
  | step {c c' : RC T} (h : RReach arr P c) (hs : RStep arr c c') : RReach arr P c'

/-- A data race: two threads are about to touch the same memory, one of them writing. -/
def Race (c : RC T) : Prop := ∃ t t' j j' a a' r r' todo todo', t ≠ t' ∧ c.thr t = .busy j (a :: r) todo ∧ c.thr t' = .busy j' (a' :: r') todo' ∧
  a.obj = a'.obj ∧ (a.write = true ∨ a'.write = true)

/-- `m` is `n` or beneath it. -/
inductive Below (arr : Arr) : Nat → Nat → Prop where
  | refl {n : Nat} : Below arr n n
  | tsa {n p m : Nat} (h : arr n = .tsa p) (hm : Below arr p m) : Below arr n m
  | pool {n : Nat} {ps : List Nat} {q m : Nat} (h : arr n = .pool ps) (hq : q ∈ ps) (hm : Below arr q m) : Below arr n m

/-! ## When there are no races -/

theorem does_below {arr : Arr} {n : Nat} {l : List Acc} (h : Does arr n l) : ∀ a ∈ l, ∃ m, Below arr n m ∧ (a.obj = .own m ∨ a.obj = .stat m) := by
  induction h with
  | resource => intro a ha; cases ha
  | @tsa n p l h hl ih =>
    intro a ha
    rcases List.mem_cons.mp ha with rfl | ha
    · exact ⟨p, .tsa h .refl, .inr rfl⟩
    rcases List.mem_cons.mp ha with rfl | ha
    · exact ⟨p, .tsa h .refl, .inr rfl⟩
    obtain ⟨m, hm, hc⟩ := ih a ha
    exact ⟨m, .tsa h hm, hc⟩
  | @done n ps h =>
    intro a ha
    rw [List.mem_singleton] at ha
    subst ha
    exact ⟨n, .refl, .inl rfl⟩
  | @own n ps w l h hl ih =>
    intro a ha
    rcases List.mem_cons.mp ha with rfl | ha
    · exact ⟨n, .refl, .inl rfl⟩
    · exact ih a ha
  | @call n ps m l' l h hm h' hl ih' ih =>
    intro a ha
    rcases List.mem_cons.mp ha with rfl | ha
    · exact ⟨m, .pool h hm .refl, .inr rfl⟩
    rcases List.mem_cons.mp ha with rfl | ha
    · exact ⟨m, .pool h hm .refl, .inr rfl⟩
    rcases List.mem_append.mp ha with ha | ha
    · obtain ⟨q, hq, hc⟩ := ih' a ha
      exact ⟨q, .pool h hm hq, hc⟩
    · exact ih a ha

theorem job_below {arr : Arr} {j : Job} (h : j.Ok arr) : ∀ a ∈ j.acc, (∃ m, Below arr j.h m ∧ (a.obj = .own m ∨ a.obj = .stat m)) ∨
    (a.obj = .zero ∧ (j.kind ≠ .allocZero → j.kind ≠ .deallocZero → a.write = false)) := by
  obtain ⟨l, hw, hp⟩ := h
  intro a ha
  have ha : a ∈ l := hp.subset ha
  have hst : ∀ a ∈ statAcc j.h, ∃ m, Below arr j.h m ∧ (a.obj = .own m ∨ a.obj = .stat m) := by
    intro a ha
    unfold statAcc at ha
    rcases List.mem_cons.mp ha with rfl | ha
    · exact ⟨_, .refl, .inr rfl⟩
    rcases List.mem_cons.mp ha with rfl | ha
    · exact ⟨_, .refl, .inr rfl⟩
    · cases ha
  have hz : ∀ (k : CallKind), (k = .allocZero ∨ k = .deallocZero) → a ∈ [(⟨.zero, false⟩ : Acc), ⟨.zero, true⟩] →
      (a.obj = .zero ∧ (k ≠ .allocZero → k ≠ .deallocZero → a.write = false)) := by
    intro k hk ha
    refine ⟨?_, fun h1 h2 => ?_⟩
    · rcases List.mem_cons.mp ha with rfl | ha
      · rfl
      · rw [List.mem_singleton] at ha; subst ha; rfl
    · rcases hk with hk | hk
      · exact absurd hk h1
      · exact absurd hk h2
  generalize hk : j.kind = k at hw
  cases hw with
  | alloc hl =>
    rcases List.mem_append.mp ha with ha | ha
    · exact .inl (does_below hl a ha)
    · exact .inl (hst a ha)
  | allocZero =>
    rcases List.mem_append.mp ha with ha | ha
    · exact .inr (hz _ (.inl rfl) ha)
    · exact .inl (hst a ha)
  | dealloc hl =>
    rcases List.mem_append.mp ha with ha | ha
    · exact .inl (hst a ha)
    · rcases List.mem_cons.mp ha with rfl | ha
      · exact .inr ⟨rfl, fun _ _ => rfl⟩
      · exact .inl (does_below hl a ha)
  | deallocZero =>
    rcases List.mem_append.mp ha with ha | ha
    · exact .inl (hst a ha)
    · exact .inr (hz _ (.inr rfl) ha)
  | getter =>
    rw [List.mem_singleton] at ha
    subst ha
    exact .inl ⟨_, .refl, .inr rfl⟩

/-- What holds of every reachable configuration. -/
structure ROk (arr : Arr) (P : T → List Job) (c : RC T) : Prop where
  idle : ∀ t todo, c.thr t = .idle todo → ∀ j ∈ todo, j ∈ P t
  busy : ∀ t j r todo, c.thr t = .busy j r todo → j ∈ P t ∧ (∀ a ∈ r, a ∈ j.acc) ∧ (∀ i ∈ todo, i ∈ P t) ∧ (j.locks arr = true → c.lock j.h = some t)
  held : ∀ h t, c.lock h = some t → ∃ j r todo, c.thr t = .busy j r todo ∧ j.locks arr = true ∧ j.h = h

theorem RReach.ok {arr : Arr} {P : T → List Job} {c : RC T} (h : RReach arr P c) : ROk arr P c := by
  induction h with
  | init =>
    refine ⟨fun t todo ht j hj => ?_, fun t j r todo ht => ?_, fun h t hl => ?_⟩
    · cases ht; exact hj
    · cases ht
    · cases hl
  | @step c c' _ hs ih =>
    cases hs with
    | @lock t j todo hi hl hf =>
      refine ⟨fun t' todo' ht => ?_, fun t' j' r' todo' ht => ?_, fun h' t' hl' => ?_⟩
      · have ht : upd c.thr t (.busy j j.acc todo) t' = .idle todo' := ht
        unfold upd at ht
        by_cases e : t' = t
        · rw [if_pos e] at ht; cases ht
        · rw [if_neg e] at ht; exact ih.idle t' todo' ht
      · have ht : upd c.thr t (.busy j j.acc todo) t' = .busy j' r' todo' := ht
        show _ ∧ _ ∧ _ ∧ (_ → upd c.lock j.h (some t) j'.h = some t')
        unfold upd at ht ⊢
        by_cases e : t' = t
        · rw [if_pos e] at ht
          cases ht
          subst e
          have := ih.idle t' _ hi
          exact ⟨this j (.head _), fun a ha => ha, fun i hi => this i (.tail _ hi), fun _ => if_pos rfl⟩
        · rw [if_neg e] at ht
          obtain ⟨h1, h2, h3, h4⟩ := ih.busy t' j' r' todo' ht
          refine ⟨h1, h2, h3, fun hj => ?_⟩
          have h4 := h4 hj
          by_cases e2 : j'.h = j.h
          · rw [e2, hf] at h4; cases h4
          · rw [if_neg e2]; exact h4
      · have hl' : upd c.lock j.h (some t) h' = some t' := hl'
        show ∃ j' r' todo', upd c.thr t (.busy j j.acc todo) t' = .busy j' r' todo' ∧ _
        unfold upd at hl' ⊢
        by_cases e : h' = j.h
        · rw [if_pos e] at hl'
          cases hl'
          rw [if_pos rfl]
          exact ⟨j, j.acc, todo, rfl, hl, e.symm⟩
        · rw [if_neg e] at hl'
          obtain ⟨j', r', todo', h1, h2, h3⟩ := ih.held h' t' hl'
          by_cases e2 : t' = t
          · subst e2; rw [hi] at h1; cases h1
          · rw [if_neg e2]; exact ⟨j', r', todo', h1, h2, h3⟩
    | @start t j todo hi hl =>
      refine ⟨fun t' todo' ht => ?_, fun t' j' r' todo' ht => ?_, fun h' t' hl' => ?_⟩
      · have ht : upd c.thr t (.busy j j.acc todo) t' = .idle todo' := ht
        unfold upd at ht
        by_cases e : t' = t
        · rw [if_pos e] at ht; cases ht
        · rw [if_neg e] at ht; exact ih.idle t' todo' ht
      · have ht : upd c.thr t (.busy j j.acc todo) t' = .busy j' r' todo' := ht
        unfold upd at ht
        by_cases e : t' = t
        · rw [if_pos e] at ht
          cases ht
          subst e
          have := ih.idle t' _ hi
          exact ⟨this j (.head _), fun a ha => ha, fun i hi => this i (.tail _ hi), fun h => by rw [hl] at h; cases h⟩
        · rw [if_neg e] at ht
          exact ih.busy t' j' r' todo' ht
      · obtain ⟨j', r', todo', h1, h2, h3⟩ := ih.held h' t' hl'
        show ∃ j' r' todo', upd c.thr t (.busy j j.acc todo) t' = .busy j' r' todo' ∧ _
        unfold upd
        by_cases e2 : t' = t
        · subst e2; rw [hi] at h1; cases h1
        · rw [if_neg e2]; exact ⟨j', r', todo', h1, h2, h3⟩
    | @acc t j a rest todo hb =>
      refine ⟨fun t' todo' ht => ?_, fun t' j' r' todo' ht => ?_, fun h' t' hl' => ?_⟩
      · have ht : upd c.thr t (.busy j rest todo) t' = .idle todo' := ht
        unfold upd at ht
        by_cases e : t' = t
        · rw [if_pos e] at ht; cases ht
        · rw [if_neg e] at ht; exact ih.idle t' todo' ht
      · have ht : upd c.thr t (.busy j rest todo) t' = .busy j' r' todo' := ht
        unfold upd at ht
        by_cases e : t' = t
        · rw [if_pos e] at ht
          cases ht
          subst e
          obtain ⟨h1, h2, h3, h4⟩ := ih.busy t' j _ todo hb
          exact ⟨h1, fun a ha => h2 a (.tail _ ha), h3, h4⟩
        · rw [if_neg e] at ht
          exact ih.busy t' j' r' todo' ht
      · obtain ⟨j', r', todo', h1, h2, h3⟩ := ih.held h' t' hl'
        show ∃ j' r' todo', upd c.thr t (.busy j rest todo) t' = .busy j' r' todo' ∧ _
        unfold upd
        by_cases e2 : t' = t
        · subst e2
          rw [hb] at h1
          cases h1
          rw [if_pos rfl]; exact ⟨_, _, _, rfl, h2, h3⟩
        · rw [if_neg e2]; exact ⟨j', r', todo', h1, h2, h3⟩
    | @unlock t j todo hb hl =>
      obtain ⟨b1, b2, b3, b4⟩ := ih.busy t j _ todo hb
      refine ⟨fun t' todo' ht => ?_, fun t' j' r' todo' ht => ?_, fun h' t' hl' => ?_⟩
      · have ht : upd c.thr t (.idle todo) t' = .idle todo' := ht
        unfold upd at ht
        by_cases e : t' = t
        · rw [if_pos e] at ht
          cases ht
          rw [e]; exact b3
        · rw [if_neg e] at ht; exact ih.idle t' todo' ht
      · have ht : upd c.thr t (.idle todo) t' = .busy j' r' todo' := ht
        show _ ∧ _ ∧ _ ∧ (_ → upd c.lock j.h none j'.h = some t')
        unfold upd at ht ⊢
        by_cases e : t' = t
        · rw [if_pos e] at ht; cases ht
        · rw [if_neg e] at ht
          obtain ⟨h1, h2, h3, h4⟩ := ih.busy t' j' r' todo' ht
          refine ⟨h1, h2, h3, fun hj => ?_⟩
          have h4 := h4 hj
          by_cases e2 : j'.h = j.h
          · rw [e2, b4 hl] at h4; cases h4; exact absurd rfl e
          · rw [if_neg e2]; exact h4
      · have hl' : upd c.lock j.h none h' = some t' := hl'
        show ∃ j' r' todo', upd c.thr t (.idle todo) t' = .busy j' r' todo' ∧ _
        unfold upd at hl' ⊢
        by_cases e : h' = j.h
        · rw [if_pos e] at hl'; cases hl'
        · rw [if_neg e] at hl'
          obtain ⟨j', r', todo', h1, h2, h3⟩ := ih.held h' t' hl'
          by_cases e2 : t' = t
          · subst e2; rw [hb] at h1; cases h1; exact absurd h3.symm e
          · rw [if_neg e2]; exact ⟨j', r', todo', h1, h2, h3⟩
    | @finish t j todo hb hl =>
      obtain ⟨b1, b2, b3, b4⟩ := ih.busy t j _ todo hb
      refine ⟨fun t' todo' ht => ?_, fun t' j' r' todo' ht => ?_, fun h' t' hl' => ?_⟩
      · have ht : upd c.thr t (.idle todo) t' = .idle todo' := ht
        unfold upd at ht
        by_cases e : t' = t
        · rw [if_pos e] at ht
          cases ht
          rw [e]; exact b3
        · rw [if_neg e] at ht; exact ih.idle t' todo' ht
      · have ht : upd c.thr t (.idle todo) t' = .busy j' r' todo' := ht
        unfold upd at ht
        by_cases e : t' = t
        · rw [if_pos e] at ht; cases ht
        · rw [if_neg e] at ht; exact ih.busy t' j' r' todo' ht
      · obtain ⟨j', r', todo', h1, h2, h3⟩ := ih.held h' t' hl'
        show ∃ j' r' todo', upd c.thr t (.idle todo) t' = .busy j' r' todo' ∧ _
        unfold upd
        by_cases e2 : t' = t
        · subst e2; rw [hb] at h1; cases h1; rw [hl] at h2; cases h2
        · rw [if_neg e2]; exact ⟨j', r', todo', h1, h2, h3⟩

/-- C38.  There is no data race, in any schedule of any number of threads, if all calls are
allocations and deallocations through thread-safe allocators, and any two different ones
that are used have no strategy in common beneath them and make no zero-byte requests. -/
theorem lock_coverage_partial {arr : Arr} {P : T → List Job} (hok : ∀ t, ∀ j ∈ P t, j.Ok arr) (hl : ∀ t, ∀ j ∈ P t, j.locks arr = true)
    (hsep : ∀ t t' j j', j ∈ P t → j' ∈ P t' → j.h ≠ j'.h →
      (∀ m, Below arr j.h m → ¬ Below arr j'.h m) ∧ j.kind ≠ .allocZero ∧ j.kind ≠ .deallocZero)
    {c : RC T} (h : RReach arr P c) : ¬ Race c := by
  rintro ⟨t, t', j, j', a, a', r, r', todo, todo', ht, h1, h2, ho, hw⟩
  have ok := h.ok
  obtain ⟨b1, b2, _, b4⟩ := ok.busy t j _ todo h1
  obtain ⟨c1, c2, _, c4⟩ := ok.busy t' j' _ todo' h2
  have b4 := b4 (hl t j b1)
  have c4 := c4 (hl t' j' c1)
  have hne : j.h ≠ j'.h := by
    intro e
    rw [e, c4] at b4
    cases b4; exact ht rfl
  obtain ⟨s1, s2, s3⟩ := hsep t t' j j' b1 c1 hne
  obtain ⟨_, s5, s6⟩ := hsep t' t j' j c1 b1 (Ne.symm hne)
  rcases job_below (hok t j b1) a (b2 a (.head _)) with ⟨m, hm, ha⟩ | ⟨ha, hz⟩ <;>
    rcases job_below (hok t' j' c1) a' (c2 a' (.head _)) with ⟨m', hm', ha'⟩ | ⟨ha', hz'⟩
  · have : m = m' := by
      rcases ha with ha | ha <;> rcases ha' with ha' | ha' <;> rw [ha, ha'] at ho <;> cases ho <;> rfl
    subst this
    exact s1 m hm hm'
  · rcases ha with ha | ha <;> rw [ha, ha'] at ho <;> cases ho
  · rcases ha' with ha' | ha' <;> rw [ha, ha'] at ho <;> cases ho
  · rcases hw with hw | hw
    · rw [hz s2 s3] at hw; cases hw
    · rw [hz' s5 s6] at hw; cases hw

end Umpire.Conc
