/-!
# Memory ranges and programs with allocator effects

`Prog α` is the type of computations that call a parent allocator.  It models
the calls `m_allocator->allocate_internal(n)` and
`m_allocator->deallocate_internal(p, n)` made by every strategy
(src/umpire/strategy/AllocationStrategy.cpp:20-55).

* `alloc n k`: the strategy asks its parent for `n` bytes; the answer is
  `some p`, or `none` when the parent throws.
* `dealloc p n k`: the strategy hands `p` back, announcing size `n`.
* `fail b`: the computation does something the C++ program must never do
  (undefined behaviour, `std::terminate`, unbounded recursion).

`Run` is the operational meaning against *any* parent that behaves like an
allocator: it may answer any request with any range that is disjoint from all
ranges the strategy still holds, or refuse it.
-/

set_option autoImplicit false
set_option linter.unusedSimpArgs false
namespace Umpire

/-- Size of the address space: `size_t`/`uintptr_t` are 64-bit. -/
def W : Nat := 2 ^ 64

/-- Upper end of the addresses an allocator may return.  Objects and user-space
addresses on the supported 64-bit platforms lie below 2^63. -/
def AMax : Nat := 2 ^ 63

theorem AMax_add_AMax : AMax + AMax = W := by decide

/-- Conversion of a mathematical value to `size_t` (C++ unsigned arithmetic). -/
def w64 (n : Nat) : Nat := n % W

/-- Two ranges `[p, p+n)` and `[q, q+m)` do not overlap. -/
def Disj (p n q m : Nat) : Prop := p + n ≤ q ∨ q + m ≤ p

instance (p n q m : Nat) : Decidable (Disj p n q m) := by unfold Disj; infer_instance

theorem Disj.symm {p n q m : Nat} (h : Disj p n q m) : Disj q m p n := Or.symm h

/-- Range `[p, p+n)` lies inside `[q, q+m)`. -/
def Within (p n q m : Nat) : Prop := q ≤ p ∧ p + n ≤ q + m

instance (p n q m : Nat) : Decidable (Within p n q m) := by unfold Within; infer_instance

theorem Disj.of_within {p n q m p' n' q' m' : Nat} (h : Disj p n q m)
    (h1 : Within p' n' p n) (h2 : Within q' m' q m) : Disj p' n' q' m' := by
  unfold Disj Within at *; omega

/-- A list of (pointer, size) pairs: memory currently held. -/
abbrev Held := List (Nat × Nat)

/-- The held ranges are pairwise disjoint. -/
def Held.Disjoint (O : Held) : Prop := O.Pairwise fun a b => Disj a.1 a.2 b.1 b.2

/-- An answer `p` to a request for `n` bytes is acceptable for a client holding
`O`: not null, inside the address space, disjoint from everything held. -/
def Fresh (p n : Nat) (O : Held) : Prop :=
  p ≠ 0 ∧ p + n ≤ AMax ∧ ∀ r ∈ O, Disj p n r.1 r.2

instance (p n : Nat) (O : Held) : Decidable (Fresh p n O) := by unfold Fresh; infer_instance

/-- Forget the range starting at `p`. -/
def drop (p : Nat) (O : Held) : Held := O.filter fun r => r.1 ≠ p

/-- Outcomes that must not happen. -/
inductive Bad where
  /-- undefined behaviour -/
  | ub
  /-- `std::terminate` -/
  | abort
  /-- recursion deeper than the given fuel -/
  | diverge
deriving DecidableEq, Repr

/-- Computations that call a parent allocator. -/
inductive Prog (α : Type) : Type where
  | ret (a : α)
  | fail (b : Bad)
  | alloc (n : Nat) (k : Option Nat → Prog α)
  | dealloc (p n : Nat) (k : Prog α)

namespace Prog

/-- Sequential composition. -/
def bind {α β : Type} : Prog α → (α → Prog β) → Prog β
  | ret a, f => f a
  | fail b, _ => fail b
  | alloc n k, f => alloc n fun r => (k r).bind f
  | dealloc p n k, f => dealloc p n (k.bind f)

instance : Monad Prog where
  pure := ret
  bind := bind

@[simp] theorem ret_bind {α β : Type} (a : α) (f : α → Prog β) : bind (ret a) f = f a := rfl
@[simp] theorem fail_bind {α β : Type} (b : Bad) (f : α → Prog β) : bind (fail b) f = fail b := rfl

theorem bind_assoc {α β γ : Type} (p : Prog α) (f : α → Prog β) (g : β → Prog γ) :
    bind (bind p f) g = bind p fun a => bind (f a) g := by
  induction p with
  | ret a => rfl
  | fail b => rfl
  | alloc n k ih => simp only [bind]; congr; funext r; exact ih r
  | dealloc p n k ih => simp only [bind, ih]

/-- `Run prog O a O'`: against some well-behaved parent, starting with the
memory `O` held, `prog` finishes with result `a`, holding `O'`. -/
inductive Run {α : Type} : Prog α → Held → α → Held → Prop where
  | ret {a O} : Run (ret a) O a O
  | allocOk {n k O p a O'} : Fresh p n O → Run (k (some p)) ((p, n) :: O) a O' →
      Run (alloc n k) O a O'
  | allocFail {n k O a O'} : Run (k none) O a O' → Run (alloc n k) O a O'
  | dealloc {p n k O a O'} : Run k (drop p O) a O' → Run (dealloc p n k) O a O'

/-- `Goes prog O b`: against some well-behaved parent, `prog` reaches the
forbidden outcome `b`.  Handing back memory that is not held, or with a size
other than the one obtained, counts as undefined behaviour. -/
inductive Goes {α : Type} : Prog α → Held → Bad → Prop where
  | fail {b O} : Goes (fail b) O b
  | allocOk {n k O p b} : Fresh p n O → Goes (k (some p)) ((p, n) :: O) b → Goes (alloc n k) O b
  | allocFail {n k O b} : Goes (k none) O b → Goes (alloc n k) O b
  | badFree {p n k O} : (p, n) ∉ O → Goes (dealloc p n k) O .ub
  | dealloc {p n k O b} : Goes k (drop p O) b → Goes (dealloc p n k) O b

/-- `Frees prog O p n`: against some well-behaved parent, `prog` at some point
hands back `p` announcing size `n`. -/
inductive Frees {α : Type} : Prog α → Held → Nat → Nat → Prop where
  | here {p n k O} : Frees (dealloc p n k) O p n
  | allocOk {n k O p q m} : Fresh p n O → Frees (k (some p)) ((p, n) :: O) q m → Frees (alloc n k) O q m
  | allocFail {n k O q m} : Frees (k none) O q m → Frees (alloc n k) O q m
  | dealloc {p n k O q m} : Frees k (drop p O) q m → Frees (dealloc p n k) O q m

/-- What the parent sees. -/
inductive Ev where
  | got (p n : Nat)
  | refused (n : Nat)
  | freed (p n : Nat)
deriving DecidableEq, Repr

/-- `Run` with the sequence of interactions with the parent. -/
inductive RunT {α : Type} : Prog α → Held → List Ev → α → Held → Prop where
  | ret {a O} : RunT (ret a) O [] a O
  | allocOk {n k O p t a O'} : Fresh p n O → RunT (k (some p)) ((p, n) :: O) t a O' →
      RunT (alloc n k) O (.got p n :: t) a O'
  | allocFail {n k O t a O'} : RunT (k none) O t a O' → RunT (alloc n k) O (.refused n :: t) a O'
  | dealloc {p n k O t a O'} : RunT k (drop p O) t a O' → RunT (dealloc p n k) O (.freed p n :: t) a O'

theorem RunT.run {α : Type} {p : Prog α} {O : Held} {t : List Ev} {a : α} {O' : Held}
    (h : RunT p O t a O') : Run p O a O' := by
  induction h with
  | ret => exact .ret
  | allocOk hp _ ih => exact .allocOk hp ih
  | allocFail _ ih => exact .allocFail ih
  | dealloc _ ih => exact .dealloc ih

theorem Run.trace {α : Type} {p : Prog α} {O : Held} {a : α} {O' : Held}
    (h : Run p O a O') : ∃ t, RunT p O t a O' := by
  induction h with
  | ret => exact ⟨_, .ret⟩
  | allocOk hp _ ih => obtain ⟨t, ht⟩ := ih; exact ⟨_, .allocOk hp ht⟩
  | allocFail _ ih => obtain ⟨t, ht⟩ := ih; exact ⟨_, .allocFail ht⟩
  | dealloc _ ih => obtain ⟨t, ht⟩ := ih; exact ⟨_, .dealloc ht⟩

theorem RunT.of_bind {α β : Type} {p : Prog α} {f : α → Prog β} {O : Held} {t : List Ev} {b : β} {O' : Held}
    (h : RunT (p.bind f) O t b O') :
    ∃ t1 t2 a O1, t = t1 ++ t2 ∧ RunT p O t1 a O1 ∧ RunT (f a) O1 t2 b O' := by
  induction p generalizing O t with
  | ret a => exact ⟨[], t, a, O, rfl, .ret, h⟩
  | fail e => cases h
  | alloc n k ih =>
    cases h with
    | allocOk hp h =>
      obtain ⟨t1, t2, a, O1, rfl, h1, h2⟩ := ih _ h
      exact ⟨_, t2, a, O1, rfl, .allocOk hp h1, h2⟩
    | allocFail h =>
      obtain ⟨t1, t2, a, O1, rfl, h1, h2⟩ := ih _ h
      exact ⟨_, t2, a, O1, rfl, .allocFail h1, h2⟩
  | dealloc q m k ih =>
    cases h with
    | dealloc h =>
      obtain ⟨t1, t2, a, O1, rfl, h1, h2⟩ := ih h
      exact ⟨_, t2, a, O1, rfl, .dealloc h1, h2⟩

theorem RunT.bind {α β : Type} {p : Prog α} {f : α → Prog β} {O : Held} {t1 t2 : List Ev} {a : α} {b : β}
    {O1 O' : Held} (h1 : RunT p O t1 a O1) (h2 : RunT (f a) O1 t2 b O') :
    RunT (p.bind f) O (t1 ++ t2) b O' := by
  induction h1 with
  | ret => exact h2
  | allocOk hp _ ih => exact .allocOk hp (ih h2)
  | allocFail _ ih => exact .allocFail (ih h2)
  | dealloc _ ih => exact .dealloc (ih h2)

theorem Run.of_bind {α β : Type} {p : Prog α} {f : α → Prog β} {O : Held} {b : β} {O' : Held}
    (h : Run (p.bind f) O b O') : ∃ a O1, Run p O a O1 ∧ Run (f a) O1 b O' := by
  obtain ⟨t, ht⟩ := h.trace
  obtain ⟨_, _, a, O1, _, h1, h2⟩ := RunT.of_bind ht
  exact ⟨a, O1, h1.run, h2.run⟩

theorem Run.bind {α β : Type} {p : Prog α} {f : α → Prog β} {O : Held} {a : α} {b : β}
    {O1 O' : Held} (h1 : Run p O a O1) (h2 : Run (f a) O1 b O') : Run (p.bind f) O b O' := by
  induction h1 with
  | ret => exact h2
  | allocOk hp _ ih => exact .allocOk hp (ih h2)
  | allocFail _ ih => exact .allocFail (ih h2)
  | dealloc _ ih => exact .dealloc (ih h2)

theorem Goes.of_bind {α β : Type} {p : Prog α} {f : α → Prog β} {O : Held} {b : Bad}
    (h : Goes (p.bind f) O b) : Goes p O b ∨ ∃ a O1, Run p O a O1 ∧ Goes (f a) O1 b := by
  induction p generalizing O with
  | ret a => exact .inr ⟨a, O, .ret, h⟩
  | fail e => cases h; exact .inl .fail
  | alloc n k ih =>
    cases h with
    | allocOk hp h =>
      rcases ih _ h with h | ⟨a, O1, h1, h2⟩
      · exact .inl (.allocOk hp h)
      · exact .inr ⟨a, O1, .allocOk hp h1, h2⟩
    | allocFail h =>
      rcases ih _ h with h | ⟨a, O1, h1, h2⟩
      · exact .inl (.allocFail h)
      · exact .inr ⟨a, O1, .allocFail h1, h2⟩
  | dealloc q m k ih =>
    cases h with
    | badFree hn => exact .inl (.badFree hn)
    | dealloc h =>
      rcases ih h with h | ⟨a, O1, h1, h2⟩
      · exact .inl (.dealloc h)
      · exact .inr ⟨a, O1, .dealloc h1, h2⟩

theorem Goes.bind {α β : Type} {p : Prog α} {f : α → Prog β} {O : Held} {a : α} {b : Bad}
    {O1 : Held} (h1 : Run p O a O1) (h2 : Goes (f a) O1 b) : Goes (p.bind f) O b := by
  induction h1 with
  | ret => exact h2
  | allocOk hp _ ih => exact .allocOk hp (ih h2)
  | allocFail _ ih => exact .allocFail (ih h2)
  | dealloc _ ih => exact .dealloc (ih h2)

/-- What a computation is allowed to do: which forbidden outcomes are tolerated,
and which ranges may be handed back. -/
structure Mode where
  bad : Bad → Prop
  free : Nat → Nat → Prop

/-- Weakest precondition: for every well-behaved parent, `prog` reaches no
forbidden outcome except possibly those tolerated by `E`, hands back only memory
it holds and that `E` permits, and when it finishes, it does so in a state
satisfying `Q`. -/
def wp {α : Type} (E : Mode) : Prog α → Held → (α → Held → Prop) → Prop
  | ret a, O, Q => Q a O
  | fail b, _, _ => E.bad b
  | alloc n k, O, Q =>
      (∀ p, Fresh p n O → (k (some p)).wp E ((p, n) :: O) Q) ∧ (k none).wp E O Q
  | dealloc p n k, O, Q => ((p, n) ∈ O ∧ E.free p n) ∧ k.wp E (drop p O) Q

theorem wp_mono {α : Type} {E : Mode} {p : Prog α} {O : Held} {Q Q' : α → Held → Prop}
    (h : p.wp E O Q) (hq : ∀ a O', Q a O' → Q' a O') : p.wp E O Q' := by
  induction p generalizing O with
  | ret a => exact hq _ _ h
  | fail b => exact h
  | alloc n k ih => exact ⟨fun p hp => ih _ (h.1 p hp), ih _ h.2⟩
  | dealloc p n k ih => exact ⟨h.1, ih h.2⟩

theorem wp_weaken {α : Type} {E E' : Mode} {p : Prog α} {O : Held} {Q : α → Held → Prop}
    (h : p.wp E O Q) (he : ∀ b, E.bad b → E'.bad b) (hf : ∀ q m, E.free q m → E'.free q m) :
    p.wp E' O Q := by
  induction p generalizing O with
  | ret a => exact h
  | fail b => exact he _ h
  | alloc n k ih => exact ⟨fun p hp => ih _ (h.1 p hp), ih _ h.2⟩
  | dealloc p n k ih => exact ⟨⟨h.1.1, hf _ _ h.1.2⟩, ih h.2⟩

theorem wp_bind {α β : Type} {E : Mode} {p : Prog α} {f : α → Prog β} {O : Held}
    {Q : β → Held → Prop} (h : p.wp E O fun a O' => (f a).wp E O' Q) : (p.bind f).wp E O Q := by
  induction p generalizing O with
  | ret a => exact h
  | fail b => exact h
  | alloc n k ih => exact ⟨fun p hp => ih _ (h.1 p hp), ih _ h.2⟩
  | dealloc p n k ih => exact ⟨h.1, ih h.2⟩

/-- `wp` is sound for the operational semantics: results satisfy the postcondition. -/
theorem wp_run {α : Type} {E : Mode} {p : Prog α} {O : Held} {Q : α → Held → Prop} {a : α}
    {O' : Held} (h : p.wp E O Q) (hr : Run p O a O') : Q a O' := by
  induction hr with
  | ret => exact h
  | allocOk hp _ ih => exact ih (h.1 _ hp)
  | allocFail _ ih => exact ih h.2
  | dealloc _ ih => exact ih h.2

/-- `wp` is sound for the operational semantics: a forbidden outcome is one of
the announced ones. -/
theorem wp_safe {α : Type} {E : Mode} {p : Prog α} {O : Held} {Q : α → Held → Prop} {b : Bad}
    (h : p.wp E O Q) (hr : Goes p O b) : E.bad b := by
  induction hr with
  | fail => exact h
  | allocOk hp _ ih => exact ih (h.1 _ hp)
  | allocFail _ ih => exact ih h.2
  | badFree hn => exact absurd h.1.1 hn
  | dealloc _ ih => exact ih h.2

/-- `wp` is sound for the operational semantics: only permitted ranges are handed back. -/
theorem wp_frees {α : Type} {E : Mode} {p : Prog α} {O : Held} {Q : α → Held → Prop} {q m : Nat}
    (h : p.wp E O Q) (hr : Frees p O q m) : E.free q m := by
  induction hr with
  | here => exact h.1.2
  | allocOk hp _ ih => exact ih (h.1 _ hp)
  | allocFail _ ih => exact ih h.2
  | dealloc _ ih => exact ih h.2

/-- Nothing bad may happen. -/
def NoBad : Mode := ⟨fun _ => False, fun _ _ => True⟩

/-- `std::terminate` and unbounded recursion may happen, undefined behaviour not. -/
def NoUB : Mode := ⟨fun b => b ≠ .ub, fun _ _ => True⟩

/-- No forbidden outcome, and neither empty ranges nor memory overlapping one of the ranges `L` is handed back. -/
def Keep (L : Held) : Mode := ⟨fun _ => False, fun q m => 0 < m ∧ ∀ l ∈ L, Disj l.1 l.2 q m⟩

/-- As `Keep`, but tolerating `std::terminate` and unbounded recursion. -/
def KeepUB (L : Held) : Mode := ⟨fun b => b ≠ .ub, fun q m => 0 < m ∧ ∀ l ∈ L, Disj l.1 l.2 q m⟩

/-- Execute against a scripted parent: each request consumes one scripted
answer; an answer that is not acceptable counts as refusal, as does an
exhausted script. -/
def exec {α : Type} : Prog α → List (Option Nat) → Held → Except Bad (α × List (Option Nat) × Held)
  | ret a, sc, O => .ok (a, sc, O)
  | fail b, _, _ => .error b
  | alloc n k, sc, O =>
      match sc with
      | some p :: sc' => if Fresh p n O then (k (some p)).exec sc' ((p, n) :: O) else (k none).exec sc' O
      | none :: sc' => (k none).exec sc' O
      | [] => (k none).exec [] O
  | dealloc p n k, sc, O => if (p, n) ∈ O then k.exec sc (drop p O) else .error .ub

/-- Scripted executions are executions. -/
theorem exec_run {α : Type} {p : Prog α} {sc : List (Option Nat)} {O : Held} {a : α}
    {sc' : List (Option Nat)} {O' : Held} (h : p.exec sc O = .ok (a, sc', O')) : Run p O a O' := by
  induction p generalizing sc O with
  | ret a => simp only [exec, Except.ok.injEq, Prod.mk.injEq] at h; obtain ⟨rfl, _, rfl⟩ := h; exact .ret
  | fail b => simp [exec] at h
  | alloc n k ih =>
    unfold exec at h
    split at h
    · split at h
      · exact .allocOk ‹_› (ih _ h)
      · exact .allocFail (ih _ h)
    · exact .allocFail (ih _ h)
    · exact .allocFail (ih _ h)
  | dealloc p n k ih =>
    unfold exec at h
    split at h
    · exact .dealloc (ih h)
    · simp at h

/-- The result of a scripted execution that ends well. -/
def execOk {α : Type} (p : Prog α) (sc : List (Option Nat)) (O : Held) : Option (α × Held) :=
  match p.exec sc O with
  | .ok (a, _, O') => some (a, O')
  | .error _ => none

theorem execOk_run {α : Type} {p : Prog α} (sc : List (Option Nat)) {O : Held} {a : α}
    {O' : Held} (h : p.execOk sc O = some (a, O')) : Run p O a O' := by
  unfold execOk at h
  split at h
  · injection h with h; injection h with h1 h2; subst h1 h2; exact exec_run ‹_›
  · simp at h

/-- The forbidden outcome of a scripted execution that ends badly. -/
def execBad {α : Type} (p : Prog α) (sc : List (Option Nat)) (O : Held) : Option Bad :=
  match p.exec sc O with
  | .ok _ => none
  | .error b => some b

/-- Scripted executions that go bad are executions that go bad. -/
theorem exec_goes {α : Type} {p : Prog α} {sc : List (Option Nat)} {O : Held} {b : Bad}
    (h : p.exec sc O = .error b) : Goes p O b := by
  induction p generalizing sc O with
  | ret a => simp [exec] at h
  | fail b => simp only [exec, Except.error.injEq] at h; subst h; exact .fail
  | alloc n k ih =>
    unfold exec at h
    split at h
    · split at h
      · exact .allocOk ‹_› (ih _ h)
      · exact .allocFail (ih _ h)
    · exact .allocFail (ih _ h)
    · exact .allocFail (ih _ h)
  | dealloc p n k ih =>
    unfold exec at h
    split at h
    · exact .dealloc (ih h)
    · simp only [Except.error.injEq] at h; subst h; exact .badFree ‹_›

theorem execBad_goes {α : Type} {p : Prog α} (sc : List (Option Nat)) {O : Held} {b : Bad}
    (h : p.execBad sc O = some b) : Goes p O b := by
  unfold execBad at h
  split at h
  · simp at h
  · injection h with h; subst h; exact exec_goes ‹_›

end Prog
end Umpire
