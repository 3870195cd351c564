import Verif.Multi.Sim
/-!
# Threads that record events: theorems
-/
set_option autoImplicit false
set_option linter.unusedSimpArgs false
namespace Umpire.Multi
open Umpire.Replay (Ev Blk Call P Act Done perform program cleanRun clean innerOk plainName build replay)

/-! ## Specification -/

/-- A call without the numbers that depend on what other threads did. -/
def sig : Call → Call
  | .create _ => .create 0
  | .deallocate a _ => .deallocate a 0
  | .reallocate a _ n => .reallocate a 0 n
  | c => c

/-- The calls a replay is to make for one call of the program. -/
def Cmd.want : Cmd → List Call
  | .alloc a n _ => [.allocate a n]
  | .free a _ => [.deallocate a 0]
  | .stray _ _ => []
  | .realloc a _ n _ => [.reallocate a 0 n]
  | .reallocHost a _ n _ _ => [.reallocate a 0 n]
  | .reallocZero a _ _ => [.reallocate a 0 0]
  | .reallocNull a n _ => [.reallocate a 0 n]
  | .move a _ b n _ => [.allocate b n, .deallocate a 0]
  | .copy => []
  | .make _ _ => [.create 0]
  | .setDefault a => [.setDefault a]
  | .coalesce a => [.coalesce a]
  | .release a => [.release a]

/-- Thread `t` has begun the calls `f t`, in that order. -/
inductive Ran : (Nat → List Cmd) → S → Prop
  | init : Ran (fun _ => []) .init
  | call {f : Nat → List Cmd} {s s' : S} (h : Ran f s) (t : Nat) (c : Cmd) (m : Micro) (l : List Micro)
      (h0 : s.todo t = []) (hs : c.sane) (hc : micros c = m :: l) (he : exec t s m = some s') :
      Ran (fun u => if u = t then f t ++ [c] else f u) (s'.then_ t l)
  | next {f : Nat → List Cmd} {s s' : S} (h : Ran f s) (t : Nat) (m : Micro) (l : List Micro)
      (h0 : s.todo t = m :: l) (he : exec t s m = some s') : Ran f (s'.then_ t l)

/-- The calls recorded for thread `t`. -/
def S.of (s : S) (t : Nat) : List Call := (s.calls.filter fun x => decide (x.1 = t)).map (·.2)

theorem Ran.reach {f : Nat → List Cmd} {s : S} (h : Ran f s) : Reach s := by
  induction h with
  | init => exact .init
  | call _ t c m l h0 hs hc he ih => exact ih.step t (.call c m l _ _ h0 hs hc he)
  | next _ t m l h0 he ih => exact ih.step t (.next m l _ _ h0 he)

/-! ## The log is one of a sequential program -/

/-- The log of threads is the log of a program with one thread, that makes the recorded calls one after another. -/
theorem multi_sequential_partial {s : S} (h : Calm s) (h0 : s.open_ = none) (hb : s.calls.length + 1 < 2 ^ 31)
    (hn : ∀ x ∈ s.as, plainName x.2 = true) :
    ∃ xs d, program .init xs = some d ∧ cleanRun .init xs = true ∧ d.evs = s.log ∧ d.calls = s.calls.map (·.2) := by
  obtain ⟨⟨xs, d, hs⟩, _⟩ := calm_sim h hb hn
  have hr := hs.rest
  rw [h0] at hr
  exact ⟨xs, d, hs.prog, hs.cl, hr.1, hs.calls⟩

/-- Replaying it makes these calls, with the pointers the replay got for the same blocks. -/
theorem multi_replay_partial {s : S} (h : Calm s) (h0 : s.open_ = none) (hb : s.calls.length + 1 < 2 ^ 31)
    (hn : ∀ x ∈ s.as, plainName x.2 = true) :
    ∃ c, build s.log = some c ∧ ∀ ret, replay ret c.ops = some (s.calls.map fun x => x.2.withPtrs ret) := by
  obtain ⟨xs, d, h1, h2, h3, h4⟩ := multi_sequential_partial h h0 hb hn
  obtain ⟨c, k1, k2⟩ := Replay.replay_faithful_partial h1 h2
  refine ⟨c, by rw [← h3]; exact k1, fun ret => ?_⟩
  rw [k2 ret, h4, List.map_map]
  rfl

/-! ## The recorded calls are those of the threads -/

/-- What a small step will record. -/
def mwant : Micro → List Call
  | .logA a n _ => [.allocate a n]
  | .logD a _ => [.deallocate a 0]
  | .re2 a n _ => [.reallocate a 0 n]
  | .make _ _ => [.create 0]
  | .setDefault a => [.setDefault a]
  | .coalesce a => [.coalesce a]
  | .release a => [.release a]
  | _ => []

theorem want_micros (c : Cmd) : (micros c).flatMap mwant = c.want := by
  cases c with
  | reallocHost _ _ _ _ e => cases e <;> rfl
  | _ => rfl

theorem exec_of {s s' : S} {t : Nat} {m : Micro} (he : exec t s m = some s') :
    (s'.of t).map sig = (s.of t).map sig ++ mwant m ∧ ∀ u, u ≠ t → s'.of u = s.of u := by
  refine ⟨?_, fun u hu => ?_⟩
  · cases m <;> simp only [exec] at he <;> (repeat' split at he) <;> cases he <;>
      simp [S.of, S.made, S.write, S.gain, S.lose, mwant, sig]
  · cases m <;> simp only [exec] at he <;> (repeat' split at he) <;> cases he <;>
      simp [S.of, S.made, S.write, S.gain, S.lose, Ne.symm hu]

/-- What is recorded of a thread are the calls it made, in its order; the last may not be recorded in full yet. -/
theorem multi_threads {f : Nat → List Cmd} {s : S} (h : Ran f s) (t : Nat) :
    (s.of t).map sig <+: (f t).flatMap Cmd.want ∧ (s.todo t = [] → (s.of t).map sig = (f t).flatMap Cmd.want) := by
  have key : ∀ t, (s.of t).map sig ++ (s.todo t).flatMap mwant = (f t).flatMap Cmd.want := by
    induction h with
    | init => intro t; rfl
    | @call f s s' h u c m l h0 hs hc he ih =>
      intro t
      obtain ⟨k1, k2⟩ := exec_of he
      by_cases e : t = u
      · subst e
        have := ih t
        rw [h0, List.flatMap_nil, List.append_nil] at this
        show (s'.of t).map sig ++ (if t = t then l else _).flatMap mwant = (if t = t then _ else _ : List Cmd).flatMap _
        rw [if_pos rfl, if_pos rfl, k1, List.flatMap_append, ← this, List.append_assoc]
        congr 1
        have hw := want_micros c
        rw [hc] at hw
        simpa using hw
      · show (s'.of t).map sig ++ (if t = u then l else s'.todo t).flatMap mwant = (if t = u then _ else f t : List Cmd).flatMap _
        rw [if_neg e, if_neg e, k2 t e, exec_todo he]
        exact ih t
    | @next f s s' h u m l h0 he ih =>
      intro t
      obtain ⟨k1, k2⟩ := exec_of he
      by_cases e : t = u
      · subst e
        have := ih t
        rw [h0] at this
        show (s'.of t).map sig ++ (if t = t then l else _).flatMap mwant = _
        rw [if_pos rfl, k1, List.append_assoc, ← this]
        simp
      · show (s'.of t).map sig ++ (if t = u then l else s'.todo t).flatMap mwant = _
        rw [if_neg e, k2 t e, exec_todo he]
        exact ih t
  refine ⟨⟨_, key t⟩, fun h0 => ?_⟩
  have := key t
  rwa [h0, List.flatMap_nil, List.append_nil] at this

/-! ## Programs without reallocations -/

/-- Whether the call is a `reallocate`. -/
def Cmd.re : Cmd → Bool
  | .realloc _ _ _ _ | .reallocHost _ _ _ _ _ | .reallocZero _ _ _ | .reallocNull _ _ _ => true
  | _ => false

theorem nore_micros {c : Cmd} (h : c.re = false) : NoRe (micros c) := by
  cases c <;> first | (cases h; done) | simp [NoRe, micros]

theorem exec_open {s s' : S} {t : Nat} {m : Micro} (he : exec t s m = some s') (h0 : s.open_ = none)
    (hm : ∀ a p n, m ≠ .re1 a p n) : s'.open_ = none := by
  cases m <;> simp only [exec] at he <;> (repeat' split at he) <;> cases he <;>
    first
      | exact h0
      | rfl
      | exact absurd rfl (hm _ _ _)

theorem ran_calm {f : Nat → List Cmd} {s : S} (h : Ran f s) (hf : ∀ t, ∀ c ∈ f t, c.re = false) :
    Calm s ∧ s.open_ = none ∧ ∀ t, NoRe (s.todo t) := by
  have cut : ∀ {m : Micro} {l : List Micro}, NoRe (m :: l) → NoRe l ∧ ∀ a p n, m ≠ .re1 a p n := fun hh =>
    ⟨fun x hx => hh x (List.mem_cons_of_mem _ hx), fun a p n e => by
      have := hh _ List.mem_cons_self
      rw [e] at this
      exact this⟩
  induction h with
  | init => exact ⟨.init, rfl, fun _ _ hm => nomatch hm⟩
  | @call f s s' h u c m l h0 hs hc he ih =>
    obtain ⟨k1, k2, k3⟩ := ih fun t d hd => by
      by_cases e : t = u
      · subst e; exact hf t d (by dsimp only; rw [if_pos rfl]; exact List.mem_append_left _ hd)
      · exact hf t d (by dsimp only; rw [if_neg e]; exact hd)
    have hre : c.re = false := hf u c (by dsimp only; rw [if_pos rfl]; simp)
    have hno := nore_micros hre
    rw [hc] at hno
    obtain ⟨e1, e2⟩ := cut hno
    refine ⟨k1.step u (.call c m l _ _ h0 hs hc he) (Or.inr fun v id e => by rw [k2] at e; cases e), (have e3 := exec_open he k2 e2; e3),
      fun t => ?_⟩
    show NoRe (if t = u then l else s'.todo t)
    split
    · exact e1
    · rw [exec_todo he]; exact k3 t
  | @next f s s' h u m l h0 he ih =>
    obtain ⟨k1, k2, k3⟩ := ih hf
    have hno := k3 u
    rw [h0] at hno
    obtain ⟨e1, e2⟩ := cut hno
    refine ⟨k1.step u (.next m l _ _ h0 he) (Or.inr fun v id e => by rw [k2] at e; cases e), (have e3 := exec_open he k2 e2; e3),
      fun t => ?_⟩
    show NoRe (if t = u then l else s'.todo t)
    split
    · exact e1
    · rw [exec_todo he]; exact k3 t

/-- Threads that do not use `reallocate`: in every interleaving, at every moment, the log replays as the calls recorded so
far, and those of a thread that is in no call are all it made. -/
theorem multi_replay {f : Nat → List Cmd} {s : S} (h : Ran f s) (hf : ∀ t, ∀ c ∈ f t, c.re = false)
    (hb : s.calls.length + 1 < 2 ^ 31) (hn : ∀ x ∈ s.as, plainName x.2 = true) :
    (∃ c, build s.log = some c ∧ ∀ ret, replay ret c.ops = some (s.calls.map fun x => x.2.withPtrs ret)) ∧
      ∀ t, s.todo t = [] → (s.of t).map sig = (f t).flatMap Cmd.want := by
  obtain ⟨h1, h2, _⟩ := ran_calm h hf
  exact ⟨multi_replay_partial h1 h2 hb hn, fun t => (multi_threads h t).2⟩

/-! ## Blocks -/

/-- Whether `c` returns a block of allocator `a`. -/
def yields (a : Nat) : Call → Prop
  | .allocate b _ => b = a
  | .reallocate b _ _ => b = a
  | _ => False

theorem exec_yields {s s' : S} {t : Nat} {m : Micro} (he : exec t s m = some s')
    (h : ∀ b ∈ s.has, ∃ x, s.calls[b.id - 1]? = some x ∧ yields b.a x.2) :
    ∀ b ∈ s'.has, ∃ x, s'.calls[b.id - 1]? = some x ∧ yields b.a x.2 := by
  have old : ∀ (s'' : S) (c : List (Nat × Call)), s''.calls = s.calls ++ c → (∀ b ∈ s''.has, b ∈ s.has) →
      ∀ b ∈ s''.has, ∃ x, s''.calls[b.id - 1]? = some x ∧ yields b.a x.2 := by
    intro s'' c e1 e2 b hb
    obtain ⟨x, k1, k2⟩ := h b (e2 b hb)
    exact ⟨x, by rw [e1]; exact (List.getElem?_append_left (List.getElem?_eq_some_iff.mp k1).1).trans k1, k2⟩
  have new : ∀ (s'' : S) (a p : Nat) (c : Call), s''.calls = s.calls ++ [(t, c)] → yields a c →
      s''.has = ⟨s.calls.length + 1, a, p⟩ :: s.has →
      ∀ b ∈ s''.has, ∃ x, s''.calls[b.id - 1]? = some x ∧ yields b.a x.2 := by
    intro s'' a p c e1 e2 e3 b hb
    rw [e3] at hb
    rcases List.mem_cons.mp hb with e | hb
    · subst e
      exact ⟨(t, c), by rw [e1]; simp, e2⟩
    · obtain ⟨x, k1, k2⟩ := h b hb
      exact ⟨x, by rw [e1]; exact (List.getElem?_append_left (List.getElem?_eq_some_iff.mp k1).1).trans k1, k2⟩
  cases m <;> simp only [exec] at he <;> (repeat' split at he) <;> cases he <;>
    first
      | exact new _ _ _ _ rfl rfl rfl
      | exact old _ [] (List.append_nil _).symm (fun b hb => hb)
      | exact old _ [] (List.append_nil _).symm (fun b hb => (List.mem_filter.mp hb).1)
      | exact old _ [_] rfl (fun b hb => hb)
      | exact old _ [_] rfl (fun b hb => (List.mem_filter.mp hb).1)

/-- In every interleaving: a block in the hands of users is one recorded call's, that call returned a block of that
allocator, no two blocks share an address, and the strategy has none of them. -/
theorem multi_blocks {s : S} (h : Reach s) :
    (∀ b ∈ s.has, ∃ x, s.calls[b.id - 1]? = some x ∧ yields b.a x.2) ∧ (∀ b ∈ s.has, 1 ≤ b.id ∧ (b.a, b.p) ∈ s.held) ∧
      ∀ b ∈ s.has, ∀ c ∈ s.has, (b.a = c.a ∧ b.p = c.p ∨ b.id = c.id) → b = c := by
  have hi := h.inv
  refine ⟨?_, fun b hb => ⟨(hi.range b hb).1, hi.phys.has _ (List.mem_map.mpr ⟨b, hb, rfl⟩)⟩, fun b hb c hc e => ?_⟩
  · induction h with
    | init => intro b hb; cases hb
    | step h t st ih =>
      cases st with
      | call c m l _ s1 h0 hs hc he => have := exec_yields he (ih h.inv); exact this
      | next m l _ s1 h0 he => have := exec_yields he (ih h.inv); exact this
  · rcases e with e | e
    · exact addrs_inj hi.phys.hnd hb hc (by rw [e.1, e.2])
    · exact id_inj hi.ids hb hc e

/-! ## Examples -/

instance (c : Cmd) : Decidable c.sane := by
  cases c <;> (dsimp only [Cmd.sane]; infer_instance)

/-- A run: thread `t` begins a call or goes on with the one it is in. -/
def go : S → List (Nat × Option Cmd) → Option S
  | s, [] => some s
  | s, (t, some c) :: xs =>
    if c.sane ∧ s.todo t = [] then
      match micros c with
      | m :: l => match exec t s m with
        | some s' => go (s'.then_ t l) xs
        | none => none
      | [] => none
    else none
  | s, (t, none) :: xs =>
    match s.todo t with
    | m :: l => match exec t s m with
      | some s' => go (s'.then_ t l) xs
      | none => none
    | [] => none

/-- The same, in runs where nobody writes inside the reallocation of another. -/
def goCalm : S → List (Nat × Option Cmd) → Bool
  | _, [] => true
  | s, x :: xs =>
    match go s [x] with
    | some s' => (decide (s'.log = s.log) || match s.open_ with | none => true | some w => decide (w.1 = x.1)) && goCalm s' xs
    | none => true

theorem go_cons {s s' : S} {x : Nat × Option Cmd} {xs : List (Nat × Option Cmd)} (h : go s (x :: xs) = some s') :
    ∃ s1, Step x.1 s s1 ∧ go s [x] = some s1 ∧ go s1 xs = some s' := by
  obtain ⟨t, c⟩ := x
  cases c with
  | some c =>
    simp only [go] at h ⊢
    split at h
    · next hc =>
      split at h
      · next m l hm =>
        split at h
        · next s1 he =>
          refine ⟨s1.then_ t l, .call c m l s s1 hc.2 hc.1 hm he, ?_, h⟩
          simp [hc, hm, he]
        · cases h
      · cases h
    · cases h
  | none =>
    simp only [go] at h ⊢
    split at h
    · next m l hm =>
      split at h
      · next s1 he =>
        refine ⟨s1.then_ t l, .next m l s s1 hm he, ?_, h⟩
        simp [hm, he]
      · cases h
    · cases h

theorem go_reach {s s' : S} {xs : List (Nat × Option Cmd)} (h : go s xs = some s') (hr : Reach s) : Reach s' := by
  induction xs generalizing s with
  | nil => simp only [go, Option.some.injEq] at h; subst h; exact hr
  | cons x xs ih =>
    obtain ⟨s1, h1, _, h3⟩ := go_cons h
    exact ih h3 (hr.step x.1 h1)

theorem go_calm {s s' : S} {xs : List (Nat × Option Cmd)} (h : go s xs = some s') (hc : goCalm s xs = true) (hr : Calm s) :
    Calm s' := by
  induction xs generalizing s with
  | nil => simp only [go, Option.some.injEq] at h; subst h; exact hr
  | cons x xs ih =>
    obtain ⟨s1, h1, h2, h3⟩ := go_cons h
    simp only [goCalm, h2, Bool.and_eq_true, Bool.or_eq_true, decide_eq_true_eq] at hc
    refine ih h3 hc.2 (hr.step x.1 h1 ?_)
    refine hc.1.imp id (fun e u id hu => ?_)
    rw [hu] at e
    simpa using e

/-- The calls of two threads, the second of which is inside `move`. -/
example : ∃ f s, Ran f s ∧ s.of 2 = [.allocate 0 32] ∧ f 2 = [.move 0 0x1000 0 32 0x2000] ∧
    s.todo 2 = [.quiet, .logD 0 0x1000, .give 0 0x1000, .quiet] ∧ s.todo 1 = [] ∧ f 1 = [.make 7 [], .alloc 0 64 0x1000] ∧
    s.of 1 = [.create 0, .allocate 0 64] := by
  have r1 := Ran.init.call 1 (.make 7 []) _ _ rfl trivial rfl rfl
  have r2 := r1.call 1 (.alloc 0 64 0x1000) (.take 0 0x1000) _ rfl trivial rfl rfl
  have r3 := r2.next 1 _ _ rfl rfl
  have r4 := r3.call 2 (.move 0 0x1000 0 32 0x2000) (.take 0 0x2000) _ rfl trivial rfl rfl
  have r5 := r4.next 2 _ _ rfl rfl
  exact ⟨_, _, r5, rfl, rfl, rfl, rfl, rfl, rfl⟩

/-- Thread 1 frees a block; thread 2 gets the same address before thread 1 has returned, and reallocates; thread 3 frees
what thread 2 got; thread 1 takes a block inside the reallocation without recording it before its end. -/
def demo : List (Nat × Option Cmd) :=
  [(0, some (.make 0x100 "HOST".toList)), (1, some (.alloc 0 64 0x1000)), (1, none), (1, some (.free 0 0x1000)), (1, none),
   (2, some (.alloc 0 32 0x1000)), (2, none), (2, some (.realloc 0 0x1000 128 0x2000)), (1, some (.alloc 0 8 0x3000)),
   (2, none), (2, none), (2, none), (2, none), (2, none), (2, none), (3, some (.free 0 0x2000)), (1, none), (3, none),
   (2, some (.move 0 0x3000 0 8 0x1000)), (2, none), (2, none), (2, none), (2, none), (2, none)]

def view (s : S) : List (Nat × Call) × Option (Nat × Nat) × List (Nat × List Char) := (s.calls, s.open_, s.as)

theorem demo_run : ((go .init demo).map view = some ([(0, .create 0), (1, .allocate 0 64), (1, .deallocate 0 2), (2, .allocate 0 32),
    (2, .reallocate 0 4 128), (3, .deallocate 0 5), (1, .allocate 0 8), (2, .allocate 0 8), (2, .deallocate 0 7)], none,
    [(0x100, "HOST".toList)])) ∧ goCalm .init demo = true := by
  decide +kernel

example : ∃ s, Calm s ∧ s.open_ = none ∧ s.calls.length + 1 < 2 ^ 31 ∧ (∀ x ∈ s.as, plainName x.2 = true) ∧
    s.calls.map (·.2) = [.create 0, .allocate 0 64, .deallocate 0 2, .allocate 0 32, .reallocate 0 4 128, .deallocate 0 5,
      .allocate 0 8, .allocate 0 8, .deallocate 0 7] := by
  obtain ⟨h1, h2⟩ := demo_run
  obtain ⟨s, hs, hv⟩ := Option.map_eq_some_iff.mp h1
  simp only [view, Prod.mk.injEq] at hv
  obtain ⟨e1, e2, e3⟩ := hv
  refine ⟨s, go_calm hs h2 .init, e2, ?_, ?_, ?_⟩
  · rw [e1]; decide
  · rw [e3]; decide +kernel
  · rw [e1]; rfl

/-! ## Where it fails -/

/-- Thread 2 allocates between the two records of a `reallocate` of thread 1. -/
def clash : List (Nat × Option Cmd) :=
  [(0, some (.make 0x100 "HOST".toList)), (1, some (.reallocNull 0 8 0x1000)), (2, some (.alloc 0 16 0x2000)), (2, none),
   (1, none), (1, none), (1, none)]

theorem clash_run : ((go .init clash).map fun s => (s.calls, s.open_, (build s.log).bind fun c => replay id c.ops)) =
    some ([(0, .create 0), (2, .allocate 0 16), (1, .reallocate 0 0 8)], none,
      some [.create 0, .reallocate 0 0 8]) := by
  decide +kernel

/-- A record of another thread between the two of a `reallocate` is taken for part of it: the log has no thread in it. The
allocation of thread 2 is not replayed. -/
theorem multi_replay_counterexample :
    ∃ s, Reach s ∧ s.open_ = none ∧ s.calls = [(0, .create 0), (2, .allocate 0 16), (1, .reallocate 0 0 8)] ∧
      ∃ c, build s.log = some c ∧ replay id c.ops = some [.create 0, .reallocate 0 0 8] := by
  obtain ⟨s, hs, hv⟩ := Option.map_eq_some_iff.mp clash_run
  simp only [Prod.mk.injEq] at hv
  obtain ⟨e1, e2, e3⟩ := hv
  obtain ⟨c, hc, e4⟩ := Option.bind_eq_some_iff.mp e3
  exact ⟨s, go_reach hs .init, e2, e1, c, hc, e4⟩

end Umpire.Multi
