import Verif.Multi.Inv
import Verif.Replay.Props
/-!
# Threads that record events: the sequential program behind the log
-/
set_option autoImplicit false
set_option linter.unusedSimpArgs false
namespace Umpire.Multi
open Umpire.Replay (Ev Blk Call P Act Done perform program cleanRun clean innerOk plainName build replay)

/-! ## Specification -/

/-- The states reached when no thread writes a record between the two records of a `reallocate` of another thread. -/
inductive Calm : S → Prop
  | init : Calm .init
  | step {s s' : S} (h : Calm s) (t : Nat) (st : Step t s s')
      (hc : s'.log = s.log ∨ ∀ u id, s.open_ = some (u, id) → u = t) : Calm s'

theorem Calm.reach {s : S} (h : Calm s) : Reach s := by
  induction h with
  | init => exact .init
  | step _ t st _ ih => exact ih.step t st

/-! ## The shape of calls -/

/-- No part of a reallocation. -/
def NoRe (l : List Micro) : Prop :=
  ∀ m ∈ l, match m with | .re1 _ _ _ | .re2 _ _ _ | .inA _ _ _ | .inD _ _ => False | _ => True

/-- The rest of a reallocation to `n` bytes. -/
def Re (a n : Nat) : List Micro → Prop
  | .re2 a' n' _ :: l => a' = a ∧ n' = n ∧ NoRe l
  | .take _ _ :: l | .give _ _ :: l | .inA _ _ _ :: l | .inD _ _ :: l | .quiet :: l => Re a n l
  | _ => False

theorem micros_shape (c : Cmd) : NoRe (micros c) ∨ ∃ a p n l, micros c = .re1 a p n :: l ∧ Re a n l := by
  cases c with
  | reallocHost a p n p' e => cases e <;> exact Or.inr ⟨_, _, _, _, rfl, rfl, rfl, by simp [NoRe]⟩
  | realloc => exact Or.inr ⟨_, _, _, _, rfl, rfl, rfl, by simp [NoRe]⟩
  | reallocZero => exact Or.inr ⟨_, _, _, _, rfl, rfl, rfl, by simp [NoRe]⟩
  | reallocNull => exact Or.inr ⟨_, _, _, _, rfl, rfl, rfl, by simp [NoRe]⟩
  | _ => exact Or.inl (by simp [NoRe, micros])

/-! ## The sequential program behind the log -/

theorem program_snoc {s : P} {xs : List Act} {d e : Done} {x : Act} (h : program s xs = some d)
    (hx : perform d.next x = some e) : program s (xs ++ [x]) = some ⟨e.next, d.evs ++ e.evs, d.calls ++ e.calls⟩ := by
  induction xs generalizing s d with
  | nil =>
    simp only [program, Option.some.injEq] at h
    subst h
    simp [program, hx]
  | cons y ys ih =>
    simp only [program, List.cons_append] at h ⊢
    cases hy : perform s y with
    | none => rw [hy] at h; cases h
    | some d1 =>
      rw [hy] at h
      dsimp only at h ⊢
      cases hz : program d1.next ys with
      | none => rw [hz] at h; cases h
      | some d2 =>
        rw [hz] at h
        simp only [Option.some.injEq] at h
        subst h
        rw [ih hz hx]
        simp

theorem clean_snoc {s : P} {xs : List Act} {d : Done} {x : Act} (h : program s xs = some d)
    (hc : cleanRun s xs = true) (hx : clean d.next x = true) : cleanRun s (xs ++ [x]) = true := by
  induction xs generalizing s d with
  | nil =>
    simp only [program, Option.some.injEq] at h
    subst h
    simp only [List.nil_append, cleanRun, hx, Bool.true_and]
    split <;> rfl
  | cons y ys ih =>
    simp only [program, List.cons_append, cleanRun, Bool.and_eq_true] at h hc ⊢
    refine ⟨hc.1, ?_⟩
    cases hy : perform s y with
    | none => rfl
    | some d1 =>
      rw [hy] at h hc
      dsimp only at h hc ⊢
      cases hz : program d1.next ys with
      | none => rw [hz] at h; cases h
      | some d2 =>
        rw [hz] at h
        simp only [Option.some.injEq] at h
        subst h
        exact ih hz hc.2 hx

/-- What the log of `s` is the log of. -/
structure Sim (s : S) (xs : List Act) (d : Done) : Prop where
  prog : program .init xs = some d
  cl : cleanRun .init xs = true
  as : d.next.as = s.as
  n : d.next.n = s.calls.length + 1
  calls : d.calls = s.calls.map (·.2)
  rest : match s.open_ with
    | none => d.evs = s.log ∧ d.next.live = s.has
    | some (t, id) => ∃ a n r nm p inner, s.as[a]? = some (r, nm) ∧ d.evs ++ (.realloc1 r p n :: inner) = s.log ∧
        inner.all innerOk = true ∧ Re a n (s.todo t) ∧
        (p = 0 ∧ id = 0 ∧ d.next.live = s.has ∨
          p ≠ 0 ∧ id ≠ 0 ∧ d.next.blk id = some ⟨id, a, p⟩ ∧ (d.next.without id).live = s.has)

/-- Threads outside a reallocation have no part of one before them. -/
def Out (s : S) : Prop := ∀ t, (∀ id, s.open_ ≠ some (t, id)) → NoRe (s.todo t)

theorem blk_of_mem {q : P} (hi : q.live.Pairwise fun b c => b.id ≠ c.id) {b : Blk} (hb : b ∈ q.live) :
    q.blk b.id = some b := by
  unfold P.blk
  cases hf : q.live.find? fun c => decide (c.id = b.id) with
  | none =>
    have := List.find?_eq_none.mp hf b hb
    simp at this
  | some c =>
    have h1 := List.mem_of_find?_eq_some hf
    have h2 := List.find?_some hf
    simp at h2
    rw [id_inj hi h1 hb h2]

theorem fresh_of {q : P} {a p : Nat} (hp : p ≠ 0) (h : (a, p) ∉ addrs q.live) : q.fresh a p = true := by
  unfold P.fresh
  simp only [Bool.and_eq_true, decide_eq_true_eq, List.all_eq_true]
  refine ⟨hp, fun b hb e => h (List.mem_map.mpr ⟨b, hb, by rw [e.1, e.2]⟩)⟩

/-- One more action of the sequential program. -/
theorem Sim.more {s s' : S} {xs : List Act} {d e : Done} {x : Act} (h : Sim s xs d) (h0 : s.open_ = none)
    (hx : perform d.next x = some e) (hcl : clean d.next x = true) (h1 : e.next.as = s'.as)
    (h2 : e.next.n = s'.calls.length + 1) (h3 : s'.calls.map (·.2) = s.calls.map (·.2) ++ e.calls)
    (h4 : s'.open_ = none) (h5 : s'.log = s.log ++ e.evs) (h6 : e.next.live = s'.has) :
    ∃ xs' d', Sim s' xs' d' := by
  have hr := h.rest
  rw [h0] at hr
  refine ⟨xs ++ [x], _, program_snoc h.prog hx, clean_snoc h.prog h.cl hcl, h1, h2, ?_, ?_⟩
  · rw [h3, ← h.calls]
  · rw [h4]
    exact ⟨by rw [h5, ← hr.1], h6⟩

/-- A small step of a thread outside a reallocation. -/
theorem sim_out {s s' : S} {xs : List Act} {d : Done} {t : Nat} {m : Micro} {l : List Micro} (hp : Pre s t (m :: l))
    (h : Sim s xs d) (h0 : s.open_ = none) (hm : NoRe (m :: l) ∨ ∃ a p n, m = .re1 a p n ∧ Re a n l)
    (he : exec t s m = some s') (hb : s'.calls.length + 1 < 2 ^ 31) (hn : ∀ x ∈ s'.as, plainName x.2 = true) :
    (∃ xs' d', Sim (s'.then_ t l) xs' d') ∧
      ((s'.open_ = none ∧ NoRe l) ∨ (∃ id, s'.open_ = some (t, id))) := by
  have hr := h.rest
  rw [h0] at hr
  have hlive : d.next.live.Pairwise fun b c => b.id ≠ c.id := by rw [hr.2]; exact hp.ids
  have nore : ∀ {m : Micro}, NoRe (m :: l) → NoRe l := fun hh x hx => hh x (List.mem_cons_of_mem _ hx)
  cases m with
  | take a p =>
    rcases hm with hm | ⟨_, _, _, hm, _⟩
    · simp only [exec] at he
      split at he <;> cases he
      exact ⟨⟨xs, d, h.prog, h.cl, h.as, h.n, h.calls, by
        show match s.open_ with | none => _ | some (t, id) => _
        rw [h0]; exact hr⟩, Or.inl ⟨h0, nore hm⟩⟩
    · cases hm
  | give a p =>
    rcases hm with hm | ⟨_, _, _, hm, _⟩
    · cases he
      exact ⟨⟨xs, d, h.prog, h.cl, h.as, h.n, h.calls, by
        show match s.open_ with | none => _ | some (t, id) => _
        rw [h0]; exact hr⟩, Or.inl ⟨h0, nore hm⟩⟩
    · cases hm
  | logA a n p =>
    rcases hm with hm | ⟨_, _, _, hm, _⟩
    · simp only [exec] at he
      cases ha : s.as[a]? with
      | none => rw [ha] at he; cases he
      | some rn =>
        obtain ⟨r, nm⟩ := rn
        rw [ha] at he
        cases he
        have hx := hp.phys.pass (t := t) (x := (a, p)) (l := owe l) (upd_self _ _ _)
        have hheld : (a, p) ∈ s.held := hp.phys.owe t (a, p) (by rw [upd_self]; exact List.mem_cons_self)
        refine ⟨h.more (x := .alloc a n p) (e := ⟨d.next.born a p, [.alloc r p n], [.allocate a n]⟩) h0 ?_ rfl
          h.as ?_ ?_ h0 rfl ?_, Or.inl ⟨h0, nore hm⟩⟩
        · simp only [perform]
          rw [h.as, ha]
          dsimp only
          rw [if_pos ⟨by rw [h.n]; simp [S.made, S.write, S.gain] at hb; omega,
            fresh_of (hp.nz _ hheld) (by rw [hr.2]; exact hx.2)⟩]
        · simp [P.born, S.then_, S.made, S.write, S.gain, h.n]
        · simp [S.then_, S.made, S.write, S.gain]
        · simp [P.born, S.then_, S.made, S.write, S.gain, h.n, hr.2]
    · cases hm
  | logD a p =>
    rcases hm with hm | ⟨_, _, _, hm, _⟩
    · simp only [exec] at he
      split at he
      · next r nm b ha hf =>
        cases he
        obtain ⟨f1, f2, f3⟩ := find_spec hf
        have hblk : d.next.blk b.id = some b := blk_of_mem hlive (by rw [hr.2]; exact f1)
        refine ⟨h.more (x := .free b.id) (e := ⟨(d.next.without b.id).tick, [.dealloc r b.p], [.deallocate b.a b.id]⟩)
          h0 ?_ rfl h.as ?_ ?_ h0 ?_ ?_, Or.inl ⟨h0, nore hm⟩⟩
        · simp only [perform]
          rw [hblk]
          dsimp only
          rw [h.as, f2, ha]
        · simp [P.tick, P.without, S.then_, S.made, S.write, S.lose, h.n]
        · simp [S.then_, S.made, S.write, S.lose, f2]
        · simp [S.then_, S.made, S.write, S.lose, f3]
        · simp [P.tick, P.without, S.then_, S.made, S.write, S.lose, hr.2]
      · cases he
    · cases hm
  | stray a p =>
    rcases hm with hm | ⟨_, _, _, hm, _⟩
    · simp only [exec] at he
      split at he
      · next r nm ha hf =>
        cases he
        have hnf := find_none hf
        refine ⟨h.more (x := .stray a p) (e := ⟨d.next, [.dealloc r p], []⟩) h0 ?_ rfl h.as h.n (by simp [S.then_, S.write]) h0
          rfl hr.2, Or.inl ⟨h0, nore hm⟩⟩
        simp only [perform]
        rw [h.as, ha]
        dsimp only
        rw [if_pos]
        simp only [List.all_eq_true, decide_eq_true_eq]
        intro b hb e
        exact hnf (by rw [← hr.2]; exact List.mem_map.mpr ⟨b, hb, by rw [e.1, e.2]⟩)
      · cases he
    · cases hm
  | quiet =>
    rcases hm with hm | ⟨_, _, _, hm, _⟩
    · cases he
      exact ⟨h.more (x := .quiet) (e := ⟨d.next, [.quiet], []⟩) h0 rfl rfl h.as h.n (by simp [S.then_, S.write]) h0
          rfl hr.2, Or.inl ⟨h0, nore hm⟩⟩
    · cases hm
  | make ref nm =>
    rcases hm with hm | ⟨_, _, _, hm, _⟩
    · simp only [exec] at he
      split at he
      · next hc =>
        cases he
        refine ⟨h.more (x := .make ref nm)
          (e := ⟨{ d.next.tick with as := d.next.as ++ [(ref, nm)] }, [.make ref nm], [.create d.next.as.length]⟩) h0 ?_ rfl
          (by rw [h.as]; rfl) ?_ ?_ h0 rfl ?_, Or.inl ⟨h0, nore hm⟩⟩
        · simp only [perform]
          rw [if_pos (by rw [h.as]; exact hc)]
        · simp [P.tick, S.then_, S.made, S.write, h.n]
        · simp [S.then_, S.made, S.write, h.as]
        · simp [P.tick, S.then_, S.made, S.write, hr.2]
      · cases he
    · cases hm
  | setDefault a =>
    rcases hm with hm | ⟨_, _, _, hm, _⟩
    · simp only [exec] at he
      cases ha : s.as[a]? with
      | none => rw [ha] at he; cases he
      | some rn =>
        obtain ⟨r, nm⟩ := rn
        rw [ha] at he
        cases he
        refine ⟨h.more (x := .setDefault a) (e := ⟨d.next.tick, [.setDefault r], [.setDefault a]⟩) h0 ?_ rfl h.as ?_ ?_ h0
          rfl hr.2, Or.inl ⟨h0, nore hm⟩⟩
        · simp only [perform]; rw [h.as, ha]
        · simp [P.tick, S.then_, S.made, S.write, h.n]
        · simp [S.then_, S.made, S.write]
    · cases hm
  | coalesce a =>
    rcases hm with hm | ⟨_, _, _, hm, _⟩
    · simp only [exec] at he
      cases ha : s.as[a]? with
      | none => rw [ha] at he; cases he
      | some rn =>
        obtain ⟨r, nm⟩ := rn
        rw [ha] at he
        cases he
        refine ⟨h.more (x := .coalesce a) (e := ⟨d.next.tick, [.coalesce nm], [.coalesce a]⟩) h0 ?_ ?_ h.as ?_ ?_ h0
          rfl hr.2, Or.inl ⟨h0, nore hm⟩⟩
        · simp only [perform]; rw [h.as, ha]
        · simp only [clean]; rw [h.as, ha]
          exact hn (r, nm) (List.mem_of_getElem? ha)
        · simp [P.tick, S.then_, S.made, S.write, h.n]
        · simp [S.then_, S.made, S.write]
    · cases hm
  | release a =>
    rcases hm with hm | ⟨_, _, _, hm, _⟩
    · simp only [exec] at he
      cases ha : s.as[a]? with
      | none => rw [ha] at he; cases he
      | some rn =>
        obtain ⟨r, nm⟩ := rn
        rw [ha] at he
        cases he
        refine ⟨h.more (x := .release a) (e := ⟨d.next.tick, [.release r], [.release a]⟩) h0 ?_ rfl h.as ?_ ?_ h0
          rfl hr.2, Or.inl ⟨h0, nore hm⟩⟩
        · simp only [perform]; rw [h.as, ha]
        · simp [P.tick, S.then_, S.made, S.write, h.n]
        · simp [S.then_, S.made, S.write]
    · cases hm
  | re1 a p n =>
    rcases hm with hm | ⟨_, _, _, hm, hre⟩
    · exact absurd (hm _ List.mem_cons_self) (by simp)
    · cases hm
      simp only [exec] at he
      cases ha : s.as[a]? with
      | none => rw [ha] at he; cases he
      | some rn =>
        obtain ⟨r, nm⟩ := rn
        rw [ha] at he
        dsimp only at he
        split at he
        · next hz =>
          cases he
          refine ⟨⟨xs, d, h.prog, h.cl, h.as, h.n, h.calls, a, n, r, nm, p, [], ha, ?_, rfl, ?_, Or.inl ⟨hz, rfl, hr.2⟩⟩,
            Or.inr ⟨0, rfl⟩⟩
          · rw [hr.1]; rfl
          · show Re a n (if t = t then l else _)
            rw [if_pos rfl]; exact hre
        · next hz =>
          split at he
          · cases he
          · next b hf =>
            cases he
            obtain ⟨f1, f2, f3⟩ := find_spec hf
            have hblk : d.next.blk b.id = some b := blk_of_mem hlive (by rw [hr.2]; exact f1)
            refine ⟨⟨xs, d, h.prog, h.cl, h.as, h.n, h.calls, a, n, r, nm, p, [], ha, ?_, rfl, ?_,
              Or.inr ⟨hz, ?_, ?_, ?_⟩⟩, Or.inr ⟨b.id, rfl⟩⟩
            · rw [hr.1]; rfl
            · show Re a n (if t = t then l else _)
              rw [if_pos rfl]; exact hre
            · have := (hp.range b f1).1; omega
            · rw [hblk, ← f2, ← f3]
            · show d.next.live.filter _ = s.has.filter _
              rw [hr.2]
  | re2 a n p =>
    rcases hm with hm | ⟨_, _, _, hm, _⟩
    · exact absurd (hm _ List.mem_cons_self) (by simp)
    · cases hm
  | inA a n p =>
    rcases hm with hm | ⟨_, _, _, hm, _⟩
    · exact absurd (hm _ List.mem_cons_self) (by simp)
    · cases hm
  | inD a p =>
    rcases hm with hm | ⟨_, _, _, hm, _⟩
    · exact absurd (hm _ List.mem_cons_self) (by simp)
    · cases hm

/-- A small step of the thread inside a reallocation. -/
theorem sim_in {s s' : S} {xs : List Act} {d : Done} {t id : Nat} {m : Micro} {l : List Micro} (hp : Pre s t (m :: l))
    (h : Sim s xs d) (h0 : s.open_ = some (t, id)) (hl : s.todo t = m :: l)
    (he : exec t s m = some s') (hb : s'.calls.length + 1 < 2 ^ 31) :
    (∃ xs' d', Sim (s'.then_ t l) xs' d') ∧
      ((s'.open_ = none ∧ NoRe l) ∨ s'.open_ = some (t, id)) := by
  have hr := h.rest
  rw [h0] at hr
  obtain ⟨a, n, r, nm, p, inner, ha, hlog, hin, hre, hid⟩ := hr
  rw [hl] at hre
  -- a step that at most writes one more record inside
  have stay : ∀ (s'' : S) (ev : List Ev), s''.as = s.as → s''.calls = s.calls → s''.has = s.has → s''.open_ = s.open_ →
      s''.log = s.log ++ ev → ev.all innerOk = true → Re a n l → ∃ xs' d', Sim (s''.then_ t l) xs' d' := by
    intro s'' ev e1 e2 e3 e4 e5 e6 e7
    refine ⟨xs, d, h.prog, h.cl, h.as.trans e1.symm, ?_, ?_, ?_⟩
    · rw [h.n]; show _ = s''.calls.length + 1; rw [e2]
    · rw [h.calls]; show _ = s''.calls.map _; rw [e2]
    · show match s''.open_ with | none => _ | some (t, id) => _
      rw [e4, h0]
      refine ⟨a, n, r, nm, p, inner ++ ev, ?_, ?_, ?_, ?_, ?_⟩
      · show s''.as[a]? = _
        rw [e1]; exact ha
      · show _ = s''.log
        rw [e5, ← hlog]; simp
      · rw [List.all_append, hin, e6]; rfl
      · show Re a n (if t = t then l else _)
        rw [if_pos rfl]; exact e7
      · have e3' : (s''.then_ t l).has = s.has := e3
        rw [e3']; exact hid
  cases m with
  | take a' p' =>
    simp only [exec] at he
    split at he <;> cases he
    exact ⟨stay _ [] rfl rfl rfl rfl (by simp) rfl hre, Or.inr h0⟩
  | give a' p' =>
    cases he
    exact ⟨stay _ [] rfl rfl rfl rfl (by simp) rfl hre, Or.inr h0⟩
  | quiet =>
    cases he
    exact ⟨stay _ [.quiet] rfl rfl rfl rfl rfl rfl hre, Or.inr h0⟩
  | inA a' n' p' =>
    simp only [exec] at he
    split at he <;> cases he
    exact ⟨stay _ _ rfl rfl rfl rfl rfl rfl hre, Or.inr h0⟩
  | inD a' p' =>
    simp only [exec] at he
    split at he <;> cases he
    exact ⟨stay _ _ rfl rfl rfl rfl rfl rfl hre, Or.inr h0⟩
  | re2 a' n' p' =>
    obtain ⟨rfl, rfl, hnl⟩ := hre
    simp only [exec] at he
    rw [ha, h0] at he
    cases he
    have hx := hp.phys.pass (t := t) (x := (a', p')) (l := owe l) (upd_self _ _ _)
    have hheld : (a', p') ∈ s.held := hp.phys.owe t (a', p') (by rw [upd_self]; exact List.mem_cons_self)
    have hnn : d.next.n < 2 ^ 31 := by
      rw [h.n]; simp [S.made, S.write, S.gain] at hb; omega
    refine ⟨?_, Or.inl ⟨rfl, hnl⟩⟩
    rcases hid with ⟨rfl, rfl, hv⟩ | ⟨hz, hz', hblk, hv⟩
    · refine ⟨xs ++ [.realloc a' 0 n' p' inner], _, program_snoc h.prog (e := ⟨d.next.born a' p',
        .realloc1 r 0 n' :: (inner ++ [.realloc2 r p']), [.reallocate a' 0 n']⟩) ?_, clean_snoc h.prog h.cl rfl,
        h.as, ?_, ?_, ?_, ?_⟩
      · simp only [perform]
        rw [h.as, ha]
        dsimp only
        rw [if_pos ⟨hnn, hin⟩, if_pos trivial, if_pos (fresh_of (hp.nz _ hheld) (by rw [hv]; exact hx.2))]
      · simp [P.born, S.then_, S.made, S.write, S.gain, h.n]
      · simp [S.then_, S.made, S.write, S.gain, h.calls]
      · show d.evs ++ _ = s.log ++ _
        rw [← hlog]; simp
      · simp [P.born, S.then_, S.made, S.write, S.gain, h.n, hv]
    · refine ⟨xs ++ [.realloc a' id n' p' inner], _, program_snoc h.prog (e := ⟨(d.next.without id).born a' p',
        .realloc1 r p n' :: (inner ++ [.realloc2 r p']), [.reallocate a' id n']⟩) ?_, clean_snoc h.prog h.cl rfl,
        h.as, ?_, ?_, ?_, ?_⟩
      · simp only [perform]
        rw [h.as, ha]
        dsimp only
        rw [if_pos ⟨hnn, hin⟩, if_neg hz', hblk]
        dsimp only
        rw [if_pos ⟨rfl, fresh_of (hp.nz _ hheld) (by rw [hv]; exact hx.2)⟩]
      · simp [P.born, P.without, S.then_, S.made, S.write, S.gain, h.n]
      · simp [S.then_, S.made, S.write, S.gain, h.calls]
      · show d.evs ++ _ = s.log ++ _
        rw [← hlog]; simp
      · have hn' : (d.next.without id).n = s.calls.length + 1 := h.n
        simp [P.born, S.then_, S.made, S.write, S.gain, hn', hv]
  | _ => exact absurd hre (by simp [Re])

/-- A small step that writes nothing. -/
theorem exec_silent {s s' : S} {t : Nat} {m : Micro} (he : exec t s m = some s') (hl : s'.log = s.log) :
    s'.as = s.as ∧ s'.calls = s.calls ∧ s'.has = s.has ∧ s'.open_ = s.open_ ∧ ∀ a p n, m ≠ .re1 a p n := by
  have key : ∀ e, s.log ++ [e] ≠ s.log := fun e h => by
    have := congrArg List.length h
    simp at this
  cases m <;> simp only [exec] at he <;> (repeat' split at he) <;> cases he <;>
    first
      | exact absurd hl (key _)
      | exact ⟨rfl, rfl, rfl, rfl, fun _ _ _ h => nomatch h⟩

theorem exec_todo {s s' : S} {t : Nat} {m : Micro} (he : exec t s m = some s') : s'.todo = s.todo := by
  cases m <;> simp only [exec] at he <;> (repeat' split at he) <;> cases he <;> rfl

theorem exec_mono {s s' : S} {t : Nat} {m : Micro} (he : exec t s m = some s') :
    s.calls.length ≤ s'.calls.length ∧ ∀ x ∈ s.as, x ∈ s'.as := by
  cases m <;> simp only [exec] at he <;> (repeat' split at he) <;> cases he <;>
    simp (config := { contextual := true }) [S.made, S.write, S.gain, S.lose]

/-- Thread `t` is about to do `l`, in a state where no other obligation changes. -/
theorem out_then {s s' : S} {t : Nat} {l : List Micro} (ho : Out s) (htd : s'.todo = s.todo)
    (h1 : (∀ id, s'.open_ ≠ some (t, id)) → NoRe l)
    (h2 : ∀ u, u ≠ t → (∀ id, s'.open_ ≠ some (u, id)) → ∀ id, s.open_ ≠ some (u, id)) : Out (s'.then_ t l) := by
  intro u hu
  show NoRe (if u = t then l else s'.todo u)
  split
  · next e => subst e; exact h1 hu
  · next e => rw [htd]; exact ho u (h2 u e hu)

theorem sim_step {s s' : S} {xs : List Act} {d : Done} {t : Nat} {m : Micro} {l : List Micro} (hp : Pre s t (m :: l))
    (h : Sim s xs d) (ho : Out s)
    (hm : (s.todo t = m :: l) ∨ (s.todo t = [] ∧ (NoRe (m :: l) ∨ ∃ a p n, m = .re1 a p n ∧ Re a n l)))
    (he : exec t s m = some s') (hc : s'.log = s.log ∨ ∀ u id, s.open_ = some (u, id) → u = t)
    (hb : s'.calls.length + 1 < 2 ^ 31) (hn : ∀ x ∈ s'.as, plainName x.2 = true) :
    (∃ xs' d', Sim (s'.then_ t l) xs' d') ∧ Out (s'.then_ t l) := by
  have htd := exec_todo he
  have tail : NoRe (m :: l) → NoRe l := fun hh x hx => hh x (List.mem_cons_of_mem _ hx)
  cases h0 : s.open_ with
  | none =>
    have hm' : NoRe (m :: l) ∨ ∃ a p n, m = .re1 a p n ∧ Re a n l := by
      rcases hm with e | ⟨_, e⟩
      · exact Or.inl (e ▸ ho t (by rw [h0]; intro id e; cases e))
      · exact e
    obtain ⟨k1, k2⟩ := sim_out hp h h0 hm' he hb hn
    refine ⟨k1, out_then ho htd (fun hu => ?_) (fun u _ _ id e => by rw [h0] at e; cases e)⟩
    rcases k2 with k2 | ⟨id, k2⟩
    · exact k2.2
    · exact absurd k2 (hu id)
  | some w =>
    obtain ⟨v, id⟩ := w
    by_cases hv : v = t
    · subst hv
      have hr := h.rest
      rw [h0] at hr
      obtain ⟨a, n, r, nm, p, inner, _, _, _, hre, _⟩ := hr
      have hl : s.todo v = m :: l := by
        rcases hm with e | ⟨e, _⟩
        · exact e
        · rw [e] at hre; exact absurd hre (by simp [Re])
      obtain ⟨k1, k2⟩ := sim_in hp h h0 hl he hb
      refine ⟨k1, out_then ho htd (fun hu => ?_) (fun u hu _ id' e => ?_)⟩
      · rcases k2 with k2 | k2
        · exact k2.2
        · exact absurd k2 (hu id)
      · rw [h0] at e; cases e; exact hu rfl
    · have hlog : s'.log = s.log := by
        rcases hc with e | e
        · exact e
        · exact absurd (e v id h0) hv
      obtain ⟨e1, e2, e3, e4, e5⟩ := exec_silent he hlog
      have hne : ∀ id', s.open_ ≠ some (t, id') := fun id' e => by rw [h0] at e; cases e; exact hv rfl
      have hm' : NoRe (m :: l) := by
        rcases hm with e | ⟨_, e | ⟨a, p, n, e, _⟩⟩
        · exact e ▸ ho t hne
        · exact e
        · exact absurd e (e5 a p n)
      refine ⟨⟨xs, d, h.prog, h.cl, h.as.trans e1.symm, ?_, ?_, ?_⟩, out_then ho htd (fun _ => tail hm') (fun u _ hu => ?_)⟩
      · rw [h.n]; show _ = s'.calls.length + 1; rw [e2]
      · rw [h.calls]; show _ = s'.calls.map _; rw [e2]
      · have hr := h.rest
        rw [h0] at hr
        show match s'.open_ with | none => _ | some (t, id) => _
        rw [e4, h0]
        obtain ⟨a, n, r, nm, p, inner, k1, k2, k3, k4, k5⟩ := hr
        refine ⟨a, n, r, nm, p, inner, ?_, ?_, k3, ?_, ?_⟩
        · show s'.as[a]? = _
          rw [e1]; exact k1
        · show _ = s'.log
          rw [hlog]; exact k2
        · show Re a n (if v = t then l else s'.todo v)
          rw [if_neg hv, htd]; exact k4
        · have e3' : (s'.then_ t l).has = s.has := e3
          rw [e3']; exact k5
      · rw [← e4]; exact hu

theorem step_mono {s s' : S} {t : Nat} (st : Step t s s') :
    s.calls.length ≤ s'.calls.length ∧ ∀ x ∈ s.as, x ∈ s'.as := by
  cases st with
  | call c m l _ s1 h0 hs hc he => have := exec_mono he; exact this
  | next m l _ s1 h0 he => have := exec_mono he; exact this

theorem calm_sim {s : S} (h : Calm s) (hb : s.calls.length + 1 < 2 ^ 31) (hn : ∀ x ∈ s.as, plainName x.2 = true) :
    (∃ xs d, Sim s xs d) ∧ Out s := by
  induction h with
  | init =>
    refine ⟨⟨[], ⟨.init, [], []⟩, rfl, rfl, rfl, rfl, rfl, rfl, rfl⟩, fun t _ m hm => ?_⟩
    cases hm
  | @step s s' h t st hc ih =>
    obtain ⟨m1, m2⟩ := step_mono st
    obtain ⟨⟨xs, d, hs⟩, ho⟩ := ih (by omega) (fun x hx => hn x (m2 x hx))
    have hi := h.reach.inv
    cases st with
    | call c m l _ s1 h0 hsane hcm he =>
      refine sim_step (hi.pre (l := m :: l) ?_ ?_) hs ho (Or.inr ⟨h0, ?_⟩) he hc hb hn
      · rw [← hcm, owe_micros, h0]; rfl
      · rw [← hcm]; exact ok_micros hsane
      · rcases micros_shape c with e | ⟨a, p, n, l', e, e'⟩
        · rw [hcm] at e; exact Or.inl e
        · rw [hcm] at e; cases e; exact Or.inr ⟨a, p, n, rfl, e'⟩
    | next m l _ s1 h0 he =>
      refine sim_step (hi.pre (l := m :: l) ?_ ?_) hs ho (Or.inl h0) he hc hb hn
      · rw [h0]
      · rw [← h0]; exact hi.ok t

end Umpire.Multi
