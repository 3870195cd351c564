import Verif.Replay.Stats
import Verif.Replay.Props
/-!
# The statistics of the log of a program

What `Stats` says about operations, for the operations that are compiled from the log of a program (C46).
-/
set_option autoImplicit false
set_option linter.unusedSimpArgs false
namespace Umpire.Replay.Stats

/-- An operation for a call; blocks are named by the calls that made them. -/
def ofCall : Call → Op
  | .create a => { Op.zero with kind := .creation, alloc := a }
  | .allocate a n => { Op.zero with kind := .allocate, alloc := a, size := n }
  | .deallocate a id => { Op.zero with kind := .deallocate, alloc := a, src0 := id }
  | .reallocate a id n => { Op.zero with kind := .reallocateEx, alloc := a, size := n, src1 := id }
  | .setDefault a => { Op.zero with kind := .setDefault, alloc := a }
  | .coalesce a => { Op.zero with kind := .coalesce, alloc := a }
  | .release a => { Op.zero with kind := .release, alloc := a }

/-- The blocks the program holds at any time have addresses of their own when it is replayed. -/
def Addresses (ret : Nat → Nat) (calls : List Call) : Prop :=
  ∀ t, t ≤ calls.length → ∀ b ∈ live 1 [] ((calls.take t).map ofCall), ret b.idx ≠ 0 ∧
    ∀ c ∈ live 1 [] ((calls.take t).map ofCall), ret b.idx = ret c.idx → b.idx = c.idx

/-! ## Only the calls matter -/

theorem step_call {f : Flags} {tr : Nat → Bool} {r : Nat} {s : S} {o o' : Op} {x : Call} (h : o.call s.tab = some x) (h' : o'.call s.tab = some x) :
    step f tr r s o = step f tr r s o' ∧ o.stored r = o'.stored r := by
  unfold Op.call at h h'
  cases hk : o.kind <;> rw [hk] at h <;> simp only [Option.some.injEq, reduceCtorEq] at h <;> subst h <;>
    cases hk' : o'.kind <;> rw [hk'] at h' <;>
    simp only [Option.some.injEq, reduceCtorEq, Call.create.injEq, Call.allocate.injEq, Call.deallocate.injEq, Call.reallocate.injEq,
      Call.setDefault.injEq, Call.coalesce.injEq, Call.release.injEq] at h' <;>
    simp only [step, Op.stored, hk, hk', h'] <;> simp

theorem step_tab {f : Flags} {tr : Nat → Bool} {r : Nat} {s s' : S} {o : Op} (h : step f tr r s o = some s') : s'.tab = s.tab ++ [o.stored r] := by
  unfold step at h
  cases hk : o.kind <;> rw [hk] at h <;> simp only [Op.stored, hk] at h ⊢
  · cases h
  · cases h; rfl
  · cases h; rfl
  · cases h; rfl
  · split at h
    · cases h; rfl
    · cases h
  · split at h
    · cases h
    · cases h; rfl
  · cases h; rfl
  · cases h; rfl

theorem note_tab (f : Flags) (s : S) : (note f s).tab = s.tab := by
  unfold note; split <;> rfl

theorem run_call {f : Flags} {tr : Nat → Bool} {ret : Nat → Nat} (os : List Op) : ∀ {s : S} {os' : List Op} {cs : List Call},
    exec ret s.tab os = some cs → exec ret s.tab os' = some cs → run f tr ret s os = run f tr ret s os' := by
  have inv : ∀ {tab : List Nat} {o : Op} {os : List Op} {cs : List Call}, exec ret tab (o :: os) = some cs →
      ∃ x xs, o.call tab = some x ∧ exec ret (tab ++ [o.stored (ret tab.length)]) os = some xs ∧ cs = x :: xs := by
    intro tab o os cs h
    simp only [exec] at h
    split at h
    · cases h
    · rename_i x hx
      split at h
      · cases h
      · rename_i xs hxs
        cases h
        exact ⟨x, xs, hx, hxs, rfl⟩
  induction os with
  | nil =>
    intro s os' cs h h'
    cases os' with
    | nil => rfl
    | cons o' os' =>
      obtain ⟨x, xs, _, _, e⟩ := inv h'
      simp only [exec, Option.some.injEq] at h
      rw [← h] at e; cases e
  | cons o os ih =>
    intro s os' cs h h'
    obtain ⟨x, xs, h1, h2, rfl⟩ := inv h
    cases os' with
    | nil => simp only [exec, Option.some.injEq] at h'; cases h'
    | cons o' os' =>
      obtain ⟨x', xs', h1', h2', e⟩ := inv h'
      cases e
      obtain ⟨e1, e2⟩ := step_call (f := f) (tr := tr) (r := ret s.tab.length) h1 h1'
      simp only [run]
      rw [← e1]
      cases hs : step f tr (ret s.tab.length) s o with
      | none => rfl
      | some s1 =>
        have ht : (note f s1).tab = s.tab ++ [o.stored (ret s.tab.length)] := by rw [note_tab, step_tab hs]
        exact ih (by rw [ht]; exact h2) (by rw [ht, e2]; exact h2')

/-! ## The calls of a program -/

/-- The blocks of the program. -/
structure Same (p : P) (L : List Blk) : Prop where
  eq : L.map (fun b => (b.idx, b.alloc)) = p.live.map (fun b => (b.id, b.a))
  range : ∀ b ∈ L, 1 ≤ b.idx ∧ b.idx < p.n

theorem same_find {p : P} {L : List Blk} (h : Same p L) {id : Nat} {b : Replay.Blk} (hb : p.blk id = some b) : ∃ c ∈ L, c.idx = id ∧ c.alloc = b.a := by
  obtain ⟨h1, h2⟩ := blk_spec hb
  have : (b.id, b.a) ∈ L.map (fun b => (b.idx, b.alloc)) := by rw [h.eq]; exact List.mem_map.mpr ⟨b, h1, rfl⟩
  obtain ⟨c, hc, e⟩ := List.mem_map.mp this
  rw [Prod.mk.injEq] at e
  exact ⟨c, hc, by rw [e.1, h2], e.2⟩

theorem same_without {p : P} {L : List Blk} (h : Same p L) (id : Nat) : Same (p.without id) (L.filter fun b => decide (b.idx ≠ id)) := by
  constructor
  · have e1 : (L.filter fun b => decide (b.idx ≠ id)).map (fun b => (b.idx, b.alloc)) =
        (L.map fun b => (b.idx, b.alloc)).filter fun x => decide (x.1 ≠ id) := by rw [List.filter_map]; rfl
    have e2 : (p.live.filter fun b => decide (b.id ≠ id)).map (fun b => (b.id, b.a)) =
        (p.live.map fun b => (b.id, b.a)).filter fun x => decide (x.1 ≠ id) := by rw [List.filter_map]; rfl
    unfold P.without
    simp only
    rw [e1, e2, h.eq]
  · intro b hb
    exact h.range b (List.mem_filter.mp hb).1

theorem same_tick {p : P} {L : List Blk} (h : Same p L) : Same p.tick L :=
  ⟨h.eq, fun b hb => by have := h.range b hb; exact ⟨this.1, Nat.lt_succ_of_lt this.2⟩⟩

theorem same_born {p : P} {L : List Blk} (h : Same p L) (hp : 1 ≤ p.n) (a q n : Nat) : Same (p.born a q) (⟨p.n, a, n⟩ :: L) := by
  refine ⟨by simp [P.born, h.eq], ?_⟩
  intro b hb
  rcases List.mem_cons.mp hb with rfl | hb
  · exact ⟨hp, Nat.lt_succ_self _⟩
  · have := h.range b hb; exact ⟨this.1, Nat.lt_succ_of_lt this.2⟩

/-- All operations deal with memory that is held, and `exec` finds it. -/
def Sound (tr : Nat → Bool) (i : Nat) (L : List Blk) : List Call → Prop
  | [] => True
  | c :: cs => OkOp tr L (ofCall c) ∧ Sound tr (i + 1) (liveStep i L (ofCall c)) cs

theorem sound_append {tr : Nat → Bool} (xs ys : List Call) : ∀ {i : Nat} {L : List Blk}, Sound tr i L xs →
    Sound tr (i + xs.length) (live i L (xs.map ofCall)) ys → Sound tr i L (xs ++ ys) := by
  induction xs with
  | nil => intro i L _ h; exact h
  | cons c xs ih =>
    intro i L h1 h2
    refine ⟨h1.1, ih h1.2 ?_⟩
    simp only [List.length_cons, List.map_cons, live] at h2
    rw [show i + 1 + xs.length = i + (xs.length + 1) by omega]
    exact h2

/-- What one action does to the blocks. -/
theorem act_sound {tr : Nat → Bool} {p : P} {x : Act} {d : Done} {L : List Blk} (h : Same p L) (hp : 1 ≤ p.n) (hd : perform p x = some d)
    (ht : ∀ a id n, .reallocate a id n ∈ d.calls → id ≠ 0 → tr a = true) :
    Sound tr p.n L d.calls ∧ Same d.next (live p.n L (d.calls.map ofCall)) ∧ d.next.n = p.n + d.calls.length := by
  cases x with
  | make ref nm =>
    simp only [perform] at hd
    split at hd
    · cases hd
      exact ⟨⟨trivial, trivial⟩, ⟨h.eq, (same_tick h).range⟩, rfl⟩
    · cases hd
  | alloc a n q =>
    simp only [perform] at hd
    split at hd
    · cases hd
    · split at hd
      · cases hd
        exact ⟨⟨trivial, trivial⟩, same_born h hp a q n, rfl⟩
      · cases hd
  | free id =>
    simp only [perform] at hd
    split at hd
    · cases hd
    · rename_i b hb
      split at hd
      · cases hd
      · cases hd
        obtain ⟨c, hc, h1, h2⟩ := same_find h hb
        exact ⟨⟨⟨c, hc, h1, h2⟩, trivial⟩, same_tick (same_without h id), rfl⟩
  | stray a q =>
    simp only [perform] at hd
    split at hd
    · cases hd
    · split at hd
      · cases hd; exact ⟨trivial, h, rfl⟩
      · cases hd
  | realloc a id n q inner =>
    simp only [perform] at hd
    split at hd
    · cases hd
    · split at hd
      · split at hd
        · rename_i h0
          subst h0
          split at hd
          · cases hd
            refine ⟨⟨.inl rfl, trivial⟩, ?_, rfl⟩
            have : (L.filter fun b => decide (b.idx ≠ 0)) = L := by
              apply List.filter_eq_self.mpr
              intro b hb
              have := h.range b hb
              have : b.idx ≠ 0 := by omega
              simpa using this
            simp only [List.map_cons, List.map_nil, live, liveStep, ofCall, this]
            exact same_born h hp a q n
          · cases hd
        · rename_i h0
          split at hd
          · cases hd
          · rename_i b hb
            split at hd
            · rename_i hb2
              cases hd
              obtain ⟨c, hc, h1, h2⟩ := same_find h hb
              refine ⟨⟨.inr ⟨c, hc, h1, by rw [h2]; exact hb2.1, ht a id n (by simp) h0⟩, trivial⟩, ?_, rfl⟩
              exact same_born (same_without h id) hp a q n
            · cases hd
      · cases hd
  | reallocFail a id n inner =>
    simp only [perform] at hd
    repeat' split at hd
    all_goals first
      | (cases hd; done)
      | (cases hd; exact ⟨trivial, h, rfl⟩)
  | reallocRace a n q m q' =>
    simp only [perform] at hd
    split at hd
    · cases hd
    · split at hd
      · cases hd
        refine ⟨⟨trivial, .inl rfl, trivial⟩, ?_, rfl⟩
        have hb := same_born h hp a q' m
        have : ((⟨p.n, a, m⟩ :: L : List Blk).filter fun b => decide (b.idx ≠ 0)) = ⟨p.n, a, m⟩ :: L := by
          apply List.filter_eq_self.mpr
          intro b hb'
          have := hb.range b hb'
          have : b.idx ≠ 0 := by omega
          simpa using this
        simp only [List.map_cons, List.map_nil, live, liveStep, ofCall, this]
        exact same_born hb (by simp [P.born]) a q n
      · cases hd
  | setDefault a =>
    simp only [perform] at hd
    split at hd
    · cases hd
    · cases hd; exact ⟨⟨trivial, trivial⟩, same_tick h, rfl⟩
  | coalesce a =>
    simp only [perform] at hd
    split at hd
    · cases hd
    · cases hd; exact ⟨⟨trivial, trivial⟩, same_tick h, rfl⟩
  | release a =>
    simp only [perform] at hd
    split at hd
    · cases hd
    · cases hd; exact ⟨⟨trivial, trivial⟩, same_tick h, rfl⟩
  | quiet => simp only [perform] at hd; cases hd; exact ⟨trivial, h, rfl⟩
  | memset => simp only [perform] at hd; cases hd; exact ⟨trivial, h, rfl⟩

theorem program_sound {tr : Nat → Bool} (xs : List Act) : ∀ {p : P} {d : Done} {L : List Blk}, Same p L → 1 ≤ p.n → program p xs = some d →
    (∀ a id n, .reallocate a id n ∈ d.calls → id ≠ 0 → tr a = true) → Sound tr p.n L d.calls := by
  induction xs with
  | nil =>
    intro p d L h hp hd ht
    simp only [program] at hd
    cases hd; trivial
  | cons x xs ih =>
    intro p d L h hp hd ht
    simp only [program] at hd
    split at hd
    · cases hd
    · rename_i d1 h1
      split at hd
      · cases hd
      · rename_i d2 h2
        cases hd
        obtain ⟨q1, q2, q3⟩ := act_sound h hp h1 (fun a id n hm => ht a id n (by simp [hm]))
        refine sound_append _ _ q1 ?_
        rw [← q3]
        exact ih q2 (by omega) h2 (fun a id n hm => ht a id n (by simp [hm]))

theorem sound_good {tr : Nat → Bool} {ret : Nat → Nat} (cs : List Call) : ∀ {i : Nat} {L : List Blk}, Sound tr i L cs →
    (∀ t, t ≤ cs.length → ∀ b ∈ live i L ((cs.take t).map ofCall), ret b.idx ≠ 0 ∧
      ∀ c ∈ live i L ((cs.take t).map ofCall), ret b.idx = ret c.idx → b.idx = c.idx) → Good tr ret i L (cs.map ofCall) := by
  induction cs with
  | nil => intro i L _ _; trivial
  | cons c cs ih =>
    intro i L h ha
    have h1 := ha 1 (by simp)
    simp only [List.take_succ_cons, List.take_zero, List.map_cons, List.map_nil, live] at h1
    refine ⟨h.1, fun b hb => (h1 b hb).1, fun b hb => (h1 b hb).2, ih h.2 ?_⟩
    intro t ht
    have := ha (t + 1) (by simpa using ht)
    simpa only [List.take_succ_cons, List.map_cons, live] using this

theorem sound_exec {tr : Nat → Bool} {ret : Nat → Nat} (cs : List Call) : ∀ {i : Nat} {L : List Blk} {tab : List Nat}, Sound tr i L cs →
    0 < i → tab.length = i → tab.getD 0 0 = 0 → (∀ b ∈ L, 1 ≤ b.idx ∧ b.idx < i ∧ tab.getD b.idx 0 = ret b.idx) →
    exec ret tab (cs.map ofCall) = some (cs.map (Call.withPtrs ret)) := by
  induction cs with
  | nil => intro i L tab _ _ _ _ _; rfl
  | cons c cs ih =>
    intro i L tab h h0 hl hz ht
    have hc : (ofCall c).call tab = some (c.withPtrs ret) := by
      have hO := h.1
      cases c with
      | deallocate a id =>
        obtain ⟨b, hb, h1, _⟩ := hO
        have hb1 : b.idx = id := h1
        have := ht b hb
        rw [hb1] at this
        simp only [ofCall, Op.call, Call.withPtrs]
        rw [this.2.2, if_neg (by omega)]
      | reallocate a id n =>
        simp only [ofCall, Op.call, Call.withPtrs]
        rcases hO with h1 | ⟨b, hb, h1, _⟩
        · have hid : id = 0 := h1
          rw [hid, hz, if_pos rfl]
        · have hb1 : b.idx = id := h1
          have := ht b hb
          rw [hb1] at this
          rw [this.2.2, if_neg (by omega)]
      | _ => rfl
    have hnew := ih (tab := tab ++ [(ofCall c).stored (ret tab.length)]) h.2 (by omega) (by simp [hl])
      (by rw [getD_append (by omega)]; exact hz) (by
        have old : ∀ b ∈ L, 1 ≤ b.idx ∧ b.idx < i + 1 ∧ (tab ++ [(ofCall c).stored (ret tab.length)]).getD b.idx 0 = ret b.idx := by
          intro b hb
          have := ht b hb
          refine ⟨this.1, by omega, ?_⟩
          rw [getD_append (by omega)]; exact this.2.2
        have last : (ofCall c).stored (ret tab.length) = ret i →
            1 ≤ i ∧ i < i + 1 ∧ (tab ++ [(ofCall c).stored (ret tab.length)]).getD i 0 = ret i := by
          intro e
          refine ⟨by omega, by omega, ?_⟩
          have := getD_last tab ((ofCall c).stored (ret tab.length))
          rw [hl] at this
          rw [hl, this, ← hl]; rw [← hl] at e; exact e
        intro b hb
        cases c with
        | allocate a n =>
          rcases List.mem_cons.mp hb with rfl | hb
          · exact last (by simp [ofCall, Op.stored, hl])
          · exact old b hb
        | deallocate a id => exact old b (List.mem_filter.mp hb).1
        | reallocate a id n =>
          rcases List.mem_cons.mp hb with rfl | hb
          · exact last (by simp [ofCall, Op.stored, hl])
          · exact old b (List.mem_filter.mp hb).1
        | _ => exact old b hb)
    simp only [List.map_cons, exec, hc, hnew]

/-! ## Theorems -/

/-- **C93.**  The theorems about operations hold for the operations compiled from the log of every program that can be replayed (C46), with
the calls of the program as the operations. -/
theorem stats_log {xs : List Act} {d : Done} (hd : program .init xs = some d) (hcl : cleanRun .init xs = true) :
    ∃ c, build d.evs = some c ∧ ∀ tr : Nat → Bool, (∀ a id n, .reallocate a id n ∈ d.calls → id ≠ 0 → tr a = true) → ∀ ret,
      (∀ f, run f tr ret .init (c.ops.drop 1) = run f tr ret .init (d.calls.map ofCall)) ∧
      (Addresses ret d.calls → Good tr ret 1 [] (d.calls.map ofCall)) := by
  obtain ⟨c, h1, h2⟩ := replay_faithful_partial hd hcl
  refine ⟨c, h1, fun tr ht ret => ?_⟩
  have hs : Sound tr 1 [] d.calls := program_sound xs (p := .init) ⟨rfl, by simp⟩ (Nat.le_refl _) hd ht
  refine ⟨fun f => run_call _ (h2 ret) (sound_exec _ hs (by omega) rfl rfl (by simp)), fun ha => sound_good _ hs ha⟩

/-- **C93.**  The trace `--dump` writes for the log of a program: for every call the program made and every allocator it had by then, the number
of blocks of the allocator the program held.  For programs as in C46 that do not reallocate null pointers, with tracked allocators. -/
theorem log_dump_partial {xs : List Act} {d : Done} (hd : program .init xs = some d) (hcl : cleanRun .init xs = true)
    (hn : ∀ a n, .reallocate a 0 n ∉ d.calls) (hl : d.calls.length < 2 ^ 64) {ret : Nat → Nat} (ha : Addresses ret d.calls) :
    ∃ c s, build d.evs = some c ∧ run ⟨false, true⟩ (fun _ => true) ret .init (c.ops.drop 1) = some s ∧
      s.series = (List.range d.calls.length).flatMap fun t =>
        (created ((d.calls.take (t + 1)).map ofCall)).map fun a => ⟨t, a, holds a (live 1 [] ((d.calls.take (t + 1)).map ofCall))⟩ := by
  obtain ⟨c, h1, h2⟩ := stats_log hd hcl
  obtain ⟨h3, h4⟩ := h2 (fun _ => true) (fun _ _ _ _ _ => rfl) ret
  have hg := h4 ha
  obtain ⟨s, hs⟩ := Option.isSome_iff_exists.mp ((stats_through ⟨false, true⟩ hg).mpr fun _ ⟨_, _, _, h⟩ => by cases h)
  have hnf : NoFresh (d.calls.map ofCall) := by
    intro o ho hk
    obtain ⟨x, hx, rfl⟩ := List.mem_map.mp ho
    cases x with
    | reallocate a id n =>
      intro h0
      have h0 : id = 0 := h0
      subst h0
      exact hn a n hx
    | _ => cases hk
  refine ⟨c, s, h1, by rw [h3]; exact hs, ?_⟩
  have := dump_exact_partial hg hnf (by simpa using hl) hs
  rw [this, List.length_map]
  simp only [List.map_take]

/-- The demonstration of C46, with addresses that are the numbers of the calls times a page. -/
example : ∃ d, program .init demo = some d ∧ cleanRun .init demo = true ∧ (∀ a n, .reallocate a 0 n ∉ d.calls) ∧ d.calls.length < 2 ^ 64 ∧
    Addresses addr d.calls ∧ d.calls.length = 12 ∧ holds 1 (live 1 [] ((d.calls.take 8).map ofCall)) = 2 := by
  have hs : (program .init demo).isSome = true := by decide +kernel
  obtain ⟨d, hd⟩ := Option.isSome_iff_exists.mp hs
  have e : ∀ f : Done → Bool, (program .init demo).map f = some (f d) := fun f => by rw [hd]; rfl
  have h1 : d.calls.length = 12 := by
    have h := e fun d => decide (d.calls.length = 12)
    rw [show (program .init demo).map (fun d => decide (d.calls.length = 12)) = some true by decide +kernel] at h
    exact of_decide_eq_true (Option.some.inj h).symm
  refine ⟨d, hd, by decide +kernel, ?_, by rw [h1]; decide, ?_, h1, ?_⟩
  · have h := e fun d => d.calls.all fun c => match c with | .reallocate _ 0 _ => false | _ => true
    rw [show (program .init demo).map (fun d => d.calls.all fun c => match c with | .reallocate _ 0 _ => false | _ => true) = some true by decide +kernel] at h
    intro a n hm
    have := List.all_eq_true.mp (Option.some.inj h).symm _ hm
    cases this
  · have key : ∀ (os : List Op) (i : Nat) (L : List Blk), 0 < i → (∀ b ∈ L, 0 < b.idx) → ∀ b ∈ live i L os, 0 < b.idx := by
      intro os
      induction os with
      | nil => intro i L _ h; exact h
      | cons o os ih => intro i L h0 h; exact ih _ _ (by omega) (pos_step h0 h o)
    intro t _ b hb
    have := key _ 1 [] (by omega) (by simp) b hb
    exact ⟨by unfold addr; omega, fun c _ e => by unfold addr at e; omega⟩
  · have h := e fun d => decide (holds 1 (live 1 [] ((d.calls.take 8).map ofCall)) = 2)
    rw [show (program .init demo).map (fun d => decide (holds 1 (live 1 [] ((d.calls.take 8).map ofCall)) = 2)) = some true by decide +kernel] at h
    exact of_decide_eq_true (Option.some.inj h).symm

end Umpire.Replay.Stats
