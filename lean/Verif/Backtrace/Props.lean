import Verif.Backtrace.Model
import Verif.Judy.Props
/-!
# Properties of backtraces (C94)
-/
set_option autoImplicit false
set_option linter.unusedSimpArgs false
namespace Umpire.Backtrace
open Umpire.Judy (AMap Rec AReach byPtr Apart Contains push pop)

/-! ## Specification -/

/-- An allocation the program has, and where it was made. -/
structure Held where
  ptr : Nat
  size : Nat
  stack : List Nat
deriving DecidableEq, Repr

/-- The allocations after an operation. -/
def held (H : List Held) : Op → List Held
  | .register p n st => ⟨p, n, st⟩ :: H
  | .deregister p => H.filter fun h => decide (h.ptr ≠ p)
  | _ => H

def heldAll (H : List Held) : List Op → List Held
  | [] => H
  | o :: os => heldAll (held H o) os

/-- New memory is apart from what the program has, inside the address space, not null, and has at least five bytes; somebody called. -/
def OkOp (H : List Held) : Op → Prop
  | .register p n st => p ≠ 0 ∧ 5 ≤ n ∧ p + n ≤ 2 ^ 64 ∧ st ≠ [] ∧ ∀ h ∈ H, p + n ≤ h.ptr ∨ h.ptr + h.size ≤ p
  | .deregister p => p < 2 ^ 64
  | _ => True

def Ok (H : List Held) : List Op → Prop
  | [] => True
  | o :: os => OkOp H o ∧ Ok (held H o) os

/-- Nobody changes the environment variable. -/
def Constant (os : List Op) : Prop := ∀ o ∈ os, ∀ v, o ≠ .setenv v

/-- A value that means on: the letters o and n one after the other, in upper or lower case, anywhere. -/
def SaysOn (v : List Nat) : Prop := ∃ l x y r, v = l ++ x :: y :: r ∧ (x = 79 ∨ x = 111) ∧ (y = 78 ∨ y = 110)

/-- The variable is set and says on. -/
def IsOn (v : Option (List Nat)) : Prop := ∃ t, v = some t ∧ SaysOn t

/-! ## Proofs -/

/-- The map and the backtraces in it, `b` telling whether they are recorded. -/
structure Inv (b : Bool) (s : S) (H : List Held) : Prop where
  ex : ∃ live n, AReach (fun f => ∃ l, f = byPtr l ∧ Apart l ∧ ∀ r ∈ l, 5 ≤ r.size) s.map (byPtr live) n ∧ Apart live ∧
    (∀ r ∈ live, ∃ h ∈ H, h.ptr = r.ptr ∧ h.size = r.size ∧ r.tag < s.traces.length ∧ 5 ≤ r.size ∧
      s.traces.getD r.tag [] = if b then build h.stack else []) ∧
    (∀ h ∈ H, ∃ r ∈ live, r.ptr = h.ptr ∧ r.size = h.size)
  apart : ∀ h ∈ H, ∀ g ∈ H, ∀ q, h.ptr ≤ q → q < h.ptr + h.size → g.ptr ≤ q → q < g.ptr + g.size → h = g
  stack : ∀ h ∈ H, h.stack ≠ [] ∧ 5 ≤ h.size ∧ h.ptr ≠ 0

theorem inv_nil (b : Bool) (env : Option (List Nat)) : Inv b (.init env) [] :=
  ⟨⟨[], 0, .new, .nil, by simp, by simp⟩, by simp, by simp⟩

theorem inv_same {b : Bool} {s s' : S} {H : List Held} (h : Inv b s H) (h1 : s'.map = s.map) (h2 : s'.traces = s.traces) : Inv b s' H := by
  refine ⟨?_, h.apart, h.stack⟩
  rw [h1, h2]; exact h.ex

theorem enabled_map (c : Nat) (s : S) : (enabled c s).2.map = s.map ∧ (enabled c s).2.traces = s.traces ∧ (enabled c s).2.env = s.env := by
  unfold enabled; split <;> exact ⟨rfl, rfl, rfl⟩

theorem print_map (c : Nat) (fr : List Nat) (s : S) : (print c fr s).2 = (enabled c s).2 := by
  unfold print
  split <;> rename_i h <;> rw [h]

theorem pop_byPtr {live : List Rec} (h : Apart live) (p : Nat) : pop (byPtr live) p = byPtr (live.filter fun r => decide (r.ptr ≠ p)) := by
  funext q
  unfold pop byPtr
  by_cases hq : q = p
  · rw [if_pos hq, List.filter_filter]
    have e : (live.filter fun r => decide (r.ptr = q) && decide (r.ptr ≠ p)) = [] := by
      apply List.filter_eq_nil_iff.mpr
      intro r _
      subst hq
      by_cases e : r.ptr = q <;> simp [e]
    rw [e]
    have hp : (live.filter fun r => decide (r.ptr = p)).Pairwise fun a b => ∀ q, ¬(Contains a q ∧ Contains b q) := h.filter _
    have hm : ∀ r ∈ live.filter fun r => decide (r.ptr = p), r.ptr = p := fun r hr => of_decide_eq_true (List.mem_filter.mp hr).2
    cases hl : live.filter fun r => decide (r.ptr = p) with
    | nil => rfl
    | cons x l =>
      cases l with
      | nil => rfl
      | cons y l =>
        rw [hl] at hp hm
        have h1 := hm x (by simp)
        have h2 := hm y (by simp)
        have := List.rel_of_pairwise_cons hp (List.mem_cons_self) p
        exact absurd ⟨h1 ▸ Judy.contains_base x, h2 ▸ Judy.contains_base y⟩ this
  · rw [if_neg hq, List.filter_filter]
    apply List.filter_congr
    intro r _
    by_cases e : r.ptr = q
    · have : r.ptr ≠ p := by omega
      simp [e]; omega
    · simp [e]

theorem filter_none {live : List Rec} {p : Nat} (h : byPtr live p = []) : (live.filter fun r => decide (r.ptr ≠ p)) = live := by
  apply List.filter_eq_self.mpr
  intro r hr
  have := List.filter_eq_nil_iff.mp h r hr
  simpa using this

/-- One operation. -/
theorem inv_step {k : Copies} {b : Bool} {s : S} {H : List Held} {o : Op} (h : Inv b s H)
    (he : (∃ p n st, o = .register p n st) → (enabled k.rm s).1 = b) (ho : OkOp H o) : Inv b (step k s o).2 (held H o) := by
  obtain ⟨live, n, hr, ha, h1, h2⟩ := h.ex
  cases o with
  | setenv v => exact inv_same h rfl rfl
  | other c => exact inv_same h (enabled_map c s).1 (enabled_map c s).2.1
  | ask q =>
    have key : Inv b { s with map := (s.map.findRecord q).1 } H := ⟨⟨live, n, hr.find, ha, h1, h2⟩, h.apart, h.stack⟩
    simp only [step, held]
    split
    · rename_i a hf
      rw [hf] at key; exact key
    · rename_i a r hf
      rw [hf] at key
      rw [print_map]
      exact inv_same key (enabled_map _ _).1 (enabled_map _ _).2.1
  | deregister p =>
    have hd : Inv b { s with map := s.map } H := h
    have hfilter : ∀ {a : AMap} {m : Nat}, AReach (fun f => ∃ l, f = byPtr l ∧ Apart l ∧ ∀ r ∈ l, 5 ≤ r.size) a
        (byPtr (live.filter fun r => decide (r.ptr ≠ p))) m → Inv b { s with map := a } (held H (.deregister p)) := by
      intro a m hm
      refine ⟨⟨_, m, hm, ha.filter _, ?_, ?_⟩, ?_, ?_⟩
      · intro r hr'
        obtain ⟨r1, r2⟩ := List.mem_filter.mp hr'
        obtain ⟨g, g1, g2, g3⟩ := h1 r r1
        refine ⟨g, List.mem_filter.mpr ⟨g1, ?_⟩, g2, g3⟩
        rw [g2]; exact r2
      · intro g hg
        obtain ⟨g1, g2⟩ := List.mem_filter.mp hg
        obtain ⟨r, r1, r2, r3⟩ := h2 g g1
        refine ⟨r, List.mem_filter.mpr ⟨r1, ?_⟩, r2, r3⟩
        rw [r2]; exact g2
      · intro g hg g' hg'
        exact h.apart g (List.mem_filter.mp hg).1 g' (List.mem_filter.mp hg').1
      · intro g hg
        exact h.stack g (List.mem_filter.mp hg).1
    simp only [step]
    rcases Judy.remove_cases (Judy.areach_inv hr) (p := p) ho with ⟨a', r, rest, hf, e, _⟩ | ⟨hf, a', e, _⟩
    · rw [e]
      refine hfilter (m := n - 1) ?_
      rw [← pop_byPtr ha]
      exact hr.remove ho e
    · rw [e]
      refine hfilter (m := n) ?_
      rw [filter_none hf]
      exact hr.removeErr ho e
  | register p m st =>
    obtain ⟨o1, o2, o3, o4, o5⟩ := ho
    have hb := he ⟨p, m, st, rfl⟩
    obtain ⟨e1, e2, _⟩ := enabled_map k.rm s
    have hnew : Apart (⟨p, m, s.traces.length⟩ :: live) := by
      refine List.pairwise_cons.mpr ⟨?_, ha⟩
      intro r hr' q hq
      obtain ⟨g, g1, g2, g3, _, g5, _⟩ := h1 r hr'
      have := o5 g g1
      unfold Contains at hq
      simp only at hq
      omega
    have h5 : ∀ r ∈ (⟨p, m, s.traces.length⟩ :: live : List Rec), 5 ≤ r.size := by
      intro r hr'
      rcases List.mem_cons.mp hr' with rfl | hr'
      · exact o2
      · obtain ⟨_, _, _, _, _, g, _⟩ := h1 r hr'; exact g
    simp only [step, if_neg o1, held]
    refine ⟨⟨⟨p, m, s.traces.length⟩ :: live, n + 1, ?_, hnew, ?_, ?_⟩, ?_, ?_⟩
    · simp only [e1, e2]
      have := Judy.push_byPtr live ⟨p, m, s.traces.length⟩
      rw [← this]
      exact hr.insert (by omega) ⟨_, this, hnew, h5⟩
    · intro r hr'
      simp only [e2, hb]
      rcases List.mem_cons.mp hr' with rfl | hr'
      · refine ⟨⟨p, m, st⟩, by simp, rfl, rfl, by simp, o2, ?_⟩
        simp [List.getD]
      · obtain ⟨g, g1, g2, g3, g4, g5, g6⟩ := h1 r hr'
        refine ⟨g, by simp [g1], g2, g3, by simp; omega, g5, ?_⟩
        rw [← g6]
        simp [List.getD, List.getElem?_append_left g4]
    · intro g hg
      rcases List.mem_cons.mp hg with rfl | hg
      · exact ⟨_, List.mem_cons_self, rfl, rfl⟩
      · obtain ⟨r, r1, r2⟩ := h2 g hg
        exact ⟨r, List.mem_cons_of_mem _ r1, r2⟩
    · intro g hg g' hg' q q1 q2 q3 q4
      rcases List.mem_cons.mp hg with rfl | hg <;> rcases List.mem_cons.mp hg' with rfl | hg'
      · rfl
      · have := o5 g' hg'; simp only at q1 q2; omega
      · have := o5 g hg; simp only at q3 q4; omega
      · exact h.apart g hg g' hg' q q1 q2 q3 q4
    · intro g hg
      rcases List.mem_cons.mp hg with rfl | hg
      · exact ⟨o4, o2, o1⟩
      · exact h.stack g hg

/-- The answer, if the copy for printing decides as the records were made. -/
theorem ask_inv {k : Copies} {b : Bool} {s : S} {H : List Held} (h : Inv b s H) {q : Nat} (hq : q < 2 ^ 64) :
    (∀ g ∈ H, g.ptr ≤ q → q < g.ptr + g.size → (enabled k.um s).1 = b → (step k s (.ask q)).1 = if b then .frames (build g.stack) else .off) ∧
    ((∀ g ∈ H, ¬(g.ptr ≤ q ∧ q < g.ptr + g.size)) → (step k s (.ask q)).1 = .throws) := by
  obtain ⟨live, n, hr, ha, h1, h2⟩ := h.ex
  obtain ⟨f1, f2⟩ := Judy.allocmap_find_large_partial hr ha hq
  constructor
  · intro g hg q1 q2 he
    obtain ⟨r, r1, r2, r3⟩ := h2 g hg
    have hf := f1 r r1 ⟨by omega, .inl (by omega)⟩
    obtain ⟨g', g1, g2, g3, _, _, g6⟩ := h1 r r1
    have hgg : g' = g := h.apart g' g1 g hg q (by omega) (by omega) q1 q2
    subst hgg
    simp only [step]
    have hpair : s.map.findRecord q = ((s.map.findRecord q).1, some r) := by rw [← hf]
    rw [hpair]
    simp only
    have he' : (enabled k.um { s with map := (s.map.findRecord q).1 }).1 = b := by
      rw [← he]; unfold enabled; simp only; split <;> rfl
    have hne : build g'.stack ≠ [] := by
      have := (h.stack g' g1).1
      unfold build
      cases hs : g'.stack with
      | nil => exact absurd hs this
      | cons x l => simp
    unfold print
    split
    · rename_i s' he2
      rw [he2] at he'
      rw [← he']; rfl
    · rename_i s' he2
      rw [he2] at he'
      have hbt : b = true := he'.symm
      rw [g6, hbt]
      simp [hne]
  · intro hno
    have hf := f2 (by
      intro r r1 hc
      obtain ⟨g, g1, g2, g3, _, g5, _⟩ := h1 r r1
      refine hno g g1 ?_
      unfold Contains at hc
      omega)
    simp only [step]
    have hpair : s.map.findRecord q = ((s.map.findRecord q).1, none) := by rw [← hf]
    rw [hpair]

/-- All copies that have decided did it as the variable says. -/
def Agree (v : Option (List Nat)) (s : S) : Prop := s.env = v ∧ ∀ c, s.seen c = none ∨ s.seen c = some (turnsOn v)

theorem agree_enabled {v : Option (List Nat)} {s : S} (h : Agree v s) (c : Nat) : (enabled c s).1 = turnsOn v ∧ Agree v (enabled c s).2 := by
  unfold enabled
  rcases h.2 c with e | e <;> rw [e]
  · refine ⟨by rw [h.1], h.1, fun d => ?_⟩
    dsimp only
    by_cases hd : d = c
    · rw [if_pos hd, h.1]; exact .inr rfl
    · rw [if_neg hd]; exact h.2 d
  · exact ⟨rfl, h⟩

theorem agree_step {k : Copies} {v : Option (List Nat)} {s : S} {o : Op} (h : Agree v s) (ho : ∀ w, o ≠ .setenv w) : Agree v (step k s o).2 := by
  cases o with
  | setenv w => exact absurd rfl (ho w)
  | register p n st =>
    simp only [step]
    split
    · exact h
    · exact (agree_enabled h k.rm).2
  | deregister p => simp only [step]; split <;> exact h
  | ask q =>
    simp only [step]
    split
    · exact h
    · rename_i a r _
      rw [print_map]
      have h' : Agree v { s with map := a } := h
      exact (agree_enabled h' k.um).2
  | other c => exact (agree_enabled h c).2

theorem agree_run {k : Copies} {v : Option (List Nat)} (os : List Op) : ∀ {s : S} {H : List Held}, Agree v s → Inv (turnsOn v) s H → Ok H os → Constant os →
    Agree v (run k s os) ∧ Inv (turnsOn v) (run k s os) (heldAll H os) := by
  induction os with
  | nil => intro s H h1 h2 _ _; exact ⟨h1, h2⟩
  | cons o os ih =>
    intro s H h1 h2 h3 h4
    exact ih (agree_step h1 (h4 o (by simp))) (inv_step h2 (fun _ => (agree_enabled h1 k.rm).1) h3.1) h3.2
      (fun o' ho' => h4 o' (by simp [ho']))

/-- With one copy: it has not decided and there is no allocation, or it has. -/
def Single (c : Nat) (s : S) (H : List Held) : Prop := (s.seen c = none ∧ H = [] ∧ ∀ b, Inv b s H) ∨ ∃ b, s.seen c = some b ∧ Inv b s H

theorem enabled_seen (c d : Nat) (s : S) : (∀ b, s.seen c = some b → (enabled d s).2.seen c = some b) ∧
    (enabled c s).2.seen c = some (enabled c s).1 ∧ ((enabled d s).2.seen c = s.seen c ∨ d = c) := by
  refine ⟨fun b hb => ?_, ?_, ?_⟩
  · unfold enabled
    split
    · exact hb
    · rename_i hn
      dsimp only
      by_cases e : c = d
      · subst e; rw [hb] at hn; cases hn
      · rw [if_neg e]; exact hb
  · unfold enabled
    split
    · rename_i b hb; exact hb
    · simp
  · unfold enabled
    split
    · exact .inl rfl
    · dsimp only
      by_cases e : c = d
      · exact .inr e.symm
      · rw [if_neg e]; exact .inl rfl

theorem seen_step {k : Copies} {c : Nat} {b : Bool} {s : S} (h : s.seen c = some b) (o : Op) : (step k s o).2.seen c = some b := by
  cases o with
  | setenv w => exact h
  | register p n st =>
    simp only [step]
    split
    · exact h
    · exact (enabled_seen c k.rm s).1 b h
  | deregister p => simp only [step]; split <;> exact h
  | ask q =>
    simp only [step]
    split
    · exact h
    · rw [print_map]
      exact (enabled_seen c k.um { s with map := _ }).1 b h
  | other d => exact (enabled_seen c d s).1 b h

theorem single_step {k : Copies} {s : S} {H : List Held} {o : Op} (h : Single k.rm s H) (ho : OkOp H o) :
    Single k.rm (step k s o).2 (held H o) := by
  rcases h with ⟨h1, h2, h3⟩ | ⟨b, h1, h2⟩
  · by_cases hreg : ∃ p n st, o = .register p n st
    · obtain ⟨p, n, st, rfl⟩ := hreg
      refine .inr ⟨(enabled k.rm s).1, ?_, inv_step (h3 _) (fun _ => rfl) ho⟩
      simp only [step, if_neg ho.1]
      exact (enabled_seen k.rm k.rm s).2.1
    · have hi : ∀ b, Inv b (step k s o).2 (held H o) := fun b => inv_step (h3 b) (fun h => absurd h hreg) ho
      cases hs : (step k s o).2.seen k.rm with
      | none =>
        refine .inl ⟨hs, ?_, hi⟩
        subst h2
        cases o with
        | register p n st => exact absurd ⟨p, n, st, rfl⟩ hreg
        | _ => rfl
      | some b => exact .inr ⟨b, hs, hi b⟩
  · refine .inr ⟨b, seen_step h1 o, inv_step h2 (fun _ => ?_) ho⟩
    unfold enabled; rw [h1]

theorem single_run {k : Copies} (os : List Op) : ∀ {s : S} {H : List Held}, Single k.rm s H → Ok H os → Single k.rm (run k s os) (heldAll H os) := by
  induction os with
  | nil => intro s H h _; exact h
  | cons o os ih => intro s H h ho; exact ih (single_step h ho.1) ho.2

/-! ## C94 -/

/-- **C94.**  Which values of the variable turn backtraces on. -/
theorem backtrace_value (v : List Nat) : turnsOn (some v) = true ↔ SaysOn v := by
  have gen : ∀ v : List Nat, findOn (v.map upper) = true ↔ SaysOn v := by
    intro v
    induction v with
    | nil =>
      constructor
      · intro h; cases h
      · rintro ⟨l, x, y, r, h, _⟩; cases l <;> cases h
    | cons a v ih =>
      cases v with
      | nil =>
        constructor
        · intro h; cases h
        · rintro ⟨l, x, y, r, h, _⟩
          cases l with
          | nil => cases h
          | cons z l => cases l <;> cases h
      | cons b v =>
        have ha : upper a = 79 ↔ (a = 79 ∨ a = 111) := by unfold upper; split <;> omega
        have hb : upper b = 78 ↔ (b = 78 ∨ b = 110) := by unfold upper; split <;> omega
        simp only [List.map_cons, findOn, Bool.or_eq_true, Bool.and_eq_true, decide_eq_true_eq, ha, hb]
        rw [← List.map_cons, ih]
        constructor
        · rintro (⟨h1, h2⟩ | ⟨l, x, y, r, h, h1, h2⟩)
          · exact ⟨[], a, b, v, rfl, h1, h2⟩
          · exact ⟨a :: l, x, y, r, by rw [h]; rfl, h1, h2⟩
        · rintro ⟨l, x, y, r, h, h1, h2⟩
          cases l with
          | nil => cases h; exact .inl ⟨h1, h2⟩
          | cons z l => exact .inr ⟨l, x, y, r, (List.cons.inj h).2, h1, h2⟩
  exact gen v

/-- **C94.**  As long as nobody changes the variable: with backtraces on, every address in an allocation leads to the first 128 frames of the
stack from which that allocation was made, whatever was allocated and given back before; with backtraces off it says so; an address outside all
allocations throws.  For any choice of copies.  Missing: allocations of fewer than five bytes, which may not be found (C20). -/
theorem backtrace_exact_partial (k : Copies) {v : Option (List Nat)} {os : List Op} (ho : Ok [] os) (hc : Constant os) {q : Nat} (hq : q < 2 ^ 64) :
    (∀ g ∈ heldAll [] os, g.ptr ≤ q → q < g.ptr + g.size →
      (IsOn v → (step k (run k (.init v) os) (.ask q)).1 = .frames (g.stack.take 128)) ∧
      (¬ IsOn v → (step k (run k (.init v) os) (.ask q)).1 = .off)) ∧
    ((∀ g ∈ heldAll [] os, ¬(g.ptr ≤ q ∧ q < g.ptr + g.size)) → (step k (run k (.init v) os) (.ask q)).1 = .throws) := by
  obtain ⟨h1, h2⟩ := agree_run (k := k) os (s := .init v) (H := []) ⟨rfl, fun _ => .inl rfl⟩ (inv_nil _ _) ho hc
  obtain ⟨a1, a2⟩ := ask_inv (k := k) h2 hq
  refine ⟨fun g hg q1 q2 => ?_, a2⟩
  have h : (step k (run k (.init v) os) (.ask q)).1 = if turnsOn v then .frames (g.stack.take 128) else .off :=
    a1 g hg q1 q2 (agree_enabled h1 k.um).1
  rw [h]
  constructor
  · rintro ⟨t, rfl, ht⟩
    rw [(backtrace_value t).mpr ht]; rfl
  · intro hn
    have : turnsOn v = false := by
      cases v with
      | none => rfl
      | some t =>
        rw [← Bool.not_eq_true]
        exact fun ht => hn ⟨t, rfl, (backtrace_value t).mp ht⟩
    rw [this]; rfl

/-- **C94.**  The records `get_allocator_records` returns, as long as nobody changes the variable: every allocation there is, each once and in the
order of the addresses, with the frames it was made from, or none with backtraces off.  Missing as above. -/
theorem backtrace_records_partial (k : Copies) {v : Option (List Nat)} {os : List Op} (ho : Ok [] os) (hc : Constant os) :
    ∃ fuel, ∀ more, ∃ L, records (fuel + more) (run k (.init v) os) = L ∧ L.Pairwise (fun x y => x.1 < y.1) ∧
      (∀ g ∈ heldAll [] os, ∃ fr, (g.ptr, g.size, fr) ∈ L) ∧
      ∀ x ∈ L, ∃ g ∈ heldAll [] os, x.1 = g.ptr ∧ x.2.1 = g.size ∧ (IsOn v → x.2.2 = g.stack.take 128) ∧ (¬ IsOn v → x.2.2 = []) := by
  obtain ⟨_, h⟩ := agree_run (k := k) os (s := .init v) (H := []) ⟨rfl, fun _ => .inl rfl⟩ (inv_nil _ _) ho hc
  obtain ⟨live, n, hr, ha, h1, h2⟩ := h.ex
  have h0 : byPtr live 0 = [] := by
    apply List.filter_eq_nil_iff.mpr
    intro r hr' e
    obtain ⟨g, g1, g2, _⟩ := h1 r hr'
    have := of_decide_eq_true e
    exact (h.stack g g1).2.2 (by omega)
  obtain ⟨ks, k1, k2, k3, fuel, k4⟩ := Judy.iterate_of (Judy.areach_inv hr) h0
  refine ⟨fuel, fun more => ⟨_, rfl, ?_, ?_, ?_⟩⟩
  · unfold records
    rw [k4, List.pairwise_map]
    have one : ∀ k, (byPtr live k).Pairwise fun a b => a.ptr < b.ptr := by
      intro k
      have hp : (byPtr live k).Pairwise fun a b => ∀ q, ¬(Contains a q ∧ Contains b q) := ha.filter _
      refine List.Pairwise.imp_of_mem ?_ hp
      intro a b ma mb hab
      have e1 : a.ptr = k := of_decide_eq_true (List.mem_filter.mp ma).2
      have e2 : b.ptr = k := of_decide_eq_true (List.mem_filter.mp mb).2
      exact absurd ⟨e1 ▸ Judy.contains_base a, e2 ▸ Judy.contains_base b⟩ (hab k)
    clear k2 k3 k4
    induction ks with
    | nil => exact .nil
    | cons x ks ih =>
      obtain ⟨p1, p2⟩ := List.pairwise_cons.mp k1
      rw [List.flatMap_cons, List.pairwise_append]
      refine ⟨one x, ih p2, ?_⟩
      intro a ma b mb
      obtain ⟨y, my, mb⟩ := List.mem_flatMap.mp mb
      have e1 : a.ptr = x := of_decide_eq_true (List.mem_filter.mp ma).2
      have e2 : b.ptr = y := of_decide_eq_true (List.mem_filter.mp mb).2
      have := p1 y my
      dsimp only
      omega
  · intro g hg
    obtain ⟨r, r1, r2, r3⟩ := h2 g hg
    refine ⟨(run k (.init v) os).traces.getD r.tag [], ?_⟩
    unfold records
    rw [k4]
    have hm : r ∈ byPtr live r.ptr := List.mem_filter.mpr ⟨r1, by simp⟩
    refine List.mem_map.mpr ⟨r, List.mem_flatMap.mpr ⟨r.ptr, (k2 _).mpr (List.ne_nil_of_mem hm), hm⟩, ?_⟩
    rw [r2, r3]
  · intro x hx
    unfold records at hx
    rw [k4] at hx
    obtain ⟨r, hr', rfl⟩ := List.mem_map.mp hx
    obtain ⟨y, _, hm⟩ := List.mem_flatMap.mp hr'
    obtain ⟨g, g1, g2, g3, _, _, g6⟩ := h1 r (List.mem_filter.mp hm).1
    refine ⟨g, g1, g2.symm, g3.symm, ?_, ?_⟩
    · rintro ⟨t, rfl, ht⟩
      have e : turnsOn (some t) = true := (backtrace_value t).mpr ht
      have g6' : (run k (.init (some t)) os).traces.getD r.tag [] = if turnsOn (some t) then build g.stack else [] := g6
      rw [e] at g6'
      exact g6'
    · intro hn
      have e : turnsOn v = false := by
        cases v with
        | none => rfl
        | some t =>
          rw [← Bool.not_eq_true]
          exact fun ht => hn ⟨t, rfl, (backtrace_value t).mp ht⟩
      have g6' : (run k (.init v) os).traces.getD r.tag [] = if turnsOn v then build g.stack else [] := g6
      rw [e] at g6'
      exact g6'

/-- **C94.**  If the two functions get the same copy, the variable may change at any time: there is one decision for all allocations there are, it
is kept, and no call is undefined.  Missing as above, and the choice of the linker. -/
theorem backtrace_one_copy_partial {k : Copies} (hk : k.rm = k.um) {v : Option (List Nat)} {os : List Op} (ho : Ok [] os) :
    ∃ b : Bool, ∀ q, q < 2 ^ 64 → ∀ g ∈ heldAll [] os, g.ptr ≤ q → q < g.ptr + g.size →
      (step k (run k (.init v) os) (.ask q)).1 = if b then .frames (g.stack.take 128) else .off := by
  have h := single_run (k := k) os (s := .init v) (H := []) (.inl ⟨rfl, rfl, fun b => inv_nil b v⟩) ho
  rcases h with ⟨_, h2, _⟩ | ⟨b, h1, h2⟩
  · exact ⟨true, fun q _ g hg => by rw [h2] at hg; cases hg⟩
  · refine ⟨b, fun q hq g hg q1 q2 => (ask_inv (k := k) h2 hq).1 g hg q1 q2 ?_⟩
    rw [← hk]; unfold enabled; rw [h1]

/-- **C94.**  A copy that has decided keeps to it, whatever happens to the variable. -/
theorem backtrace_kept (k : Copies) (c : Nat) (s : S) (os : List Op) : (enabled c (run k (enabled c s).2 os)).1 = (enabled c s).1 := by
  have gen : ∀ (os : List Op) (s : S) (b : Bool), s.seen c = some b → (run k s os).seen c = some b := by
    intro os
    induction os with
    | nil => intro s b h; exact h
    | cons o os ih => intro s b h; exact ih _ b (seen_step h o)
  have := gen os _ _ (enabled_seen c c s).2.1
  generalize run k (enabled c s).2 os = s' at this
  unfold enabled at this ⊢
  rw [this]

/-- `On`, `none`. -/
def on : List Nat := [79, 110]
def noneText : List Nat := [110, 111, 110, 101]

/-- **C94**: the value `none` turns backtraces on, `1`, `yes` and `true` do not. -/
theorem backtrace_value_counterexample : turnsOn (some noneText) = true ∧ turnsOn (some [49]) = false ∧ turnsOn (some [121, 101, 115]) = false ∧
    turnsOn (some [116, 114, 117, 101]) = false := by decide

/-- An allocation before the variable is set and a question after. -/
def early (st : List Nat) : List Op := [.register 4096 64 st, .setenv (some on)]

/-- **C94**: with a copy each, the answer is undefined if the variable is set between the first allocation and the first question. -/
theorem backtrace_ub_counterexample (st : List Nat) (hs : st ≠ []) : Ok [] (early st) ∧
    (step ⟨0, 1⟩ (run ⟨0, 1⟩ (.init none) (early st)) (.ask 4100)).1 = .ub ∧
    (step ⟨0, 0⟩ (run ⟨0, 0⟩ (.init none) (early st)) (.ask 4100)).1 = .off := by
  refine ⟨⟨⟨by decide, by decide, by decide, hs, by simp⟩, trivial, trivial⟩, ?_, ?_⟩
  · rfl
  · rfl

/-- **C94**: and the answer is that backtraces are off, although they are recorded, if it is removed in between. -/
theorem backtrace_lost_counterexample (st : List Nat) :
    (step ⟨0, 1⟩ (run ⟨0, 1⟩ (.init (some on)) [.register 4096 64 st, .setenv none]) (.ask 4100)).1 = .off ∧
    (run ⟨0, 1⟩ (.init (some on)) [.register 4096 64 st, .setenv none]).traces = [st.take 128] := by
  exact ⟨rfl, rfl⟩

/-- Memory is given back and its place is used again. -/
def demo : List Op := [.register 4096 64 [1, 2, 3], .register 8192 100 [4], .ask 8200, .deregister 4096, .other 7, .register 4100 32 [5, 6]]

example : Ok [] demo ∧ Constant demo ∧ heldAll [] demo = [⟨4100, 32, [5, 6]⟩, ⟨8192, 100, [4]⟩] ∧ turnsOn (some on) = true ∧
    (step ⟨0, 1⟩ (run ⟨0, 1⟩ (.init (some on)) demo) (.ask 4110)).1 = .frames [5, 6] ∧
    (step ⟨0, 1⟩ (run ⟨0, 1⟩ (.init (some on)) demo) (.ask 4097)).1 = .throws := by
  refine ⟨by simp [demo, Ok, OkOp, held], by simp [demo, Constant], by decide, by decide, by decide +kernel, by decide +kernel⟩

example : records 10 (run ⟨0, 1⟩ (.init (some on)) demo) = [(4100, 32, [5, 6]), (8192, 100, [4])] := by decide +kernel

example : SaysOn on ∧ SaysOn noneText ∧ ¬ SaysOn [79] := by
  refine ⟨(backtrace_value _).mp (by decide), (backtrace_value _).mp (by decide), fun h => ?_⟩
  have := (backtrace_value _).mpr h
  revert this; decide

end Umpire.Backtrace
