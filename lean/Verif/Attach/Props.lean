import Verif.Attach.Inv
import Verif.Shm.Props
/-!
# Processes that open and close a shared memory segment: theorems
-/
set_option autoImplicit false
set_option linter.unusedSimpArgs false
namespace Umpire.Attach
open Umpire.Shm (M Rec Op)

/-! ## Specification -/

/-- The object a process is initialising. -/
def making : PC → Option Nat
  | .trunc o | .cmap o | .flag o _ | .mutex o _ | .stores o _ _ | .done o _ => some o
  | _ => none

/-- The object a process has opened. -/
def holds : PC → Option Nat
  | .trunc o | .cmap o | .flag o _ | .mutex o _ | .stores o _ _ | .done o _ => some o
  | .wait o | .amap o | .spin o _ | .ready o _ => some o
  | _ => none

/-- In the destructor, or behind it. -/
def dying : PC → Prop
  | .unmap _ | .unlink _ | .close _ | .gone => True
  | _ => False

/-- In one of the two waiting loops of the constructor, with nothing to be seen yet. -/
def Blocked (s : Sys) (p : Nat) : Prop :=
  (∃ o, s.pc p = .wait o ∧ (s.obj o).size = 0) ∨ ∃ o len, s.pc p = .spin o len ∧ (s.obj o).flag ≠ 2

/-- Nobody destroys a segment of that name. -/
def Kept (cfg : Cfg) (n : List Nat) : Prop := ∀ r, path (cfg.name r) = n → ¬ cfg.ends r

/-! ## The segment of a process that has been constructed -/

variable {cfg : Cfg} {s s' : Sys}

/-- **C90**: a process leaves the constructor only when the segment of that name is initialised: its mutex is one, the
mapping of the process covers it up to the size its maker gave, and its contents are those of a history of calls
since it was made (what C39 and C40 are about), never a half-made header. -/
theorem attach_ready (h : Reach cfg s) {p o len : Nat} (hr : s.pc p = .ready o len) :
    path (cfg.name (s.obj o).maker) = path (cfg.name p) ∧ len = cfg.size (s.obj o).maker ∧ len ≠ 0 ∧
    (s.obj o).flag = 2 ∧ (s.obj o).mutex = true ∧
    Shm.Run (cfg.size (s.obj o).maker) (pages len) (s.obj o).hist (s.obj o).mem (s.obj o).led := by
  have hi := h.inv
  have hp := hi.at_ p
  rw [hr] at hp
  obtain ⟨a1, a2, a3, a4, a5⟩ := hp
  have hO := hi.objs o
  have hu := hO.use a5
  rw [a3] at hu
  exact ⟨a2, by rw [← hO.size (by rw [a3]; exact a4), a3], a4, a5, hu.2.1, hu.2.2⟩

/-- **C90**: no process ever stores outside its mapping or locks a mutex that is not one. -/
theorem attach_safe (h : Reach cfg s) (p : Nat) : s.pc p ≠ .ub := by
  intro hp
  have := h.inv.at_ p
  rw [hp] at this
  exact this

/-- **C90**: a segment has one maker: two processes never initialise the same one, and nobody works with a segment that
is still being initialised. -/
theorem attach_once (h : Reach cfg s) {p q o : Nat} (hp : making (s.pc p) = some o) :
    (making (s.pc q) = some o → p = q) ∧ ∀ len, s.pc q ≠ .ready o len := by
  have hmk : ∀ r, making (s.pc r) = some o → (s.obj o).maker = r ∧ (s.obj o).flag ≠ 2 := by
    intro r hr
    have ha := h.inv.at_ r
    cases hc : s.pc r <;> rw [hc] at hr ha <;> simp [making] at hr <;> subst hr
    · exact ⟨ha.2.1, by rw [ha.2.2.2]; decide⟩
    · exact ⟨ha.2.1, by rw [ha.2.2.2]; decide⟩
    · exact ⟨ha.2.1, by rw [ha.2.2.2.2.2]; decide⟩
    · exact ⟨ha.2.1, by rw [ha.2.2.2.2.2]; decide⟩
    · exact ⟨ha.2.1, by rw [ha.2.2.2.2.2.1]; decide⟩
    · exact ⟨ha.2.1, by rw [ha.2.2.2.2.2.1]; decide⟩
  refine ⟨fun hq => ?_, fun len hq => ?_⟩
  · rw [← (hmk p hp).1, (hmk q hq).1]
  · have ha := h.inv.at_ q
    rw [hq] at ha
    exact (hmk p hp).2 ha.2.2.2.2

/-- **C90**: in a segment made with a size C39 allows, whatever the processes do, every live allocation lies inside the
mapping of every process that has attached it, behind the header, aligned and apart from the others; and no call of such
a process is undefined. -/
theorem attach_layout (h : Reach cfg s) {p o len : Nat} (hr : s.pc p = .ready o len) (h1 : 120 ≤ cfg.size (s.obj o).maker)
    (h2 : cfg.size (s.obj o).maker < 2 ^ 63) :
    (∀ r ∈ (s.obj o).led, 16 ∣ r.off ∧ 128 ≤ r.off ∧ r.off + r.n ≤ len) ∧
    ((s.obj o).led.Pairwise fun a b => a.off + a.n ≤ b.off ∨ b.off + b.n ≤ a.off) ∧
    ∀ base, 0 < base →
      (∀ name n, Shm.Legal name n → (∀ r ∈ (s.obj o).led, r.name = name → r.refs + 1 < W) →
        ∃ q m', Shm.allocateAt base (pages len) name n (s.obj o).mem = .ok (q, m')) ∧
      (∀ r ∈ (s.obj o).led, ∃ m', Shm.deallocateAt base (pages len) (base + r.off) (s.obj o).mem = .ok ((), m')) := by
  obtain ⟨_, a2, a3, _, _, hrun⟩ := attach_ready h hr
  have hlim : cfg.size (s.obj o).maker ≤ pages len := by rw [← a2]; exact (pages_ge len a3).2
  have hl := Shm.shm_layout_partial h1 h2 hlim hrun
  refine ⟨fun r hm => ?_, ?_, fun base hb => ?_⟩
  · obtain ⟨b1, b2, b3, b4, b5⟩ := hl.1 r hm
    rw [a2]
    exact ⟨b1, by omega, by omega⟩
  · refine hl.2.imp_of_mem fun {a b} ha hb hab => ?_
    have c1 := hl.1 a ha
    have c2 := hl.1 b hb
    omega
  · have := Shm.shm_safe_partial h1 h2 hlim hrun hb
    exact ⟨this.1, this.2.1⟩

/-! ## One segment for a name -/

theorem move_pc {p q : Nat} {ok : Bool} (hq : q ≠ p) : (move cfg p ok s).pc q = s.pc q := by
  unfold move
  repeat' split
  all_goals first
    | rfl
    | exact if_neg hq

/-- What holds as long as nobody destroys a segment of the name `n`. -/
structure KeptInv (cfg : Cfg) (n : List Nat) (s : Sys) : Prop where
  dying : ∀ p, dying (s.pc p) → cfg.ends p
  dir : ∀ o, o < s.made → path (cfg.name (s.obj o).maker) = n → s.dir n = some o
  open_ : ∀ p, path (cfg.name p) = n → s.pc p = .open_ → s.dir n ≠ none

/-- What a step of a process does to directory and objects. -/
theorem move_effect (p : Nat) (ok : Bool) :
    ((move cfg p ok s).made = s.made ∧ (∀ o, ((move cfg p ok s).obj o).maker = (s.obj o).maker) ∧
      ((move cfg p ok s).dir = s.dir ∨
        (∃ o, s.pc p = .unlink o) ∧ (move cfg p ok s).dir = fun n => if n = path (cfg.name p) then none else s.dir n)) ∨
    (s.dir (path (cfg.name p)) = none ∧ (move cfg p ok s).made = s.made + 1 ∧
      (move cfg p ok s).pc p = .trunc s.made ∧
      (∀ o, ((move cfg p ok s).obj o).maker = if o = s.made then p else (s.obj o).maker) ∧
      (move cfg p ok s).dir = fun n => if n = path (cfg.name p) then some s.made else s.dir n) := by
  have hput : ∀ (o o' : Nat) (x : Obj), x.maker = (s.obj o).maker → ((s.put o x).obj o').maker = (s.obj o').maker := by
    intro o o' x hx
    show (if o' = o then x else s.obj o').maker = _
    split
    · next e => rw [hx, e]
    · rfl
  unfold move
  repeat' split
  all_goals first
    | exact Or.inl ⟨rfl, fun _ => rfl, Or.inl rfl⟩
    | exact Or.inl ⟨rfl, fun o' => hput _ o' _ rfl, Or.inl rfl⟩
    | exact Or.inl ⟨rfl, fun _ => rfl, Or.inr ⟨⟨_, ‹_›⟩, rfl⟩⟩
    | (refine Or.inr ⟨‹_›, rfl, if_pos rfl, fun o => ?_, rfl⟩
       show (if o = s.made then _ else s.obj o : Obj).maker = _
       split <;> rfl)

/-- Where a process is after its own step. -/
theorem move_dying (p : Nat) (ok : Bool) (hd : dying ((move cfg p ok s).pc p)) : dying (s.pc p) := by
  unfold move at hd
  cases hc : s.pc p <;> rw [hc] at hd <;> (try exact trivial) <;> dsimp only at hd <;>
    (repeat' split at hd) <;> simp [Sys.goto, Sys.put, dying, hc] at hd

theorem move_open {p : Nat} {ok : Bool} (ho : (move cfg p ok s).pc p = .open_) :
    s.pc p = .create ∧ s.dir (path (cfg.name p)) ≠ none ∧ (move cfg p ok s).dir = s.dir ∨
    s.pc p = .open_ ∧ move cfg p ok s = s := by
  unfold move at ho ⊢
  cases hc : s.pc p <;> rw [hc] at ho <;> dsimp only at ho ⊢
  case create =>
    left
    split at ho
    · simp [Sys.goto] at ho
    · next hok =>
      rw [if_neg hok]
      split at ho
      next o hd => rw [hd]; exact ⟨rfl, by simp, rfl⟩
      · simp at ho
  all_goals
    (repeat' split at ho) <;> simp [Sys.goto, Sys.put, hc] at ho

theorem KeptInv.trans {n : List Nat} (hk : Kept cfg n) (hi : Inv cfg s) (h : KeptInv cfg n s) (t : Trans cfg s s') :
    KeptInv cfg n s' := by
  cases t with
  | move p ok =>
    refine ⟨fun q hd => ?_, fun o ho hn => ?_, fun q hq hop => ?_⟩
    · by_cases e : q = p
      · subst e; exact h.dying q (move_dying q ok hd)
      · rw [move_pc e] at hd; exact h.dying q hd
    · rcases move_effect (cfg := cfg) (s := s) p ok with ⟨e1, e2, e3⟩ | ⟨d1, e1, _, e2, e3⟩
      · rw [e1] at ho; rw [e2] at hn
        have := h.dir o ho hn
        rcases e3 with e3 | ⟨⟨o', hu⟩, e3⟩
        · rw [e3]; exact this
        · rw [e3]
          show (if n = path (cfg.name p) then none else s.dir n) = _
          rw [if_neg fun e => hk p e.symm (h.dying p (by rw [hu]; trivial))]
          exact this
      · rw [e3]
        show (if n = path (cfg.name p) then some s.made else s.dir n) = _
        rw [e1] at ho; rw [e2] at hn
        by_cases eo : o = s.made
        · subst eo; rw [if_pos rfl] at hn; rw [if_pos hn.symm]
        · rw [if_neg eo] at hn
          have := h.dir o (by omega) hn
          have hne : n ≠ path (cfg.name p) := fun e => by rw [e] at this; rw [this] at d1; cases d1
          rw [if_neg hne]; exact this
    · by_cases e : q = p
      · subst e
        rcases move_open hop with ⟨_, h2, h3⟩ | ⟨h1, h2⟩
        · rw [h3, ← hq]; exact h2
        · rw [h2]; exact h.open_ q hq h1
      · rw [move_pc e] at hop
        have := h.open_ q hq hop
        rcases move_effect (cfg := cfg) (s := s) p ok with ⟨e1, e2, e3⟩ | ⟨d1, e1, _, e2, e3⟩
        · rcases e3 with e3 | ⟨⟨o', hu⟩, e3⟩
          · rw [e3]; exact this
          · rw [e3]
            show (if n = path (cfg.name p) then none else s.dir n) ≠ _
            rw [if_neg fun e => hk p e.symm (h.dying p (by rw [hu]; trivial))]
            exact this
        · rw [e3]
          show (if n = path (cfg.name p) then some s.made else s.dir n) ≠ _
          split
          · simp
          · exact this
  | destroy p o len _ he hr =>
    refine ⟨fun q hd => ?_, h.dir, fun q hq hop => ?_⟩
    · have hd' : Attach.dying (if q = p then _ else s.pc q) := hd
      split at hd'
      · next e => subst e; exact he
      · exact h.dying q hd'
    · have hop' : (if q = p then _ else s.pc q) = PC.open_ := hop
      split at hop'
      · cases hop'
      · exact h.open_ q hq hop'
  | call p o len _ op m L hr hm hs =>
    refine ⟨h.dying, fun o' ho hn => h.dir o' ho ?_, h.open_⟩
    have hn' : path (cfg.name (if o' = o then _ else s.obj o' : Obj).maker) = n := hn
    split at hn'
    · next e => subst e; exact hn'
    · exact hn'
  | bad p o len _ hr hm =>
    refine ⟨fun q hd => ?_, h.dir, fun q hq hop => ?_⟩
    · have hd' : Attach.dying (if q = p then _ else s.pc q) := hd
      split at hd'
      · exact hd'.elim
      · exact h.dying q hd'
    · have hop' : (if q = p then _ else s.pc q) = PC.open_ := hop
      split at hop'
      · cases hop'
      · exact h.open_ q hq hop'

theorem Reach.kept {n : List Nat} (hk : Kept cfg n) (h : Reach cfg s) : KeptInv cfg n s := by
  induction h with
  | init => exact ⟨fun _ hd => hd.elim, fun _ ho => absurd ho (Nat.not_lt_zero _), fun _ _ hc => by cases hc⟩
  | step hr t ih => exact ih.trans hk hr.inv t

theorem holds_at (h : Inv cfg s) {p o : Nat} (hp : holds (s.pc p) = some o) :
    o < s.made ∧ path (cfg.name (s.obj o).maker) = path (cfg.name p) := by
  have ha := h.at_ p
  cases hc : s.pc p <;> rw [hc] at hp ha <;> simp [holds] at hp <;> subst hp
  all_goals first
    | exact ⟨ha.1, by rw [ha.2.1]⟩
    | exact ⟨ha.1, ha.2.1⟩
    | exact ⟨ha.1, ha.2⟩

/-- **C90**: as long as nobody destroys a segment of that name, all processes that open the name - with or without the
leading slash, at whatever time - have the same segment. -/
theorem attach_same {n : List Nat} (hk : Kept cfg n) (h : Reach cfg s) {p q o o' : Nat} (hp : path (cfg.name p) = n)
    (hq : path (cfg.name q) = n) (h1 : holds (s.pc p) = some o) (h2 : holds (s.pc q) = some o') : o = o' := by
  have hki := h.kept hk
  have a := holds_at h.inv h1
  have b := holds_at h.inv h2
  have c := hki.dir o a.1 (a.2.trans hp)
  rw [hki.dir o' b.1 (b.2.trans hq)] at c
  exact (Option.some.inj c).symm

end Umpire.Attach
