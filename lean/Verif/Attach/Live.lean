import Verif.Attach.Props
import Mathlib.Data.Nat.Pairing
/-!
# Processes that open a shared memory segment get it, unless its maker failed
-/
set_option autoImplicit false
set_option linter.unusedSimpArgs false
namespace Umpire.Attach
open Umpire.Shm (M Rec Op)

variable {cfg : Cfg} {s s' : Sys}

/-! ## Who waits waits for the maker -/

/-- What an object without initialised header waits for. -/
def Owed (s : Sys) : Prop :=
  ∀ o, o < s.made → (s.obj o).flag = 2 ∨ making (s.pc (s.obj o).maker) = some o ∨ s.pc (s.obj o).maker = .failed

/-- What never changes back. -/
theorem trans_mono (hi : Inv cfg s) (t : Trans cfg s s') :
    s.made ≤ s'.made ∧ ∀ o, o < s.made → (s'.obj o).maker = (s.obj o).maker ∧ ((s.obj o).flag = 2 → (s'.obj o).flag = 2) := by
  have hput : ∀ (o : Nat) (x : Obj), x.maker = (s.obj o).maker → ((s.obj o).flag = 2 → x.flag = 2) → ∀ o' : Nat,
      (if o' = o then x else s.obj o').maker = (s.obj o').maker ∧
      ((s.obj o').flag = 2 → (if o' = o then x else s.obj o').flag = 2) := by
    intro o x h1 h2 o'
    split
    · next e => subst e; exact ⟨h1, h2⟩
    · exact ⟨rfl, id⟩
  cases t with
  | move p ok =>
    have hp := hi.at_ p
    refine ⟨?_, ?_⟩
    · rcases move_effect (cfg := cfg) (s := s) p ok with ⟨e, _⟩ | ⟨_, e, _⟩ <;> omega
    · intro o ho
      unfold move
      cases hc : s.pc p <;> rw [hc] at hp <;> dsimp only
      case create =>
        repeat' split
        · exact ⟨rfl, id⟩
        · exact ⟨rfl, id⟩
        · show (if o = s.made then _ else s.obj o : Obj).maker = _ ∧ (_ → (if o = s.made then _ else s.obj o : Obj).flag = 2)
          rw [if_neg (by omega)]; exact ⟨rfl, id⟩
      case trunc o' =>
        split
        · exact ⟨rfl, id⟩
        · exact hput o' { s.obj o' with size := cfg.size p } rfl id o
      case flag o' len =>
        exact hput o' { s.obj o' with flag := 1 } rfl (fun hf => absurd (hp.2.2.2.2.2.symm.trans hf) (by decide)) o
      case mutex o' len =>
        split
        · exact ⟨rfl, id⟩
        · exact hput o' { s.obj o' with mutex := true } rfl id o
      case stores o' len k =>
        split
        · exact ⟨rfl, id⟩
        · split
          next m _ => exact hput o' { s.obj o' with mem := m } rfl id o
          · exact ⟨rfl, id⟩
      case done o' len => exact hput o' { s.obj o' with flag := 2 } rfl (fun _ => rfl) o
      all_goals
        (repeat' split) <;> exact ⟨rfl, id⟩
  | destroy p o len _ he hr => exact ⟨Nat.le_refl _, fun o _ => ⟨rfl, id⟩⟩
  | call p o len _ op m L hr hm hs =>
    exact ⟨Nat.le_refl _, fun o' _ =>
      hput o { s.obj o with mem := m, led := L, hist := op :: (s.obj o).hist } rfl id o'⟩
  | bad p o len _ hr hm => exact ⟨Nat.le_refl _, fun o _ => ⟨rfl, id⟩⟩

/-- A maker goes on making, has made, or has failed. -/
theorem move_making (hi : Inv cfg s) {p o : Nat} (ok : Bool) (hm : making (s.pc p) = some o) :
    making ((move cfg p ok s).pc p) = some o ∨ (∃ len, (move cfg p ok s).pc p = .ready o len ∧ ((move cfg p ok s).obj o).flag = 2) ∨
    (move cfg p ok s).pc p = .failed := by
  have hp := hi.at_ p
  unfold move
  cases hc : s.pc p <;> rw [hc] at hm hp <;> simp only [making, Option.some.injEq, reduceCtorEq] at hm <;> subst hm <;> dsimp only
  case stores o len k =>
    split
    · left; simp [Sys.goto, making]
    next f hf =>
      obtain ⟨m', hm'⟩ := inits_ok (pages_ge len hp.2.2.2.2.1).1 hf (s.obj o).mem
      rw [hm']
      left; simp [Sys.goto, making]
  case done o len =>
    right; left
    exact ⟨len, by simp [Sys.goto], by simp [Sys.goto, Sys.put]⟩
  all_goals
    (repeat' split) <;> simp [Sys.goto, Sys.put, making]

theorem Owed.trans (hi : Inv cfg s) (h : Owed s) (t : Trans cfg s s') : Owed s' := by
  intro o ho
  have hmono := trans_mono hi t
  by_cases hlt : o < s.made
  · obtain ⟨hmk, hfl⟩ := hmono.2 o hlt
    rw [hmk]
    rcases h o hlt with h1 | h1 | h1
    · exact Or.inl (hfl h1)
    · cases t with
      | move p ok =>
        by_cases e : (s.obj o).maker = p
        · rw [e] at h1 ⊢
          rcases move_making hi ok h1 with h2 | ⟨len, _, h2⟩ | h2
          · exact Or.inr (Or.inl h2)
          · exact Or.inl h2
          · exact Or.inr (Or.inr h2)
        · rw [move_pc e]; exact Or.inr (Or.inl h1)
      | destroy p o' len _ he hr =>
        right; left
        show making (if _ = p then _ else _) = _
        split
        · next e => rw [e, hr] at h1; simp [making] at h1
        · exact h1
      | call => exact Or.inr (Or.inl h1)
      | bad p o' len _ hr hm =>
        right; left
        show making (if _ = p then _ else _) = _
        split
        · next e => rw [e, hr] at h1; simp [making] at h1
        · exact h1
    · right; right
      cases t with
      | move p ok =>
        by_cases e : (s.obj o).maker = p
        · rw [e] at h1 ⊢
          unfold move; rw [h1]
          exact h1
        · rw [move_pc e]; exact h1
      | destroy p o' len _ he hr =>
        show (if _ = p then _ else _) = _
        split
        · next e => rw [e, hr] at h1; cases h1
        · exact h1
      | call => exact h1
      | bad p o' len _ hr hm =>
        show (if _ = p then _ else _) = _
        split
        · next e => rw [e, hr] at h1; cases h1
        · exact h1
  · right; left
    cases t with
    | move p ok =>
      rcases move_effect (cfg := cfg) (s := s) p ok with ⟨e, _⟩ | ⟨_, e1, e2, e3, _⟩
      · rw [e] at ho; omega
      · have eo : o = s.made := by omega
        rw [e3, if_pos eo, e2, eo]; rfl
    | destroy => exact absurd ho hlt
    | call => exact absurd ho hlt
    | bad => exact absurd ho hlt

theorem Reach.owed (h : Reach cfg s) : Owed s := by
  induction h with
  | init => exact fun _ ho => absurd ho (Nat.not_lt_zero _)
  | step hr t ih => exact ih.trans hr.inv t

/-- **C90**: a process that waits in the constructor waits for the maker of the segment, which is still at work - and
does not wait itself - or has failed. -/
theorem attach_waits (h : Reach cfg s) {p : Nat} (hb : Blocked s p) :
    ∃ o, holds (s.pc p) = some o ∧ (s.obj o).maker ≠ p ∧ ¬ Blocked s (s.obj o).maker ∧
      (making (s.pc (s.obj o).maker) = some o ∨ s.pc (s.obj o).maker = .failed) := by
  have hi := h.inv
  have key : ∃ o, holds (s.pc p) = some o ∧ making (s.pc p) = none ∧ s.pc p ≠ .failed ∧ (s.obj o).flag ≠ 2 := by
    rcases hb with ⟨o, hc, hz⟩ | ⟨o, len, hc, hz⟩
    · exact ⟨o, by rw [hc]; rfl, by rw [hc]; rfl, by rw [hc]; simp, fun hf => ((hi.objs o).use hf).1 hz⟩
    · exact ⟨o, by rw [hc]; rfl, by rw [hc]; rfl, by rw [hc]; simp, hz⟩
  obtain ⟨o, h1, h2, h3, h4⟩ := key
  have hlt := (holds_at hi h1).1
  have hor := (h.owed o hlt).resolve_left h4
  refine ⟨o, h1, fun e => ?_, fun hbm => ?_, hor⟩
  · rw [e] at hor
    rcases hor with hor | hor
    · rw [h2] at hor; cases hor
    · exact h3 hor
  · rcases hbm with ⟨o', hc, _⟩ | ⟨o', len, hc, _⟩
    · rw [hc] at hor; simp [making] at hor
    · rw [hc] at hor; simp [making] at hor

/-! ## Everybody gets there -/

/-- The number of steps a process still has to take in the constructor. -/
def left : PC → Nat
  | .ready _ _ => 0
  | .done _ _ => 1
  | .spin _ _ => 1
  | .amap _ => 2
  | .wait _ => 3
  | .open_ => 4
  | .stores _ _ k => 2 + (8 - k)
  | .mutex _ _ => 11
  | .flag _ _ => 12
  | .cmap _ => 13
  | .trunc _ => 14
  | .create => 15
  | .idle => 16
  | _ => 17

theorem left_move {n : List Nat} (hi : Inv cfg s) (hki : KeptInv cfg n s) {p : Nat} (hp : path (cfg.name p) = n)
    (hs : cfg.size p ≠ 0) (hl : left (s.pc p) ≤ 16) (hnb : ¬ Blocked s p) (h0 : left (s.pc p) ≠ 0) :
    left ((move cfg p true s).pc p) < left (s.pc p) := by
  have ha := hi.at_ p
  unfold move
  cases hc : s.pc p <;> rw [hc] at hl h0 ha <;> dsimp only
  case idle => simp [Sys.goto, left]
  case create =>
    rw [if_neg (by simp)]
    split <;> simp [Sys.goto, left]
  case open_ =>
    rw [if_neg (by simp)]
    split
    · simp [Sys.goto, left]
    · next hd => exact absurd (hp ▸ hd) (hki.open_ p hp hc)
  case trunc => rw [if_neg (by simp)]; simp [Sys.goto, left]
  case cmap o =>
    rw [if_neg (by rw [ha.2.2.1]; simp [hs])]; simp [Sys.goto, left]
  case flag => simp [Sys.goto, left]
  case mutex => rw [if_neg (by simp)]; simp [Sys.goto, left]
  case stores o len k =>
    split
    · simp [Sys.goto, left]; omega
    next f hf =>
      obtain ⟨m', hm'⟩ := inits_ok (pages_ge len ha.2.2.2.2.1).1 hf (s.obj o).mem
      rw [hm']
      have hk : k < 8 := by
        have := (List.getElem?_eq_some_iff.mp hf).1
        simpa [inits] using this
      simp [Sys.goto, left]; omega
  case done => simp [Sys.goto, left]
  case wait o =>
    rw [if_neg (by simp), if_neg fun hz => hnb (Or.inl ⟨o, hc, hz⟩)]; simp [Sys.goto, left]
  case amap => rw [if_neg (by simp)]; simp [Sys.goto, left]
  case spin o len =>
    rw [if_neg fun hz => hnb (Or.inr ⟨o, len, hc, hz⟩)]; simp [Sys.goto, left]
  case ready => simp [left] at h0
  all_goals simp [left] at hl

theorem blocked_move {p : Nat} (hb : Blocked s p) : move cfg p true s = s := by
  unfold move
  rcases hb with ⟨o, hc, hz⟩ | ⟨o, len, hc, hz⟩
  · rw [hc]; dsimp only; rw [if_neg (by simp), if_pos hz]
  · rw [hc]; dsimp only; rw [if_pos hz]

theorem ready_move {p : Nat} {ok : Bool} (h0 : left (s.pc p) = 0) : move cfg p ok s = s := by
  unfold move
  cases hc : s.pc p <;> rw [hc] at h0 <;> simp [left] at h0

/-- A step in which no call of the system fails and no resource is destroyed. -/
inductive Fine (cfg : Cfg) : Sys → Sys → Prop
  | move (p : Nat) (s : Sys) : Fine cfg s (move cfg p true s)
  | call (s s' : Sys) (t : Trans cfg s s') (hp : s'.pc = s.pc) : Fine cfg s s'

theorem Fine.trans (t : Fine cfg s s') : Trans cfg s s' := by
  cases t with
  | move p => exact .move p true s
  | call _ _ t hp => exact t

theorem left_fine {n : List Nat} (hi : Inv cfg s) (hki : KeptInv cfg n s) {p : Nat} (hp : path (cfg.name p) = n)
    (hs : cfg.size p ≠ 0) (hl : left (s.pc p) ≤ 16) (t : Fine cfg s s') : left (s'.pc p) ≤ left (s.pc p) := by
  cases t with
  | move q =>
    by_cases e : p = q
    · subst e
      by_cases hb : Blocked s p
      · exact Nat.le_of_eq (by rw [blocked_move hb])
      · by_cases h0 : left (s.pc p) = 0
        · exact Nat.le_of_eq (by rw [ready_move h0])
        · exact Nat.le_of_lt (left_move hi hki hp hs hl hb h0)
    · exact Nat.le_of_eq (by rw [move_pc e])
  | call _ _ t hpc => exact Nat.le_of_eq (by rw [hpc])

/-- An endless run in which every process gets its turn again and again. -/
structure FairRun (cfg : Cfg) (f : Nat → Sys) : Prop where
  start : f 0 = init
  step : ∀ i, Fine cfg (f i) (f (i + 1))
  turn : ∀ p i, ∃ j, i ≤ j ∧ f (j + 1) = move cfg p true (f j)

variable {f : Nat → Sys}

theorem FairRun.reach (h : FairRun cfg f) (i : Nat) : Reach cfg (f i) := by
  induction i with
  | zero => rw [h.start]; exact .init
  | succ i ih => exact ih.step (h.step i).trans

theorem FairRun.mono (h : FairRun cfg f) {i j : Nat} (hij : i ≤ j) {o : Nat} (ho : o < (f i).made) :
    o < (f j).made ∧ ((f j).obj o).maker = ((f i).obj o).maker ∧ (((f i).obj o).flag = 2 → ((f j).obj o).flag = 2) := by
  induction hij with
  | refl => exact ⟨ho, rfl, id⟩
  | @step j _ ih =>
    have hm := trans_mono (h.reach j).inv (h.step j).trans
    exact ⟨Nat.lt_of_lt_of_le ih.1 hm.1, (hm.2 o ih.1).1.trans ih.2.1, fun hf => (hm.2 o ih.1).2 (ih.2.2 hf)⟩

theorem FairRun.left (h : FairRun cfg f) {n : List Nat} (hk : Kept cfg n) {p : Nat} (hp : path (cfg.name p) = n)
    (hs : cfg.size p ≠ 0) {i j : Nat} (hij : i ≤ j) :
    left ((f j).pc p) ≤ left ((f i).pc p) ∧ left ((f i).pc p) ≤ 16 := by
  have h16 : ∀ i, Attach.left ((f i).pc p) ≤ 16 := by
    intro i
    induction i with
    | zero => rw [h.start]; exact Nat.le_refl 16
    | succ i ih => exact Nat.le_trans (left_fine (h.reach i).inv ((h.reach i).kept hk) hp hs ih (h.step i)) ih
  refine ⟨?_, h16 i⟩
  induction hij with
  | refl => exact Nat.le_refl _
  | @step j _ ih => exact Nat.le_trans (left_fine (h.reach j).inv ((h.reach j).kept hk) hp hs (h16 j) (h.step j)) ih

theorem making_holds {c : PC} {o : Nat} (h : making c = some o) : holds c = some o := by
  cases c <;> simp [making] at h <;> subst h <;> rfl

theorem fine_making (hi : Inv cfg s) {c o : Nat} (hm : making (s.pc c) = some o) (t : Fine cfg s s')
    (hl : left (s'.pc c) ≤ 16) : making (s'.pc c) = some o ∨ (s'.obj o).flag = 2 := by
  cases t with
  | call _ _ t hpc => rw [hpc]; exact Or.inl hm
  | move q =>
    by_cases e : c = q
    · subst e
      rcases move_making hi true hm with h | ⟨len, _, h⟩ | h
      · exact Or.inl h
      · exact Or.inr h
      · rw [h] at hl; simp [left] at hl
    · rw [move_pc e]; exact Or.inl hm

/-- The maker of a segment finishes. -/
theorem FairRun.maker (h : FairRun cfg f) {n : List Nat} (hk : Kept cfg n) {c : Nat} (hc : path (cfg.name c) = n)
    (hs : cfg.size c ≠ 0) {o : Nat} : ∀ k i, Attach.left ((f i).pc c) ≤ k → making ((f i).pc c) = some o →
    ∃ j, i ≤ j ∧ ((f j).obj o).flag = 2 := by
  intro k
  induction k with
  | zero =>
    intro i hl hm
    cases hpc : (f i).pc c <;> rw [hpc] at hl hm <;> simp [Attach.left, making] at hl hm
  | succ k ih =>
    intro i hl hm
    obtain ⟨j, hij, hj⟩ := h.turn c i
    have ho : o < (f i).made := (holds_at (h.reach i).inv (making_holds hm)).1
    have hstill : ∀ j, i ≤ j → making ((f j).pc c) = some o ∨ ((f j).obj o).flag = 2 := by
      intro j hij
      induction hij with
      | refl => exact Or.inl hm
      | @step j hj' ihj =>
        rcases ihj with ihj | ihj
        · exact fine_making (h.reach j).inv ihj (h.step j) (h.left hk hc hs (Nat.le_refl (j + 1))).2
        · exact Or.inr ((h.mono (Nat.le_succ j) (h.mono hj' ho).1).2.2 ihj)
    rcases hstill j hij with hmj | hfj
    · have hlt : Attach.left ((f (j + 1)).pc c) < Attach.left ((f j).pc c) := by
        rw [hj]
        refine left_move (h.reach j).inv ((h.reach j).kept hk) hc hs (h.left hk hc hs (Nat.le_refl j)).2 ?_ ?_
        · rintro (⟨o', hw, _⟩ | ⟨o', len, hw, _⟩) <;> rw [hw] at hmj <;> simp [making] at hmj
        · intro h0
          cases hpc : (f j).pc c <;> rw [hpc] at hmj h0 <;> simp [Attach.left, making] at hmj h0
      have hle := (h.left hk hc hs hij).1
      rcases hstill (j + 1) (by omega) with hm1 | hf1
      · obtain ⟨j', hj', hf⟩ := ih (j + 1) (by omega) hm1
        exact ⟨j', by omega, hf⟩
      · exact ⟨j + 1, by omega, hf1⟩
    · exact ⟨j, hij, hfj⟩

/-- **C90**: when no call of the system fails and nobody destroys the segment, every process that opens it - in
whatever order they take their turns - has a working resource in the end. -/
theorem attach_live (h : FairRun cfg f) {n : List Nat} (hk : Kept cfg n)
    (hs : ∀ p, path (cfg.name p) = n → cfg.size p ≠ 0) {p : Nat} (hp : path (cfg.name p) = n) :
    ∃ i o len, (f i).pc p = .ready o len := by
  have key : ∀ k i, Attach.left ((f i).pc p) ≤ k → ∃ j, Attach.left ((f j).pc p) = 0 := by
    intro k
    induction k with
    | zero => intro i hl; exact ⟨i, by omega⟩
    | succ k ih =>
      intro i hl
      -- a turn of `p` that is not blocked brings it forward
      have turn : ∀ j, i ≤ j → f (j + 1) = move cfg p true (f j) → ¬ Blocked (f j) p →
          ∃ j, Attach.left ((f j).pc p) = 0 := by
        intro j hij hj hb
        have hle := (h.left hk hp (hs p hp) hij).1
        by_cases h0 : Attach.left ((f j).pc p) = 0
        · exact ⟨j, h0⟩
        · have hlt := left_move (h.reach j).inv ((h.reach j).kept hk) hp (hs p hp)
            (h.left hk hp (hs p hp) (Nat.le_refl j)).2 hb h0
          rw [← hj] at hlt
          exact ih (j + 1) (by omega)
      obtain ⟨j, hij, hj⟩ := h.turn p i
      by_cases hb : Blocked (f j) p
      · obtain ⟨o, hho, _, _, hmk⟩ := attach_waits (h.reach j) hb
        have hoa := holds_at (h.reach j).inv hho
        have hpm : path (cfg.name ((f j).obj o).maker) = n := hoa.2.trans hp
        have hsm := hs _ hpm
        rcases hmk with hmk | hmk
        · obtain ⟨j', hjj', hf⟩ := h.maker hk hpm hsm _ j (Nat.le_refl _) hmk
          obtain ⟨j2, hj2, hm2⟩ := h.turn p j'
          refine turn j2 (by omega) hm2 fun hb2 => ?_
          obtain ⟨o2, hho2, _, hnb2, hmk2⟩ := attach_waits (h.reach j2) hb2
          have ho1 := h.mono (i := j) (j := j2) (by omega) hoa.1
          have ho2 := h.mono hj2 (h.mono hjj' hoa.1).1
          have hoa2 := holds_at (h.reach j2).inv hho2
          have hd1 := ((h.reach j2).kept hk).dir o ho1.1 (by rw [ho1.2.1]; exact hpm)
          have hd2 := ((h.reach j2).kept hk).dir o2 hoa2.1 (hoa2.2.trans hp)
          have e : o = o2 := by rw [hd1] at hd2; exact Option.some.inj hd2
          subst e
          have hf2 : ((f j2).obj o).flag = 2 := ho2.2.2 hf
          rcases hb2 with ⟨o', hc, hz⟩ | ⟨o', len, hc, hz⟩
          · rw [hc] at hho2; cases hho2
            exact ((h.reach j2).inv.objs _ |>.use hf2).1 hz
          · rw [hc] at hho2; cases hho2
            exact hz hf2
        · have := (h.left hk hpm hsm (Nat.le_refl j)).2
          rw [hmk] at this; simp [Attach.left] at this
      · exact turn j hij hj hb
  obtain ⟨j, hj⟩ := key _ 0 (Nat.le_refl _)
  refine ⟨j, ?_⟩
  cases hpc : (f j).pc p <;> rw [hpc] at hj <;> simp [Attach.left] at hj
  exact ⟨_, _, rfl⟩

/-! ## A failure of the maker -/

/-- The constructor of the maker of the segment called `n` threw before it had finished, and nobody with that name is
past the constructor. -/
structure Dead (cfg : Cfg) (n : List Nat) (o : Nat) (s : Sys) : Prop where
  dir : s.dir n = some o
  flag : (s.obj o).flag ≠ 2
  maker : s.pc (s.obj o).maker = .failed
  made : o < s.made
  rest : ∀ p, path (cfg.name p) = n → s.pc p = .idle ∨ s.pc p = .create ∨ s.pc p = .open_ ∨ s.pc p = .failed ∨
    s.pc p = .wait o ∨ s.pc p = .amap o ∨ ∃ len, s.pc p = .spin o len

/-- Any number of steps. -/
inductive Later (cfg : Cfg) (s : Sys) : Sys → Prop
  | refl : Later cfg s s
  | step {s' s'' : Sys} (h : Later cfg s s') (t : Trans cfg s' s'') : Later cfg s s''

theorem Later.reach (h : Reach cfg s) (l : Later cfg s s') : Reach cfg s' := by
  induction l with
  | refl => exact h
  | step _ t ih => exact ih.step t

theorem Dead.not_ready {n : List Nat} {o p : Nat} (h : Dead cfg n o s) (hp : path (cfg.name p) = n) (o' len : Nat) :
    s.pc p ≠ .ready o' len := by
  rcases h.rest p hp with e | e | e | e | e | e | ⟨len, e⟩ <;> rw [e] <;> simp

theorem Dead.not_unlink {n : List Nat} {o p : Nat} (h : Dead cfg n o s) (hp : path (cfg.name p) = n) (o' : Nat) :
    s.pc p ≠ .unlink o' := by
  rcases h.rest p hp with e | e | e | e | e | e | ⟨len, e⟩ <;> rw [e] <;> simp

/-- Only the maker writes the flag. -/
theorem move_flag (hi : Inv cfg s) {p o : Nat} (ok : Bool) (ho : o < s.made) :
    ((move cfg p ok s).obj o).flag = (s.obj o).flag ∨ (s.obj o).maker = p ∧ making (s.pc p) = some o := by
  have ha := hi.at_ p
  have hput : ∀ (o' : Nat) (x : Obj), (x.flag = (s.obj o').flag ∨ (s.obj o').maker = p ∧ making (s.pc p) = some o') →
      (if o = o' then x else s.obj o).flag = (s.obj o).flag ∨ (s.obj o).maker = p ∧ making (s.pc p) = some o := by
    intro o' x hx
    split
    · next e => subst e; exact hx
    · exact Or.inl rfl
  unfold move
  cases hc : s.pc p <;> rw [hc] at ha hput <;> dsimp only
  case create =>
    repeat' split
    · exact Or.inl rfl
    · exact Or.inl rfl
    · left
      show (if o = s.made then _ else s.obj o : Obj).flag = _
      rw [if_neg (by omega)]
  case trunc o' =>
    split
    · exact Or.inl rfl
    · exact hput o' { s.obj o' with size := cfg.size p } (Or.inl rfl)
  case flag o' len => exact hput o' { s.obj o' with flag := 1 } (Or.inr ⟨ha.2.1, rfl⟩)
  case mutex o' len =>
    split
    · exact Or.inl rfl
    · exact hput o' { s.obj o' with mutex := true } (Or.inl rfl)
  case stores o' len k =>
    split
    · exact Or.inl rfl
    · split
      next m _ => exact hput o' { s.obj o' with mem := m } (Or.inl rfl)
      · exact Or.inl rfl
  case done o' len => exact hput o' { s.obj o' with flag := 2 } (Or.inr ⟨ha.2.1, rfl⟩)
  all_goals
    (repeat' split) <;> exact Or.inl rfl

theorem Dead.trans {n : List Nat} {o : Nat} (hi : Inv cfg s) (h : Dead cfg n o s) (t : Trans cfg s s') :
    Dead cfg n o s' := by
  have hmono := trans_mono hi t
  have hmk := (hmono.2 o h.made).1
  cases t with
  | move p ok =>
    refine ⟨?_, ?_, ?_, Nat.lt_of_lt_of_le h.made hmono.1, ?_⟩
    · rcases move_effect (cfg := cfg) (s := s) p ok with ⟨_, _, e | ⟨⟨o', hu⟩, e⟩⟩ | ⟨hn, _, _, _, e⟩
      · rw [e]; exact h.dir
      · rw [e]
        show (if n = path (cfg.name p) then _ else _) = _
        rw [if_neg fun hh => h.not_unlink hh.symm o' hu]; exact h.dir
      · rw [e]
        show (if n = path (cfg.name p) then _ else _) = _
        rw [if_neg fun hh => by rw [← hh, h.dir] at hn; cases hn]; exact h.dir
    · rcases move_flag hi (p := p) ok h.made with e | ⟨e, hm⟩
      · rw [e]; exact h.flag
      · have := h.maker; rw [e] at this; rw [this] at hm; cases hm
    · rw [hmk]
      by_cases e : (s.obj o).maker = p
      · have hf := h.maker
        rw [e] at hf ⊢
        unfold move; rw [hf]; exact hf
      · rw [move_pc e]; exact h.maker
    · intro q hq
      by_cases e : q = p
      · subst e
        unfold move
        rcases h.rest q hq with e | e | e | e | e | e | ⟨len, e⟩ <;> rw [e] <;> dsimp only
        · simp [Sys.goto]
        · cases ok
          · simp [Sys.goto]
          · rw [if_neg (by simp), hq, h.dir]; simp [Sys.goto]
        · cases ok
          · simp [Sys.goto]
          · rw [if_neg (by simp), hq, h.dir]; simp [Sys.goto]
        · exact Or.inr (Or.inr (Or.inr (Or.inl e)))
        · cases ok
          · simp [Sys.goto]
          · rw [if_neg (by simp)]
            split
            · exact Or.inr (Or.inr (Or.inr (Or.inr (Or.inl e))))
            · simp [Sys.goto]
        · cases ok
          · simp [Sys.goto]
          · rw [if_neg (by simp)]; simp [Sys.goto]
        · rw [if_pos h.flag]
          exact Or.inr (Or.inr (Or.inr (Or.inr (Or.inr (Or.inr ⟨len, e⟩)))))
      · rw [move_pc e]; exact h.rest q hq
  | destroy p o' len _ he hr =>
    have hne : ∀ q, (s.pc q ≠ .ready o' len) → (s.goto p (.unmap o')).pc q = s.pc q := by
      intro q hq
      show (if q = p then _ else _) = _
      exact if_neg (fun (e : q = p) => hq (by rw [e]; exact hr))
    refine ⟨h.dir, h.flag, ?_, h.made, fun q hq => ?_⟩
    · exact (hne (s.obj o).maker (by rw [h.maker]; simp)).trans h.maker
    · rw [hne q (h.not_ready hq o' len)]; exact h.rest q hq
  | call p o' len _ op m L hr hm hs =>
    refine ⟨h.dir, ?_, ?_, h.made, h.rest⟩
    · show (if o = o' then _ else s.obj o : Obj).flag ≠ 2
      split
      · next e => rw [← e]; exact h.flag
      · exact h.flag
    · rw [hmk]; exact h.maker
  | bad p o' len _ hr hm =>
    have hne : ∀ q, (s.pc q ≠ .ready o' len) → (s.goto p .ub).pc q = s.pc q := by
      intro q hq
      show (if q = p then _ else _) = _
      exact if_neg (fun (e : q = p) => hq (by rw [e]; exact hr))
    refine ⟨h.dir, h.flag, ?_, h.made, fun q hq => ?_⟩
    · exact (hne (s.obj o).maker (by rw [h.maker]; simp)).trans h.maker
    · rw [hne q (h.not_ready hq o' len)]; exact h.rest q hq

/-- **C90**: and when a call fails in the maker of the segment - or it asked for nothing at all - no process of that
name ever gets a working resource, whatever is done, until the name is taken away by hand. -/
theorem attach_dead {n : List Nat} {o : Nat} (h : Reach cfg s) (hd : Dead cfg n o s) (l : Later cfg s s') {p : Nat}
    (hp : path (cfg.name p) = n) (o' len : Nat) : s'.pc p ≠ .ready o' len := by
  have : Reach cfg s' ∧ Dead cfg n o s' := by
    induction l with
    | refl => exact ⟨h, hd⟩
    | step _ t ih => exact ⟨ih.1.step t, ih.2.trans ih.1.inv t⟩
  exact this.2.not_ready hp o' len

/-- **C90**: a constructor throws only when a call of the system fails in it, or when it makes a segment of size 0; a
name that comes and goes meanwhile is no error. -/
theorem attach_throws (h : Reach cfg s) {p : Nat} {ok : Bool} (h0 : s.pc p ≠ .failed)
    (h1 : (move cfg p ok s).pc p = .failed) : ok = false ∨ making (s.pc p) ≠ none ∧ cfg.size p = 0 := by
  have ha := h.inv.at_ p
  cases ok
  · exact Or.inl rfl
  right
  unfold move at h1
  cases hc : s.pc p <;> rw [hc] at h1 h0 ha <;> dsimp only at h1
  case cmap o =>
    refine ⟨by simp [making], ?_⟩
    rw [← ha.2.2.1]
    rcases Nat.eq_zero_or_pos (s.obj o).size with e | e
    · exact e
    · rw [if_neg (by simp; omega)] at h1; simp [Sys.goto] at h1
  case failed => exact absurd rfl h0
  all_goals
    exfalso
    revert h1
    (repeat' split) <;> simp_all [Sys.goto, Sys.put]

/-- **C90**: two names are the same segment when they differ at most in one leading slash. -/
theorem attach_path (a b : List Nat) : path a = path b ↔
    a = b ∨ (a = 47 :: b ∧ b.head? ≠ some 47) ∨ (b = 47 :: a ∧ a.head? ≠ some 47) := by
  unfold path
  cases a with
  | nil =>
    cases b with
    | nil => simp
    | cons y b => by_cases e : y = 47 <;> simp_all
  | cons x a =>
    cases b with
    | nil => by_cases e : x = 47 <;> simp_all
    | cons y b => by_cases e : x = 47 <;> by_cases e' : y = 47 <;> simp_all <;> grind

/-! ## Concrete cases -/

/-- Several moves, each with its process and whether the call succeeds. -/
def moves (cfg : Cfg) : List (Nat × Bool) → Sys → Sys
  | [], s => s
  | (p, ok) :: l, s => moves cfg l (move cfg p ok s)

theorem Reach.moves (h : Reach cfg s) (l : List (Nat × Bool)) : Reach cfg (moves cfg l s) := by
  induction l generalizing s with
  | nil => exact h
  | cons a l ih => exact ih (h.step (.move a.1 a.2 s))

/-- Process 0 says `a` and 200 bytes, all others `/a` and 1000. -/
def two (ends : Nat → Prop) : Cfg :=
  ⟨fun p => if p = 0 then [97] else [47, 97], fun p => if p = 0 then 200 else 1000, ends⟩

/-- Process 0 makes the segment; process 1 tries to open it in between and waits. -/
def race : List (Nat × Bool) :=
  [(0, true), (1, true), (0, true), (1, true), (1, true), (1, true), (0, true), (1, true), (1, true), (1, true)] ++
  List.replicate 13 (0, true) ++ [(1, true)]

/-- Both have the segment of process 0. -/
example : let s := moves (two fun _ => False) race init
    Reach (two fun _ => False) s ∧ s.pc 0 = .ready 0 200 ∧ s.pc 1 = .ready 0 200 ∧ (s.obj 0).maker = 0 ∧
    path ((two fun _ => False).name 0) = path ((two fun _ => False).name 1) :=
  ⟨Reach.init.moves _, by decide +kernel, by decide +kernel, by decide +kernel, by decide +kernel⟩

/-- Half way, process 1 waits for process 0. -/
example : let s := moves (two fun _ => False) (race.take 12) init
    Blocked s 1 ∧ making (s.pc 0) = some 0 :=
  ⟨Or.inr ⟨0, 200, by decide +kernel, by decide +kernel⟩, by decide +kernel⟩

example : Kept (two fun _ => False) [47, 97] := fun _ _ h => h

/-- There are fair runs, for any processes. -/
def turns (cfg : Cfg) : Nat → Sys
  | 0 => init
  | i + 1 => move cfg (Nat.unpair i).1 true (turns cfg i)

theorem turns_fair (cfg : Cfg) : FairRun cfg (turns cfg) :=
  ⟨rfl, fun _ => .move _ _, fun p i => ⟨Nat.pair p i, Nat.right_le_pair p i, by simp [turns]⟩⟩

/-- In which process 7 of `two` has its resource in the end. -/
example : ∃ i o len, (turns (two fun _ => False) i).pc 7 = .ready o len :=
  attach_live (turns_fair _) (n := [47, 97]) (fun _ _ h => h)
    (fun p _ => by show (if p = 0 then 200 else 1000) ≠ 0; split <;> decide) (by decide)

/-- The `ftruncate` of process 0 fails, as on a full file system, after process 1 has seen the name. -/
def fails : List (Nat × Bool) := [(0, true), (0, true), (1, true), (1, true), (1, true), (0, false)]

theorem fails_dead : Dead (two fun _ => True) [47, 97] 0 (moves (two fun _ => True) fails init) := by
  refine ⟨by decide +kernel, by decide +kernel, by decide +kernel, by decide +kernel, fun p hp => ?_⟩
  match p with
  | 0 => exact Or.inr (Or.inr (Or.inr (Or.inl (by decide +kernel))))
  | 1 => exact Or.inr (Or.inr (Or.inr (Or.inr (Or.inl (by decide +kernel)))))
  | p + 2 =>
    left
    simp only [fails, moves]
    rw [move_pc (by omega), move_pc (by omega), move_pc (by omega), move_pc (by omega), move_pc (by omega),
      move_pc (by omega)]
    rfl

/-- **C90**, where it fails: one failed call in the process that makes the segment, and no process ever gets it. -/
theorem attach_hang_counterexample : ∃ (cfg : Cfg) (s : Sys), Reach cfg s ∧ (∀ p, cfg.size p ≠ 0) ∧
    (∀ p q, path (cfg.name p) = path (cfg.name q)) ∧ s.pc 1 = .wait 0 ∧
    ∀ s', Later cfg s s' → ∀ p o len, s'.pc p ≠ .ready o len := by
  have hn : ∀ p, path ((two fun _ => True).name p) = [47, 97] := by
    intro p
    show path (if p = 0 then [97] else [47, 97]) = _
    split <;> rfl
  refine ⟨two fun _ => True, moves (two fun _ => True) fails init, Reach.init.moves _, fun p => ?_, fun p q => ?_,
    by decide +kernel, fun s' l p o len => ?_⟩
  · show (if p = 0 then 200 else 1000) ≠ 0
    split <;> decide
  · rw [hn, hn]
  · exact attach_dead (Reach.init.moves _) fails_dead l (hn p) o len

/-- Nothing fails, but process 0 asks for a segment of size 0. -/
def nothing : Cfg := ⟨fun _ => [97], fun p => if p = 0 then 0 else 1000, fun _ => False⟩

/-- **C90**, where it fails: a segment of size 0 asked for by one process is an error there and a hang in all others. -/
theorem attach_empty_counterexample : ∃ (cfg : Cfg) (s : Sys), Reach cfg s ∧ cfg.size 0 = 0 ∧ cfg.size 1 ≠ 0 ∧
    s.pc 0 = .failed ∧ s.pc 1 = .wait 0 ∧ ∀ s', Later cfg s s' → ∀ p o len, s'.pc p ≠ .ready o len := by
  let l : List (Nat × Bool) := [(0, true), (0, true), (1, true), (1, true), (1, true), (0, true), (0, true)]
  have hd : Dead nothing [47, 97] 0 (moves nothing l init) := by
    refine ⟨by decide +kernel, by decide +kernel, by decide +kernel, by decide +kernel, fun p hp => ?_⟩
    match p with
    | 0 => exact Or.inr (Or.inr (Or.inr (Or.inl (by decide +kernel))))
    | 1 => exact Or.inr (Or.inr (Or.inr (Or.inr (Or.inl (by decide +kernel)))))
    | p + 2 =>
      left
      simp only [l, moves]
      rw [move_pc (by omega), move_pc (by omega), move_pc (by omega), move_pc (by omega), move_pc (by omega),
        move_pc (by omega), move_pc (by omega)]
      rfl
  exact ⟨nothing, moves nothing l init, Reach.init.moves _, rfl, by decide, by decide +kernel, by decide +kernel,
    fun s' l' p o len => attach_dead (Reach.init.moves _) hd l' rfl o len⟩

/-- **C90**, where it fails: when one process destroys its resource, the others keep the segment but the name is gone;
a process that opens it then has another one. -/
theorem attach_split_counterexample : ∃ (cfg : Cfg) (s : Sys), Reach cfg s ∧ cfg.name 1 = cfg.name 2 ∧
    s.pc 1 = .ready 0 200 ∧ s.pc 2 = .ready 1 1000 := by
  let c := two fun _ => True
  let s1 := moves c race init
  have h1 : s1.pc 0 = .ready 0 200 := by decide +kernel
  let s2 := s1.goto 0 (.unmap 0)
  have r2 : Reach c s2 := (Reach.init.moves race).step (.destroy 0 0 200 s1 trivial h1)
  let l : List (Nat × Bool) := [(0, true), (0, true)] ++ List.replicate 16 (2, true)
  exact ⟨c, moves c l s2, r2.moves l, rfl, by decide +kernel, by decide +kernel⟩

/-- **C90**, where it fails: the size a process asks for is ignored unless it is the first. -/
theorem attach_size_counterexample : ∃ (cfg : Cfg) (s : Sys), Reach cfg s ∧ (∀ p, ¬ cfg.ends p) ∧ ∃ p o len,
    s.pc p = .ready o len ∧ len < cfg.size p :=
  ⟨two fun _ => False, moves (two fun _ => False) race init, Reach.init.moves _, fun _ h => h, 1, 0, 200,
    by decide +kernel, by decide⟩

end Umpire.Attach
