import Verif.Whole.Hist
import Verif.Nest.Drive
import Verif.Manager.Play
/-!
# Running the whole on given answers of the resources, for examples

Everything takes place on the resources in a list `R`.  What `play` computes is one of the
behaviours of `CHist`.
-/
set_option autoImplicit false
set_option linter.unusedSimpArgs false
namespace Umpire.Whole
open Umpire.Prog Umpire.Nest Umpire.Mgr Umpire.Judy

/-- Resources other than those in `R` have handed out nothing. -/
def Only (R : List Nat) (H : Nat → Held) : Prop := ∀ k, k ∉ R → H k = []

theorem only_put {R : List Nat} {H : Nat → Held} {r : Nat} {l : Held} (h : Only R H) (hr : r ∈ R) : Only R (put H r l) := by
  intro k hk
  have hne : k ≠ r := fun e => hk (by rw [e]; exact hr)
  rw [put_ne hne]
  exact h k hk

def sexec {α : Type} (R : List Nat) (r : Nat) : Prog α → List (Option Nat) → (Nat → Held) → Option (α × (Nat → Held))
  | .ret a, _, H => some (a, H)
  | .fail _, _, _ => none
  | .alloc n k, some p :: l, H =>
    if p ≠ 0 ∧ p + n ≤ AMax ∧ ∀ j ∈ R, ∀ x ∈ H j, Disj p n x.1 x.2 then sexec R r (k (some p)) l (put H r ((p, n) :: H r)) else none
  | .alloc _ k, none :: l, H => sexec R r (k none) l H
  | .alloc _ _, [], _ => none
  | .dealloc p _ k, l, H => sexec R r k l (put H r (Umpire.drop p (H r)))

theorem sexec_run {α : Type} {R : List Nat} {r : Nat} (hr : r ∈ R) (prog : Prog α) : ∀ {l : List (Option Nat)} {H H' : Nat → Held} {a : α},
    Only R H → sexec R r prog l H = some (a, H') → SRun r prog H a H' ∧ Only R H' := by
  induction prog with
  | ret a =>
    intro l H H' b ho h
    unfold sexec at h
    injection h with h
    injection h with h1 h2
    subst h1; subst h2
    exact ⟨.ret, ho⟩
  | fail b => intro l H H' a ho h; unfold sexec at h; cases h
  | alloc n k ih =>
    intro l H H' b ho h
    match l with
    | [] => unfold sexec at h; cases h
    | none :: l =>
      unfold sexec at h
      obtain ⟨h1, h2⟩ := ih _ ho h
      exact ⟨.allocFail h1, h2⟩
    | some p :: l =>
      unfold sexec at h
      split at h
      · rename_i hc
        obtain ⟨h1, h2⟩ := ih _ (only_put ho hr) h
        refine ⟨.allocOk ⟨hc.1, hc.2.1, fun j x hx => ?_⟩ h1, h2⟩
        by_cases hj : j ∈ R
        · exact hc.2.2 j hj x hx
        · rw [ho j hj] at hx; cases hx
      · cases h
  | dealloc p n k ih =>
    intro l H H' b ho h
    unfold sexec at h
    obtain ⟨h1, h2⟩ := ih (only_put ho hr) h
    exact ⟨.dealloc h1, h2⟩

variable {L : Lay}

/-- A command on resource `r`. -/
def St.exec (R : List Nat) (S : St L) (r : Nat) (o : (L.arr r).sys.Cmd) (l : List (Option Nat)) : Option (Option Nat × St L) :=
  if r ∈ R ∧ (L.arr r).canB o (S.f r) = true then
    match sexec R r ((L.arr r).sys.run o (S.f r)) l S.H with
    | some ((v, t), H') => some (v, S.set r t H' S.mem)
    | none => none
  else none

theorem St.exec_run {R : List Nat} {S S' : St L} {r : Nat} {o : (L.arr r).sys.Cmd} {l : List (Option Nat)} {v : Option Nat}
    (ho : Only R S.H) (h : S.exec R r o l = some (v, S')) :
    (L.arr r).sys.can o (S.f r) ∧ (∃ t, S' = S.set r t S'.H S'.mem ∧ SRun r ((L.arr r).sys.run o (S.f r)) S.H (v, t) S'.H) ∧ S.Kept S' ∧ Only R S'.H := by
  unfold St.exec at h
  split at h
  · rename_i hc
    split at h
    · rename_i v' t H' he
      injection h with h
      injection h with h1 h2
      subst h1; subst h2
      obtain ⟨h3, h4⟩ := sexec_run hc.1 _ ho he
      exact ⟨(L.arr r).canB_can hc.2, ⟨t, rfl, h3⟩, fun _ _ _ _ _ _ _ => rfl, h4⟩
    · cases h
  · cases h

/-- `none`: undefined behaviour, the script does not fit, or `::realloc` is called. -/
def fexec {α : Type} (R : List Nat) : MP α → List (List (Option Nat)) → St L → Option (α × St L)
  | .ret a, _, S => some (a, S)
  | .alloc s n k, sc, S =>
    match L.place s with
    | none => fexec R (k none) sc S
    | some x =>
      if S.built x = false then fexec R (k none) sc S else
      match sc with
      | [] => none
      | l :: sc => match S.exec R x.1 ((L.arr x.1).cmd x.2 (.alloc n)) l with
        | some (v, S1) => fexec R (k v) sc S1
        | none => none
  | .dealloc s p (some n) k, l :: sc, S =>
    match L.place s with
    | none => none
    | some x => if (p, n) ∈ S.user x then match S.exec R x.1 ((L.arr x.1).cmd x.2 (.dealloc p)) l with
        | some (_, S1) => fexec R k sc S1
        | none => none
      else none
  | .fromZero p k, sc, S => fexec R (k (S.fromZero p)) sc S
  | .memcpy d s n k, sc, S => fexec R k sc ⟨S.f, S.H, copied S.mem d s n⟩
  | .memset p v n k, sc, S => fexec R k sc ⟨S.f, S.H, filled S.mem p v n⟩
  | _, _, _ => none

theorem fexec_run {α : Type} {R : List Nat} (prog : MP α) : ∀ {sc : List (List (Option Nat))} {S S' : St L} {a : α},
    Only R S.H → fexec R prog sc S = some (a, S') → FRun prog S a S' ∧ Only R S'.H := by
  induction prog with
  | ret a =>
    intro sc S S' b ho h
    unfold fexec at h
    injection h with h
    injection h with h1 h2
    subst h1; subst h2
    exact ⟨.ret, ho⟩
  | fail => intro sc S S' b ho h; unfold fexec at h; cases h
  | alloc s n k ih =>
    intro sc S S' b ho h
    unfold fexec at h
    split at h
    · rename_i hp
      obtain ⟨h1, h2⟩ := ih _ ho h
      exact ⟨.idle (fun x hx => by rw [hp] at hx; cases hx) h1, h2⟩
    · rename_i x hp
      split at h
      · rename_i hb
        obtain ⟨h1, h2⟩ := ih _ ho h
        refine ⟨.idle (fun y hy => ?_) h1, h2⟩
        rw [hp] at hy
        injection hy with hy
        subst hy
        exact hb
      · split at h
        · cases h
        · split at h
          · rename_i v S1 he
            obtain ⟨h1, ⟨t, h2, h3⟩, h4, h5⟩ := St.exec_run ho he
            obtain ⟨h6, h7⟩ := ih _ h5 h
            exact ⟨.alloc hp ⟨h1, t, h2, h3, h4⟩ h6, h7⟩
          · cases h
  | dealloc s p n k ih =>
    intro sc S S' b ho h
    match n, sc with
    | none, _ => unfold fexec at h; cases h
    | some n, [] => unfold fexec at h; cases h
    | some n, l :: sc =>
      unfold fexec at h
      split at h
      · cases h
      · rename_i x hp
        split at h
        · rename_i hm
          split at h
          · rename_i v S1 he
            obtain ⟨h1, ⟨t, h2, h3⟩, h4, h5⟩ := St.exec_run ho he
            obtain ⟨h6, h7⟩ := ih h5 h
            exact ⟨.dealloc hp hm ⟨h1, t, h2, h3, h4⟩ h6, h7⟩
          · cases h
        · cases h
  | realloc s p n k ih => intro sc S S' b ho h; unfold fexec at h; cases h
  | fromZero p k ih =>
    intro sc S S' b ho h
    unfold fexec at h
    obtain ⟨h1, h2⟩ := ih _ ho h
    exact ⟨.fromZero h1, h2⟩
  | memcpy d s n k ih =>
    intro sc S S' b ho h
    unfold fexec at h
    obtain ⟨h1, h2⟩ := ih (S := ⟨S.f, S.H, copied S.mem d s n⟩) ho h
    exact ⟨.memcpy h1, h2⟩
  | memset p v n k ih =>
    intro sc S S' b ho h
    unfold fexec at h
    obtain ⟨h1, h2⟩ := ih (S := ⟨S.f, S.H, filled S.mem p v n⟩) ho h
    exact ⟨.memset h1, h2⟩

def takesB (L : Lay) (s n : Nat) : Bool :=
  match L.place s with
  | none => true
  | some x => decide (n ≤ (L.arr x.1).capAt x.2)

theorem takes_of {s n : Nat} (h : takesB L s n = true) : L.Takes s n := by
  intro x hx
  unfold takesB at h
  rw [hx] at h
  simpa using h

inductive Call (L : Lay) where
  | other (r : Nat) (o : (L.arr r).sys.Cmd)
  | alloc (s n : Nat)
  | free (s p : Nat)
  | freeAny (p : Nat)
  | realloc (s p n : Nat)
  | reallocAny (d p n : Nat)
  | move (p s : Nat)
  | copy (d s n : Nat)
  | memset (p : Nat) (v : Int) (n : Nat)

structure Now (L : Lay) where
  t : List Mgr.Ev
  rm : RM
  S : St L

def Now.new (L : Lay) : Now L := ⟨[], RM.new, St.init L fun _ => 0⟩

def Now.run {β : Type} (R : List Nat) (x : Now L) (l : List (List (Option Nat))) (m : M β) (ev : Option β → Mgr.Ev) : Option (Now L) :=
  match fexec R (m x.rm) l x.S with
  | some (r, S') => some ⟨ev r.1 :: x.t, r.2, S'⟩
  | none => none

def isOther : Req → Bool
  | .other => true
  | _ => false

def atB (c : Mgr.Cfg) (t : List Mgr.Ev) (p : Nat) (f : Rec → Bool) : Bool := (ghost c t).live.all fun r => !decide (Judy.Contains r p) || f r

def Now.do (R : List Nat) (c : Mgr.Cfg) (x : Now L) (l : List (List (Option Nat))) : Call L → Option (Now L)
  | .other r o => ifThen (isOther ((L.arr r).req o)) (match x.S.exec R r o (l.headD []) with
    | some (_, S') => some ⟨x.t, x.rm, S'⟩
    | none => none)
  | .alloc s n => ifThen (decide (s ≠ zero) && takesB L s n) (x.run R l (allocate c s n) (.alloc s n))
  | .free s p => ifThen (decide (s ≠ zero) && decide (p < 2 ^ 64)) (x.run R l (deallocate c s p) fun o => .free s p o.isSome)
  | .freeAny p => ifThen (decide (p < 2 ^ 64)) (x.run R l (deallocateAny c p) fun o => .freeAny p o.isSome)
  | .realloc s p n => ifThen (decide (s ≠ zero) && decide (p < 2 ^ 64) && takesB L s n) (x.run R l (reallocImpl c p n s) (.realloc s p n))
  | .reallocAny d p n => ifThen (decide (d ≠ zero) && decide (p < 2 ^ 64) && takesB L d n && atB c x.t p fun r => takesB L r.tag n)
      (x.run R l (reallocate c d p n) (.reallocAny d p n))
  | .move p s => ifThen (decide (s ≠ zero) && decide (p < 2 ^ 64) && atB c x.t p fun r => takesB L s r.size) (x.run R l (Mgr.move c p s) (.move p s))
  | .copy d s n => ifThen (decide (d < 2 ^ 64) && decide (s < 2 ^ 64)) (x.run R l (Mgr.copy d s n) fun o => .copy d s n o.isSome)
  | .memset p v n => ifThen (decide (p < 2 ^ 64)) (x.run R l (Mgr.memset p v n) fun o => .memset p v n o.isSome)

def play (R : List Nat) (c : Mgr.Cfg) : List (Call L × List (List (Option Nat))) → Now L → Option (Now L)
  | [], x => some x
  | (k, l) :: ks, x => match x.do R c l k with
    | some y => play R c ks y
    | none => none

theorem Now.run_spec {β : Type} {R : List Nat} {x y : Now L} {l : List (List (Option Nat))} {m : M β} {ev : Option β → Mgr.Ev} (ho : Only R x.S.H)
    (h : x.run R l m ev = some y) : ∃ o, y.t = ev o :: x.t ∧ FRun (m x.rm) x.S (o, y.rm) y.S ∧ Only R y.S.H := by
  unfold Now.run at h
  split at h
  · rename_i r S' he
    injection h with h
    subst h
    exact ⟨r.1, rfl, fexec_run _ ho he⟩
  · cases h

theorem atB_spec {c : Mgr.Cfg} {t : List Mgr.Ev} {p : Nat} {f : Rec → Bool} (h : atB c t p f = true) :
    ∀ r ∈ (ghost c t).live, Judy.Contains r p → f r = true := by
  intro r hr hc
  have := List.all_eq_true.1 h r hr
  simpa [hc] using this

theorem do_hist {R : List Nat} {c : Mgr.Cfg} {x y : Now L} {l : List (List (Option Nat))} {k : Call L} (ho : Only R x.S.H)
    (hx : CHist c x.t x.rm x.S) (h : x.do R c l k = some y) : CHist c y.t y.rm y.S ∧ Only R y.S.H := by
  cases k with
  | other r o =>
    obtain ⟨hg, h⟩ := ifThen_some h
    split at h
    · rename_i v S' he
      injection h with h
      subst h
      obtain ⟨h1, ⟨t, h2, h3⟩, h4, h5⟩ := St.exec_run ho he
      have hq : (L.arr r).req o = .other := by
        cases hr : (L.arr r).req o with
        | other => rfl
        | alloc n => rw [hr] at hg; cases hg
        | dealloc p => rw [hr] at hg; cases hg
      exact ⟨hx.other hq h1 h3 h2 h4, h5⟩
    · cases h
  | alloc s n =>
    obtain ⟨hg, h⟩ := ifThen_some h
    obtain ⟨o, ht, hr, h5⟩ := Now.run_spec ho h
    simp only [Bool.and_eq_true, decide_eq_true_eq] at hg
    rw [ht]
    exact ⟨hx.alloc hg.1 (takes_of hg.2) hr, h5⟩
  | free s p =>
    obtain ⟨hg, h⟩ := ifThen_some h
    obtain ⟨o, ht, hr, h5⟩ := Now.run_spec ho h
    simp only [Bool.and_eq_true, decide_eq_true_eq] at hg
    rw [ht]
    exact ⟨hx.free hg.1 hg.2 hr, h5⟩
  | freeAny p =>
    obtain ⟨hg, h⟩ := ifThen_some h
    obtain ⟨o, ht, hr, h5⟩ := Now.run_spec ho h
    rw [ht]
    exact ⟨hx.freeAny (of_decide_eq_true hg) hr, h5⟩
  | realloc s p n =>
    obtain ⟨hg, h⟩ := ifThen_some h
    obtain ⟨o, ht, hr, h5⟩ := Now.run_spec ho h
    simp only [Bool.and_eq_true, decide_eq_true_eq] at hg
    rw [ht]
    exact ⟨hx.realloc hg.1.1 hg.1.2 (takes_of hg.2) hr, h5⟩
  | reallocAny d p n =>
    obtain ⟨hg, h⟩ := ifThen_some h
    obtain ⟨o, ht, hr, h5⟩ := Now.run_spec ho h
    simp only [Bool.and_eq_true, decide_eq_true_eq] at hg
    rw [ht]
    exact ⟨hx.reallocAny hg.1.1.1 hg.1.1.2 (takes_of hg.1.2) (fun r h1 h2 => takes_of (atB_spec hg.2 r h1 h2)) hr, h5⟩
  | move p s =>
    obtain ⟨hg, h⟩ := ifThen_some h
    obtain ⟨o, ht, hr, h5⟩ := Now.run_spec ho h
    simp only [Bool.and_eq_true, decide_eq_true_eq] at hg
    rw [ht]
    exact ⟨hx.move hg.1.1 hg.1.2 (fun r h1 h2 => takes_of (atB_spec hg.2 r h1 h2)) hr, h5⟩
  | copy d s n =>
    obtain ⟨hg, h⟩ := ifThen_some h
    obtain ⟨o, ht, hr, h5⟩ := Now.run_spec ho h
    simp only [Bool.and_eq_true, decide_eq_true_eq] at hg
    rw [ht]
    exact ⟨hx.copy hg.1 hg.2 hr, h5⟩
  | memset p v n =>
    obtain ⟨hg, h⟩ := ifThen_some h
    obtain ⟨o, ht, hr, h5⟩ := Now.run_spec ho h
    rw [ht]
    exact ⟨hx.memset (of_decide_eq_true hg) hr, h5⟩

theorem play_hist {R : List Nat} {c : Mgr.Cfg} {ks : List (Call L × List (List (Option Nat)))} {y : Now L} :
    ∀ {x : Now L}, Only R x.S.H → CHist c x.t x.rm x.S → play R c ks x = some y → CHist c y.t y.rm y.S := by
  induction ks with
  | nil =>
    intro x _ hx h
    unfold play at h
    injection h with h
    subst h
    exact hx
  | cons a ks ih =>
    obtain ⟨k, l⟩ := a
    intro x ho hx h
    unfold play at h
    split at h
    · rename_i z hz
      obtain ⟨h1, h2⟩ := do_hist ho hx hz
      exact ih h2 h1 h
    · cases h

/-- What can be told about a run. -/
theorem told_hist {α : Type} {f : Now L → α} {R : List Nat} {c : Mgr.Cfg} {ks : List (Call L × List (List (Option Nat)))} {a : α}
    (h : (play R c ks (Now.new L)).map f = some a) : ∃ y : Now L, CHist c y.t y.rm y.S ∧ f y = a := by
  cases hp : play R c ks (Now.new L) with
  | none => rw [hp] at h; cases h
  | some y =>
    rw [hp] at h
    injection h with h
    exact ⟨y, play_hist (x := Now.new L) (fun _ _ => rfl) (.new _) hp, h⟩

end Umpire.Whole
