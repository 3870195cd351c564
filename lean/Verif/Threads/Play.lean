import Verif.Threads.Sound
/-!
# Running threads from a script, for examples

`exec` does one step of the machine; what it computes is a `Step`.
-/
set_option autoImplicit false
set_option linter.unusedSimpArgs false
namespace Umpire.Thr
open Umpire.Judy Umpire.Mgr

/-- `go t x`: the next action of `t`, with the answer `x` where there is a choice: the
address a strategy gives, the block of a new record. -/
inductive Move where
  | start (t : Nat) (cl : Call)
  | go (t : Nat) (x : Option Nat)
  | ret (t : Nat)
  | give (t : Nat) (r : Rec)
  | take (t : Nat) (r : Rec)

/-- The machine and the addresses that records have been put at. -/
structure Pm where
  S : MS Nat
  A : List Nat

def Pm.new : Pm := ⟨MS.new Nat, []⟩

/-- One action; the answer, the new state, the address a record is put at. -/
def doAct (S : Sh) (A : List Nat) (x : Option Nat) : (a : Act) → Option (a.Ans × Sh × List Nat)
  | .ask s n =>
    match x with
    | some p => if Fresh p n (ranges S.w.held) then some (some p, { S with w := ⟨⟨s, p, n⟩ :: S.w.held, S.w.mem⟩ }, A) else none
    | none => some (none, { S with w := ⟨S.w.held, S.w.mem⟩ }, A)
  | .hand s p n => if isGives S.w.held s p n = true then some ((), { S with w := ⟨dropB p S.w.held, S.w.mem⟩ }, A) else none
  | .regrow s p n =>
    match x with
    | some q =>
      if isGives S.w.held s p none = true ∧ Fresh q n (ranges (dropB p S.w.held)) then
        some (some q, { S with w := ⟨⟨s, q, n⟩ :: dropB p S.w.held, copied S.w.mem q p n⟩ }, A) else none
    | none => if isGives S.w.held s p none = true then some (none, S, A) else none
  | .zeroQ p => if inZero S.w.held p = true ∧ inOther S.w.held p = true then none else some (inZero S.w.held p, S, A)
  | .cpy d s n => some ((), { S with w := ⟨S.w.held, copied S.w.mem d s n⟩ }, A)
  | .fill p v n => some ((), { S with w := ⟨S.w.held, filled S.w.mem p v n⟩ }, A)
  | .stat s f => some ((), { S with st := fun t => if t = s then f (S.st t) else S.st t }, A)
  | .put p r =>
    match x with
    | some b =>
      if A.all (fun q => decide (b ∉ S.top q)) = true then
        some ((), { S with am := S.am.insert p r, cell := fun i => if i = b then r else S.cell i, top := fun q => if q = p then b :: S.top q else S.top q }, p :: A)
      else none
    | none => none
  | .pull p =>
    match S.am.remove p with
    | .ok a r => some (some r, { S with am := a, top := fun q => if q = p then (S.top q).tail else S.top q }, A)
    | .throws a => some (none, { S with am := a }, A)
    | .ub => none
  | .seek p =>
    match (S.am.findRecord p).2 with
    | some r => some (some (r, (S.top r.ptr).headD 0), { S with am := (S.am.findRecord p).1 }, A)
    | none => some (none, { S with am := (S.am.findRecord p).1 }, A)
  | .look h => some (S.cell h.2, S, A)
  | .peek h => some (S.cell h.2, S, A)

def Known (top : Nat → List Nat) (A : List Nat) : Prop := ∀ q, q ∉ A → top q = []

theorem doAct_does {S S' : Sh} {A A' : List Nat} {x : Option Nat} {a : Act} {y : a.Ans} (hk : Known S.top A) (h : doAct S A x a = some (y, S', A')) :
    Does a y S S' ∧ Known S'.top A' := by
  cases a with
  | ask s n =>
    cases x with
    | none =>
      unfold doAct at h
      cases h
      exact ⟨.askFail fun _ _ _ _ _ => rfl, hk⟩
    | some p =>
      unfold doAct at h
      dsimp only at h
      split at h
      · rename_i hf
        cases h
        exact ⟨.askOk hf fun _ _ _ _ _ => rfl, hk⟩
      · cases h
  | hand s p n =>
    unfold doAct at h
    dsimp only at h
    split at h
    · rename_i hg
      cases h
      exact ⟨.hand (gives_of hg) fun _ _ _ _ _ => rfl, hk⟩
    · cases h
  | regrow s p n =>
    cases x with
    | none =>
      unfold doAct at h
      dsimp only at h
      split at h
      · rename_i hg
        cases h
        exact ⟨.regrowFail (gives_of hg), hk⟩
      · cases h
    | some q =>
      unfold doAct at h
      dsimp only at h
      split at h
      · rename_i hc
        cases h
        refine ⟨.regrowOk (gives_of hc.1) hc.2 ?_ ?_, hk⟩
        · intro x hx y h1 h2
          unfold copied
          have := hc.2.2.2 (x.ptr, x.size) (List.mem_map_of_mem (f := fun b : Blk => (b.ptr, b.size)) hx)
          unfold Disj at this
          dsimp only at this
          rw [if_neg (by omega)]
        · intro x _ _ i hi _
          unfold copied
          rw [if_pos (by omega), show p + (q + i - q) = p + i by omega]
      · cases h
  | zeroQ p =>
    unfold doAct at h
    dsimp only at h
    split at h
    · cases h
    · rename_i hc
      cases h
      have hz : InZero S.w.held p → inZero S.w.held p = true := by
        rintro ⟨x, hx, h1⟩
        exact List.any_eq_true.2 ⟨x, hx, decide_eq_true h1⟩
      have ho : InOther S.w.held p → inOther S.w.held p = true := by
        rintro ⟨x, hx, h1⟩
        exact List.any_eq_true.2 ⟨x, hx, decide_eq_true h1⟩
      refine ⟨.zeroQ hz fun h1 => ?_, hk⟩
      cases hb : inZero S.w.held p with
      | false => rfl
      | true => exact absurd ⟨hb, ho h1⟩ hc
  | cpy d s n => unfold doAct at h; cases h; exact ⟨.cpy, hk⟩
  | fill p v n => unfold doAct at h; cases h; exact ⟨.fill, hk⟩
  | stat s f => unfold doAct at h; cases h; exact ⟨.stat, hk⟩
  | put p r =>
    cases x with
    | none => unfold doAct at h; cases h
    | some b =>
      unfold doAct at h
      dsimp only at h
      split at h
      · rename_i hb
        cases h
        refine ⟨.put fun q hq => ?_, fun q hq => ?_⟩
        · by_cases hqa : q ∈ A
          · exact of_decide_eq_true (List.all_eq_true.1 hb q hqa) hq
          · rw [hk q hqa] at hq; cases hq
        · show (if q = p then b :: S.top q else S.top q) = []
          rw [if_neg fun (he : q = p) => hq (he ▸ List.mem_cons_self)]
          exact hk q fun hm => hq (List.mem_cons_of_mem _ hm)
      · cases h
  | pull p =>
    unfold doAct at h
    dsimp only at h
    split at h
    · rename_i a r hr
      cases h
      refine ⟨.pullOk hr, fun q hq => ?_⟩
      show (if q = p then (S.top q).tail else S.top q) = []
      rw [hk q hq]
      split <;> rfl
    · rename_i a hr
      cases h
      exact ⟨.pullNone hr, hk⟩
    · cases h
  | seek p =>
    unfold doAct at h
    dsimp only at h
    split at h
    · rename_i r hr
      cases h
      exact ⟨.seekOk hr, hk⟩
    · rename_i hr
      cases h
      exact ⟨.seekNone hr, hk⟩
  | look h' => unfold doAct at h; cases h; exact ⟨.look, hk⟩
  | peek h' => unfold doAct at h; cases h; exact ⟨.peek, hk⟩

def exec (c : Cfg) (pre : List Rec → Call → Bool) (P : Pm) : Move → Option Pm
  | .start t cl =>
    match P.S.thr t with
    | none => if pre (P.S.own t) cl = true then some { P with S := { P.S with thr := set P.S.thr t (some (cl, code c cl)) } } else none
    | some _ => none
  | .go t x =>
    match P.S.thr t with
    | some (cl, .act a k) =>
      match doAct P.S.sh P.A x a with
      | some (y, sh, A) => some ⟨{ P.S with sh := sh, thr := set P.S.thr t (some (cl, k y)) }, A⟩
      | none => none
    | _ => none
  | .ret t =>
    match P.S.thr t with
    | some (cl, .ret o) => some { P with S := { P.S with thr := set P.S.thr t none, own := set P.S.own t (after (P.S.own t) cl o) } }
    | _ => none
  | .give t r =>
    match P.S.thr t with
    | none => if r ∈ P.S.own t then
        some { P with S := { P.S with own := set P.S.own t ((P.S.own t).filter fun x => decide (x ≠ r)), box := r :: P.S.box } } else none
    | some _ => none
  | .take t r =>
    match P.S.thr t with
    | none => if r ∈ P.S.box then
        some { P with S := { P.S with own := set P.S.own t (r :: P.S.own t), box := P.S.box.filter fun x => decide (x ≠ r) } } else none
    | some _ => none

theorem exec_step {c : Cfg} {pre : List Rec → Call → Bool} {P P' : Pm} {m : Move} (hk : Known P.S.sh.top P.A) (h : exec c pre P m = some P') :
    (∃ t, Step c (fun own cl => pre own cl = true) t P.S P'.S) ∧ Known P'.S.sh.top P'.A := by
  cases m with
  | start t cl =>
    unfold exec at h
    dsimp only at h
    split at h
    · rename_i hn
      split at h
      · rename_i hp
        cases h
        exact ⟨⟨t, .start hn hp⟩, hk⟩
      · cases h
    · cases h
  | go t x =>
    unfold exec at h
    dsimp only at h
    split at h
    · rename_i cl a k ht
      split at h
      · rename_i y sh A hd
        cases h
        have := doAct_does hk hd
        exact ⟨⟨t, .act ht this.1⟩, this.2⟩
      · cases h
    · cases h
  | ret t =>
    unfold exec at h
    dsimp only at h
    split at h
    · rename_i cl o ht
      cases h
      exact ⟨⟨t, .ret ht⟩, hk⟩
    · cases h
  | give t r =>
    unfold exec at h
    dsimp only at h
    split at h
    · rename_i hn
      split at h
      · rename_i hr
        cases h
        exact ⟨⟨t, .give hn hr⟩, hk⟩
      · cases h
    · cases h
  | take t r =>
    unfold exec at h
    dsimp only at h
    split at h
    · rename_i hn
      split at h
      · rename_i hr
        cases h
        exact ⟨⟨t, .take hn hr⟩, hk⟩
      · cases h
    · cases h

def execs (c : Cfg) (pre : List Rec → Call → Bool) : List Move → Pm → Option Pm
  | [], P => some P
  | m :: l, P => match exec c pre P m with
    | some P' => execs c pre l P'
    | none => none

theorem execs_reach {c : Cfg} {pre : List Rec → Call → Bool} : ∀ {l : List Move} {P P' : Pm}, Known P.S.sh.top P.A →
    Reach c (fun own cl => pre own cl = true) P.S → execs c pre l P = some P' → Reach c (fun own cl => pre own cl = true) P'.S
  | [], P, P', _, hr, h => by unfold execs at h; cases h; exact hr
  | m :: l, P, P', hk, hr, h => by
    unfold execs at h
    split at h
    · rename_i P'' he
      obtain ⟨⟨t, hs⟩, hk'⟩ := exec_step hk he
      exact execs_reach hk' (hr.step hs) h
    · cases h

/-- A script that runs to its end and leads to a state with a property. -/
def leads (c : Cfg) (pre : List Rec → Call → Bool) (l : List Move) (P : MS Nat → Bool) : Bool :=
  match execs c pre l Pm.new with
  | some P' => P P'.S
  | none => false

theorem leads_reach {c : Cfg} {pre : List Rec → Call → Bool} {l : List Move} {P : MS Nat → Bool} (h : leads c pre l P = true) :
    ∃ S, Reach c (fun own cl => pre own cl = true) S ∧ P S = true := by
  unfold leads at h
  split at h
  · rename_i P' he
    exact ⟨P'.S, execs_reach (fun _ _ => rfl) .init he, h⟩
  · cases h

theorem Reach.weaken {T : Type} [DecidableEq T] {c : Cfg} {Pre Pre' : List Rec → Call → Prop} {S : MS T} (h : Reach c Pre S) (hw : ∀ own cl, Pre own cl → Pre' own cl) :
    Reach c Pre' S := by
  induction h with
  | init => exact .init
  | step _ hs ih =>
    refine ih.step (t := ?_) ?_
    · assumption
    · cases hs with
      | start h1 h2 => exact .start h1 (hw _ _ h2)
      | act h1 h2 => exact .act h1 h2
      | ret h1 => exact .ret h1
      | give h1 h2 => exact .give h1 h2
      | take h1 h2 => exact .take h1 h2
      | write h1 h2 h3 => exact .write h1 h2 h3
  | drift _ ha ih => exact ih.drift ha

instance (r : Rec) (p : Nat) : Decidable (Contains r p) := inferInstanceAs (Decidable (_ ∧ _))

/-- `Pre` as a function. -/
def preB (c : Cfg) (own : List Rec) : Call → Bool
  | .alloc s _ => decide (s ≠ zero) && c.tracked s
  | .free s p => c.tracked s && (decide (p = 0) || own.any fun r => decide (Contains r p))
  | .freeAny p => own.any fun r => decide (Contains r p)
  | .size p => own.any fun r => decide (Contains r p)
  | .owner p => own.any fun r => decide (Contains r p)
  | .has p => decide (p < 2 ^ 64)
  | .memset p _ _ => own.any fun r => decide (Contains r p)
  | .realloc _ p n => own.any fun r => decide (r.ptr = p ∧ (r.tag = c.host → n = 0 ∨ r.size = 0))
  | .move p s => decide (s ≠ zero) && c.tracked s && own.any fun r => decide (r.ptr = p)
  | .copy _ _ _ => false

theorem preB_pre {c : Cfg} {tk : Nat → Nat → Prop} (hk : ∀ s n, tk s n) {own : List Rec} {cl : Call} (h : preB c own cl = true) : Pre c tk own cl := by
  have key : ∀ {q : Rec → Prop} [DecidablePred q], own.any (fun r => decide (q r)) = true → ∃ r ∈ own, q r := by
    intro q _ h
    obtain ⟨r, hr, h1⟩ := List.any_eq_true.1 h
    exact ⟨r, hr, of_decide_eq_true h1⟩
  have hq : ∀ s n, Asked tk s n := fun s n => by unfold Asked; split <;> exact hk _ _
  cases cl with
  | alloc s n => simp only [preB, Bool.and_eq_true, decide_eq_true_eq] at h; exact ⟨h.1, h.2, hq _ _⟩
  | free s p =>
    simp only [preB, Bool.and_eq_true, Bool.or_eq_true, decide_eq_true_eq] at h
    exact ⟨h.1, h.2.imp id key⟩
  | freeAny p => exact key h
  | size p => exact key h
  | owner p => exact key h
  | has p => exact of_decide_eq_true (p := p < 2 ^ 64) h
  | memset p v n => exact key h
  | realloc d p n =>
    obtain ⟨r, hr, h1, h2⟩ := key h
    exact Or.inr ⟨r, hr, h1, h2, hq _ _⟩
  | move p s =>
    simp only [preB, Bool.and_eq_true, decide_eq_true_eq] at h
    obtain ⟨r, hr, h1⟩ := key h.2
    exact ⟨h.1.1, h.1.2, r, hr, h1, fun _ => hq _ _⟩
  | copy d s n => cases h

end Umpire.Thr
