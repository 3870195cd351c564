import Verif.Manager.Hist
/-!
# Running facade programs on scripted strategies, for examples

`exec` answers the requests to strategies from a list; what it computes is one of the
behaviours of `MP.Run`.
-/
set_option autoImplicit false
set_option linter.unusedSimpArgs false
namespace Umpire.Mgr
open Umpire.Judy

instance (p n : Nat) (O : Held) : Decidable (Fresh p n O) := inferInstanceAs (Decidable (_ ∧ _ ∧ ∀ r ∈ O, _))

instance (H : List Blk) (p n : Nat) : Decidable (Usable H p n) := inferInstanceAs (Decidable (_ ∨ _))

def isGives (H : List Blk) (s p : Nat) (n : Option Nat) : Bool :=
  H.any fun b => decide (b.own = s) && decide (b.ptr = p) && (match n with | none => true | some m => decide (b.size = m))

theorem gives_of {H : List Blk} {s p : Nat} {n : Option Nat} (h : isGives H s p n = true) : MP.Gives H s p n := by
  obtain ⟨b, hb, h⟩ := List.any_eq_true.1 h
  simp only [Bool.and_eq_true, decide_eq_true_eq] at h
  refine ⟨b, hb, h.1.1, h.1.2, ?_⟩
  rintro m rfl
  simpa using h.2

def inZero (H : List Blk) (p : Nat) : Bool := H.any fun b => decide (b.own = zero ∧ b.ptr ≤ p ∧ p < b.ptr + b.size)
def inOther (H : List Blk) (p : Nat) : Bool := H.any fun b => decide (b.own ≠ zero ∧ b.ptr ≤ p ∧ p < b.ptr + b.size)

/-- `none` when the script does not fit or there is undefined behaviour. -/
def exec {α : Type} (pl : Nat → Nat → Bool) : List (Option Nat) → MP α → World → Option (α × World)
  | _, .ret a, w => some (a, w)
  | _, .fail, _ => none
  | some p :: l, .alloc s n k, w => if Fresh p n (ranges w.held) ∧ pl s p = true then exec pl l (k (some p)) ⟨⟨s, p, n⟩ :: w.held, w.mem⟩ else none
  | none :: l, .alloc _ _ k, w => exec pl l (k none) w
  | [], .alloc _ _ _, _ => none
  | l, .dealloc s p n k, w => if isGives w.held s p n = true then exec pl l k ⟨dropB p w.held, w.mem⟩ else none
  | some q :: l, .realloc s p n k, w =>
    if isGives w.held s p none = true ∧ Fresh q n (ranges (dropB p w.held)) ∧ pl s q = true then
      exec pl l (k (some q)) ⟨⟨s, q, n⟩ :: dropB p w.held, copied w.mem q p n⟩ else none
  | none :: l, .realloc s p _ k, w => if isGives w.held s p none = true then exec pl l (k none) w else none
  | [], .realloc _ _ _ _, _ => none
  | l, .fromZero p k, w => if inZero w.held p = true ∧ inOther w.held p = true then none else exec pl l (k (inZero w.held p)) w
  | l, .memcpy d s n k, w => if Usable w.held d n ∧ Usable w.held s n ∧ (n = 0 ∨ Disj d n s n) then exec pl l k ⟨w.held, copied w.mem d s n⟩ else none
  | l, .memset p v n k, w => if Usable w.held p n then exec pl l k ⟨w.held, filled w.mem p v n⟩ else none

theorem exec_run {α : Type} {pl : Nat → Nat → Bool} (prog : MP α) : ∀ {l : List (Option Nat)} {w : World} {a : α} {w' : World},
    exec pl l prog w = some (a, w') → MP.Run (fun s p => pl s p = true) prog w a w' := by
  induction prog with
  | ret a =>
    intro l w b w' h
    unfold exec at h
    injection h with h
    injection h with h1 h2
    subst h1; subst h2
    exact .ret
  | fail => intro l w b w' h; unfold exec at h; cases h
  | alloc s n k ih =>
    intro l w b w' h
    match l with
    | [] => unfold exec at h; cases h
    | none :: l =>
      unfold exec at h
      exact .allocFail (fun _ _ _ _ _ => rfl) (ih _ h)
    | some p :: l =>
      unfold exec at h
      split at h
      · rename_i hc
        exact .allocOk hc.1 hc.2 (fun _ _ _ _ _ => rfl) (ih _ h)
      · cases h
  | dealloc s p n k ih =>
    intro l w b w' h
    unfold exec at h
    split at h
    · rename_i hc
      exact .dealloc (gives_of hc) (fun _ _ _ _ _ => rfl) (ih h)
    · cases h
  | realloc s p n k ih =>
    intro l w b w' h
    match l with
    | [] => unfold exec at h; cases h
    | none :: l =>
      unfold exec at h
      split at h
      · rename_i hc
        exact .reallocFail (gives_of hc) (ih _ h)
      · cases h
    | some q :: l =>
      unfold exec at h
      split at h
      · rename_i hc
        refine .reallocOk (gives_of hc.1) hc.2.1 hc.2.2 ?_ ?_ (ih _ h)
        · intro x hx y h1 h2
          unfold copied
          have := hc.2.1.2.2 (x.ptr, x.size) (List.mem_map_of_mem (f := fun b : Blk => (b.ptr, b.size)) hx)
          unfold Disj at this
          dsimp only at this
          rw [if_neg (by omega)]
        · intro x _ _ i hi _
          unfold copied
          rw [if_pos (by omega), show p + (q + i - q) = p + i by omega]
      · cases h
  | fromZero p k ih =>
    intro l w b w' h
    unfold exec at h
    split at h
    · cases h
    · rename_i hc
      have hz : InZero w.held p → inZero w.held p = true := by
        rintro ⟨x, hx, h1⟩
        exact List.any_eq_true.2 ⟨x, hx, decide_eq_true h1⟩
      have ho : InOther w.held p → inOther w.held p = true := by
        rintro ⟨x, hx, h1⟩
        exact List.any_eq_true.2 ⟨x, hx, decide_eq_true h1⟩
      refine .fromZero hz (fun h1 => ?_) (ih _ h)
      cases hb : inZero w.held p with
      | false => rfl
      | true => exact absurd ⟨hb, ho h1⟩ hc
  | memcpy d s n k ih =>
    intro l w b w' h
    unfold exec at h
    split at h
    · exact .memcpy (ih h)
    · cases h
  | memset p v n k ih =>
    intro l w b w' h
    unfold exec at h
    split at h
    · exact .memset (ih h)
    · cases h

/-- Calls to make. -/
inductive Cmd where
  | alloc (s n : Nat)
  | free (s p : Nat)
  | freeAny (p : Nat)
  | realloc (s p n : Nat)
  | reallocAny (d p n : Nat)
  | move (p s : Nat)
  | copy (d s n : Nat)
  | memset (p : Nat) (v : Int) (n : Nat)
  | kid (s n : Nat) (ok : Bool)
  | kidFree (s n m : Nat)

structure St where
  t : List Ev
  rm : RM
  w : World

def St.new : St := ⟨[], RM.new, ⟨[], fun _ => 0⟩⟩

def ifThen {α : Type} (b : Bool) (x : Option α) : Option α := if b then x else none

theorem ifThen_some {α : Type} {b : Bool} {x : Option α} {a : α} (h : ifThen b x = some a) : b = true ∧ x = some a := by
  unfold ifThen at h
  cases b with
  | true => exact ⟨rfl, h⟩
  | false => cases h

def St.run {β : Type} (pl : Nat → Nat → Bool) (x : St) (l : List (Option Nat)) (m : M β) (ev : Option β → Ev) : Option St :=
  match exec pl l (m x.rm) x.w with
  | some (r, w') => some ⟨ev r.1 :: x.t, r.2, w'⟩
  | none => none

def St.do (pl : Nat → Nat → Bool) (c : Cfg) (x : St) (l : List (Option Nat)) : Cmd → Option St
  | .alloc s n => ifThen (decide (s ≠ zero)) (x.run pl l (allocate c s n) (.alloc s n))
  | .free s p => ifThen (decide (s ≠ zero) && decide (p < 2 ^ 64) && c.tracked s) (x.run pl l (deallocate c s p) fun o => .free s p o.isSome)
  | .freeAny p => ifThen (decide (p < 2 ^ 64)) (x.run pl l (deallocateAny c p) fun o => .freeAny p o.isSome)
  | .realloc s p n => ifThen (decide (s ≠ zero) && decide (p < 2 ^ 64)) (x.run pl l (reallocImpl c p n s) (.realloc s p n))
  | .reallocAny d p n => ifThen (decide (d ≠ zero) && decide (p < 2 ^ 64)) (x.run pl l (reallocate c d p n) (.reallocAny d p n))
  | .move p s => ifThen (decide (s ≠ zero) && c.tracked s && decide (p < 2 ^ 64)) (x.run pl l (Mgr.move c p s) (.move p s))
  | .copy d s n => ifThen (decide (d < 2 ^ 64) && decide (s < 2 ^ 64)) (x.run pl l (Mgr.copy d s n) fun o => .copy d s n o.isSome)
  | .memset p v n => ifThen (decide (p < 2 ^ 64)) (x.run pl l (Mgr.memset p v n) fun o => .memset p v n o.isSome)
  | .kid s n ok => ifThen (decide (((ghost c x.t).acct.kids s).sum + n < AMax)) (x.run pl l (childAllocate s n) fun _ => .kid s n ok)
  | .kidFree s n m => ifThen (decide (n ∈ (ghost c x.t).acct.kids s)) (x.run pl l (childDeallocate s m) fun _ => .kidFree s n m)

def play (pl : Nat → Nat → Bool) (c : Cfg) : List (Cmd × List (Option Nat)) → St → Option St
  | [], x => some x
  | (k, l) :: ks, x => match x.do pl c l k with
    | some y => play pl c ks y
    | none => none

theorem St.run_spec {β : Type} {pl : Nat → Nat → Bool} {x y : St} {l : List (Option Nat)} {m : M β} {ev : Option β → Ev} (h : x.run pl l m ev = some y) :
    ∃ o, y.t = ev o :: x.t ∧ MP.Run (fun s p => pl s p = true) (m x.rm) x.w (o, y.rm) y.w := by
  unfold St.run at h
  split at h
  · rename_i r w' he
    injection h with h
    subst h
    exact ⟨r.1, rfl, exec_run _ he⟩
  · cases h

theorem do_hist {pl : Nat → Nat → Bool} {c : Cfg} {x y : St} {l : List (Option Nat)} {k : Cmd} (hx : Hist (fun s p => pl s p = true) c x.t x.rm x.w)
    (h : x.do pl c l k = some y) : Hist (fun s p => pl s p = true) c y.t y.rm y.w := by
  cases k <;> obtain ⟨hg, h⟩ := ifThen_some h <;> obtain ⟨o, ht, hr⟩ := St.run_spec h <;>
    simp only [Bool.and_eq_true, decide_eq_true_eq] at hg <;> rw [ht]
  · exact hx.alloc hg hr
  · exact hx.free hg.1.1 hg.1.2 (Or.inl hg.2) hr
  · exact hx.freeAny hg hr
  · exact hx.realloc hg.1 hg.2 hr
  · exact hx.reallocAny hg.1 hg.2 hr
  · exact hx.move hg.1.1 hg.1.2 hg.2 hr
  · exact hx.copy hg.1 hg.2 hr
  · exact hx.memset hg hr
  · exact hx.kid hg hr
  · exact hx.kidFree hg hr

theorem play_hist {pl : Nat → Nat → Bool} {c : Cfg} {ks : List (Cmd × List (Option Nat))} {y : St} :
    ∀ {x : St}, Hist (fun s p => pl s p = true) c x.t x.rm x.w → play pl c ks x = some y → Hist (fun s p => pl s p = true) c y.t y.rm y.w := by
  induction ks with
  | nil =>
    intro x hx h
    unfold play at h
    injection h with h
    subst h
    exact hx
  | cons a ks ih =>
    obtain ⟨k, l⟩ := a
    intro x hx h
    unfold play at h
    split at h
    · rename_i z hz
      exact ih (do_hist hx hz) h
    · cases h

theorem play_new {pl : Nat → Nat → Bool} {c : Cfg} {ks : List (Cmd × List (Option Nat))} {y : St} (h : play pl c ks St.new = some y) :
    Hist (fun s p => pl s p = true) c y.t y.rm y.w := play_hist (x := St.new) (.new _) h

/-- What can be told about a run. -/
def told {α : Type} (f : St → α) (pl : Nat → Nat → Bool) (c : Cfg) (ks : List (Cmd × List (Option Nat))) : Option α := (play pl c ks St.new).map f

theorem told_hist {α : Type} {f : St → α} {pl : Nat → Nat → Bool} {c : Cfg} {ks : List (Cmd × List (Option Nat))} {a : α} (h : told f pl c ks = some a) :
    ∃ y : St, Hist (fun s p => pl s p = true) c y.t y.rm y.w ∧ f y = a := by
  unfold told at h
  cases hp : play pl c ks St.new with
  | none => rw [hp] at h; cases h
  | some y =>
    rw [hp] at h
    injection h with h
    exact ⟨y, play_new hp, h⟩

end Umpire.Mgr
