import Verif.Base.Prog
import Verif.Base.Lists
/-!
# Executions against the memory resources

`Held` per resource: `H r` is the memory obtained from resource `r` and not handed
back.  A resource answers a request with any range that is disjoint from all
memory obtained from any resource.  `swp` is the weakest precondition for these
executions; `asks` bounds the sizes a program asks for.
-/
set_option autoImplicit false
set_option linter.unusedSimpArgs false
namespace Umpire
namespace Prog

/-- Update of a function at one place. -/
def put {β : Type} (f : Nat → β) (i : Nat) (x : β) : Nat → β := fun k => if k = i then x else f k

theorem put_same {β : Type} {f : Nat → β} {i : Nat} {x : β} : put f i x i = x := by simp [put]
theorem put_ne {β : Type} {f : Nat → β} {i k : Nat} {x : β} (h : k ≠ i) : put f i x k = f k := by simp [put, h]

/-- An acceptable answer of a resource: not null, inside the address space,
disjoint from all memory obtained from any resource. -/
def FreshAll (p n : Nat) (H : Nat → Held) : Prop :=
  p ≠ 0 ∧ p + n ≤ AMax ∧ ∀ r, ∀ x ∈ H r, Disj p n x.1 x.2

/-- `SRun r prog H a H'`: against resource `r`, `prog` finishes with result `a`. -/
inductive SRun {α : Type} (r : Nat) : Prog α → (Nat → Held) → α → (Nat → Held) → Prop where
  | ret {a H} : SRun r (ret a) H a H
  | allocOk {n k H p a H'} : FreshAll p n H → SRun r (k (some p)) (put H r ((p, n) :: H r)) a H' → SRun r (alloc n k) H a H'
  | allocFail {n k H a H'} : SRun r (k none) H a H' → SRun r (alloc n k) H a H'
  | dealloc {p n k H a H'} : SRun r k (put H r (Umpire.drop p (H r))) a H' → SRun r (dealloc p n k) H a H'

/-- Against resource `r`, `prog` reaches the forbidden outcome `b`.  Handing back
memory that is not held from `r`, or with another size, is undefined behaviour. -/
inductive SGoes {α : Type} (r : Nat) : Prog α → (Nat → Held) → Bad → Prop where
  | fail {b H} : SGoes r (fail b) H b
  | allocOk {n k H p b} : FreshAll p n H → SGoes r (k (some p)) (put H r ((p, n) :: H r)) b → SGoes r (alloc n k) H b
  | allocFail {n k H b} : SGoes r (k none) H b → SGoes r (alloc n k) H b
  | badFree {p n k H} : (p, n) ∉ H r → SGoes r (dealloc p n k) H .ub
  | dealloc {p n k H b} : SGoes r k (put H r (Umpire.drop p (H r))) b → SGoes r (dealloc p n k) H b

/-- Against resource `r`, `prog` at some point hands back `q` with size `m`. -/
inductive SFrees {α : Type} (r : Nat) : Prog α → (Nat → Held) → Nat → Nat → Prop where
  | here {p n k H} : SFrees r (dealloc p n k) H p n
  | allocOk {n k H p q m} : FreshAll p n H → SFrees r (k (some p)) (put H r ((p, n) :: H r)) q m → SFrees r (alloc n k) H q m
  | allocFail {n k H q m} : SFrees r (k none) H q m → SFrees r (alloc n k) H q m
  | dealloc {p n k H q m} : SFrees r k (put H r (Umpire.drop p (H r))) q m → SFrees r (dealloc p n k) H q m

/-- Weakest precondition for `SRun`, `SGoes`, `SFrees`. -/
def swp {α : Type} (r : Nat) (E : Mode) : Prog α → (Nat → Held) → (α → (Nat → Held) → Prop) → Prop
  | ret a, H, Q => Q a H
  | fail b, _, _ => E.bad b
  | alloc n k, H, Q => (∀ p, FreshAll p n H → (k (some p)).swp r E (put H r ((p, n) :: H r)) Q) ∧ (k none).swp r E H Q
  | dealloc p n k, H, Q => ((p, n) ∈ H r ∧ E.free p n) ∧ k.swp r E (put H r (Umpire.drop p (H r))) Q

theorem swp_mono {α : Type} {r : Nat} {E : Mode} {p : Prog α} {H : Nat → Held} {Q Q' : α → (Nat → Held) → Prop}
    (h : p.swp r E H Q) (hq : ∀ a H', Q a H' → Q' a H') : p.swp r E H Q' := by
  induction p generalizing H with
  | ret a => exact hq _ _ h
  | fail b => exact h
  | alloc n k ih => exact ⟨fun p hp => ih _ (h.1 p hp), ih _ h.2⟩
  | dealloc p n k ih => exact ⟨h.1, ih h.2⟩

theorem swp_weaken {α : Type} {r : Nat} {E E' : Mode} {p : Prog α} {H : Nat → Held} {Q : α → (Nat → Held) → Prop}
    (h : p.swp r E H Q) (he : ∀ b, E.bad b → E'.bad b) (hf : ∀ q m, E.free q m → E'.free q m) : p.swp r E' H Q := by
  induction p generalizing H with
  | ret a => exact h
  | fail b => exact he _ h
  | alloc n k ih => exact ⟨fun p hp => ih _ (h.1 p hp), ih _ h.2⟩
  | dealloc p n k ih => exact ⟨⟨h.1.1, hf _ _ h.1.2⟩, ih h.2⟩

theorem swp_bind {α β : Type} {r : Nat} {E : Mode} {p : Prog α} {f : α → Prog β} {H : Nat → Held}
    {Q : β → (Nat → Held) → Prop} (h : p.swp r E H fun a H' => (f a).swp r E H' Q) : (p.bind f).swp r E H Q := by
  induction p generalizing H with
  | ret a => exact h
  | fail b => exact h
  | alloc n k ih => exact ⟨fun p hp => ih _ (h.1 p hp), ih _ h.2⟩
  | dealloc p n k ih => exact ⟨h.1, ih h.2⟩

theorem swp_run {α : Type} {r : Nat} {E : Mode} {p : Prog α} {H : Nat → Held} {Q : α → (Nat → Held) → Prop} {a : α}
    {H' : Nat → Held} (h : p.swp r E H Q) (hr : SRun r p H a H') : Q a H' := by
  induction hr with
  | ret => exact h
  | allocOk hp _ ih => exact ih (h.1 _ hp)
  | allocFail _ ih => exact ih h.2
  | dealloc _ ih => exact ih h.2

theorem swp_safe {α : Type} {r : Nat} {E : Mode} {p : Prog α} {H : Nat → Held} {Q : α → (Nat → Held) → Prop} {b : Bad}
    (h : p.swp r E H Q) (hr : SGoes r p H b) : E.bad b := by
  induction hr with
  | fail => exact h
  | allocOk hp _ ih => exact ih (h.1 _ hp)
  | allocFail _ ih => exact ih h.2
  | badFree hn => exact absurd h.1.1 hn
  | dealloc _ ih => exact ih h.2

theorem swp_frees {α : Type} {r : Nat} {E : Mode} {p : Prog α} {H : Nat → Held} {Q : α → (Nat → Held) → Prop} {q m : Nat}
    (h : p.swp r E H Q) (hr : SFrees r p H q m) : E.free q m := by
  induction hr with
  | here => exact h.1.2
  | allocOk hp _ ih => exact ih (h.1 _ hp)
  | allocFail _ ih => exact ih h.2
  | dealloc _ ih => exact ih h.2

/-! ## Sizes asked for -/

/-- Against every well-behaved parent, `prog` only asks for sizes satisfying `P`. -/
def asks {α : Type} (P : Nat → Prop) : Prog α → Held → Prop
  | ret _, _ => True
  | fail _, _ => True
  | alloc n k, O => P n ∧ (∀ p, Fresh p n O → (k (some p)).asks P ((p, n) :: O)) ∧ (k none).asks P O
  | dealloc p _ k, O => k.asks P (Umpire.drop p O)

theorem asks_bind {α β : Type} {P : Nat → Prop} {E : Mode} {p : Prog α} {f : α → Prog β} {O : Held}
    (h : p.asks P O) (hf : p.wp E O fun a O' => (f a).asks P O') : (p.bind f).asks P O := by
  induction p generalizing O with
  | ret a => exact hf
  | fail b => trivial
  | alloc n k ih => exact ⟨h.1, fun p hp => ih _ (h.2.1 p hp) (hf.1 p hp), ih _ h.2.2 hf.2⟩
  | dealloc p n k ih => exact ih h hf.2

theorem asks_mono {α : Type} {P P' : Nat → Prop} {p : Prog α} {O : Held} (h : p.asks P O) (hp : ∀ n, P n → P' n) :
    p.asks P' O := by
  induction p generalizing O with
  | ret a => trivial
  | fail b => trivial
  | alloc n k ih => exact ⟨hp _ h.1, fun p hp => ih _ (h.2.1 p hp), ih _ h.2.2⟩
  | dealloc p n k ih => exact ih h

/-- `wp` and `asks` together. -/
def wpa {α : Type} (P : Nat → Prop) (E : Mode) : Prog α → Held → (α → Held → Prop) → Prop
  | ret a, O, Q => Q a O
  | fail b, _, _ => E.bad b
  | alloc n k, O, Q => P n ∧ (∀ p, Fresh p n O → (k (some p)).wpa P E ((p, n) :: O) Q) ∧ (k none).wpa P E O Q
  | dealloc p n k, O, Q => ((p, n) ∈ O ∧ E.free p n) ∧ k.wpa P E (Umpire.drop p O) Q

theorem wpa_of {α : Type} {P : Nat → Prop} {E : Mode} {p : Prog α} {O : Held} {Q : α → Held → Prop}
    (h : p.wp E O Q) (ha : p.asks P O) : p.wpa P E O Q := by
  induction p generalizing O with
  | ret a => exact h
  | fail b => exact h
  | alloc n k ih => exact ⟨ha.1, fun p hp => ih _ (h.1 p hp) (ha.2.1 p hp), ih _ h.2 ha.2.2⟩
  | dealloc p n k ih => exact ⟨h.1, ih h.2 ha⟩

theorem wpa_mono {α : Type} {P : Nat → Prop} {E : Mode} {p : Prog α} {O : Held} {Q Q' : α → Held → Prop}
    (h : p.wpa P E O Q) (hq : ∀ a O', Q a O' → Q' a O') : p.wpa P E O Q' := by
  induction p generalizing O with
  | ret a => exact hq _ _ h
  | fail b => exact h
  | alloc n k ih => exact ⟨h.1, fun p hp => ih _ (h.2.1 p hp), ih _ h.2.2⟩
  | dealloc p n k ih => exact ⟨h.1, ih h.2⟩

theorem wpa_weaken {α : Type} {P P' : Nat → Prop} {E E' : Mode} {p : Prog α} {O : Held} {Q : α → Held → Prop}
    (h : p.wpa P E O Q) (hp : ∀ n, P n → P' n) (he : ∀ b, E.bad b → E'.bad b) (hf : ∀ q m, E.free q m → E'.free q m) :
    p.wpa P' E' O Q := by
  induction p generalizing O with
  | ret a => exact h
  | fail b => exact he _ h
  | alloc n k ih => exact ⟨hp _ h.1, fun p hp => ih _ (h.2.1 p hp), ih _ h.2.2⟩
  | dealloc p n k ih => exact ⟨⟨h.1.1, hf _ _ h.1.2⟩, ih h.2⟩

end Prog
end Umpire
