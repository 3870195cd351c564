import Verif.Shm.Model
import Verif.Base.Lists
/-!
# Running the model of the shared memory resource, lists in memory
-/
set_option autoImplicit false
set_option linter.unusedSimpArgs false
namespace Umpire.Shm
open Umpire.Prog
open Umpire.SizeArith (shmBytes)

theorem bind_run {α β : Type} {x : M α} {f : α → M β} {m m' : Mem} {a : α} (h : x m = .ok (a, m')) :
    (x >>= f) m = f a m' := by
  show (match x m with | .ok (a, m') => f a m' | .error e => .error e) = _
  rw [h]

theorem pure_run {α : Type} {a : α} {m : Mem} : (pure a : M α) m = .ok (a, m) := rfl

theorem ld_run {lim a : Nat} {m : Mem} (h : a + 8 ≤ lim) : ld lim a m = .ok (m.rd a 8, m) := by
  unfold ld; rw [if_pos h]

theorem st_run {lim a v : Nat} {m : Mem} (h : a + 8 ≤ lim) : st lim a v m = .ok ((), m.wr a 8 v) := by
  unfold st; rw [if_pos h]

theorem get_run {lim o f : Nat} {m : Mem} (h0 : 0 < o) (h : o + f + 8 ≤ lim) : get lim o f m = .ok (m.rd (o + f) 8, m) := by
  unfold get; rw [if_neg (by omega), ld_run h]

theorem set_run {lim o f v : Nat} {m : Mem} (h0 : 0 < o) (h : o + f + 8 ≤ lim) :
    set lim o f v m = .ok ((), m.wr (o + f) 8 v) := by
  unfold set; rw [if_neg (by omega), st_run h]

theorem rd_wr8 {m : Mem} {a v : Nat} (h : v < W) : (m.wr a 8 v).rd a 8 = v := by
  rw [Mem.rd_wr]; exact Nat.mod_eq_of_lt (by rw [W] at h; omega)

theorem rd_lt {m : Mem} {a n : Nat} : m.rd a n < 256 ^ n := by
  induction n generalizing a with
  | zero => simp [Mem.rd]
  | succ n ih =>
    unfold Mem.rd
    have := ih (a := a + 1)
    rw [Nat.pow_succ]
    have := Nat.mod_lt (m a) (show 0 < 256 by decide)
    omega

theorem rd8_lt {m : Mem} {a : Nat} : m.rd a 8 < W := rd_lt

/-! ## Strings -/

/-- The C string `s` is stored at `a`. -/
def StrAt (m : Mem) : Nat → List Nat → Prop
  | a, [] => m.rd a 1 = 0
  | a, c :: s => m.rd a 1 = c ∧ StrAt m (a + 1) s

/-- Bytes other than null. -/
def NameOk (s : List Nat) : Prop := ∀ c ∈ s, 0 < c ∧ c < 256

theorem StrAt.congr {m m' : Mem} {a : Nat} {s : List Nat} (h : ∀ x, a ≤ x → x ≤ a + s.length → m x = m' x) :
    StrAt m a s → StrAt m' a s := by
  induction s generalizing a with
  | nil =>
    intro hs
    unfold StrAt at hs ⊢
    rw [← hs]
    exact Mem.rd_congr fun x h1 h2 => (h x h1 (by simp; omega)).symm
  | cons c s ih =>
    intro hs
    obtain ⟨h1, h2⟩ := hs
    refine ⟨?_, ih (fun x hx hy => h x (by omega) (by simp; omega)) h2⟩
    rw [← h1]
    exact Mem.rd_congr fun x h1 h2 => (h x h1 (by simp; omega)).symm

theorem readStr_run {lim : Nat} {m : Mem} {s : List Nat} {a fuel : Nat} (hn : NameOk s) (h : StrAt m a s)
    (hl : a + s.length + 1 ≤ lim) (hf : s.length < fuel) : readStr lim fuel a m = .ok (s, m) := by
  induction s generalizing a fuel with
  | nil =>
    cases fuel with
    | zero => simp at hf
    | succ fuel =>
      unfold readStr
      simp only [List.length_nil] at hl
      rw [if_pos (by omega), if_pos (show m.rd a 1 = 0 from h)]
  | cons c s ih =>
    cases fuel with
    | zero => simp at hf
    | succ fuel =>
      simp only [List.length_cons] at hl hf
      unfold readStr
      obtain ⟨h1, h2⟩ := h
      rw [if_pos (by omega), if_neg (by rw [h1]; have := hn c (by simp); omega), ih (fun d hd => hn d (by simp [hd])) h2 (by omega) (by omega)]
      simp only [h1]

theorem writeStr_run {lim : Nat} {m : Mem} {s : List Nat} {a : Nat} (hn : NameOk s) (hl : a + s.length + 1 ≤ lim) :
    ∃ m', writeStr lim a s m = .ok ((), m') ∧ StrAt m' a s ∧ ∀ x, x < a ∨ a + s.length < x → m' x = m x := by
  induction s generalizing a m with
  | nil =>
    refine ⟨m.wr a 1 0, ?_, ?_, fun x hx => Mem.wr_out (by simp at hx; omega)⟩
    · unfold writeStr; rw [if_pos (by simp at hl; omega)]
    · unfold StrAt; rw [Mem.rd_wr]
  | cons c s ih =>
    simp only [List.length_cons] at hl
    obtain ⟨m', h1, h2, h3⟩ := ih (m := m.wr a 1 c) (a := a + 1) (fun d hd => hn d (by simp [hd])) (by omega)
    refine ⟨m', ?_, ⟨?_, h2⟩, fun x hx => ?_⟩
    · unfold writeStr; rw [if_pos (by omega), h1]
    · have : m'.rd a 1 = (m.wr a 1 c).rd a 1 := Mem.rd_congr fun x _ _ => h3 x (by omega)
      rw [this, Mem.rd_wr]
      exact Nat.mod_eq_of_lt (hn c (by simp)).2
    · simp only [List.length_cons] at hx
      rw [h3 x (by omega)]
      exact Mem.wr_out (by omega)

/-! ## Linked lists -/

/-- Following the first field from `o` leads through `l` to `e`. -/
def Links (m : Mem) : Nat → List Nat → Nat → Prop
  | o, [], e => o = e
  | o, x :: l, e => o = x ∧ Links m (m.rd x 8) l e

theorem Links.congr {m m' : Mem} {o e : Nat} {l : List Nat} (h : ∀ x ∈ l, m.rd x 8 = m'.rd x 8) :
    Links m o l e → Links m' o l e := by
  induction l generalizing o with
  | nil => exact id
  | cons x l ih =>
    intro hl
    refine ⟨hl.1, ?_⟩
    rw [← h x (by simp)]
    exact ih (fun y hy => h y (by simp [hy])) hl.2

theorem Links.append {m : Mem} {o e : Nat} {l l' : List Nat} :
    Links m o (l ++ l') e ↔ ∃ x, Links m o l x ∧ Links m x l' e := by
  induction l generalizing o with
  | nil =>
    constructor
    · intro h; exact ⟨o, rfl, h⟩
    · rintro ⟨x, rfl, h⟩; exact h
  | cons y l ih =>
    simp only [List.cons_append, Links, ih]
    constructor
    · rintro ⟨h, x, h1, h2⟩; exact ⟨x, ⟨h, h1⟩, h2⟩
    · rintro ⟨x, ⟨h, h1⟩, h2⟩; exact ⟨h, x, h1, h2⟩

/-- The last element of `l`, or `d`. -/
def lastOr (l : List Nat) (d : Nat) : Nat := l.getLast?.getD d

theorem lastOr_append {l : List Nat} {x d : Nat} : lastOr (l ++ [x]) d = x := by simp [lastOr]

theorem lastOr_cons {l : List Nat} {x d : Nat} : lastOr (x :: l) d = lastOr l x := by
  unfold lastOr
  cases l with
  | nil => rfl
  | cons y l => rw [List.getLast?_cons_cons]; cases h : (y :: l).getLast? with
    | none => simp at h
    | some z => rfl

end Umpire.Shm
