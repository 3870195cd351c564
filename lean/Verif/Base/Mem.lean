/-!
# Byte memory

Memory contents as a function from addresses to bytes; multi-byte objects are
stored little endian.
-/
set_option autoImplicit false
set_option linter.unusedSimpArgs false
namespace Umpire

abbrev Mem := Nat → Nat

/-- Store the `n`-byte unsigned integer `v` at `a`. -/
def Mem.wr (m : Mem) (a n v : Nat) : Mem := fun x => if a ≤ x ∧ x < a + n then v / 256 ^ (x - a) % 256 else m x

/-- Load the `n`-byte unsigned integer at `a`. -/
def Mem.rd (m : Mem) (a : Nat) : Nat → Nat
  | 0 => 0
  | n + 1 => m a % 256 + 256 * Mem.rd m (a + 1) n

theorem Mem.rd_congr {m m' : Mem} {a n : Nat} (h : ∀ x, a ≤ x → x < a + n → m x = m' x) : m.rd a n = m'.rd a n := by
  induction n generalizing a with
  | zero => rfl
  | succ n ih =>
    unfold Mem.rd
    rw [h a (Nat.le_refl _) (by omega), ih fun x h1 h2 => h x (by omega) (by omega)]

theorem Mem.wr_out {m : Mem} {a n v x : Nat} (h : ¬ (a ≤ x ∧ x < a + n)) : m.wr a n v x = m x := by
  unfold Mem.wr; rw [if_neg h]

theorem Mem.rd_wr_aux {m : Mem} {a n v i k : Nat} (h : i + k = n) :
    (m.wr a n v).rd (a + i) k = v / 256 ^ i % 256 ^ k := by
  induction k generalizing i with
  | zero => simp [Mem.rd, Nat.mod_one]
  | succ k ih =>
    unfold Mem.rd
    have h1 : m.wr a n v (a + i) = v / 256 ^ i % 256 := by
      unfold Mem.wr
      rw [if_pos (by omega), Nat.add_sub_cancel_left]
    rw [h1, Nat.add_assoc, ih (by omega), Nat.mod_mod, show 256 ^ (k + 1) = 256 * 256 ^ k from Nat.pow_succ',
      Nat.mod_mul, Nat.div_div_eq_div_mul, Nat.pow_succ]

theorem Mem.rd_wr {m : Mem} {a n v : Nat} : (m.wr a n v).rd a n = v % 256 ^ n := by
  have := Mem.rd_wr_aux (m := m) (a := a) (n := n) (v := v) (i := 0) (k := n) (by omega)
  simpa using this

theorem Mem.rd_wr_out {m : Mem} {a n v b k : Nat} (h : b + k ≤ a ∨ a + n ≤ b) : (m.wr a n v).rd b k = m.rd b k :=
  Mem.rd_congr fun _ _ _ => Mem.wr_out (by omega)

end Umpire
