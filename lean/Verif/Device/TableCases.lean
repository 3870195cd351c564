import Verif.Device.Table
/-!
# Device allocator lookup: cases where it is not exact, and that the theorems apply
-/
set_option autoImplicit false
set_option linter.unusedSimpArgs false
namespace Umpire.Device

/-- Create allocators with the given sizes and names. -/
def makes (w : World) (m : List Entry) : List (Nat × List Nat) → Option (World × List Entry)
  | [] => some (w, m)
  | (n, q) :: l =>
    match w.make blank n q with
    | .ok (w', e) => makes w' (m ++ [e]) l
    | _ => none

theorem makes_hist {l : List (Nat × List Nat)} {w : World} {m : List Entry} {o : Bool} (h : Hist w m o) {w' : World} {m' : List Entry}
    (hm : makes w m l = some (w', m')) : Hist w' m' o := by
  induction l generalizing w m with
  | nil => cases hm; exact h
  | cons a l ih =>
    obtain ⟨n, q⟩ := a
    unfold makes at hm
    split at hm
    · exact ih (.make h ‹_›) hm
    · cases hm

/-- Three allocators named "ab", "a" and "b". -/
def wX : World := ((makes .start [] [(10, [97, 98]), (20, [97]), (30, [98])]).getD (.start, [])).1

def mX : List Entry := [⟨[97, 98], 10, -1⟩, ⟨[97], 20, -2⟩, ⟨[98], 30, -3⟩]

theorem wX_hist : Hist wX mX false := makes_hist (l := [(10, [97, 98]), (20, [97]), (30, [98])]) .start (by decide +kernel)

/-- The theorems of C42 apply to it. -/
example : wX.getByName false [97] = .ok ⟨[97], 20, -2⟩ :=
  (host_name_found_partial (m1 := [⟨[97, 98], 10, -1⟩]) (m2 := [⟨[98], 30, -3⟩]) wX_hist (by decide) (by decide)).1

example : wX.getByName false [99] = .error := (host_name_unknown_partial wX_hist (by decide) (by decide)).1

example : wX.getById false (-3) = .ok ⟨[98], 30, -3⟩ := ((host_id_partial wX_hist (by decide) (-3)).1 ⟨[98], 30, -3⟩ (by decide) rfl).1

example : wX.getById false (-4) = .error := ((host_id_partial wX_hist (by decide) (-4)).2 (by decide)).1

example : wX.getByName true [97] = .ok ⟨[97], 20, -2⟩ :=
  (dev_name_found_partial (m1 := [⟨[97, 98], 10, -1⟩]) (m2 := [⟨[98], 30, -3⟩]) wX_hist (by decide)).1

/-- A full table. -/
def fullNames : List (Nat × List Nat) := (List.range 64).map fun i => (8, [1000 + i])

def wFull : World := ((makes .start [] fullNames).getD (.start, [])).1
def mFull : List Entry := ((makes .start [] fullNames).getD (.start, [])).2

theorem wFull_hist : Hist wFull mFull false := makes_hist (l := fullNames) .start (by decide +kernel)

example : wFull.getByName true [5] = .error := dev_name_unknown_partial wFull_hist (by decide +kernel) (by decide +kernel)

/-- C42 fails in device code: with "a" created before "ab", looking up "ab" returns "a". -/
theorem dev_prefix_counterexample :
    ∃ w m, Hist w m false ∧ ⟨[97, 98], 20, -2⟩ ∈ m ∧ w.getByName true [97, 98] = .ok ⟨[97], 10, -1⟩ ∧ (m.map (·.name)).Nodup :=
  ⟨_, [⟨[97], 10, -1⟩, ⟨[97, 98], 20, -2⟩], makes_hist (l := [(10, [97]), (20, [97, 98])]) .start rfl, by decide, by decide +kernel, by decide⟩

/-- In device code a name that does not exist is no error as long as the table is not full:
the first unused entry is returned. -/
theorem dev_unknown_counterexample : wX.getByName true [99] = .ok ⟨[], 0, 0⟩ ∧ wX.isByName true [99] = .ok false := by decide +kernel

/-- On the host the empty name finds an unused entry. -/
theorem host_empty_name_counterexample : wX.getByName false [] = .ok ⟨[], 0, 0⟩ := by decide +kernel

/-- Names need not be unique: the host finds the last one with the name, device code the first. -/
theorem duplicate_name_counterexample :
    ∃ w m, Hist w m false ∧ m = [⟨[97], 10, -1⟩, ⟨[97], 20, -2⟩] ∧ w.getByName false [97] = .ok ⟨[97], 20, -2⟩ ∧
      w.getByName true [97] = .ok ⟨[97], 10, -1⟩ :=
  ⟨_, _, makes_hist (l := [(10, [97]), (20, [97])]) .start rfl, rfl, by decide +kernel, by decide +kernel⟩

/-- Creating more allocators than the table holds is not rejected: it writes behind the end of
the table, whatever has been created. -/
theorem table_full_counterexample :
    (∃ w m o, Hist w m o ∧ m.length = total) ∧
    ∀ w m o, Hist w m o → m.length = total → ∀ size name, size ≠ 0 → w.make blank size name = .ub := by
  refine ⟨⟨wFull, mFull, false, wFull_hist, by decide +kernel⟩, fun w m o h hf size name hs => ?_⟩
  obtain ⟨t, r1, _, r3, _⟩ := h.inv.ready
  unfold World.make
  rw [if_neg hs, r1]
  simp only
  unfold World.put
  split
  · rfl
  · simp only
    rw [if_pos (by rw [r3, hf]; exact Nat.le_refl _)]

/-- A name of 64 characters or more overflows `m_name`. -/
theorem long_name_counterexample (w : World) (m : List Entry) (o : Bool) (h : Hist w m o) (size : Nat) (hs : size ≠ 0) (name : List Nat)
    (hl : 64 ≤ name.length) : w.make blank size name = .ub := by
  obtain ⟨t, r1, _⟩ := h.inv.ready
  unfold World.make
  rw [if_neg hs, r1]
  simp only
  unfold World.put
  rw [if_pos hl]

/-- Before the first allocator is created, and after a destroy, looking up a valid id
dereferences the null pointer. -/
theorem null_table_id_counterexample : World.start.getById false (-1) = .ub ∧ World.start.isById false (-1) = .ub := by decide

/-- Calling `destroy_device_allocator` twice, or without an allocator, does so too. -/
theorem null_table_destroy_counterexample : World.start.destroy = .ub := by decide

/-- After a destroy, device code keeps using the old table: it finds the destroyed allocator,
and does not find the new one. -/
theorem stale_device_table_counterexample :
    ∃ w m, Hist w m true ∧ m = [⟨[98], 20, -1⟩] ∧ w.getById false (-1) = .ok ⟨[98], 20, -1⟩ ∧
      w.getById true (-1) = .ok ⟨[97], 10, -1⟩ ∧ w.getByName true [97] = .ok ⟨[97], 10, -1⟩ := by
  have h1 : Hist _ _ false := makes_hist (l := [(10, [97])]) .start rfl
  have h2 := Hist.destroy h1 rfl
  have h3 : Hist _ _ true := makes_hist (l := [(20, [98])]) h2 rfl
  exact ⟨_, _, h3, rfl, by decide +kernel, by decide +kernel, by decide +kernel⟩

/-- The memory of the table is not initialised: when it contains something else, ids that were
never given out are found. -/
theorem junk_table_counterexample :
    ∃ (junk : List Entry) (w : World) (e : Entry), junk.length = total ∧ World.start.make junk 10 [97] = .ok (w, e) ∧
      w.getById false (-7) = .ok ⟨[120], 5, 3⟩ ∧ w.getByName false [120] = .ok ⟨[120], 5, 3⟩ :=
  ⟨List.replicate 64 ⟨[120], 5, 3⟩, _, _, by decide, rfl, by decide +kernel, by decide +kernel⟩

end Umpire.Device
