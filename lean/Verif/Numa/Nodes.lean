import Verif.Numa.Model
/-!
# The lists of NUMA nodes

Source: `src/umpire/util/numa.cpp` lines 62–87 (`get_host_nodes`), 89–114
(`get_device_nodes`), 116–132 (`get_allocatable_nodes`); `src/umpire/strategy/NumaPolicy.cpp` lines 16–45.

What libnuma and the kernel answer is a parameter.  Masks of libnuma that are never freed are counted.  `preferred_node` and `get_location` (lines 26–31, 53–61) pass on what libnuma says and are not
modelled.
-/
set_option autoImplicit false
set_option linter.unusedSimpArgs false
namespace Umpire.Numa

/-- What libnuma answers. -/
structure Lib where
  /-- `numa_available() >= 0` -/
  available : Bool
  /-- `numa_all_nodes_ptr`, one entry for each of its `size` bits -/
  all : List Bool
  /-- `numa_node_to_cpus` followed by `numa_bitmask_weight`; `none`: an error -/
  weight : Nat → Option Nat
  /-- `numa_get_mems_allowed` -/
  allowed : List Bool

/-- The result of a call (`none`: an exception) and the number of masks it has leaked. -/
abbrev Res (α : Type) := Option α × Nat

/-- The loop of `get_host_nodes` and `get_device_nodes` (numa.cpp:71-83, 98-110) from node `i` on; `keep` is the test of the
number of CPUs.  `none`: the exception of line 75 or 102. -/
def scan (weight : Nat → Option Nat) (keep : Nat → Bool) : List Bool → Nat → List Nat → Option (List Nat)
  | [], _, acc => some acc
  | false :: bs, i, acc => scan weight keep bs (i + 1) acc
  | true :: bs, i, acc =>
    match weight i with
    | none => none
    | some w => scan weight keep bs (i + 1) (if keep w then acc ++ [i] else acc)

/-- Lines 64-69 and 85-86: the mask of CPUs is freed after the loop only. -/
def nodesBy (b : Lib) (keep : Nat → Bool) : Res (List Nat) :=
  if b.available then
    match scan b.weight keep b.all 0 [] with
    | some l => (some l, 0)
    | none => (none, 1)
  else (none, 0)

/-- `get_host_nodes` (numa.cpp:62-87). -/
def getHostNodes (b : Lib) : Res (List Nat) := nodesBy b fun w => decide (0 < w)

/-- `get_device_nodes` (numa.cpp:89-114). -/
def getDeviceNodes (b : Lib) : Res (List Nat) := nodesBy b fun w => decide (w = 0)

/-- The loop of `get_allocatable_nodes` (numa.cpp:124-127). -/
def bits : List Bool → Nat → List Nat → List Nat
  | [], _, acc => acc
  | x :: bs, i, acc => bits bs (i + 1) (if x then acc ++ [i] else acc)

/-- `get_allocatable_nodes` (numa.cpp:116-132). -/
def getAllocatableNodes (b : Lib) : Res (List Nat) :=
  if b.available then (some (bits b.allowed 0 []), 0) else (none, 0)

/-- The constructor of `NumaPolicy` (NumaPolicy.cpp:16-45) over an allocator of platform `base`: the platform the policy
reports, or an exception. -/
def policyPlatform (b : Lib) (k : Backend) (base : Plat) (node : Int) : Option Plat :=
  if node < 0 then none                                                        -- 22
  else if base ≠ .host then none                                               -- 25
  else
    match k with
    | .none => some .host
    | k =>
      match (getHostNodes b).1 with                                            -- 33
      | none => none
      | some l =>
        if node.toNat ∈ l then some .host                                      -- 34
        else
          match k with
          | .cuda => some .cuda                                                -- 37
          | .hip => some .hip                                                  -- 39
          | _ => none                                                          -- 41

/-! ## Specification -/

/-- Node `i` is one the library lists. -/
def Lib.node (b : Lib) (i : Nat) : Prop := b.all[i]? = some true

/-! ## Proofs -/

theorem scan_spec {weight : Nat → Option Nat} {keep : Nat → Bool} {bs : List Bool} {i : Nat} {acc l : List Nat}
    (h : scan weight keep bs i acc = some l) (ha : acc.Pairwise (· < ·)) (hb : ∀ x ∈ acc, x < i) :
    l.Pairwise (· < ·) ∧
      ∀ x, x ∈ l ↔ x ∈ acc ∨ (i ≤ x ∧ bs[x - i]? = some true ∧ ∃ w, weight x = some w ∧ keep w = true) := by
  induction bs generalizing i acc with
  | nil =>
    simp only [scan, Option.some.injEq] at h
    subst h
    exact ⟨ha, fun x => by simp⟩
  | cons y bs ih =>
    have shift : ∀ x, i + 1 ≤ x → (y :: bs)[x - i]? = bs[x - (i + 1)]? := fun x hx => by
      rw [show x - i = (x - (i + 1)) + 1 by omega]; rfl
    cases y with
    | false =>
      obtain ⟨h1, h2⟩ := ih h ha (fun x hx => Nat.lt_succ_of_lt (hb x hx))
      refine ⟨h1, fun x => ?_⟩
      rw [h2]
      refine or_congr_right ⟨fun ⟨e1, e2, e3⟩ => ⟨by omega, by rw [shift x e1]; exact e2, e3⟩, fun ⟨e1, e2, e3⟩ => ?_⟩
      by_cases e : i = x
      · subst e; simp at e2
      · exact ⟨by omega, by rw [← shift x (by omega)]; exact e2, e3⟩
    | true =>
      simp only [scan] at h
      cases hw : weight i with
      | none => rw [hw] at h; cases h
      | some w =>
        rw [hw] at h
        dsimp only at h
        have hsub : ∀ x, x ∈ (if keep w = true then acc ++ [i] else acc) ↔ x ∈ acc ∨ (x = i ∧ keep w = true) := fun x => by
          split <;> simp_all
        obtain ⟨h1, h2⟩ := ih h (by
          split
          · exact List.pairwise_append.mpr ⟨ha, List.pairwise_singleton _ _, fun a ha' b hb' => by
              rw [List.mem_singleton] at hb'; subst hb'; exact hb a ha'⟩
          · exact ha) (fun x hx => by
          rcases (hsub x).mp hx with e | e
          · exact Nat.lt_succ_of_lt (hb x e)
          · omega)
        refine ⟨h1, fun x => ?_⟩
        rw [h2, hsub, or_assoc]
        refine or_congr_right ⟨fun e => ?_, fun ⟨e1, e2, e3⟩ => ?_⟩
        · rcases e with ⟨e, ek⟩ | ⟨e1, e2, e3⟩
          · subst e
            exact ⟨Nat.le_refl _, by simp, w, hw, ek⟩
          · exact ⟨by omega, by rw [shift x e1]; exact e2, e3⟩
        · by_cases e : i = x
          · subst e
            obtain ⟨w', hw', hk⟩ := e3
            rw [hw] at hw'
            cases hw'
            exact Or.inl ⟨rfl, hk⟩
          · exact Or.inr ⟨by omega, by rw [← shift x (by omega)]; exact e2, e3⟩

theorem scan_none {weight : Nat → Option Nat} {keep : Nat → Bool} {bs : List Bool} {i : Nat} {acc : List Nat} :
    scan weight keep bs i acc = none ↔ ∃ x, i ≤ x ∧ bs[x - i]? = some true ∧ weight x = none := by
  induction bs generalizing i acc with
  | nil => simp [scan]
  | cons y bs ih =>
    have shift : ∀ x, i + 1 ≤ x → (y :: bs)[x - i]? = bs[x - (i + 1)]? := fun x hx => by
      rw [show x - i = (x - (i + 1)) + 1 by omega]; rfl
    have tail : (∃ x, i + 1 ≤ x ∧ bs[x - (i + 1)]? = some true ∧ weight x = none) →
        ∃ x, i ≤ x ∧ (y :: bs)[x - i]? = some true ∧ weight x = none := fun ⟨x, e1, e2, e3⟩ =>
      ⟨x, by omega, by rw [shift x e1]; exact e2, e3⟩
    cases y with
    | false =>
      simp only [scan]
      rw [ih]
      refine ⟨tail, fun ⟨x, e1, e2, e3⟩ => ?_⟩
      by_cases e : i = x
      · subst e; simp at e2
      · exact ⟨x, by omega, by rw [← shift x (by omega)]; exact e2, e3⟩
    | true =>
      simp only [scan]
      cases hw : weight i with
      | none => exact ⟨fun _ => ⟨i, Nat.le_refl _, by simp, hw⟩, fun _ => rfl⟩
      | some w =>
        dsimp only
        rw [ih]
        refine ⟨tail, fun ⟨x, e1, e2, e3⟩ => ?_⟩
        by_cases e : i = x
        · subst e; rw [hw] at e3; cases e3
        · exact ⟨x, by omega, by rw [← shift x (by omega)]; exact e2, e3⟩

theorem bits_spec {bs : List Bool} {i : Nat} {acc : List Nat} (ha : acc.Pairwise (· < ·)) (hb : ∀ x ∈ acc, x < i) :
    (bits bs i acc).Pairwise (· < ·) ∧ ∀ x, x ∈ bits bs i acc ↔ x ∈ acc ∨ (i ≤ x ∧ bs[x - i]? = some true) := by
  have e : ∀ (bs : List Bool) (i : Nat) (acc : List Nat), scan (fun _ => some 0) (fun _ => true) bs i acc = some (bits bs i acc) := by
    intro bs
    induction bs with
    | nil => intro i acc; rfl
    | cons y bs ih => intro i acc; cases y <;> simp [scan, bits, ih]
  obtain ⟨h1, h2⟩ := scan_spec (e bs i acc) ha hb
  exact ⟨h1, fun x => by rw [h2]; simp⟩

theorem nodesBy_spec {b : Lib} {keep : Nat → Bool} {l : List Nat} (h : (nodesBy b keep).1 = some l) :
    l.Pairwise (· < ·) ∧ ∀ i, i ∈ l ↔ b.node i ∧ ∃ w, b.weight i = some w ∧ keep w = true := by
  unfold nodesBy at h
  split at h
  · split at h
    · next l' hl =>
      cases h
      obtain ⟨h1, h2⟩ := scan_spec hl List.Pairwise.nil (fun _ h => nomatch h)
      exact ⟨h1, fun i => by rw [h2]; simp [Lib.node]⟩
    · cases h
  · cases h

/-! ## Theorems -/

/-- `get_host_nodes` gives exactly the listed nodes that have CPUs, in ascending order and each once. -/
theorem host_nodes {b : Lib} {l : List Nat} (h : (getHostNodes b).1 = some l) :
    l.Pairwise (· < ·) ∧ ∀ i, i ∈ l ↔ b.node i ∧ ∃ w, b.weight i = some w ∧ 0 < w := by
  have := nodesBy_spec h
  simpa using this

/-- `get_device_nodes` gives exactly the listed nodes without CPUs. -/
theorem device_nodes {b : Lib} {l : List Nat} (h : (getDeviceNodes b).1 = some l) :
    l.Pairwise (· < ·) ∧ ∀ i, i ∈ l ↔ b.node i ∧ b.weight i = some 0 := by
  have := nodesBy_spec h
  simpa using this

/-- Every listed node is in exactly one of the two, and nothing else is in either. -/
theorem nodes_partition {b : Lib} {l m : List Nat} (hl : (getHostNodes b).1 = some l) (hm : (getDeviceNodes b).1 = some m)
    (i : Nat) : (b.node i ↔ i ∈ l ∨ i ∈ m) ∧ ¬ (i ∈ l ∧ i ∈ m) := by
  have h1 := (host_nodes hl).2 i
  have h2 := (device_nodes hm).2 i
  refine ⟨⟨fun hn => ?_, fun e => ?_⟩, fun e => ?_⟩
  · cases hw : b.weight i with
    | none =>
      exfalso
      unfold getHostNodes nodesBy at hl
      split at hl
      · have : scan b.weight (fun w => decide (0 < w)) b.all 0 [] = none := scan_none.mpr ⟨i, Nat.zero_le _, by simpa [Lib.node] using hn, hw⟩
        rw [this] at hl
        cases hl
      · cases hl
    | some w =>
      cases w with
      | zero => exact Or.inr (h2.mpr ⟨hn, hw⟩)
      | succ w => exact Or.inl (h1.mpr ⟨hn, _, hw, Nat.succ_pos _⟩)
  · rcases e with e | e
    · exact (h1.mp e).1
    · exact (h2.mp e).1
  · obtain ⟨_, w, e1, e2⟩ := h1.mp e.1
    rw [(h2.mp e.2).2] at e1
    cases e1
    omega

/-- The lists throw exactly when libnuma cannot be used or cannot tell the CPUs of a listed node, both alike; the exception
for a node leaks a mask. -/
theorem nodes_throw (b : Lib) :
    ((getHostNodes b).1 = none ↔ b.available = false ∨ ∃ i, b.node i ∧ b.weight i = none) ∧
      ((getDeviceNodes b).1 = none ↔ (getHostNodes b).1 = none) ∧
      ∀ keep, (nodesBy b keep).2 = if b.available = true ∧ (nodesBy b keep).1 = none then 1 else 0 := by
  have key : ∀ keep, (nodesBy b keep).1 = none ↔ b.available = false ∨ ∃ i, b.node i ∧ b.weight i = none := by
    intro keep
    unfold nodesBy
    cases ha : b.available with
    | false => simp
    | true =>
      simp only [if_true]
      have := scan_none (weight := b.weight) (keep := keep) (bs := b.all) (i := 0) (acc := [])
      cases hs : scan b.weight keep b.all 0 [] with
      | none => rw [hs] at this; simpa [Lib.node] using this
      | some l => rw [hs] at this; simpa [Lib.node] using this
  refine ⟨key _, (key _).trans (key _).symm, fun keep => ?_⟩
  unfold nodesBy
  cases ha : b.available with
  | false => rfl
  | true =>
    simp only [if_true]
    cases hs : scan b.weight keep b.all 0 [] <;> simp

/-- `get_allocatable_nodes` gives exactly the nodes the process may use, in ascending order and each once. -/
theorem allocatable_nodes (b : Lib) :
    ((getAllocatableNodes b).1 = none ↔ b.available = false) ∧
      ∀ l, (getAllocatableNodes b).1 = some l → l.Pairwise (· < ·) ∧ ∀ i, i ∈ l ↔ b.allowed[i]? = some true := by
  unfold getAllocatableNodes
  cases b.available with
  | false => simp
  | true =>
    refine ⟨by simp, fun l h => ?_⟩
    cases h
    obtain ⟨h1, h2⟩ := bits_spec (bs := b.allowed) (i := 0) List.Pairwise.nil (fun _ h => nomatch h)
    exact ⟨h1, fun i => by rw [h2]; simp⟩

/-- A policy for a listed node reports the device exactly when the node has no CPUs. -/
theorem policy_listed_partial {b : Lib} {k : Backend} {base : Plat} {i : Nat} {p : Plat} (hk : k ≠ .none) (hn : b.node i)
    (h : policyPlatform b k base i = some p) :
    (p = .host ↔ ∃ w, b.weight i = some w ∧ 0 < w) ∧ (p ≠ .host ↔ ∃ l, (getDeviceNodes b).1 = some l ∧ i ∈ l) := by
  have hlist : ∃ l, (getHostNodes b).1 = some l ∧ (p = .host ↔ i ∈ l) := by
    unfold policyPlatform at h
    rw [if_neg (by omega)] at h
    split at h
    · cases h
    · cases k with
      | none => exact absurd rfl hk
      | _ =>
        dsimp only at h
        split at h
        · cases h
        · next l hl =>
          refine ⟨l, hl, ?_⟩
          rw [Int.toNat_natCast] at h
          split at h <;> cases h <;> simp_all
  obtain ⟨l, hl, hp⟩ := hlist
  have hd : ∃ m, (getDeviceNodes b).1 = some m := by
    cases hm : (getDeviceNodes b).1 with
    | some m => exact ⟨m, rfl⟩
    | none => rw [((nodes_throw b).2.1).mp hm] at hl; cases hl
  obtain ⟨m, hm⟩ := hd
  have hpart := nodes_partition hl hm i
  constructor
  · rw [hp, (host_nodes hl).2]
    exact ⟨fun e => e.2, fun e => ⟨hn, e⟩⟩
  · rw [Ne, hp]
    refine ⟨fun e => ⟨m, hm, (hpart.1.mp hn).resolve_left e⟩, fun ⟨m', e1, e2⟩ e => ?_⟩
    rw [hm] at e1
    cases e1
    exact hpart.2 ⟨e, e2⟩

/-- `Machine.cpus` of the model of policies is the answer of `get_host_nodes`. -/
theorem policy_make {b : Lib} {m : Machine} {base : Al} {id : Nat} {node : Int} {l : List Nat}
    (hl : (getHostNodes b).1 = some l) (hc : ∀ i, m.cpus i = decide (i ∈ l)) :
    policyPlatform b m.backend (base.plat m) node = (Al.make m id base node).map (·.plat m) := by
  unfold policyPlatform Al.make
  split
  · rfl
  · split
    · next h => simp [h]
    · next h =>
      rw [hl]
      have h' : base.plat m = .host := by simpa using h
      simp only [h', ne_eq, not_true_eq_false, if_false]
      cases hb : m.backend <;> simp [Al.plat, hb, hc] <;> split <;> simp_all [Al.plat]

/-- A machine with two nodes with CPUs (0 and 2), one without (1), one unknown. -/
def demoLib : Lib := ⟨true, [true, true, true, false], fun i => if i = 1 then some 0 else some 8, [true, false, true, false]⟩

example : (getHostNodes demoLib).1 = some [0, 2] ∧ (getDeviceNodes demoLib).1 = some [1] ∧
    (getAllocatableNodes demoLib).1 = some [0, 2] ∧ demoLib.node 1 ∧ policyPlatform demoLib .cuda .host 1 = some .cuda :=
  ⟨by decide, by decide, by decide, rfl, by decide⟩

/-- A node that does not exist is taken for a device node: the policy is made and says its memory is on the device. -/
theorem policy_unknown_counterexample :
    ¬ demoLib.node 1000 ∧ (getDeviceNodes demoLib).1 = some [1] ∧ policyPlatform demoLib .cuda .host 1000 = some .cuda := by
  refine ⟨by simp [Lib.node, demoLib], by decide, by decide⟩

/-- For every backend with a name, every node number that is not listed. -/
theorem policy_unknown {b : Lib} {l : List Nat} (hl : (getHostNodes b).1 = some l) {i : Nat} (hn : ¬ b.node i) :
    policyPlatform b .cuda .host i = some .cuda ∧ policyPlatform b .hip .host i = some .hip := by
  have hi : i ∉ l := fun e => hn ((host_nodes hl).2 i |>.mp e).1
  constructor <;>
  · unfold policyPlatform
    rw [if_neg (by omega), if_neg (by decide), hl]
    simp [hi]

/-- An error of libnuma for one node leaves the mask of CPUs allocated. -/
theorem nodes_leak_counterexample : ∃ b : Lib, getHostNodes b = (none, 1) :=
  ⟨{ demoLib with weight := fun _ => none }, by decide⟩

end Umpire.Numa
