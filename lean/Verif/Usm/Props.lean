import Verif.Usm.Model
import Verif.Names.RegistryProps
/-!
# C87: a SYCL or OpenMP device resource gives memory of the device its name says

The specification numbers the GPUs of a platform through: a GPU that SYCL can divide counts as its parts.  `Hist` are the
calls and outcomes (latest first) of a program that makes resources, asks them for memory and gives back to a resource
what it has from it; `given` is what it holds by the outcomes alone.
-/
set_option autoImplicit false
set_option linter.unusedSimpArgs false
namespace Umpire.Usm
open Umpire.Names

/-! ### Specification -/

/-- The GPUs a device stands for. -/
def Dev.parts (d : Dev) : List Nat :=
  if d.gpu = false then [] else if d.maxSub = 0 then [d.self] else d.numa.getD []

/-- The device is not one that says it can be divided, but not by NUMA domains. -/
def Dev.Divides (d : Dev) : Prop := d.gpu = true → d.maxSub ≠ 0 → d.numa ≠ none

/-- The GPUs of a platform, in the order SYCL gives them. -/
def gpus (ds : List Dev) : List Nat := ds.flatMap Dev.parts

/-- The GPUs of all platforms. -/
def Machine.all (m : Machine) : List Nat := gpus m.platforms.flatten

/-- The GPUs of the platform that `gpu_selector` chooses. -/
def Machine.main (m : Machine) : List Nat := gpus m.chosen

/-- What SYCL promises: the chosen platform is one of the platforms and has a GPU if there is one at all. -/
structure Machine.Sane (m : Machine) : Prop where
  mem : m.chosen ∈ m.platforms
  gpu : m.all ≠ [] → m.main ≠ []

/-! ### Counting -/

theorem parts_divided {d : Dev} {l : List Nat} (hg : d.gpu = true) (hs : d.maxSub > 0) (hn : d.numa = some l) : d.parts = l := by
  unfold Dev.parts
  rw [hg, hn, if_neg (by decide), if_neg (by omega)]; rfl

theorem parts_whole {d : Dev} (hg : d.gpu = true) (hs : ¬d.maxSub > 0) : d.parts = [d.self] := by
  unfold Dev.parts
  rw [hg, if_neg (by decide), if_pos (by omega)]

theorem parts_other {d : Dev} (hg : ¬d.gpu = true) : d.parts = [] := by
  unfold Dev.parts
  rw [if_pos (by simpa using hg)]

theorem gpus_cons (d : Dev) (ds : List Dev) : gpus (d :: ds) = d.parts ++ gpus ds := rfl

theorem countDevs_iff {ds : List Dev} {c n : Nat} : countDevs ds c = some n ↔ (∀ d ∈ ds, d.Divides) ∧ n = c + (gpus ds).length := by
  induction ds generalizing c with
  | nil =>
    show some c = some n ↔ _
    simp [gpus, eq_comm]
  | cons d ds ih =>
    unfold countDevs
    rw [gpus_cons, List.length_append, List.forall_mem_cons]
    by_cases hg : d.gpu = true
    · rw [if_pos hg]
      by_cases hs : d.maxSub > 0
      · rw [if_pos hs]
        cases hn : d.numa with
        | none =>
          refine ⟨fun h => (nomatch h), fun h => absurd hn (h.1.1 hg (by omega))⟩
        | some l =>
          rw [parts_divided hg hs hn]
          dsimp only
          rw [ih]
          have : d.Divides := fun _ _ h => by rw [hn] at h; cases h
          constructor
          · rintro ⟨h, e⟩; exact ⟨⟨this, h⟩, by omega⟩
          · rintro ⟨h, e⟩; exact ⟨h.2, by omega⟩
      · rw [if_neg hs, ih, parts_whole hg hs]
        have : d.Divides := fun _ h => absurd (by omega) h
        constructor
        · rintro ⟨h, e⟩; exact ⟨⟨this, h⟩, by simp only [List.length_cons, List.length_nil]; omega⟩
        · rintro ⟨h, e⟩; exact ⟨h.2, by simp only [List.length_cons, List.length_nil] at e; omega⟩
    · rw [if_neg hg, ih, parts_other hg]
      have : d.Divides := fun h => absurd h hg
      constructor
      · rintro ⟨h, e⟩; exact ⟨⟨this, h⟩, by simpa using e⟩
      · rintro ⟨h, e⟩; exact ⟨h.2, by simpa using e⟩

theorem gpus_append (a b : List Dev) : gpus (a ++ b) = gpus a ++ gpus b := by simp [gpus]

theorem countPlatforms_iff {ps : List (List Dev)} {c n : Nat} :
    countPlatforms ps c = some n ↔ (∀ p ∈ ps, ∀ d ∈ p, d.Divides) ∧ n = c + (gpus ps.flatten).length := by
  induction ps generalizing c with
  | nil =>
    show some c = some n ↔ _
    simp [gpus, eq_comm]
  | cons p ps ih =>
    unfold countPlatforms
    rw [List.flatten_cons, gpus_append, List.length_append, List.forall_mem_cons]
    cases hc : countDevs p c with
    | none =>
      refine ⟨fun h => (nomatch h), fun h => ?_⟩
      have := countDevs_iff.2 ⟨h.1.1, (rfl : c + (gpus p).length = _)⟩
      rw [hc] at this; cases this
    | some c' =>
      obtain ⟨h1, rfl⟩ := countDevs_iff.1 hc
      dsimp only
      rw [ih]
      constructor
      · rintro ⟨h, e⟩; exact ⟨⟨h1, h⟩, by omega⟩
      · rintro ⟨h, e⟩; exact ⟨h.2, by omega⟩

/-- **C87**: the registry finds every GPU of every platform, and its constructor throws exactly if there is a GPU that says
it can be divided, but not by NUMA domains. -/
theorem usm_found (m : Machine) (n : Nat) : m.found = some n ↔ (∀ p ∈ m.platforms, ∀ d ∈ p, d.Divides) ∧ n = m.all.length := by
  unfold Machine.found Machine.all
  rw [countPlatforms_iff, Nat.zero_add]

/-! ### The queue -/

theorem pickSub_spec (id : Int) (us : List Nat) (c : Nat) (q : Option Nat) :
    pickSub id us (c, q) = (c + us.length, if (c : Int) ≤ id ∧ id < c + us.length then us[(id - c).toNat]? else q) := by
  induction us generalizing c q with
  | nil =>
    show (c, q) = _
    rw [if_neg (by simp)]; rfl
  | cons u us ih =>
    show pickSub id us (c + 1, if ((c + 1 : Nat) : Int) - 1 = id then some u else q) = _
    rw [ih, List.length_cons]
    refine Prod.ext (by dsimp only; omega) ?_
    dsimp only
    by_cases h : (c : Int) = id
    · subst h
      rw [if_neg (by omega), if_pos (by omega), if_pos (by omega)]
      simp
    · rw [if_neg (show ¬((c + 1 : Nat) : Int) - 1 = id by omega)]
      by_cases h2 : ((c + 1 : Nat) : Int) ≤ id ∧ id < ((c + 1 : Nat) : Int) + us.length
      · rw [if_pos h2, if_pos (by omega)]
        obtain ⟨k, hk⟩ : ∃ k, (id - ((c + 1 : Nat) : Int)).toNat = k := ⟨_, rfl⟩
        rw [hk, show (id - (c : Int)).toNat = k + 1 by omega, List.getElem?_cons_succ]
      · rw [if_neg h2, if_neg (by omega)]

theorem pick_spec (id : Int) (ds : List Dev) (c : Nat) (q : Option Nat) (h : ∀ d ∈ ds, d.Divides) :
    pick id ds (c, q) =
      some (c + (gpus ds).length, if (c : Int) ≤ id ∧ id < c + (gpus ds).length then (gpus ds)[(id - c).toNat]? else q) := by
  induction ds generalizing c q with
  | nil =>
    show some (c, q) = _
    rw [if_neg (by simp [gpus])]; rfl
  | cons d ds ih =>
    have hd := h d List.mem_cons_self
    have ih := fun c q => ih c q fun x hx => h x (List.mem_cons_of_mem _ hx)
    have key : ∀ (q' : Option Nat), (if ((c + d.parts.length : Nat) : Int) ≤ id ∧ id < ((c + d.parts.length : Nat) : Int) + (gpus ds).length
          then (gpus ds)[(id - ((c + d.parts.length : Nat) : Int)).toNat]?
          else if (c : Int) ≤ id ∧ id < c + d.parts.length then d.parts[(id - c).toNat]? else q') =
        if (c : Int) ≤ id ∧ id < c + (gpus (d :: ds)).length then (gpus (d :: ds))[(id - c).toNat]? else q' := by
      intro q'
      rw [gpus_cons, List.length_append]
      by_cases h1 : ((c + d.parts.length : Nat) : Int) ≤ id ∧ id < ((c + d.parts.length : Nat) : Int) + (gpus ds).length
      · rw [if_pos h1, if_pos (by omega), List.getElem?_append_right (by omega)]
        congr 1
        omega
      · rw [if_neg h1]
        by_cases h2 : (c : Int) ≤ id ∧ id < c + d.parts.length
        · rw [if_pos h2, if_pos (by omega), List.getElem?_append_left (by omega)]
        · rw [if_neg h2, if_neg (by omega)]
    unfold pick
    by_cases hg : d.gpu = true
    · rw [if_pos hg]
      by_cases hs : d.maxSub > 0
      · rw [if_pos hs]
        cases hn : d.numa with
        | none => exact absurd hn (hd hg (by omega))
        | some l =>
          dsimp only
          have e := parts_divided hg hs hn
          rw [pickSub_spec, ih, ← e, key, gpus_cons, List.length_append, Nat.add_assoc]
      · rw [if_neg hs]
        have e := parts_whole hg hs
        dsimp only
        rw [ih, ← key q, e, gpus_cons, e]
        refine congrArg some (Prod.ext ?_ ?_)
        · simp only [List.length_append, List.length_cons, List.length_nil]; omega
        · dsimp only [List.length_cons, List.length_nil]
          congr 1
          by_cases h3 : ((c + 1 : Nat) : Int) - 1 = id
          · rw [if_pos h3, if_pos (by omega), show (id - (c : Int)).toNat = 0 by omega]; rfl
          · rw [if_neg h3, if_neg (by omega)]
    · rw [if_neg hg]
      have e := parts_other hg
      rw [ih, gpus_cons, e, List.nil_append]

/-- **C87**: the queue of a resource for device `id` is the one for the `id`-th GPU of the chosen platform; it is a null
pointer if there is none. -/
theorem usm_queue (m : Machine) (h : ∀ d ∈ m.chosen, d.Divides) (id : Int) :
    m.queue id = some (if 0 ≤ id then m.main[id.toNat]? else none) := by
  unfold Machine.queue Machine.main
  rw [pick_spec id m.chosen 0 none h]
  dsimp only
  congr 1
  by_cases h0 : 0 ≤ id
  · rw [if_pos h0]
    by_cases h1 : id < (gpus m.chosen).length
    · rw [if_pos (by omega)]
      congr 1
      simp
    · rw [if_neg (by omega), List.getElem?_eq_none (by omega)]
  · rw [if_neg h0, if_neg (by omega)]

theorem numDevices_spec (ds : List Dev) (c : Nat) (h : ∀ d ∈ ds, d.gpu = true → d.maxSub ≠ 0 → ∃ l, d.numa = some l ∧ l.length = d.maxSub) :
    numDevices ds c = c + (gpus ds).length := by
  induction ds generalizing c with
  | nil => rfl
  | cons d ds ih =>
    have ih := fun c => ih c fun x hx => h x (List.mem_cons_of_mem _ hx)
    unfold numDevices
    rw [gpus_cons, List.length_append]
    by_cases hg : d.gpu = true
    · rw [if_pos hg]
      by_cases hs : d.maxSub > 0
      · obtain ⟨l, hl, e⟩ := h d List.mem_cons_self hg (by omega)
        rw [if_pos hs, ih, parts_divided hg hs hl]
        omega
      · rw [if_neg hs, ih, parts_whole hg hs]
        simp only [List.length_cons, List.length_nil]; omega
    · rw [if_neg hg, ih, parts_other hg]
      simp

/-- **C87** (partial: see `usm_num_counterexample`): `getNumDevices` is the number of GPUs of the chosen platform if every
GPU has as many NUMA domains as it can have parts. -/
theorem usm_num_partial (m : Machine)
    (h : ∀ d ∈ m.chosen, d.gpu = true → d.maxSub ≠ 0 → ∃ l, d.numa = some l ∧ l.length = d.maxSub) : m.getNumDevices = m.main.length := by
  unfold Machine.getNumDevices Machine.main
  rw [numDevices_spec _ _ h, Nat.zero_add]

/-! ### Names -/

section
variable {m : Machine} {n i f : Bool} {b : Build}

theorem build_some (hb : m.build n i f = some b) :
    (∀ p ∈ m.platforms, ∀ d ∈ p, d.Divides) ∧ b = ⟨n, i, f, if m.all.length = 0 then .none else .sycl m.all.length, none⟩ := by
  unfold Machine.build at hb
  cases hf : m.found with
  | none => rw [hf] at hb; cases hb
  | some d =>
    rw [hf] at hb
    obtain ⟨h1, rfl⟩ := (usm_found m d).1 hf
    injection hb with hb
    exact ⟨h1, hb.symm⟩

/-- **C87**: the names `DEVICE::i` on offer are those of the GPUs of all platforms. -/
theorem usm_offered (hb : m.build n i f = some b) (k : Nat) : devName k ∈ b.names ↔ k < m.all.length := by
  rw [offered_devices, (build_some hb).2]
  dsimp only
  by_cases h : m.all.length = 0
  · rw [if_pos h, h]
    simp [Gpu.count]
  · rw [if_neg h]
    simp [Gpu.count]

/-- **C87**: `DEVICE`, `UM` and `PINNED` are on offer exactly if there is a GPU. -/
theorem usm_offered_plain (hb : m.build n i f = some b) (x : Name) (hx : x ∈ [DEVICE, UM, PINNED]) : x ∈ b.names ↔ m.all ≠ [] := by
  rw [(build_some hb).2]
  by_cases h : m.all.length = 0
  · rw [if_pos h, List.length_eq_zero_iff.1 h]
    simp only [List.mem_cons, List.not_mem_nil, or_false] at hx
    clear hb
    rcases hx with rfl | rfl | rfl <;> revert n i f <;> decide
  · rw [if_neg h]
    simp only [List.mem_cons, List.not_mem_nil, or_false] at hx
    have : m.all ≠ [] := fun e => h (by rw [e]; rfl)
    rcases hx with rfl | rfl | rfl <;> simp [Build.names, Gpu.names, this]

theorem has_device (k : Nat) : has DEVICE (devName k) = true := by
  rw [has_iff]
  exact ⟨[], COLONS ++ showNat k, by simp [devName]⟩

/-- **C87**: the resource `DEVICE::k` has a queue for the `k`-th GPU of the chosen platform, `DEVICE`, `UM` and `PINNED` for
the first one, and a null pointer for a queue if there is none. -/
theorem usm_named (hs : m.Sane) (hb : m.build n i f = some b) (dflt : Int) (h0 : m.all ≠ []) :
    (∀ k, k < m.all.length → k ≤ INT_MAX → made b m dflt (devName k) = some (.sycl .device m.main[k]?)) ∧
    made b m dflt DEVICE = some (.sycl .device m.main[0]?) ∧
    made b m dflt UM = some (.sycl .um m.main[0]?) ∧ made b m dflt PINNED = some (.sycl .pinned m.main[0]?) := by
  obtain ⟨hd, e⟩ := build_some hb
  have hq := usm_queue m (hd _ hs.mem)
  have hl : m.all.length ≠ 0 := fun h => h0 (List.length_eq_zero_iff.1 h)
  have hg : b.gpu = .sycl m.all.length := by rw [e]; exact if_neg hl
  have hm : b.main = .sycl := by unfold Build.main; rw [hg]
  have dev : ∀ x, x ∈ b.names → has DEVICE x = true → b.meant x = some (.device .sycl) → ∀ k : Nat, deviceId (b.reg 0).cuda 0 x = some (k : Int) →
      made b m dflt x = some (.sycl .device m.main[k]?) := by
    intro x hx hx2 hmx k hk
    unfold made
    rw [(advertised_kind b x hx).1, hmx]
    dsimp only
    rw [if_pos hx2, hk]
    dsimp only [Option.bind_some]
    rw [hq, if_pos (by omega)]
    rfl
  have other : ∀ x mem, x ∈ b.names → has DEVICE x = false → (b.meant x = some (.um .sycl) ∧ mem = .um ∨ b.meant x = some (.pinned .sycl) ∧ mem = .pinned) →
      made b m dflt x = some (.sycl mem m.main[0]?) := by
    intro x mem hx hx2 hmx
    unfold made
    rw [(advertised_kind b x hx).1]
    rcases hmx with ⟨h, rfl⟩ | ⟨h, rfl⟩ <;> rw [h] <;> dsimp only <;> rw [hx2, if_neg (by decide)] <;>
      dsimp only [Option.bind_some] <;> rw [hq, if_pos (by omega)] <;> rfl
  have names : DEVICE ∈ b.names ∧ UM ∈ b.names ∧ PINNED ∈ b.names := by
    simp [Build.names, Gpu.names, hg]
  refine ⟨fun k hk hm' => ?_, ?_, ?_, ?_⟩
  · exact dev _ ((usm_offered hb k).2 hk) (has_device k)
      (by show some (Kind.device b.main) = _; rw [hm]) k (advertised_device_partial b 0 k hm')
  · refine dev _ names.1 (by decide) (by show some (Kind.device b.main) = _; rw [hm]) 0 ?_
    unfold deviceId
    split <;> rfl
  · exact other _ _ names.2.1 (by decide) (.inl ⟨by show some (Kind.um b.main) = _; rw [hm], rfl⟩)
  · exact other _ _ names.2.2 (by decide) (.inr ⟨by show some (Kind.pinned b.main) = _; rw [hm], rfl⟩)

/-- **C87**: if a GPU was found `DEVICE`, `UM` and `PINNED` have a queue, for the same GPU. -/
theorem usm_plain (hs : m.Sane) (hb : m.build n i f = some b) (dflt : Int) (h0 : m.all ≠ []) :
    ∃ u, m.main.head? = some u ∧ made b m dflt DEVICE = some (.sycl .device (some u)) ∧
      made b m dflt UM = some (.sycl .um (some u)) ∧ made b m dflt PINNED = some (.sycl .pinned (some u)) := by
  have h := (usm_named hs hb dflt h0).2
  cases hm : m.main with
  | nil => exact absurd hm (hs.gpu h0)
  | cons u us =>
    rw [hm] at h
    exact ⟨u, rfl, h⟩

/-- **C87** (partial: see `usm_two_platforms_counterexample`): every `DEVICE::k` on offer has a queue exactly if the other
platforms show no GPU beyond those of the chosen one. -/
theorem usm_works_iff (hs : m.Sane) (hb : m.build n i f = some b) (dflt : Int) (h0 : m.all ≠ []) (hmax : m.all.length ≤ INT_MAX) :
    (∀ k, devName k ∈ b.names → ∃ u, made b m dflt (devName k) = some (.sycl .device (some u))) ↔ m.all.length ≤ m.main.length := by
  have hn := (usm_named hs hb dflt h0).1
  constructor
  · intro h
    refine Nat.le_of_not_lt fun hlt => ?_
    obtain ⟨u, hu⟩ := h m.main.length ((usm_offered hb _).2 hlt)
    rw [hn _ hlt (by omega), List.getElem?_eq_none (Nat.le_refl _)] at hu
    cases hu
  · intro h k hk
    have hk := (usm_offered hb k).1 hk
    exact ⟨m.main[k]'(by omega), by rw [hn k hk (by omega), List.getElem?_eq_getElem]⟩

end

/-- Two GPUs, shown by one platform, which `gpu_selector` chooses. -/
def one : Machine := ⟨[[⟨false, 9, 0, none⟩], [⟨true, 5, 0, none⟩, ⟨true, 6, 2, some [7, 8]⟩]], [⟨true, 5, 0, none⟩, ⟨true, 6, 2, some [7, 8]⟩]⟩

/-- One GPU, shown by two platforms (OpenCL and Level Zero). -/
def two : Machine := ⟨[[⟨true, 5, 0, none⟩], [⟨true, 6, 0, none⟩]], [⟨true, 6, 0, none⟩]⟩

theorem one_sane : one.Sane := ⟨by decide, by decide⟩
theorem two_sane : two.Sane := ⟨by decide, by decide⟩

example : one.Sane ∧ one.build false false false = some ⟨false, false, false, .sycl 3, none⟩ ∧ one.all ≠ [] ∧ one.all.length ≤ INT_MAX ∧
    one.all.length ≤ one.main.length ∧ one.main = [5, 7, 8] := ⟨one_sane, rfl, by decide, by decide, by decide, by decide⟩

example : ∀ d ∈ one.chosen, d.gpu = true → d.maxSub ≠ 0 → ∃ l, d.numa = some l ∧ l.length = d.maxSub := by
  intro d hd hg hm
  rcases List.mem_cons.1 hd with rfl | hd
  · exact absurd rfl hm
  · rw [List.mem_singleton.1 hd]
    exact ⟨_, rfl, rfl⟩

/-- **C87, counterexample**: one GPU shown by two platforms is on offer as `DEVICE::0` and `DEVICE::1`; the second has no
queue, and whatever it is asked for is undefined behaviour. -/
theorem usm_two_platforms_counterexample : ∃ b, two.build false false false = some b ∧ devName 1 ∈ b.names ∧
    made b two 0 (devName 1) = some (.sycl .device none) ∧ two.getNumDevices = 1 ∧
    ∀ omp size a, (allocate omp ⟨[.sycl .device none], []⟩ 0 size a).1 = .ub := by
  have hb : two.build false false false = some ⟨false, false, false, .sycl 2, none⟩ := rfl
  exact ⟨_, hb, (usm_offered hb 1).2 (by decide), (usm_named two_sane hb 0 (by decide)).1 1 (by decide) (by decide), rfl, fun _ _ _ => rfl⟩

/-- **C87, counterexample**: `getNumDevices` counts the parts a GPU can have at most, not the ones there are: 4 here,
where `DEVICE::0` and `DEVICE::1` are all there is. -/
theorem usm_num_counterexample : ∃ m : Machine, m.Sane ∧ m.getNumDevices = 4 ∧
    ∃ b, m.build false false false = some b ∧ ∀ k, devName k ∈ b.names ↔ k < 2 := by
  have hb : (⟨[[⟨true, 5, 4, some [6, 7]⟩]], [⟨true, 5, 4, some [6, 7]⟩]⟩ : Machine).build false false false = some ⟨false, false, false, .sycl 2, none⟩ := rfl
  exact ⟨_, ⟨by decide, by decide⟩, rfl, _, hb, usm_offered hb⟩

/-- **C87, counterexample**: with a GPU that says it can be divided, but not by NUMA domains, the constructor of the
registry throws, so that not even `HOST` can be had. -/
theorem usm_divide_counterexample : (⟨[[⟨true, 5, 2, none⟩]], [⟨true, 5, 2, none⟩]⟩ : Machine).build false false false = none := rfl

/-! ### OpenMP -/

/-- **C87** (partial: see `omp_host_counterexample`): in a build with OpenMP the resource `DEVICE::k` is for device `k` and
`DEVICE` for device 0, whatever the default device is. -/
theorem omp_named_partial (n i f : Bool) (d : Nat) (m : Machine) (dflt : Int) :
    (∀ k, devName k ∈ (⟨n, i, f, .none, some d⟩ : Build).names ↔ k < d) ∧
    (∀ k, k < d → k ≤ INT_MAX → made ⟨n, i, f, .none, some d⟩ m dflt (devName k) = some (.omp k)) ∧
    made ⟨n, i, f, .none, some d⟩ m dflt DEVICE = some (.omp 0) := by
  have off : ∀ k, devName k ∈ (⟨n, i, f, .none, some d⟩ : Build).names ↔ k < d := by
    intro k
    rw [offered_devices]
    simp [Gpu.count]
  have dev : ∀ x, x ∈ (⟨n, i, f, .none, some d⟩ : Build).names → has DEVICE x = true →
      (⟨n, i, f, .none, some d⟩ : Build).meant x = some (.device .omp) →
      ∀ k : Int, deviceId ((⟨n, i, f, .none, some d⟩ : Build).reg 0).cuda 0 x = some k →
      made ⟨n, i, f, .none, some d⟩ m dflt x = some (.omp k) := by
    intro x hx hx2 hmx k hk
    unfold made
    rw [(advertised_kind _ x hx).1, hmx]
    dsimp only
    rw [if_pos hx2, hk]
    rfl
  refine ⟨off, fun k hk hm => dev _ ((off k).2 hk) (has_device k) rfl _ (advertised_device_partial _ 0 k hm), dev _ ?_ (by decide) rfl _ rfl⟩
  simp [Build.names]

example : devName 1 ∈ (⟨false, false, false, .none, some 2⟩ : Build).names := by decide +kernel

/-! ### Histories -/

/-- The memory a resource stands for. -/
inductive Home (omp : Nat) : Res → Place → Prop
  | device (u : Nat) : Home omp (.sycl .device (some u)) (.gpu u)
  | um (u : Nat) : Home omp (.sycl .um (some u)) (.shared u)
  | pinned (u : Nat) : Home omp (.sycl .pinned (some u)) (.pinned u)
  | target (d : Nat) : d < omp → Home omp (.omp d) (.target d)
  | host : Home omp (.omp omp) .host

/-- What was handed out and not given back since: resource, address, size. -/
def given : List (Op × Out) → List (Nat × Nat × Nat)
  | [] => []
  | (.alloc k n _, .ptr p) :: t => (k, p, n) :: given t
  | (.free _ p, .done) :: t => (given t).filter fun x => decide (x.2.1 ≠ p)
  | _ :: t => given t

/-- The runtime hands out addresses that are not in use; the program gives back to a resource what it has from it. -/
def Allowed (t : List (Op × Out)) : Op → Prop
  | .make _ => True
  | .alloc _ _ a => ∀ p, a = some p → ∀ x ∈ given t, x.2.1 ≠ p
  | .free k p => ∃ n, (k, p, n) ∈ given t

inductive Hist (omp : Nat) : List (Op × Out) → Rt → Prop
  | new : Hist omp [] ⟨[], []⟩
  | step {t rt op} : Hist omp t rt → Allowed t op → Hist omp ((op, (op.do omp rt).1) :: t) (op.do omp rt).2

theorem ompPlace_home {omp : Nat} {d : Int} {pl : Place} : ompPlace omp d = some pl ↔ Home omp (.omp d) pl := by
  unfold ompPlace
  constructor
  · intro h
    split at h
    · next hd =>
      injection h with h
      subst h
      obtain ⟨k, rfl⟩ := Int.eq_ofNat_of_zero_le hd.1
      exact .target k (by omega)
    · split at h
      · next e => injection h with h; subst h; subst e; exact .host
      · cases h
  · intro h
    cases h with
    | target k hk => rw [if_pos (by omega)]; rfl
    | host => rw [if_neg (by omega), if_pos rfl]

theorem allocate_cases (omp : Nat) (rt : Rt) (k n : Nat) (a : Option Nat) :
    (∃ r pl, rt.res[k]? = some r ∧ Home omp r pl ∧
      ((∃ p, a = some p ∧ allocate omp rt k n a = (.ptr p, { rt with blks := ⟨p, n, pl, k⟩ :: rt.blks })) ∨
       a = none ∧ allocate omp rt k n a = (.error, rt))) ∨
    ((∀ r pl, rt.res[k]? = some r → ¬Home omp r pl) ∧ allocate omp rt k n a = (.ub, rt)) := by
  unfold allocate
  cases hr : rt.res[k]? with
  | none => exact .inr ⟨fun _ _ h => (nomatch h), rfl⟩
  | some r =>
    cases r with
    | sycl mem q =>
      cases q with
      | none => exact .inr ⟨fun r pl h hh => (by injection h with h; subst h; cases hh), rfl⟩
      | some u =>
        refine .inl ⟨_, syclPlace mem u, rfl, ?_, ?_⟩
        · cases mem <;> constructor
        · cases a with
          | none => exact .inr ⟨rfl, rfl⟩
          | some p => exact .inl ⟨p, rfl, rfl⟩
    | omp d =>
      cases hp : ompPlace omp d with
      | none =>
        refine .inr ⟨fun r pl h hh => ?_, by dsimp only; rw [hp]⟩
        injection h with h
        subst h
        rw [ompPlace_home.2 hh] at hp; cases hp
      | some pl =>
        refine .inl ⟨_, pl, rfl, ompPlace_home.1 hp, ?_⟩
        dsimp only
        rw [hp]
        cases a with
        | none => exact .inr ⟨rfl, rfl⟩
        | some p => exact .inl ⟨p, rfl, rfl⟩

theorem deallocate_home {omp : Nat} {rt : Rt} {k p : Nat} {r : Res} {pl : Place} (hr : rt.res[k]? = some r) (hh : Home omp r pl) :
    deallocate omp rt k p = release rt k p := by
  unfold deallocate
  rw [hr]
  cases hh with
  | device u => rfl
  | um u => rfl
  | pinned u => rfl
  | target d hd => dsimp only; rw [ompPlace_home.2 (.target d hd)]; rfl
  | host => dsimp only; rw [ompPlace_home.2 .host]; rfl

theorem release_mem {rt : Rt} {k p : Nat} {b : Blk} (hb : b ∈ rt.blks) (hp : b.ptr = p) (hk : b.owner = k) :
    release rt k p = (.done, { rt with blks := rt.blks.filter fun b => b.ptr != p }) := by
  unfold release
  rw [if_pos (List.any_eq_true.2 ⟨b, hb, by simp [hp, hk]⟩)]

/-- The blocks of the runtime are what the program holds, each where the resource it came from stands for. -/
structure Exact (omp : Nat) (t : List (Op × Out)) (rt : Rt) : Prop where
  same : (rt.blks.map fun b => (b.owner, b.ptr, b.size)) = given t
  home : ∀ b ∈ rt.blks, ∃ r, rt.res[b.owner]? = some r ∧ Home omp r b.place
  distinct : (given t).Pairwise fun x y => x.2.1 ≠ y.2.1

variable {omp : Nat} {t : List (Op × Out)} {rt : Rt}

theorem Exact.free (h : Exact omp t rt) {k p n : Nat} (hm : (k, p, n) ∈ given t) :
    deallocate omp rt k p = (.done, { rt with blks := rt.blks.filter fun b => b.ptr != p }) := by
  rw [← h.same] at hm
  obtain ⟨b, hb, e⟩ := List.mem_map.1 hm
  simp only [Prod.mk.injEq] at e
  obtain ⟨r, hr, hh⟩ := h.home b hb
  rw [e.1] at hr
  rw [deallocate_home hr hh, release_mem hb e.2.1 e.1]

/-- **C87**: after any calls, whatever requests failed in between, the blocks the runtime has handed out are those the
program holds, of the size it asked for, and each is in the memory its resource stands for. -/
theorem usm_exact (hh : Hist omp t rt) : Exact omp t rt := by
  induction hh with
  | new => exact ⟨rfl, fun b hb => (nomatch hb), .nil⟩
  | @step t rt op h hal ih =>
    cases op with
    | make r =>
      refine ⟨ih.same, fun b hb => ?_, ih.distinct⟩
      obtain ⟨r', hr, hh⟩ := ih.home b hb
      refine ⟨r', ?_, hh⟩
      show (rt.res ++ [r])[b.owner]? = _
      rw [List.getElem?_append_left (List.getElem?_eq_some_iff.1 hr).1, hr]
    | alloc k n a =>
      show Exact omp ((Op.alloc k n a, (allocate omp rt k n a).1) :: t) (allocate omp rt k n a).2
      rcases allocate_cases omp rt k n a with ⟨r, pl, hr, hh, ⟨p, ha, e⟩ | ⟨_, e⟩⟩ | ⟨_, e⟩
      · rw [e]
        refine ⟨?_, fun b hb => ?_, .cons (fun x hx => ?_) ih.distinct⟩
        · show _ :: _ = (k, p, n) :: given t
          rw [ih.same]
        · rcases List.mem_cons.1 hb with rfl | hb
          · exact ⟨r, hr, hh⟩
          · exact ih.home b hb
        · exact fun h' => hal p ha x hx h'.symm
      · rw [e]; exact ⟨ih.same, ih.home, ih.distinct⟩
      · rw [e]; exact ⟨ih.same, ih.home, ih.distinct⟩
    | free k p =>
      obtain ⟨n, hm⟩ := hal
      show Exact omp ((Op.free k p, (deallocate omp rt k p).1) :: t) (deallocate omp rt k p).2
      rw [ih.free hm]
      refine ⟨?_, fun b hb => ih.home b (List.mem_filter.1 hb).1, ih.distinct.filter _⟩
      show _ = (given t).filter fun x => decide (x.2.1 ≠ p)
      rw [← ih.same, List.filter_map]
      congr 1
      refine List.filter_congr fun b _ => ?_
      simp [Function.comp_def, bne, Bool.beq_eq_decide_eq]

/-- **C87**: giving back always succeeds, and a request is undefined exactly if the resource stands for no memory; else
it gives the memory the runtime has for it, or throws. -/
theorem usm_outcome (hh : Hist omp t rt) :
    (∀ k p n, (k, p, n) ∈ given t → (deallocate omp rt k p).1 = .done) ∧
    (∀ k n a, (allocate omp rt k n a).1 = .ub ↔ ∀ r pl, rt.res[k]? = some r → ¬Home omp r pl) ∧
    (∀ k n p, (allocate omp rt k n (some p)).1 = .ptr p ∨ (allocate omp rt k n (some p)).1 = .ub) ∧
    (∀ k n, (allocate omp rt k n none).1 = .error ∨ (allocate omp rt k n none).1 = .ub) := by
  refine ⟨fun k p n hm => by rw [(usm_exact hh).free hm], fun k n a => ?_, fun k n p => ?_, fun k n => ?_⟩
  · rcases allocate_cases omp rt k n a with ⟨r, pl, hr, hh, ⟨p, ha, e⟩ | ⟨_, e⟩⟩ | ⟨h, e⟩
    · rw [e]; exact ⟨fun h => (nomatch h), fun h => absurd hh (h r pl hr)⟩
    · rw [e]; exact ⟨fun h => (nomatch h), fun h => absurd hh (h r pl hr)⟩
    · rw [e]; exact ⟨fun _ => h, fun _ => rfl⟩
  · rcases allocate_cases omp rt k n (some p) with ⟨r, pl, hr, hh, ⟨p', ha, e⟩ | ⟨ha, e⟩⟩ | ⟨h, e⟩
    · rw [e]; injection ha with ha; exact .inl (by rw [ha])
    · cases ha
    · rw [e]; exact .inr rfl
  · rcases allocate_cases omp rt k n none with ⟨r, pl, hr, hh, ⟨p', ha, e⟩ | ⟨ha, e⟩⟩ | ⟨h, e⟩
    · cases ha
    · rw [e]; exact .inl rfl
    · rw [e]; exact .inr rfl

/-- **C87**: whatever a program holds from a resource it made as `DEVICE::k` of a SYCL build is memory of the `k`-th GPU of
the chosen platform, of the size it asked for. -/
theorem usm_device {m : Machine} {n i f : Bool} {b : Build} {dflt : Int} (hs : m.Sane) (hb : m.build n i f = some b)
    {k : Nat} (hk : k < m.all.length) (hk2 : k ≤ INT_MAX) (hh : Hist omp t rt) {j : Nat}
    (hj : rt.res[j]? = made b m dflt (devName k)) {p s : Nat} (hg : (j, p, s) ∈ given t) :
    ∃ u, m.main[k]? = some u ∧ ⟨p, s, .gpu u, j⟩ ∈ rt.blks := by
  have h := usm_exact hh
  rw [← h.same] at hg
  obtain ⟨x, hx, e⟩ := List.mem_map.1 hg
  simp only [Prod.mk.injEq] at e
  obtain ⟨r, hr, hH⟩ := h.home x hx
  have hne : m.all ≠ [] := fun h => by rw [h] at hk; exact absurd hk (Nat.not_lt_zero _)
  rw [e.1, hj, (usm_named hs hb dflt hne).1 k hk hk2] at hr
  injection hr with hr
  obtain ⟨xp, xs, xpl, xo⟩ := x
  obtain ⟨rfl, rfl, rfl⟩ := e
  subst hr
  cases hm : m.main[k]? with
  | none => rw [hm] at hH; cases hH
  | some u =>
    rw [hm] at hH
    cases hH
    exact ⟨u, rfl, hx⟩

/-- **C87**: whatever a program holds from a resource it made as `DEVICE::k` of an OpenMP build is memory of device `k`. -/
theorem omp_device {n i f : Bool} {m : Machine} {dflt : Int} {k : Nat} (hk : k < omp) (hk2 : k ≤ INT_MAX) (hh : Hist omp t rt) {j : Nat}
    (hj : rt.res[j]? = made ⟨n, i, f, .none, some omp⟩ m dflt (devName k)) {p s : Nat} (hg : (j, p, s) ∈ given t) :
    ⟨p, s, .target k, j⟩ ∈ rt.blks := by
  have h := usm_exact hh
  rw [← h.same] at hg
  obtain ⟨x, hx, e⟩ := List.mem_map.1 hg
  simp only [Prod.mk.injEq] at e
  obtain ⟨r, hr, hH⟩ := h.home x hx
  rw [e.1, hj, (omp_named_partial n i f omp m dflt).2.1 k hk hk2] at hr
  injection hr with hr
  obtain ⟨xp, xs, xpl, xo⟩ := x
  obtain ⟨rfl, rfl, rfl⟩ := e
  dsimp only at hH
  subst hr
  have : xpl = .target k := by
    have h1 := ompPlace_home.2 hH
    rw [ompPlace_home.2 (.target k hk)] at h1
    injection h1 with h1
    exact h1.symm
  rw [← this]
  exact hx

/-- **C87, counterexample**: an OpenMP build offers `DEVICE` on a machine without devices; it is memory of the host. -/
theorem omp_host_counterexample : DEVICE ∈ (⟨false, false, false, .none, some 0⟩ : Build).names ∧
    made ⟨false, false, false, .none, some 0⟩ one 0 DEVICE = some (.omp 0) ∧
    (allocate 0 ⟨[.omp 0], []⟩ 0 8 (some 64)) = (.ptr 64, ⟨[.omp 0], [⟨64, 8, .host, 0⟩]⟩) :=
  ⟨by decide, (omp_named_partial false false false 0 one 0).2.2, by decide⟩

/-- The tiles `DEVICE::1` and `DEVICE::2` of `one` and `UM`: a request, a failing one, and one given back. -/
def demo : List Op := [.make (.sycl .device (some 7)), .make (.sycl .device (some 8)), .make (.sycl .um (some 5)),
  .alloc 0 64 (some 4096), .alloc 1 8 none, .alloc 2 16 (some 8192), .free 2 8192, .alloc 1 8 (some 8192)]

def run (omp : Nat) : List (Op × Out) → Rt → List Op → List (Op × Out) × Rt
  | t, rt, [] => (t, rt)
  | t, rt, op :: ops => run omp ((op, (op.do omp rt).1) :: t) (op.do omp rt).2 ops

example : ∃ t rt, Hist 0 t rt ∧ rt.res[1]? = made ⟨false, false, false, .sycl 3, none⟩ one 0 (devName 2) ∧ (1, 8192, 8) ∈ given t ∧
    (2 : Nat) < one.all.length := by
  have h : Hist 0 (run 0 [] ⟨[], []⟩ demo).1 (run 0 [] ⟨[], []⟩ demo).2 := by
    refine .step (.step (.step (.step (.step (.step (.step (.step .new trivial) trivial) trivial) ?_) ?_) ?_) ?_) ?_
    · intro p _ x hx; cases hx
    · intro p hp; cases hp
    · intro p hp x hx
      injection hp with hp; subst hp
      have : x = (0, 4096, 64) := List.mem_singleton.1 hx
      rw [this]; decide
    · exact ⟨16, List.mem_cons_self⟩
    · intro p hp x hx
      injection hp with hp; subst hp
      have : x = (0, 4096, 64) := List.mem_singleton.1 hx
      rw [this]; decide
  refine ⟨_, _, h, ?_, by decide, by decide⟩
  have hb : one.build false false false = some ⟨false, false, false, .sycl 3, none⟩ := rfl
  rw [(usm_named one_sane hb 0 (by decide)).1 2 (by decide) (by decide)]
  decide

example : ∃ t rt, Hist 3 t rt ∧ rt.res[0]? = made ⟨false, false, false, .none, some 3⟩ one 0 (devName 2) ∧ (0, 4096, 8) ∈ given t := by
  refine ⟨_, _, .step (op := .alloc 0 8 (some 4096)) (.step (op := .make (.omp 2)) .new trivial) (fun p _ x hx => (nomatch hx)), ?_, by decide⟩
  rw [(omp_named_partial false false false 3 one 0).2.1 2 (by decide) (by decide)]
  decide

end Umpire.Usm
