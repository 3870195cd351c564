import Verif.Names.Inv
/-!
Names, ids and aliases of allocators (C28, C29).

A program is any list of calls, starting from the state `init` in which
`ResourceManager` is constructed; `run g init pre = some s` says that the program
`pre` can be run without undefined behaviour and leaves the manager in `s`.
Exceptions are caught by the program.  The registry `g` — which resource names
exist and which names factories accept — is arbitrary.
-/
set_option autoImplicit false
set_option linter.unusedSimpArgs false

namespace Umpire.Names

/-! ### Specification -/

/-- `getAllocator(n)` yields the allocator `h` and changes nothing. -/
def Finds (g : Reg) (s : RM) (n : Name) (h : Nat) : Prop := ∀ c, getByName g s n c = .ok h s

/-- `getAllocator(i)` yields the allocator `h` and changes nothing. -/
def FindsId (s : RM) (i h : Nat) : Prop := getById s i = .ok h s

/-- No call of the program creates a memory resource that takes over the name
`n`: the resource `DEVICE` takes `DEVICE::0`, and a resource whose name contains
`::0` takes what stands before its first `::`, less one character. -/
def Unclaimed (g : Reg) (n : Name) (os : List Op) : Prop :=
  ∀ op ∈ os, ∀ r, op.mayCreate g r → ¬ Claims r n

theorem finds_iff {g : Reg} {s : RM} {n : Name} {h : Nat} :
    Finds g s n h ↔ get s.byName n = some h ∧ (obj s h).isSome = true := by
  constructor
  · intro hf
    have h1 := hf false
    unfold getByName getStrategy at h1
    cases hg : get s.byName n with
    | some a =>
      rw [hg] at h1
      simp only [Out.bind, wrap] at h1
      cases ho : obj s a with
      | none => rw [ho] at h1; cases h1
      | some o =>
        rw [ho] at h1
        injection h1 with h1
        subst h1
        exact ⟨rfl, by rw [ho]; rfl⟩
    | none =>
      rw [hg] at h1
      simp only at h1
      split at h1
      · unfold makeResource makeResourceT at h1
        simp only [hg, Option.isSome_none, Bool.false_eq_true, if_false, Bool.and_false,
          Bool.not_false, if_true] at h1
        by_cases hv : g.valid n = true
        · rw [if_pos hv] at h1
          split at h1 <;> (simp only [Out.bind] at h1; cases h1)
        · rw [if_neg hv] at h1
          simp only [Out.bind] at h1; cases h1
      · unfold errInfo at h1
        split at h1 <;> (simp only [Out.bind] at h1; cases h1)
  · rintro ⟨h1, h2⟩ c
    unfold getByName getStrategy
    rw [h1]
    simp only [Out.bind, wrap]
    cases ho : obj s h with
    | none => rw [ho] at h2; cases h2
    | some o => rfl

theorem findsId_iff {s : RM} {i h : Nat} :
    FindsId s i h ↔ i ≠ INVALID ∧ get s.byId i = some h ∧ (obj s h).isSome = true := by
  unfold FindsId getById
  have h0 : ¬ ((i : Int) < 0) := by omega
  rw [if_neg h0]
  by_cases hi : i = INVALID
  · rw [if_pos (by rw [hi])]
    constructor
    · intro hx; cases hx
    · intro hx; exact absurd hi hx.1
  · rw [if_neg (by intro hx; exact hi (Int.ofNat.inj hx))]
    simp only [Int.toNat_natCast]
    cases hg : get s.byId i with
    | none =>
      constructor
      · intro hx; unfold errInfo at hx; dsimp only at hx; split at hx <;> cases hx
      · intro hx; cases hx.2.1
    | some a =>
      simp only [wrap]
      constructor
      · intro hx
        cases ho : obj s a with
        | none => rw [ho] at hx; cases hx
        | some o =>
          rw [ho] at hx
          injection hx with hx
          subst hx
          exact ⟨hi, rfl, by rw [ho]; rfl⟩
      · rintro ⟨_, h1, h2⟩
        cases h1
        cases ho : obj s h with
        | none => rw [ho] at h2; cases h2
        | some o => rfl

/-- The registry of a build with only the `HOST` resource
(MemoryResourceRegistry.cpp:67-81, HostResourceFactory.cpp:26-33,
NullMemoryResourceFactory.cpp:16-23). -/
def hostReg : Reg where
  names := [HOST]
  valid n := has HOST n || n == "__umpire_internal_null".toList
  cuda := false
  cur := 0

/-- The registry of a CUDA build with one device (without the unified and pinned
resources). -/
def gpuReg : Reg where
  names := [HOST, DEVICE, DEVICE0]
  valid n := has HOST n || (has DEVICE n && !has "CONST".toList n)
  cuda := true
  cur := 0

theorem makeAllocator_ok {g : Reg} {s s' : RM} {n : Name} {c : Bool} {h : Nat}
    (hm : makeAllocator g s n c = .ok h s') :
    isAllocator g s n = false ∧ s.nextId + 1 ≠ INVALID ∧ h = s.heap.length ∧
      s' = { s with nextId := s.nextId + 1, heap := s.heap ++ [some ⟨n, s.nextId⟩], byName := put s.byName n h, byId := put s.byId s.nextId h } := by
  unfold makeAllocator at hm
  split at hm
  · cases hm
  · rename_i h1
    split at hm
    · cases hm
    · rename_i h2
      dsimp only at hm
      split at hm
      · cases hm
      · cases hm
        exact ⟨by simpa using h2, h1, rfl, rfl⟩

/-! ### C28 -/

/-- **C28** A successful `makeAllocator(name)` returns an allocator that did not
exist before, called `name`, with an id no allocator has had; neither the name
nor the id could be looked up before. -/
theorem make_fresh (g : Reg) (pre : List Op) (s s' : RM) (n : Name) (c : Bool) (h : Nat)
    (hr : run g init pre = some s) (hm : makeAllocator g s n c = .ok h s') :
    ∃ o, obj s' h = some o ∧ o.name = n ∧ obj s h = none ∧
      isAllocator g s n = false ∧ isAllocatorId s o.id = false ∧
      (∀ h' o', obj s h' = some o' → o'.id ≠ o.id) ∧ Finds g s' n h := by
  have hi := run_inv Inv.init hr
  obtain ⟨h1, h2, h3, h4⟩ := makeAllocator_ok hm
  have hheap : s'.heap = s.heap ++ [some ⟨n, s.nextId⟩] := by rw [h4]
  have hobj : obj s' h = some ⟨n, s.nextId⟩ := by rw [h3]; exact obj_new hheap
  refine ⟨⟨n, s.nextId⟩, hobj, rfl, ?_, h1, ?_, ?_, ?_⟩
  · unfold obj
    rw [h3, List.getElem?_eq_none (Nat.le_refl _)]; rfl
  · unfold isAllocatorId
    cases hg : get s.byId s.nextId with
    | none => rfl
    | some a =>
      obtain ⟨o, ho, he⟩ := hi.byId _ _ hg
      have := hi.lt a o ho
      omega
  · intro h' o' ho' he
    have := hi.lt h' o' ho'
    dsimp only at he
    omega
  · rw [finds_iff]
    refine ⟨?_, by rw [hobj]; rfl⟩
    rw [h4]; exact get_put_self _ _ _

/-- **C28** No two allocators in existence have the same id, whatever was done. -/
theorem ids_unique (g : Reg) (pre : List Op) (s : RM) (hr : run g init pre = some s)
    (h h' : Nat) (o o' : Obj) (ho : obj s h = some o) (ho' : obj s h' = some o')
    (he : o.id = o'.id) : h = h' :=
  (run_inv Inv.init hr).inj h h' o o' ho ho' he

/-- **C28** (partial: see `lookup_name_counterexample`) After any further calls,
none of which creates a memory resource that takes the name over, looking the
allocator up by its name still returns it, and it still has that name. -/
theorem lookup_name_partial (g : Reg) (pre post : List Op) (s s' s'' : RM) (n : Name) (c : Bool)
    (h : Nat) (hr : run g init pre = some s) (hm : makeAllocator g s n c = .ok h s')
    (hp : run g s' post = some s'') (hu : Unclaimed g n post) :
    Finds g s'' n h ∧ ∃ o, obj s'' h = some o ∧ o.name = n := by
  obtain ⟨o, ho, hn, _, _, _, _, hf⟩ := make_fresh g pre s s' n c h hr hm
  have ho' := run_obj hp ho
  refine ⟨?_, o, ho', hn⟩
  rw [finds_iff] at hf ⊢
  exact ⟨run_name hp hf.1 hu (.inl ⟨o, ho, hn⟩), by rw [ho']; rfl⟩

/-- **C28** After any further calls whatsoever, looking the allocator up by its id
still returns it (provided the id is not the reserved one, see
`invalid_id_partial`). -/
theorem lookup_id (g : Reg) (pre post : List Op) (s s' s'' : RM) (n : Name) (c : Bool) (h : Nat)
    (o : Obj) (hr : run g init pre = some s) (hm : makeAllocator g s n c = .ok h s')
    (ho : obj s' h = some o) (hp : run g s' post = some s'') (hv : o.id ≠ INVALID) :
    FindsId s'' o.id h ∧ obj s'' h = some o := by
  have hi := run_inv Inv.init hr
  have hstep : (step g s (.make n c)).after = some s' := by
    show (makeAllocator g s n c).after = _
    rw [hm]; rfl
  have hi' := hi.step (step_change hstep)
  obtain ⟨_, _, h3, _⟩ := makeAllocator_ok hm
  have ho' := run_obj hp ho
  refine ⟨?_, ho'⟩
  rw [findsId_iff]
  exact ⟨hv, run_id hi' hp (hi'.found h o (by rw [h3]; exact hi.two) ho), by rw [ho']; rfl⟩

/-- **C28** For a build whose resource names contain no `::` and no `DEVICE`
(for example a host build), and programs that create resources only by looking
them up, names never get lost. -/
theorem lookup_name_simple (g : Reg) (pre post : List Op) (s s' s'' : RM) (n : Name) (c : Bool)
    (h : Nat) (hr : run g init pre = some s) (hm : makeAllocator g s n c = .ok h s')
    (hp : run g s' post = some s'')
    (hg : ∀ r ∈ g.names, has COLONS0 r = false ∧ r ≠ DEVICE)
    (hno : ∀ r c, Op.resource r c ∉ post ∧ Op.resourceT r c ∉ post) : Finds g s'' n h := by
  refine (lookup_name_partial g pre post s s' s'' n c h hr hm hp ?_).1
  have key : ∀ r ∈ g.names, ¬ Claims r n := by
    intro r hr hcl
    rcases hcl with ⟨hd, _⟩ | ⟨hd, _⟩
    · exact (hg r hr).2 hd
    · rw [(hg r hr).1] at hd; cases hd
  intro op hop r hmay
  cases op with
  | make => cases hmay
  | resource m k => exact absurd hop (hno m k).1
  | resourceT m k => exact absurd hop (hno m k).2
  | byName => exact key r hmay.2
  | byType => exact key r hmay.2
  | byId => cases hmay
  | getDefault => exact key r hmay.2
  | setDefault => cases hmay
  | alias => exact key r hmay.2
  | unalias => cases hmay

/-- **C28** `makeAllocator` with a name that can be looked up (an allocator, an
alias or a resource of the registry) throws and changes nothing at all. -/
theorem name_taken (g : Reg) (s : RM) (n : Name) (c : Bool) (ht : isAllocator g s n = true) :
    makeAllocator g s n c = .err s := by
  unfold makeAllocator
  rw [if_pos ht]
  split <;> rfl

/-- **C28** In particular the name of an allocator created earlier cannot be used
for another one. -/
theorem name_reuse_partial (g : Reg) (pre post : List Op) (s s' s'' : RM) (n : Name) (c c' : Bool)
    (h : Nat) (hr : run g init pre = some s) (hm : makeAllocator g s n c = .ok h s')
    (hp : run g s' post = some s'') (hu : Unclaimed g n post) :
    makeAllocator g s'' n c' = .err s'' := by
  have hf := (lookup_name_partial g pre post s s' s'' n c h hr hm hp hu).1
  rw [finds_iff] at hf
  apply name_taken
  unfold isAllocator
  rw [hf.1]; rfl

/-- **C28** A name that cannot be looked up can be given to a new allocator as
long as ids last and the strategy's constructor succeeds. -/
theorem name_free (g : Reg) (s : RM) (n : Name) (hf : isAllocator g s n = false)
    (hid : s.nextId + 1 < INVALID) : ∃ h s', makeAllocator g s n true = .ok h s' := by
  unfold makeAllocator
  rw [if_neg (by omega), if_neg (by rw [hf]; simp)]
  exact ⟨_, _, rfl⟩

/-- **C28** (partial: see `invalid_id_counterexample`) In every program of fewer
than 0xDEADBEE − 2 calls no allocator gets the reserved invalid id. -/
theorem invalid_id_partial (g : Reg) (pre : List Op) (s : RM) (hr : run g init pre = some s)
    (hlen : pre.length + 2 ≤ INVALID) (h : Nat) (o : Obj) (ho : obj s h = some o) :
    o.id ≠ INVALID := by
  have h1 := run_next hr
  have h2 := (run_inv Inv.init hr).lt h o ho
  have : init.nextId = 2 := rfl
  omega

/-- Looking up the reserved id, a negative id or an id nobody has fails and
changes nothing. -/
theorem bad_id (s : RM) (i : Int) (hi : i < 0 ∨ i = INVALID ∨ isAllocatorId s i.toNat = false) :
    ∀ h s', getById s i ≠ .ok h s' := by
  intro h s' he
  unfold getById at he
  split at he
  · cases he
  · rename_i h0
    split at he
    · cases he
    · rename_i h1
      rcases hi with hi | hi | hi
      · exact h0 hi
      · exact h1 hi
      · unfold isAllocatorId at hi
        cases hg : get s.byId i.toNat with
        | some a => rw [hg] at hi; cases hi
        | none =>
          rw [hg] at he
          dsimp only [errInfo] at he
          split at he <;> cases he

/-- Non-vacuity: two allocators, a failing constructor and some aliases on a host
build. -/
example : ∃ s s' s'', run hostReg init [.byName HOST true, .make "P".toList false] = some s ∧
    makeAllocator hostReg s "Q".toList true = .ok 3 s' ∧
    run hostReg s' [.make "R".toList true, .alias "Q2".toList 3 true, .make "Q".toList true,
      .unalias "Q".toList 3, .unalias "Q2".toList 3, .getDefault true] = some s'' ∧
    (obj s'' 3).map (·.id) = some 4 ∧ (obj s'' 4).map (·.id) = some 5 := by
  refine ⟨_, _, _, rfl, rfl, rfl, ?_, ?_⟩ <;> decide

example : ∀ r ∈ hostReg.names, has COLONS0 r = false ∧ r ≠ DEVICE := by decide

/-- The result of a call. -/
def Out.val {α : Type} : Out α → Option α
  | .ok v _ => some v
  | _ => none

/-- **C28, counterexample** On a host build: an allocator named `HOS` can no
longer be found by its name once the resource `HOST::0` has been made; the name
then yields the resource. -/
theorem lookup_name_counterexample :
    ∃ s s' s'', run hostReg init [] = some s ∧ makeAllocator hostReg s "HOS".toList true = .ok 2 s' ∧
      run hostReg s' [.resource "HOST::0".toList true] = some s'' ∧
      Finds hostReg s'' "HOS".toList 3 ∧ obj s'' 3 = some ⟨"HOST::0".toList, 3⟩ ∧
      obj s'' 2 = some ⟨"HOS".toList, 2⟩ := by
  refine ⟨_, _, _, rfl, rfl, rfl, ?_, ?_, ?_⟩
  · rw [finds_iff]; decide
  · decide
  · decide

/-- **C28, counterexample** On a GPU build `getAllocator("DEVICE::0")` returns one
allocator, and another one after `getAllocator("DEVICE")` has been called in
between. -/
theorem device_name_counterexample :
    ∃ s s', run gpuReg init [.byName DEVICE0 true] = some s ∧ Finds gpuReg s DEVICE0 2 ∧
      run gpuReg s [.byName DEVICE true] = some s' ∧ Finds gpuReg s' DEVICE0 3 := by
  refine ⟨_, _, rfl, ?_, rfl, ?_⟩ <;> (rw [finds_iff]; decide)

/-- **C28, counterexample** `makeResource("HOST2")` throws, yet leaves the name
in the table, pointing to a destroyed object: the name counts as an allocator and
using it is undefined behaviour — as is any failing lookup, whose message prints
the table. -/
theorem dangling_name_counterexample :
    ∃ s, makeResource hostReg init "HOST2".toList true = .err s ∧
      isAllocator hostReg s "HOST2".toList = true ∧
      getByName hostReg s "HOST2".toList true = .ub ∧
      getByName hostReg s "NOSUCH".toList true = .ub := by
  refine ⟨_, rfl, ?_, ?_, ?_⟩ <;> decide

theorem run_append {g : Reg} {a b : List Op} : ∀ {s s1 : RM}, run g s a = some s1 →
    run g s (a ++ b) = run g s1 b := by
  induction a with
  | nil => intro s s1 h; cases h; rfl
  | cons o os ih =>
    intro s s1 h
    obtain ⟨s2, h1, h2⟩ := run_cons h
    rw [List.cons_append]
    conv => lhs; unfold run
    rw [h1]
    exact ih h2

theorem run_burn {g : Reg} {n : Name} (k : Nat) : ∀ {s : RM}, isAllocator g s n = false →
    s.nextId + k < INVALID →
    run g s (List.replicate k (.make n false)) = some { s with nextId := s.nextId + k } := by
  induction k with
  | zero => intro s _ _; rfl
  | succ k ih =>
    intro s hn hk
    rw [List.replicate_succ]
    unfold run
    have h1 : step g s (.make n false) = .err { s with nextId := s.nextId + 1 } := by
      show makeAllocator g s n false = _
      unfold makeAllocator
      rw [if_neg (by omega), if_neg (by rw [hn]; simp)]
      rfl
    rw [h1]
    show run g { s with nextId := s.nextId + 1 } _ = _
    rw [ih (s := { s with nextId := s.nextId + 1 }) hn (by show s.nextId + 1 + k < _; omega)]
    simp only [Option.some.injEq]
    have : s.nextId + 1 + k = s.nextId + (k + 1) := by omega
    rw [this]

/-- **C28, counterexample** The reserved id is handed out: when 0xDEADBEE − 1 ids
are used up `makeAllocator` refuses, but the first use of the `HOST` resource
takes one more id, after which `makeAllocator` works again and returns an
allocator whose id is the reserved one and which therefore cannot be looked up by
id. -/
theorem invalid_id_counterexample :
    ∃ pre s h s', run hostReg init pre = some s ∧ makeAllocator hostReg s "Q".toList true = .ok h s' ∧
      (obj s' h).map (·.id) = some INVALID ∧ ∀ a t, getById s' INVALID ≠ .ok a t := by
  have h1 : run hostReg init (List.replicate (INVALID - 3) (.make "P".toList false))
      = some { init with nextId := init.nextId + (INVALID - 3) } :=
    run_burn _ (by decide) (by decide)
  let s1 : RM := { init with nextId := init.nextId + (INVALID - 3) }
  obtain ⟨s2, h2, h3, h4, h5⟩ : ∃ s2, run hostReg s1 [.byName HOST true] = some s2 ∧
      s2.nextId = INVALID ∧ isAllocator hostReg s2 "Q".toList = false ∧ s2.heap.length = 3 := by
    refine ⟨_, rfl, ?_, ?_, ?_⟩
    · decide +kernel
    · decide +kernel
    · decide +kernel
  obtain ⟨s', h6, h7⟩ : ∃ s', makeAllocator hostReg s2 "Q".toList true = .ok s2.heap.length s' ∧
      s'.heap = s2.heap ++ [some ⟨"Q".toList, s2.nextId⟩] := by
    unfold makeAllocator
    rw [if_neg (by rw [h3]; omega), if_neg (by rw [h4]; simp)]
    exact ⟨_, rfl, rfl⟩
  refine ⟨_, s2, s2.heap.length, s', (run_append h1).trans h2, h6, ?_, ?_⟩
  · rw [obj_new h7]; simp [h3]
  · exact bad_id s' _ (.inr (.inl rfl))

/-! ### C29 -/

/-- **C29** A successful `addAlias(n, h)` — for an allocator `h` in existence —
makes `n` a name of `h`; `n` was free before; every other name is found, or not,
exactly as before. -/
theorem alias_adds (g : Reg) (s s' : RM) (n : Name) (h h' : Nat) (c : Bool)
    (ho : (obj s h).isSome = true) (ha : addAlias g s n h c = .ok h' s') :
    isAllocator g s n = false ∧ Finds g s' n h ∧ isAllocator g s' n = true ∧
      ∀ m, m ≠ n → isAllocator g s' m = isAllocator g s m ∧ ∀ a, Finds g s' m a ↔ Finds g s m a := by
  unfold addAlias at ha
  split at ha
  · exfalso
    cases hx : getByName g s n c with
    | ok v t => rw [hx] at ha; cases ha
    | err t => rw [hx] at ha; cases ha
    | ub => rw [hx] at ha; cases ha
  · rename_i hn
    cases ha
    refine ⟨by simpa using hn, ?_, ?_, ?_⟩
    · rw [finds_iff]; exact ⟨get_put_self _ _ _, ho⟩
    · unfold isAllocator; dsimp only; rw [get_put_self]; rfl
    · intro m hm
      refine ⟨?_, ?_⟩
      · unfold isAllocator; dsimp only; rw [get_put_ne _ _ hm]
      · intro a
        rw [finds_iff, finds_iff]
        dsimp only
        rw [get_put_ne _ _ hm]
        exact Iff.rfl

/-- **C29** A free name can always be made an alias. -/
theorem alias_free (g : Reg) (s : RM) (n : Name) (h : Nat) (c : Bool)
    (hn : isAllocator g s n = false) : ∃ s', addAlias g s n h c = .ok h s' := by
  unfold addAlias
  rw [if_neg (by rw [hn]; simp)]
  exact ⟨_, rfl⟩

/-- **C29** `addAlias` with a taken name throws; if the name belongs to an existing
allocator nothing changes. -/
theorem alias_taken (g : Reg) (s : RM) (n : Name) (h : Nat) (c : Bool)
    (ht : isAllocator g s n = true) : ∀ a s', addAlias g s n h c ≠ .ok a s' := by
  intro a s' ha
  unfold addAlias at ha
  rw [if_pos ht] at ha
  cases hx : getByName g s n c with
  | ok v t => rw [hx] at ha; cases ha
  | err t => rw [hx] at ha; cases ha
  | ub => rw [hx] at ha; cases ha

theorem alias_taken_unchanged (g : Reg) (s : RM) (n : Name) (h a : Nat) (c : Bool)
    (hf : Finds g s n a) : addAlias g s n h c = .err s := by
  have hg := (finds_iff.mp hf).1
  unfold addAlias
  rw [if_pos (by unfold isAllocator; rw [hg]; rfl), hf c]
  rfl

/-- **C29, counterexample** `addAlias` with the name of a resource that has not
been used yet throws, but creates the resource: the list of allocator names and
ids has grown. -/
theorem alias_taken_counterexample :
    ∃ s s', run hostReg init [.make "A".toList true] = some s ∧
      addAlias hostReg s HOST 2 true = .err s' ∧ names s = ["A".toList] ∧
      names s' = [HOST, "A".toList] ∧ ids s' = [3, 2] := by
  refine ⟨_, _, rfl, rfl, ?_, ?_, ?_⟩ <;> decide

/-- **C29** (partial: see `lookup_name_counterexample`) An alias stays a name of
its allocator through any program that does not remove it and creates no memory
resource that takes it over. -/
theorem alias_lasts_partial (g : Reg) (s s' s'' : RM) (n : Name) (h h' : Nat) (c : Bool)
    (post : List Op) (ho : (obj s h).isSome = true) (ha : addAlias g s n h c = .ok h' s')
    (hp : run g s' post = some s'') (hu : Unclaimed g n post) (hno : ∀ d, Op.unalias n d ∉ post) :
    Finds g s'' n h := by
  have hf := (alias_adds g s s' n h h' c ho ha).2.1
  rw [finds_iff] at hf ⊢
  obtain ⟨o, ho'⟩ := Option.isSome_iff_exists.mp hf.2
  refine ⟨run_name hp hf.1 hu (.inr ?_), by rw [run_obj hp ho']; rfl⟩
  intro op hop d he
  rw [he] at hop
  exact hno d hop

theorem removeAlias_ok {g : Reg} {s s' : RM} {n : Name} {h h' : Nat}
    (hr : removeAlias g s n h = .ok h' s') :
    ∃ a o o', get s.byName n = some a ∧ obj s a = some o ∧ obj s h = some o' ∧ o.name ≠ n ∧
      o.id = o'.id ∧ s' = { s with byName := del s.byName n } := by
  unfold removeAlias at hr
  split at hr
  · cases hr
  · split at hr
    · cases hr
    · rename_i a ha
      split at hr
      · cases hr
      · rename_i o ho
        split at hr
        · cases hr
        · rename_i hne
          split at hr
          · cases hr
          · rename_i o' ho'
            split at hr
            · cases hr
            · rename_i he
              cases hr
              exact ⟨a, o, o', ha, ho, ho', hne, by simpa using he, rfl⟩

/-- **C29** A successful `removeAlias(n, h)` — in any reachable state — removes a
name that was an extra name of `h` itself; `n` is no longer found (unless it is a
resource name, which is created anew); every other name is found, or not, exactly
as before. -/
theorem unalias_removes (g : Reg) (pre : List Op) (s s' : RM) (n : Name) (h h' : Nat)
    (hr : run g init pre = some s) (hu : removeAlias g s n h = .ok h' s') :
    Finds g s n h ∧ (∃ o, obj s h = some o ∧ o.name ≠ n) ∧ (∀ a, ¬ Finds g s' n a) ∧
      isAllocator g s' n = g.names.contains n ∧
      ∀ m, m ≠ n → isAllocator g s' m = isAllocator g s m ∧ ∀ a, Finds g s' m a ↔ Finds g s m a := by
  obtain ⟨a, o, o', h1, h2, h3, h4, h5, h6⟩ := removeAlias_ok hu
  have hah := (run_inv Inv.init hr).inj a h o o' h2 h3 h5
  subst hah
  subst h6
  refine ⟨?_, ⟨o, h2, h4⟩, ?_, ?_, ?_⟩
  · rw [finds_iff]; exact ⟨h1, by rw [h2]; rfl⟩
  · intro b hb
    rw [finds_iff] at hb
    dsimp only at hb
    rw [get_del_self] at hb
    cases hb.1
  · unfold isAllocator; dsimp only; rw [get_del_self]; rfl
  · intro m hm
    refine ⟨?_, ?_⟩
    · unfold isAllocator; dsimp only; rw [get_del_ne _ hm]
    · intro b
      rw [finds_iff, finds_iff]
      dsimp only
      rw [get_del_ne _ hm]
      exact Iff.rfl

/-- **C29** `removeAlias` undoes `addAlias`: the manager is in exactly the state it
was in before (for an allocator that is not itself called `n`). -/
theorem alias_round_trip (g : Reg) (s s' : RM) (n : Name) (h h' : Nat) (c : Bool) (o : Obj)
    (ho : obj s h = some o) (hne : o.name ≠ n) (ha : addAlias g s n h c = .ok h' s') :
    removeAlias g s' n h = .ok h s := by
  have h0 := alias_adds g s s' n h h' c (by rw [ho]; rfl) ha
  unfold addAlias at ha
  rw [if_neg (by rw [h0.1]; simp)] at ha
  injection ha with ha1 ha2
  have hnone : get s.byName n = none := by
    have := h0.1
    unfold isAllocator at this
    cases hg : get s.byName n with
    | none => rfl
    | some x => rw [hg] at this; cases this
  have hdel : del (put s.byName n h) n = s.byName := by
    unfold del put
    rw [List.filter_cons, if_neg (by simp)]
    rw [filter_absent hnone, filter_absent hnone]
  unfold removeAlias
  rw [if_neg (by rw [h0.2.2.1]; simp)]
  have hg : get s'.byName n = some h := by rw [← ha2]; exact get_put_self _ _ _
  have hobj : obj s' h = some o := by rw [← ha2]; exact ho
  simp only [hg, hobj]
  rw [if_neg hne, if_neg (by simp)]
  rw [← ha2]
  simp only [hdel]

/-- **C29** `removeAlias` throws and changes nothing for a name nobody has, for
the allocator's own name, and for a name of another allocator. -/
theorem unalias_unknown (g : Reg) (s : RM) (n : Name) (h : Nat)
    (hn : isAllocator g s n = false) : removeAlias g s n h = .err s := by
  unfold removeAlias
  rw [if_pos (by rw [hn]; rfl)]

theorem unalias_own_name (g : Reg) (s : RM) (n : Name) (h a : Nat) (o : Obj)
    (hf : Finds g s n a) (ho : obj s a = some o) (hn : o.name = n) :
    removeAlias g s n h = .err s := by
  have h1 := (finds_iff.mp hf).1
  unfold removeAlias
  rw [if_neg (by unfold isAllocator; rw [h1]; simp)]
  simp only [h1, ho]
  rw [if_pos hn]

theorem unalias_other (g : Reg) (pre : List Op) (s : RM) (n : Name) (h a : Nat)
    (hr : run g init pre = some s) (hf : Finds g s n a) (hne : a ≠ h)
    (hh : (obj s h).isSome = true) : removeAlias g s n h = .err s := by
  have hi := run_inv Inv.init hr
  obtain ⟨h1, h2⟩ := finds_iff.mp hf
  obtain ⟨o, ho⟩ := Option.isSome_iff_exists.mp h2
  obtain ⟨o', ho'⟩ := Option.isSome_iff_exists.mp hh
  unfold removeAlias
  rw [if_neg (by unfold isAllocator; rw [h1]; simp)]
  simp only [h1, ho, ho']
  split
  · rfl
  · rw [if_pos]
    intro he
    exact hne (hi.inj a h o o' ho ho' he)

/-- **C29, counterexample** `removeAlias` with the name of a resource that has not
been used yet is undefined behaviour (it dereferences `end()`) instead of the
documented error. -/
theorem unalias_resource_counterexample :
    ∃ s, run hostReg init [.make "A".toList true] = some s ∧ removeAlias hostReg s HOST 2 = .ub := by
  refine ⟨_, rfl, ?_⟩
  decide

/-- Non-vacuity of the alias theorems: an alias is added, kept through other
calls, and removed. -/
example : ∃ s s' s'' s3, run hostReg init [.make "A".toList true, .make "B".toList true] = some s ∧
    addAlias hostReg s "X".toList 3 true = .ok 3 s' ∧
    run hostReg s' [.alias "X".toList 2 true, .unalias "X".toList 2, .byName HOST true] = some s'' ∧
    Finds hostReg s'' "X".toList 3 ∧
    removeAlias hostReg s'' "X".toList 3 = .ok 3 s3 ∧ isAllocator hostReg s3 "X".toList = false := by
  refine ⟨_, _, _, _, rfl, rfl, rfl, ?_, rfl, ?_⟩
  · rw [finds_iff]; decide
  · decide

/-! ### Absence of undefined behaviour -/

/-- Every pointer in the manager's tables is to a live object. -/
structure Live (s : RM) : Prop where
  byName : ∀ n h, get s.byName n = some h → (obj s h).isSome = true
  all : ∀ e ∈ s.byName, (obj s e.2).isSome = true
  byType : ∀ t h, get s.byType t = some h → (obj s h).isSome = true
  dflt : ∀ h, s.dflt = some h → (obj s h).isSome = true

/-- The calls a program may make: explicit `makeResource` only with names that
either have a device suffix or are one of the eight known names; `removeAlias`
only with names that are not resource names; handles of existing allocators. -/
def Legal (g : Reg) (s : RM) : Op → Prop
  | .resource n _ => has COLONS n = true ∨ (ofName n).isSome = true
  | .resourceT n _ => has COLONS n = true ∨ (ofName n).isSome = true
  | .setDefault h => (obj s h).isSome = true
  | .alias _ h _ => (obj s h).isSome = true
  | .unalias n h => n ∉ g.names ∧ (obj s h).isSome = true
  | _ => True

/-- A program all of whose calls are legal when they are made. -/
def LegalRun (g : Reg) : RM → List Op → Prop
  | _, [] => True
  | s, o :: os => Legal g s o ∧ ∀ s', (step g s o).after = some s' → LegalRun g s' os

/-- The registry's own resource names are all of the kinds `makeResource`
understands (true of every build: MemoryResourceRegistry.cpp:67-246). -/
def RegOk (g : Reg) : Prop := ∀ n ∈ g.names, has COLONS n = true ∨ (ofName n).isSome = true

theorem errInfo_live {s : RM} (hl : Live s) : errInfo s = .err s := by
  unfold errInfo
  rw [if_pos]
  exact List.all_eq_true.mpr fun e he => hl.all e he

theorem wrap_live {s : RM} {h : Nat} (hh : (obj s h).isSome = true) : wrap s h = .ok h s := by
  unfold wrap
  obtain ⟨o, ho⟩ := Option.isSome_iff_exists.mp hh
  rw [ho]

/-- A result that is not undefined behaviour and leaves live tables; a returned
handle is live. -/
def Good (x : Out Nat) : Prop :=
  match x with
  | .ok h s => Live s ∧ (obj s h).isSome = true
  | .err s => Live s
  | .ub => False

theorem live_push {s s' : RM} {n : Name} {i : Nat} (hl : Live s)
    (h1 : s'.heap = s.heap ++ [some ⟨n, i⟩])
    (h2 : ∀ e ∈ s'.byName, e.2 = s.heap.length ∨ e ∈ s.byName)
    (h3 : ∀ t h, get s'.byType t = some h → h = s.heap.length ∨ get s.byType t = some h)
    (h4 : s'.dflt = s.dflt) : Live s' := by
  have hnew : (obj s' s.heap.length).isSome = true := by rw [obj_new h1]; rfl
  have hold : ∀ {h : Nat}, (obj s h).isSome = true → (obj s' h).isSome = true := by
    intro h hh
    obtain ⟨o, ho⟩ := Option.isSome_iff_exists.mp hh
    rw [obj_append h1 (obj_lt ho)]; exact hh
  have hall : ∀ e ∈ s'.byName, (obj s' e.2).isSome = true := by
    intro e he
    rcases h2 e he with h | h
    · rw [h]; exact hnew
    · exact hold (hl.all e h)
  refine ⟨fun n h hg => hall (n, h) (get_mem hg), hall, ?_, ?_⟩
  · intro t h hg
    rcases h3 t h hg with e | e
    · rw [e]; exact hnew
    · exact hold (hl.byType t h e)
  · intro h hd
    rw [h4] at hd
    exact hold (hl.dflt h hd)

theorem Live.burn {s : RM} (hl : Live s) (k : Nat) : Live { s with nextId := k } :=
  ⟨hl.byName, hl.all, hl.byType, hl.dflt⟩

theorem makeResourceT_good {g : Reg} {s : RM} {n : Name} {c : Bool} (hl : Live s)
    (hn : has COLONS n = true ∨ (ofName n).isSome = true) : Good (makeResourceT g s n c) := by
  unfold makeResourceT
  split
  · exact hl
  · split
    · exact hl
    · dsimp only
      split
      · exact hl.burn _
      · split
        · refine ⟨live_push (i := s.nextId) (n := n) hl rfl ?_ ?_ rfl, ?_⟩
          · intro e he; exact nameIt_mem he
          · intro t h hg; exact .inr hg
          · exact (congrArg Option.isSome (obj_new (s := s) rfl)).trans rfl
        · rename_i hc
          have ho : (ofName n).isSome = true := hn.resolve_left hc
          obtain ⟨t, ht⟩ := Option.isSome_iff_exists.mp ho
          rw [ht]
          refine ⟨live_push (i := s.nextId) (n := n) hl rfl ?_ ?_ rfl, ?_⟩
          · intro e he; exact nameIt_mem he
          · intro t' h hg
            dsimp only at hg
            rw [get_put] at hg
            split at hg
            · cases hg; exact .inl rfl
            · exact .inr hg
          · exact (congrArg Option.isSome (obj_new (s := s) rfl)).trans rfl

theorem makeResource_good {g : Reg} {s : RM} {n : Name} {c : Bool} (hl : Live s)
    (hn : has COLONS n = true ∨ (ofName n).isSome = true) : Good (makeResource g s n c) := by
  unfold makeResource
  split
  · exact makeResourceT_good hl hn
  · exact hl

theorem makeResource_named {g : Reg} {s s' : RM} {n : Name} {c : Bool} {h : Nat}
    (hm : makeResource g s n c = .ok h s') : get s'.byName n = some h := by
  unfold makeResource at hm
  split at hm
  · unfold makeResourceT at hm
    split at hm
    · cases hm
    · split at hm
      · cases hm
      · dsimp only at hm
        split at hm
        · cases hm
        · split at hm
          · cases hm; exact nameIt_self
          · split at hm
            · cases hm
            · cases hm; exact nameIt_self
  · cases hm

theorem getByName_good {g : Reg} {s : RM} {n : Name} {c : Bool} (hl : Live s) (hg : RegOk g) :
    Good (getByName g s n c) := by
  unfold getByName getStrategy
  cases hn : get s.byName n with
  | some h =>
    simp only [Out.bind]
    have := hl.byName n h hn
    rw [wrap_live this]
    exact ⟨hl, this⟩
  | none =>
    simp only
    split
    · rename_i hc
      have hgood := makeResource_good (g := g) (c := c) hl (hg n (by simpa using hc))
      cases hm : makeResource g s n c with
      | ub => rw [hm] at hgood; exact hgood.elim
      | err s' => rw [hm] at hgood; exact hgood
      | ok h s' =>
        rw [hm] at hgood
        simp only [Out.bind, makeResource_named hm]
        rw [wrap_live hgood.2]
        exact hgood
    · rw [errInfo_live hl]; exact hl

theorem step_good {g : Reg} {s : RM} {op : Op} (hl : Live s) (hi : Inv s) (hg : RegOk g)
    (hop : Legal g s op) : Good (step g s op) := by
  cases op with
  | make n c =>
    show Good (makeAllocator g s n c)
    unfold makeAllocator
    split
    · exact hl
    · split
      · exact hl
      · dsimp only
        split
        · exact hl.burn _
        · refine ⟨live_push (i := s.nextId) (n := n) hl rfl ?_ ?_ rfl, ?_⟩
          · intro e he
            rcases mem_put he with h | h
            · exact .inl (by rw [h])
            · exact .inr h
          · intro t h hg; exact .inr hg
          · exact (congrArg Option.isSome (obj_new (s := s) rfl)).trans rfl
  | resource n c => exact makeResource_good hl hop
  | resourceT n c => exact makeResourceT_good hl hop
  | byName n c => exact getByName_good hl hg
  | byType t c =>
    show Good (getByType g s t c)
    unfold getByType
    split
    · rename_i h hh
      have := hl.byType t h hh
      rw [wrap_live this]; exact ⟨hl, this⟩
    · split
      · exact getByName_good hl hg
      · exact hl
  | byId i =>
    show Good (getById s i)
    unfold getById
    split
    · exact hl
    · split
      · exact hl
      · split
        · rename_i h hh
          obtain ⟨o, ho, _⟩ := hi.byId _ _ hh
          have : (obj s h).isSome = true := by rw [ho]; rfl
          rw [wrap_live this]; exact ⟨hl, this⟩
        · rw [errInfo_live hl]; exact hl
  | getDefault c =>
    show Good (getDefault g s c)
    unfold getDefault
    split
    · rename_i h hh
      have := hl.dflt h hh
      rw [wrap_live this]; exact ⟨hl, this⟩
    · have hgood := getByName_good (n := HOST) (c := c) hl hg
      cases hm : getByName g s HOST c with
      | ub => rw [hm] at hgood; exact hgood.elim
      | err s' => rw [hm] at hgood; exact hgood
      | ok h s' =>
        rw [hm] at hgood
        refine ⟨⟨hgood.1.byName, hgood.1.all, hgood.1.byType, ?_⟩, hgood.2⟩
        intro h' hd
        cases hd; exact hgood.2
  | setDefault h =>
    show Good (setDefault s h)
    unfold setDefault
    rw [wrap_live hop]
    refine ⟨⟨hl.byName, hl.all, hl.byType, ?_⟩, hop⟩
    intro h' hd
    cases hd; exact hop
  | alias n h c =>
    show Good (addAlias g s n h c)
    unfold addAlias
    split
    · have hgood := getByName_good (n := n) (c := c) hl hg
      cases hm : getByName g s n c with
      | ub => rw [hm] at hgood; exact hgood.elim
      | err s' => rw [hm] at hgood; exact hgood
      | ok h s' => rw [hm] at hgood; exact hgood.1
    · have hall : ∀ e ∈ put s.byName n h, (obj s e.2).isSome = true := by
        intro e he
        rcases mem_put he with x | x
        · rw [x]; exact hop
        · exact hl.all e x
      exact ⟨⟨fun m a hm => hall (m, a) (get_mem hm), hall, hl.byType, hl.dflt⟩, hop⟩
  | unalias n h =>
    show Good (removeAlias g s n h)
    obtain ⟨hn, hh⟩ := hop
    obtain ⟨o', ho'⟩ := Option.isSome_iff_exists.mp hh
    unfold removeAlias
    split
    · exact hl
    · rename_i hal
      cases hg' : get s.byName n with
      | none =>
        exfalso
        apply hal
        unfold isAllocator
        rw [hg']
        simp [hn]
      | some a =>
        obtain ⟨o, ho⟩ := Option.isSome_iff_exists.mp (hl.byName n a hg')
        simp only [ho, ho']
        split
        · exact hl
        · split
          · exact hl
          · have hall : ∀ e ∈ del s.byName n, (obj s e.2).isSome = true :=
              fun e he => hl.all e (mem_del he)
            exact ⟨⟨fun m a hm => hall (m, a) (get_mem hm), hall, hl.byType, hl.dflt⟩, hh⟩

theorem live_init : Live init := by
  refine ⟨?_, ?_, ?_, ?_⟩
  · intro n h hg; simp [init, get] at hg
  · intro e he; cases he
  · intro t h hg; simp [init, get] at hg
  · intro h hd; cases hd

/-- **C28/C29** (partial: see `dangling_name_counterexample` and
`unalias_resource_counterexample`) Any program that calls `makeResource` only with
proper resource names and `removeAlias` only with names that are not resource
names never uses a destroyed allocator or a missing table entry, whichever
constructors fail. -/
theorem lookup_safe_partial (g : Reg) (hg : RegOk g) (os : List Op) (hlr : LegalRun g init os) :
    ∃ s, run g init os = some s := by
  suffices ∀ s, Live s → Inv s → LegalRun g s os → ∃ s', run g s os = some s' from
    this init live_init Inv.init hlr
  clear hlr
  induction os with
  | nil => intro s _ _ _; exact ⟨s, rfl⟩
  | cons o os ih =>
    intro s hl hi hlr
    have hgood := step_good hl hi hg hlr.1
    have hx : ∃ s1, (step g s o).after = some s1 ∧ Live s1 := by
      cases hs : step g s o with
      | ok v s1 => rw [hs] at hgood; exact ⟨s1, rfl, hgood.1⟩
      | err s1 => rw [hs] at hgood; exact ⟨s1, rfl, hgood⟩
      | ub => rw [hs] at hgood; exact hgood.elim
    obtain ⟨s1, h1, h2⟩ := hx
    obtain ⟨s', h3⟩ := ih s1 h2 (hi.step (step_change h1)) (hlr.2 s1 h1)
    refine ⟨s', ?_⟩
    unfold run
    rw [h1]; exact h3

example : RegOk hostReg ∧ RegOk gpuReg := by
  constructor <;> (unfold RegOk; decide)

example : LegalRun hostReg init [.resource "HOST::7".toList true, .make "A".toList true,
    .alias "X".toList 3 true, .unalias "X".toList 3, .byName "NOSUCH".toList true] := by
  refine ⟨.inl (by decide), ?_⟩
  intro s1 h1
  cases h1
  refine ⟨trivial, ?_⟩
  intro s2 h2
  cases h2
  refine ⟨by show (obj _ _).isSome = true; decide, ?_⟩
  intro s3 h3
  cases h3
  refine ⟨⟨by decide, by show (obj _ _).isSome = true; decide⟩, ?_⟩
  intro s4 h4
  cases h4
  exact ⟨trivial, fun _ _ => trivial⟩

end Umpire.Names
