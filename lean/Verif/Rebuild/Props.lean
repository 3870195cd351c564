import Verif.Rebuild.Model
/-!
# C67: replay rebuilds the allocators of the program
-/
set_option autoImplicit false
set_option linter.unusedSimpArgs false
namespace Umpire.Rebuild
open Umpire.Events (Event Str get set dec hexF)

/-! ## Specification -/

/-- What a constructor works with, after the defaults of its declaration are filled in. -/
inductive Par
  | advisor (advice acc : Str) (dev : Int)
  | prefetcher (dev : Int)
  | numa (node : Int)
  | named
  | threadSafe
  | shim
  | aligned (al : Nat)
  | pool (k : Kind) (first next al : Nat) (h : Heur)
  | monotonic (cap : Nat)
  | slots (n : Nat)
  | limiter (n : Nat)
  | fixed (bytes per : Nat)
  | mixed (smallest largest maxFixed mult init min al : Nat) (h : Heur)
deriving DecidableEq, Repr

/-- The parameters of a call.  An advisor without accessing allocator advises for its parent
(AllocationAdvisor.cpp). -/
def Made.par (m : Made) : Par :=
  match m.strat with
  | .advisor a acc dev => .advisor a (acc.getD m.base) (dev.getD 0)
  | .prefetcher dev => .prefetcher (dev.getD 0)
  | .numa n => .numa n
  | .named => .named
  | .threadSafe => .threadSafe
  | .shim => .shim
  | .aligned al => .aligned (al.getD 16)
  | .pool k l h => .pool k (l.getD 0 536870912) (l.getD 1 1048576) (l.getD 2 16) (h.getD (.percentHwm 100))
  | .monotonic n => .monotonic n
  | .slots n => .slots n
  | .limiter n => .limiter n
  | .fixed b p => .fixed b (p.getD 2048)
  | .mixed l h => .mixed (l.getD 0 256) (l.getD 1 131072) (l.getD 2 2097152) (l.getD 3 16) (l.getD 4 536870912) (l.getD 5 1048576)
      (l.getD 6 16) (h.getD (.percent 100))

/-- What the user of the tool asked for instead: another pool, another heuristic for pools. -/
def Par.chosen (o : Opts) : Par → Par
  | .pool k a b c h => .pool (o.pool.getD k) a b c (o.heur.getD h)
  | p => p

/-- The range of `int`. -/
def IntOk (i : Int) : Prop := -2 ^ 31 ≤ i ∧ i < 2 ^ 31

/-- Calls that compile: the values fit their types, and arguments are left out only at the end. -/
def Strat.Wf : Strat → Prop
  | .advisor _ _ dev => ∀ d, dev = some d → IntOk d
  | .prefetcher dev => ∀ d, dev = some d → IntOk d
  | .numa n => IntOk n
  | .named | .threadSafe | .shim => True
  | .aligned al => ∀ n, al = some n → n < 2 ^ 64
  | .pool _ l h => l.length ≤ 3 ∧ (∀ n ∈ l, n < 2 ^ 64) ∧ (h ≠ none → l.length = 3)
  | .monotonic n | .slots n | .limiter n => n < 2 ^ 64
  | .fixed b p => b < 2 ^ 64 ∧ ∀ n, p = some n → n < 2 ^ 64
  | .mixed l h => l.length ≤ 7 ∧ (∀ n ∈ l, n < 2 ^ 64) ∧ (h ≠ none → l.length = 7)

/-- A text that fits the fields of the tool. -/
def Fits (s : Str) : Prop := s.length < 512 ∧ 0 ∉ s

/-- The calls that survive. -/
def Faithful (o : Opts) (m : Made) : Prop :=
  Fits m.name ∧ Fits m.base ∧
  match m.strat with
  | .advisor a acc dev => Fits a ∧ (∀ s, acc = some s → Fits s) ∧ (∀ d, dev = some d → 0 ≤ d)
  | .prefetcher dev => ∀ d, dev = some d → d = 0
  | .numa _ => o.numa = true
  | .shim | .aligned _ => False
  | .pool _ l h =>
      (∀ n, l[2]? = some n → n < 2 ^ 31 ∨ 2 ^ 64 - 2 ^ 31 ≤ n) ∧
      match o.heur with
      | none => ∀ x, h = some x → x = .percentHwm 100
      | some x => m.tracked = true ∨ x = .percentHwm 100
  | .mixed _ h => ∀ x, h = some x → x = .percent 100
  | _ => True

/-- The allocator that replay made is the one of the program, up to what the user asked for. -/
def Same (o : Opts) (m m' : Made) : Prop :=
  m'.name = m.name ∧ m'.tracked = m.tracked ∧ m'.base = m.base ∧ m'.par = m.par.chosen o

/-! ## Proofs -/

theorem takeWhile_id {s : Str} (h : 0 ∉ s) : s.takeWhile (· != 0) = s := by
  induction s with
  | nil => rfl
  | cons b s ih =>
    simp only [List.mem_cons, not_or] at h
    rw [List.takeWhile_cons, if_pos (by simpa using fun h0 => h.1 h0.symm), ih h.2]

theorem takeWhile_mem {s : Str} : 0 ∉ s.takeWhile (· != 0) := by
  induction s with
  | nil => simp
  | cons b s ih =>
    rw [List.takeWhile_cons]
    split
    · rename_i hb
      simp at hb
      simp only [List.mem_cons, not_or]
      exact ⟨fun h => hb h.symm, ih⟩
    · simp

theorem copy_fits {s : Str} (h : Fits s) : copyString s = some s := by
  unfold copyString maxName
  rw [if_neg (by have := h.1; omega), takeWhile_id h.2]

theorem copy_same {s : Str} : copyString s = some s ↔ Fits s := by
  refine ⟨fun h => ?_, copy_fits⟩
  unfold copyString maxName at h
  split at h
  · simp at h
  · rename_i hl
    refine ⟨by omega, ?_⟩
    have h' := Option.some.inj h
    rw [← h']
    exact takeWhile_mem

theorem wrap_nat {d : Int} (h : IntOk d) : toInt (wrap d) = d := by
  obtain ⟨h1, h2⟩ := h
  unfold toInt wrap
  by_cases hd : 0 ≤ d
  · have hm : d % 2 ^ 64 = d := Int.emod_eq_of_lt hd (by omega)
    rw [hm]
    have : d.toNat % 2 ^ 32 = d.toNat := Nat.mod_eq_of_lt (by omega)
    rw [this, if_pos (by omega)]
    omega
  · have hm : d % 2 ^ 64 = d + 2 ^ 64 := by
      rw [← Int.add_emod_right, Int.emod_eq_of_lt (by omega) (by omega)]
    rw [hm]
    have : (d + 2 ^ 64).toNat % 2 ^ 32 = (d + 2 ^ 32).toNat := by omega
    rw [this, if_neg (by omega)]
    omega

theorem wrap_toInt {n : Nat} (h : n < 2 ^ 64) : wrap (toInt n) = n ↔ n < 2 ^ 31 ∨ 2 ^ 64 - 2 ^ 31 ≤ n := by
  unfold toInt wrap
  split
  · omega
  · omega

/-! ### What the tool does, form by form -/

/-- The classes of the library. -/
def classes : List Str :=
  [b!"AllocationAdvisor", b!"AllocationPrefetcher", b!"NumaPolicy", b!"NamedAllocationStrategy", b!"ThreadSafeAllocator", b!"NamingShim",
    b!"AlignedAllocator", b!"QuickPool", b!"DynamicPoolList", b!"MonotonicAllocationStrategy", b!"SlotPool", b!"SizeLimiter", b!"FixedPool",
    b!"MixedPool"]

theorem cls_mem (s : Strat) : s.cls ∈ classes := by
  cases s with
  | pool k l h => cases k <;> simp [Strat.cls, classes]
  | _ => simp [Strat.cls, classes]

theorem demangle_classes : ∀ c ∈ classes, demangle (if (mangled c).take 2 = b!"_Z" then mangled c else b!"_Z" ++ mangled c) = some (full c) := by
  decide +kernel

theorem typeOf_cls {major : Nat} (h : 2 ≤ major) (s : Strat) : typeOf false major (mangled s.cls) = some (full s.cls) := by
  unfold typeOf
  rw [if_pos (by simp [h])]
  exact demangle_classes _ (cls_mem s)

theorem pool_forms {l : List Nat} (h : l.length ≤ 3) :
    l = [] ∨ (∃ a, l = [a]) ∨ (∃ a b, l = [a, b]) ∨ ∃ a b c, l = [a, b, c] := by
  match l, h with
  | [], _ => exact .inl rfl
  | [a], _ => exact .inr (.inl ⟨a, rfl⟩)
  | [a, b], _ => exact .inr (.inr (.inl ⟨a, b, rfl⟩))
  | [a, b, c], _ => exact .inr (.inr (.inr ⟨a, b, c, rfl⟩))

theorem mixed_forms {l : List Nat} (h : l.length ≤ 7) :
    l = [] ∨ (∃ a, l = [a]) ∨ (∃ a b, l = [a, b]) ∨ (∃ a b c, l = [a, b, c]) ∨ (∃ a b c d, l = [a, b, c, d]) ∨
      (∃ a b c d e, l = [a, b, c, d, e]) ∨ (∃ a b c d e f, l = [a, b, c, d, e, f]) ∨ ∃ a b c d e f g, l = [a, b, c, d, e, f, g] := by
  match l, h with
  | [], _ => exact .inl rfl
  | [a], _ => exact .inr (.inl ⟨a, rfl⟩)
  | [a, b], _ => exact .inr (.inr (.inl ⟨a, b, rfl⟩))
  | [a, b, c], _ => exact .inr (.inr (.inr (.inl ⟨a, b, c, rfl⟩)))
  | [a, b, c, d], _ => exact .inr (.inr (.inr (.inr (.inl ⟨a, b, c, d, rfl⟩))))
  | [a, b, c, d, e], _ => exact .inr (.inr (.inr (.inr (.inr (.inl ⟨a, b, c, d, e, rfl⟩)))))
  | [a, b, c, d, e, f], _ => exact .inr (.inr (.inr (.inr (.inr (.inr (.inl ⟨a, b, c, d, e, f, rfl⟩))))))
  | [a, b, c, d, e, f, g], _ => exact .inr (.inr (.inr (.inr (.inr (.inr (.inr ⟨a, b, c, d, e, f, g, rfl⟩))))))

/-- The parts of the event that are the same for all classes. -/
structure Head (ref : Nat) (m : Made) (t : Int) : Prop where
  name : get b!"allocator_name" (makeEvent ref m t).tags = some m.name
  type : strArg (makeEvent ref m t) b!"type" = mangled m.strat.cls
  intro : numArg (makeEvent ref m t) b!"introspection" = if m.tracked then 1 else 0
  base : strArg (makeEvent ref m t) b!"arg0" = m.base

theorem head (ref : Nat) (m : Made) (t : Int) (hw : m.strat.Wf) : Head ref m t := by
  obtain ⟨n, tr, b, s⟩ := m
  cases s with
  | advisor a acc dev => cases acc <;> cases dev <;> exact ⟨rfl, rfl, rfl, rfl⟩
  | prefetcher dev => cases dev <;> exact ⟨rfl, rfl, rfl, rfl⟩
  | numa _ => exact ⟨rfl, rfl, rfl, rfl⟩
  | named => exact ⟨rfl, rfl, rfl, rfl⟩
  | threadSafe => exact ⟨rfl, rfl, rfl, rfl⟩
  | shim => exact ⟨rfl, rfl, rfl, rfl⟩
  | aligned al => cases al <;> exact ⟨rfl, rfl, rfl, rfl⟩
  | pool k l h =>
    obtain ⟨h1, _, h2⟩ := hw
    rcases pool_forms h1 with rfl | ⟨_, rfl⟩ | ⟨_, _, rfl⟩ | ⟨_, _, _, rfl⟩ <;> cases h <;> exact ⟨rfl, rfl, rfl, rfl⟩
  | monotonic _ => exact ⟨rfl, rfl, rfl, rfl⟩
  | slots _ => exact ⟨rfl, rfl, rfl, rfl⟩
  | limiter _ => exact ⟨rfl, rfl, rfl, rfl⟩
  | fixed _ p => cases p <;> exact ⟨rfl, rfl, rfl, rfl⟩
  | mixed l h =>
    obtain ⟨h1, _, h2⟩ := hw
    rcases mixed_forms h1 with rfl | ⟨_, rfl⟩ | ⟨_, _, rfl⟩ | ⟨_, _, _, rfl⟩ | ⟨_, _, _, _, rfl⟩ | ⟨_, _, _, _, _, rfl⟩ |
      ⟨_, _, _, _, _, _, rfl⟩ | ⟨_, _, _, _, _, _, _, rfl⟩ <;> cases h <;> exact ⟨rfl, rfl, rfl, rfl⟩

/-- The entry before the class is looked at. -/
def start (n : Str) (tr : Bool) : Entry := ⟨.resource, tr, n, [], 1, {}⟩

theorem rebuild_eq {o : Opts} {major ref : Nat} {m : Made} {t : Int} (h2 : 2 ≤ major) (hw : m.strat.Wf) :
    rebuild o false major ref m t =
      match (copyString m.name).bind fun n => compileClass (full m.strat.cls) (makeEvent ref m t) (start n m.tracked) with
      | some x => make o x
      | none => .exits := by
  have hh := head ref m t hw
  unfold rebuild compileMake
  rw [hh.name, hh.type, hh.intro, typeOf_cls h2]
  have : decide ((if m.tracked = true then 1 else 0) = 1) = m.tracked := by cases m.tracked <;> rfl
  rw [this]
  rfl

/-- Replay makes the allocator of the call. -/
def Rebuilt (o : Opts) (major ref : Nat) (m : Made) (t : Int) : Prop := ∃ m', rebuild o false major ref m t = .made m' ∧ Same o m m'

theorem finish {o : Opts} {major ref : Nat} {m : Made} {t : Int} {ty : RType} {argc : Nat} {argv : Argv} {s' : Strat}
    (h2 : 2 ≤ major) (hw : m.strat.Wf)
    (hc : ∀ n, compileClass (full m.strat.cls) (makeEvent ref m t) (start n m.tracked) =
      (copyString m.base).bind fun b => some ⟨ty, m.tracked, n, b, argc, argv⟩)
    (hm : ∀ n b, make o ⟨ty, m.tracked, n, b, argc, argv⟩ = .made ⟨n, m.tracked, b, s'⟩) :
    Rebuilt o major ref m t ↔ Fits m.name ∧ Fits m.base ∧ Made.par ⟨m.name, m.tracked, m.base, s'⟩ = m.par.chosen o := by
  unfold Rebuilt
  rw [rebuild_eq h2 hw]
  constructor
  · rintro ⟨m', h, h1, h2, h3, h4⟩
    cases hn : copyString m.name with
    | none => rw [hn] at h; simp at h
    | some n =>
      rw [hn] at h
      simp only [Option.bind_some, hc] at h
      cases hb : copyString m.base with
      | none => rw [hb] at h; simp at h
      | some b =>
        rw [hb] at h
        simp only [Option.bind_some, hm] at h
        cases h
        simp only at h1 h3
        subst h1
        subst h3
        exact ⟨copy_same.1 hn, copy_same.1 hb, h4⟩
  · rintro ⟨h1, h3, h4⟩
    refine ⟨⟨m.name, m.tracked, m.base, s'⟩, ?_, rfl, rfl, rfl, h4⟩
    rw [copy_fits h1]
    simp only [Option.bind_some, hc]
    rw [copy_fits h3]
    simp only [Option.bind_some, hm]

theorem finish_not {o : Opts} {major ref : Nat} {m : Made} {t : Int} (h2 : 2 ≤ major) (hw : m.strat.Wf)
    (hc : ∀ n, compileClass (full m.strat.cls) (makeEvent ref m t) (start n m.tracked) = none) : ¬ Rebuilt o major ref m t := by
  rintro ⟨m', h, _⟩
  rw [rebuild_eq h2 hw] at h
  cases hn : copyString m.name with
  | none => rw [hn] at h; simp at h
  | some n => rw [hn] at h; simp [hc] at h

/-- The type of an entry for a pool. -/
def Kind.rtype : Kind → RType
  | .quick => .quick
  | .list => .list

theorem make_pool (o : Opts) (k : Kind) (tr : Bool) (n b : Str) (argc : Nat) (argv : Argv) :
    make o ⟨k.rtype, tr, n, b, argc, argv⟩ = makePool o (o.pool.getD k) ⟨k.rtype, tr, n, b, argc, argv⟩ := by
  unfold make Opts.type
  simp only
  cases o.pool with
  | none => cases k <;> rfl
  | some k' => cases k <;> cases k' <;> rfl

theorem pool_iff {o : Opts} {major ref : Nat} {n b : Str} {tr : Bool} {k : Kind} {l : List Nat} {h : Option Heur} {t : Int} (h2 : 2 ≤ major)
    (hw : (Strat.pool k l h).Wf) : Rebuilt o major ref ⟨n, tr, b, .pool k l h⟩ t ↔ Faithful o ⟨n, tr, b, .pool k l h⟩ := by
  have hw' := hw
  obtain ⟨hl, hn, hh⟩ := hw'
  rcases pool_forms hl with rfl | ⟨x, rfl⟩ | ⟨x, y, rfl⟩ | ⟨x, y, z, rfl⟩
  · cases h with
    | some h => exact absurd (hh (by simp)) (by simp)
    | none =>
      rw [finish (ty := k.rtype) (argc := 1) (argv := {})
        (s' := .pool (o.pool.getD k) (if o.heur = none then [] else [536870912, 1048576, 16]) (if tr then o.heur else none)) h2 hw
        (fun _ => by cases k <;> rfl)
        (fun n b => by
          rw [make_pool]
          cases ho : o.heur <;> cases tr <;> simp [makePool, ho])]
      unfold Faithful Made.par Par.chosen
      simp only
      cases o.heur with
      | none => simp
      | some x => cases tr <;> simp [eq_comm]
  · cases h with
    | some h => exact absurd (hh (by simp)) (by simp)
    | none =>
      rw [finish (ty := k.rtype) (argc := 2) (argv := { initial := x })
        (s' := .pool (o.pool.getD k) (if o.heur = none then [x] else [x, 1048576, 16]) (if tr then o.heur else none)) h2 hw
        (fun _ => by cases k <;> rfl)
        (fun n b => by
          rw [make_pool]
          cases ho : o.heur <;> cases tr <;> simp [makePool, ho])]
      unfold Faithful Made.par Par.chosen
      simp only
      cases o.heur with
      | none => simp
      | some x => cases tr <;> simp [eq_comm]
  · cases h with
    | some h => exact absurd (hh (by simp)) (by simp)
    | none =>
      rw [finish (ty := k.rtype) (argc := 3) (argv := { initial := x, min := y })
        (s' := .pool (o.pool.getD k) (if o.heur = none then [x, y] else [x, y, 16]) (if tr then o.heur else none)) h2 hw
        (fun _ => by cases k <;> rfl)
        (fun n b => by
          rw [make_pool]
          cases ho : o.heur <;> cases tr <;> simp [makePool, ho])]
      unfold Faithful Made.par Par.chosen
      simp only
      cases o.heur with
      | none => simp
      | some x => cases tr <;> simp [eq_comm]
  · rw [finish (ty := k.rtype) (argc := 4) (argv := { initial := x, min := y, align := toInt z })
      (s' := .pool (o.pool.getD k) [x, y, wrap (toInt z)] (if tr then o.heur else none)) h2 hw
      (fun _ => by cases k <;> cases h <;> rfl)
      (fun n b => by
        rw [make_pool]
        cases ho : o.heur <;> cases tr <;> simp [makePool, ho, ofInt])]
    have hz : z < 2 ^ 64 := hn z (by simp)
    have hz' := wrap_toInt hz
    unfold Faithful Made.par Par.chosen
    simp only [List.getD_eq_getElem?_getD, List.getElem?_cons_zero, List.getElem?_cons_succ, Option.getD_some, Par.pool.injEq, true_and,
      Option.some.injEq, forall_eq']
    rw [hz']
    cases o.heur with
    | none => cases tr <;> cases h <;> simp [eq_comm]
    | some x => cases tr <;> simp [eq_comm]

theorem mixed_iff {o : Opts} {major ref : Nat} {n b : Str} {tr : Bool} {l : List Nat} {h : Option Heur} {t : Int} (h2 : 2 ≤ major)
    (hw : (Strat.mixed l h).Wf) : Rebuilt o major ref ⟨n, tr, b, .mixed l h⟩ t ↔ Faithful o ⟨n, tr, b, .mixed l h⟩ := by
  have hw' := hw
  obtain ⟨hl, hn, hh⟩ := hw'
  have fin : ∀ argv, (∀ n', compileClass (full b!"MixedPool") (makeEvent ref ⟨n, tr, b, .mixed l h⟩ t) (start n' tr) =
      (copyString b).bind fun b => some ⟨.mixed, tr, n', b, l.length + 1, argv⟩) →
      (∀ n' b', makeMixed ⟨.mixed, tr, n', b', l.length + 1, argv⟩ = .mixed l none) →
      (Rebuilt o major ref ⟨n, tr, b, .mixed l h⟩ t ↔ Faithful o ⟨n, tr, b, .mixed l h⟩) := by
    intro argv h1 h3
    rw [finish (o := o) (m := ⟨n, tr, b, .mixed l h⟩) (ty := .mixed) (argc := l.length + 1) (argv := argv) (s' := .mixed l none) h2 hw h1 (fun n b => by
      unfold make
      have : o.type .mixed = .mixed := by
        unfold Opts.type
        cases o.pool with
        | none => rfl
        | some k => cases k <;> rfl
      simp only [this, h3])]
    unfold Faithful Made.par Par.chosen
    cases h <;> simp [eq_comm]
  rcases mixed_forms hl with rfl | ⟨a1, rfl⟩ | ⟨a1, a2, rfl⟩ | ⟨a1, a2, a3, rfl⟩ | ⟨a1, a2, a3, a4, rfl⟩ | ⟨a1, a2, a3, a4, a5, rfl⟩ |
      ⟨a1, a2, a3, a4, a5, a6, rfl⟩ | ⟨a1, a2, a3, a4, a5, a6, a7, rfl⟩
  · cases h with
    | some h => exact absurd (hh (by simp)) (by simp)
    | none => exact fin {} (fun _ => rfl) fun _ _ => rfl
  · cases h with
    | some h => exact absurd (hh (by simp)) (by simp)
    | none => exact fin { smallest := a1 } (fun _ => rfl) fun _ _ => rfl
  · cases h with
    | some h => exact absurd (hh (by simp)) (by simp)
    | none => exact fin { smallest := a1, largest := a2 } (fun _ => rfl) fun _ _ => rfl
  · cases h with
    | some h => exact absurd (hh (by simp)) (by simp)
    | none => exact fin { smallest := a1, largest := a2, maxFixed := a3 } (fun _ => rfl) fun _ _ => rfl
  · cases h with
    | some h => exact absurd (hh (by simp)) (by simp)
    | none => exact fin { smallest := a1, largest := a2, maxFixed := a3, mult := a4 } (fun _ => rfl) fun _ _ => rfl
  · cases h with
    | some h => exact absurd (hh (by simp)) (by simp)
    | none => exact fin { smallest := a1, largest := a2, maxFixed := a3, mult := a4, dynInit := a5 } (fun _ => rfl) fun _ _ => rfl
  · cases h with
    | some h => exact absurd (hh (by simp)) (by simp)
    | none => exact fin { smallest := a1, largest := a2, maxFixed := a3, mult := a4, dynInit := a5, dynMin := a6 } (fun _ => rfl) fun _ _ => rfl
  · exact fin { smallest := a1, largest := a2, maxFixed := a3, mult := a4, dynInit := a5, dynMin := a6, dynAlign := a7 }
      (fun _ => by cases h <;> rfl) fun _ _ => rfl

theorem copy_spec (s : Str) : (copyString s = none ∧ ¬ Fits s) ∨ ∃ s', copyString s = some s' ∧ (s' = s ↔ Fits s) := by
  cases h : copyString s with
  | none => exact .inl ⟨rfl, fun hf => by rw [copy_fits hf] at h; simp at h⟩
  | some s' => exact .inr ⟨s', rfl, by rw [← copy_same, h]; simp⟩

theorem advisor_iff {o : Opts} {major ref : Nat} {n b : Str} {tr : Bool} {a : Str} {acc : Option Str} {dev : Option Int} {t : Int}
    (h2 : 2 ≤ major) (hw : (Strat.advisor a acc dev).Wf) :
    Rebuilt o major ref ⟨n, tr, b, .advisor a acc dev⟩ t ↔ Faithful o ⟨n, tr, b, .advisor a acc dev⟩ := by
  have hty : o.type .advisor = .advisor := by
    unfold Opts.type
    cases o.pool with
    | none => rfl
    | some k => cases k <;> rfl
  have hdev : ∀ d, dev = some d → toInt (wrap d) = d := fun d hd => wrap_nat (hw d hd)
  unfold Rebuilt
  rw [rebuild_eq h2 hw]
  cases acc with
  | none =>
    cases dev with
    | none =>
      have hc : ∀ n', compileClass (full b!"AllocationAdvisor") (makeEvent ref ⟨n, tr, b, .advisor a none none⟩ t) (start n' tr) =
          (copyString b).bind fun b => (copyString a).bind fun a => some ⟨.advisor, tr, n', b, 2, { dev := -1, advice := a }⟩ := fun _ => rfl
      simp only [Strat.cls, hc]
      rcases copy_spec n with ⟨hn, fn⟩ | ⟨n', hn, fn⟩ <;> rcases copy_spec b with ⟨hb, fb⟩ | ⟨b', hb, fb⟩ <;>
        rcases copy_spec a with ⟨ha, fa⟩ | ⟨a', ha, fa⟩ <;>
        simp [hn, hb, ha, make, hty, Faithful, Same, Made.par, Par.chosen, *] <;> (intros; assumption)
    | some d =>
      have hc : ∀ n', compileClass (full b!"AllocationAdvisor") (makeEvent ref ⟨n, tr, b, .advisor a none (some d)⟩ t) (start n' tr) =
          (copyString b).bind fun b => (copyString a).bind fun a =>
            if toInt (wrap d) ≥ 0 then some ⟨.advisor, tr, n', b, 3, { dev := toInt (wrap d), advice := a }⟩
            else some ⟨.advisor, tr, n', b, 3, { dev := toInt (wrap d), advice := a, acc := [] }⟩ := fun _ => rfl
      simp only [Strat.cls, hc, hdev d rfl]
      by_cases hd : 0 ≤ d
      · rcases copy_spec n with ⟨hn, fn⟩ | ⟨n', hn, fn⟩ <;> rcases copy_spec b with ⟨hb, fb⟩ | ⟨b', hb, fb⟩ <;>
          rcases copy_spec a with ⟨ha, fa⟩ | ⟨a', ha, fa⟩ <;>
          simp [hn, hb, ha, make, hty, Faithful, Same, Made.par, Par.chosen, *] <;> (intros; first | assumption | omega)
      · have hd' : d ≠ 0 := by omega
        rcases copy_spec n with ⟨hn, fn⟩ | ⟨n', hn, fn⟩ <;> rcases copy_spec b with ⟨hb, fb⟩ | ⟨b', hb, fb⟩ <;>
          rcases copy_spec a with ⟨ha, fa⟩ | ⟨a', ha, fa⟩ <;>
          simp [hn, hb, ha, make, hty, Faithful, Same, Made.par, Par.chosen, *] <;> (intros; first | assumption | omega)
  | some s =>
    cases dev with
    | none =>
      have hc : ∀ n', compileClass (full b!"AllocationAdvisor") (makeEvent ref ⟨n, tr, b, .advisor a (some s) none⟩ t) (start n' tr) =
          (copyString b).bind fun b => (copyString a).bind fun a => (copyString s).bind fun s =>
            some ⟨.advisor, tr, n', b, 3, { dev := -1, advice := a, acc := s }⟩ := fun _ => rfl
      simp only [Strat.cls, hc]
      rcases copy_spec n with ⟨hn, fn⟩ | ⟨n', hn, fn⟩ <;> rcases copy_spec b with ⟨hb, fb⟩ | ⟨b', hb, fb⟩ <;>
        rcases copy_spec a with ⟨ha, fa⟩ | ⟨a', ha, fa⟩ <;> rcases copy_spec s with ⟨hs, fs⟩ | ⟨s', hs, fs⟩ <;>
        simp [hn, hb, ha, hs, make, hty, Faithful, Same, Made.par, Par.chosen, *] <;> (intros; assumption)
    | some d =>
      have hc : ∀ n', compileClass (full b!"AllocationAdvisor") (makeEvent ref ⟨n, tr, b, .advisor a (some s) (some d)⟩ t) (start n' tr) =
          (copyString b).bind fun b => (copyString a).bind fun a =>
            if toInt (wrap d) ≥ 0 then (copyString s).bind fun s => some ⟨.advisor, tr, n', b, 4, { dev := toInt (wrap d), advice := a, acc := s }⟩
            else none := fun _ => rfl
      simp only [Strat.cls, hc, hdev d rfl]
      by_cases hd : 0 ≤ d
      · rcases copy_spec n with ⟨hn, fn⟩ | ⟨n', hn, fn⟩ <;> rcases copy_spec b with ⟨hb, fb⟩ | ⟨b', hb, fb⟩ <;>
          rcases copy_spec a with ⟨ha, fa⟩ | ⟨a', ha, fa⟩ <;> rcases copy_spec s with ⟨hs, fs⟩ | ⟨s', hs, fs⟩ <;>
          simp [hn, hb, ha, hs, make, hty, Faithful, Same, Made.par, Par.chosen, *] <;> (intros; first | assumption | omega)
      · have hd' : d ≠ 0 := by omega
        rcases copy_spec n with ⟨hn, fn⟩ | ⟨n', hn, fn⟩ <;> rcases copy_spec b with ⟨hb, fb⟩ | ⟨b', hb, fb⟩ <;>
          rcases copy_spec a with ⟨ha, fa⟩ | ⟨a', ha, fa⟩ <;> rcases copy_spec s with ⟨hs, fs⟩ | ⟨s', hs, fs⟩ <;>
          simp [hn, hb, ha, hs, make, hty, Faithful, Same, Made.par, Par.chosen, *] <;> (intros; first | assumption | omega)

theorem type_same {o : Opts} {t : RType} (h1 : t ≠ .list) (h2 : t ≠ .quick) : o.type t = t := by
  unfold Opts.type
  cases o.pool with
  | none => rfl
  | some k => cases k <;> cases t <;> first | rfl | contradiction

/-! ## C67 -/

/-- Replay makes, for a recorded call of `makeAllocator`, an allocator with the same name, tracking,
parent, class and parameters as the call made — up to the pool and the heuristic that the user
of the tool asked for — exactly if the call is `Faithful`. -/
theorem rebuild_iff_partial (o : Opts) (major ref : Nat) (m : Made) (t : Int) (h2 : 2 ≤ major) (hw : m.strat.Wf) :
    (∃ m', rebuild o false major ref m t = .made m' ∧ Same o m m') ↔ Faithful o m := by
  show Rebuilt o major ref m t ↔ _
  obtain ⟨n, tr, b, s⟩ := m
  cases s with
  | advisor a acc dev => exact advisor_iff h2 hw
  | pool k l h => exact pool_iff h2 hw
  | mixed l h => exact mixed_iff h2 hw
  | prefetcher dev =>
    rw [finish (ty := .prefetcher) (argc := 1) (argv := {}) (s' := .prefetcher none) h2 hw (fun _ => by cases dev <;> rfl)
      (fun n b => by unfold make; rw [type_same (by simp) (by simp)])]
    cases dev <;> simp [Faithful, Made.par, Par.chosen, eq_comm]
  | numa i =>
    cases ho : o.numa with
    | true =>
      rw [finish (ty := .numa) (argc := 2) (argv := { node := toInt (wrap i) }) (s' := .numa (toInt (wrap i))) h2 hw (fun _ => rfl)
        (fun n b => by unfold make; rw [type_same (by simp) (by simp)]; simp only [ho]; rfl)]
      rw [wrap_nat hw]
      simp [Faithful, Made.par, Par.chosen, ho]
    | false =>
      refine ⟨?_, fun h => by simp [Faithful, ho] at h⟩
      rintro ⟨m', h, _⟩
      rw [rebuild_eq h2 hw] at h
      have hc : ∀ n', compileClass (full b!"NumaPolicy") (makeEvent ref ⟨n, tr, b, .numa i⟩ t) (start n' tr) =
          (copyString b).bind fun b => some ⟨.numa, tr, n', b, 2, { node := toInt (wrap i) }⟩ := fun _ => rfl
      simp only [Strat.cls, hc] at h
      rcases copy_spec n with ⟨hn, _⟩ | ⟨n', hn, _⟩ <;> rcases copy_spec b with ⟨hb, _⟩ | ⟨b', hb, _⟩ <;>
        simp [hn, hb, make, type_same, ho] at h
  | named =>
    rw [finish (ty := .named) (argc := 1) (argv := {}) (s' := .named) h2 hw (fun _ => rfl)
      (fun n b => by unfold make; rw [type_same (by simp) (by simp)])]
    simp [Faithful, Made.par, Par.chosen]
  | threadSafe =>
    rw [finish (ty := .threadSafe) (argc := 1) (argv := {}) (s' := .threadSafe) h2 hw (fun _ => rfl)
      (fun n b => by unfold make; rw [type_same (by simp) (by simp)])]
    simp [Faithful, Made.par, Par.chosen]
  | shim => exact ⟨fun h => absurd h (finish_not h2 hw fun _ => rfl), fun h => h.2.2.elim⟩
  | aligned al => exact ⟨fun h => absurd h (finish_not h2 hw fun _ => by cases al <;> rfl), fun h => h.2.2.elim⟩
  | monotonic i =>
    rw [finish (ty := .monotonic) (argc := 2) (argv := { capacity := i }) (s' := .monotonic i) h2 hw (fun _ => rfl)
      (fun n b => by unfold make; rw [type_same (by simp) (by simp)])]
    simp [Faithful, Made.par, Par.chosen]
  | slots i =>
    rw [finish (ty := .slots) (argc := 2) (argv := { slots := i }) (s' := .slots i) h2 hw (fun _ => rfl)
      (fun n b => by unfold make; rw [type_same (by simp) (by simp)])]
    simp [Faithful, Made.par, Par.chosen]
  | limiter i =>
    rw [finish (ty := .limiter) (argc := 2) (argv := { limit := i }) (s' := .limiter i) h2 hw (fun _ => rfl)
      (fun n b => by unfold make; rw [type_same (by simp) (by simp)])]
    simp [Faithful, Made.par, Par.chosen]
  | fixed x p =>
    cases p with
    | none =>
      rw [finish (ty := .fixed) (argc := 2) (argv := { bytes := x }) (s' := .fixed x none) h2 hw (fun _ => rfl)
        (fun n b => by unfold make; rw [type_same (by simp) (by simp)]; rfl)]
      simp [Faithful, Made.par, Par.chosen]
    | some y =>
      rw [finish (ty := .fixed) (argc := 3) (argv := { bytes := x, per := y }) (s' := .fixed x (some y)) h2 hw (fun _ => rfl)
        (fun n b => by unfold make; rw [type_same (by simp) (by simp)]; rfl)]
      simp [Faithful, Made.par, Par.chosen]

/-! ### What is lost -/

/-- The heuristic of a pool is not in the log: the pool of the replay has the default. -/
theorem rebuild_heuristic_counterexample : ∃ (m : Made) (m' : Made), m.strat.Wf ∧ rebuild {} false 2025 4096 m 0 = .made m' ∧
    m.par = .pool .quick 1024 512 16 (.blocks 3) ∧ m'.par = .pool .quick 1024 512 16 (.percentHwm 100) :=
  ⟨⟨b!"p", true, b!"HOST", .pool .quick [1024, 512, 16] (some (.blocks 3))⟩, ⟨b!"p", true, b!"HOST", .pool .quick [1024, 512, 16] none⟩,
    by simp [Strat.Wf], by decide +kernel, rfl, rfl⟩

/-- The device of a prefetcher is recorded, but not passed on. -/
theorem rebuild_prefetch_device_counterexample : ∃ (m : Made) (m' : Made), m.strat.Wf ∧ rebuild {} false 2025 4096 m 0 = .made m' ∧
    m.par = .prefetcher 2 ∧ m'.par = .prefetcher 0 :=
  ⟨⟨b!"p", true, b!"UM", .prefetcher (some 2)⟩, ⟨b!"p", true, b!"UM", .prefetcher none⟩, by simp [Strat.Wf, IntOk], by decide +kernel, rfl, rfl⟩

/-- A negative device (as for the host in CUDA) with an accessing allocator ends the tool; without,
the accessing allocator is looked up by the empty name. -/
theorem rebuild_advisor_device_counterexample :
    rebuild {} false 2025 4096 ⟨b!"p", true, b!"UM", .advisor b!"ACCESSED_BY" (some b!"HOST") (some (-1))⟩ 0 = .exits ∧
    rebuild {} false 2025 4096 ⟨b!"p", true, b!"UM", .advisor b!"READ_MOSTLY" none (some (-1))⟩ 0 =
      .made ⟨b!"p", true, b!"UM", .advisor b!"READ_MOSTLY" (some []) none⟩ := by
  decide +kernel

/-- Alignments are kept in an `int`. -/
theorem rebuild_alignment_counterexample : ∃ (m : Made) (m' : Made), m.strat.Wf ∧ rebuild {} false 2025 4096 m 0 = .made m' ∧
    m.par = .pool .list 1024 512 4294967296 (.percentHwm 100) ∧ m'.par = .pool .list 1024 512 0 (.percentHwm 100) :=
  ⟨⟨b!"p", true, b!"HOST", .pool .list [1024, 512, 4294967296] none⟩, ⟨b!"p", true, b!"HOST", .pool .list [1024, 512, 0] none⟩,
    by simp [Strat.Wf], by decide +kernel, rfl, rfl⟩

/-- Two strategies of the library are not known to the tool. -/
theorem rebuild_unknown_class (o : Opts) (major ref : Nat) (n b : Str) (tr : Bool) (al : Option Nat) (t : Int) (h2 : 2 ≤ major)
    (hal : ∀ n, al = some n → n < 2 ^ 64) :
    rebuild o false major ref ⟨n, tr, b, .aligned al⟩ t = .exits ∧ rebuild o false major ref ⟨n, tr, b, .shim⟩ t = .exits := by
  rw [rebuild_eq h2 (m := ⟨n, tr, b, .aligned al⟩) hal, rebuild_eq h2 (m := ⟨n, tr, b, .shim⟩) trivial]
  have h1 : ∀ n', compileClass (full b!"AlignedAllocator") (makeEvent ref ⟨n, tr, b, .aligned al⟩ t) (start n' tr) = none :=
    fun _ => by cases al <;> rfl
  have h3 : ∀ n', compileClass (full b!"NamingShim") (makeEvent ref ⟨n, tr, b, .shim⟩ t) (start n' tr) = none := fun _ => rfl
  simp only [Strat.cls, h1, h3]
  cases copyString n <;> exact ⟨rfl, rfl⟩

/-- The heuristic that the user asks for is not given to pools without tracking. -/
theorem rebuild_use_heuristic_counterexample : ∃ (m : Made) (m' : Made) (o : Opts), m.strat.Wf ∧ rebuild o false 2025 4096 m 0 = .made m' ∧
    o.heur = some (.blocks 3) ∧ m'.par = .pool .quick 536870912 1048576 16 (.percentHwm 100) :=
  ⟨⟨b!"p", false, b!"HOST", .pool .quick [] none⟩, ⟨b!"p", false, b!"HOST", .pool .quick [536870912, 1048576, 16] none⟩,
    { heur := some (.blocks 3) }, by simp [Strat.Wf], by decide +kernel, rfl, rfl⟩

/-! ### The hypotheses can be met -/

example : Faithful {} ⟨b!"pool", true, b!"HOST", .pool .quick [1048576, 65536, 64] none⟩ ∧
    (Strat.pool .quick [1048576, 65536, 64] none).Wf := by
  refine ⟨⟨⟨by decide, by decide⟩, ⟨by decide, by decide⟩, ?_⟩, by simp [Strat.Wf]⟩
  simp

example : ∃ m', rebuild { pool := some .list, heur := some (.blocks 2) } false 2025 4096
      ⟨b!"pool", true, b!"HOST", .pool .quick [1048576] none⟩ 0 = .made m' ∧
    m'.par = .pool .list 1048576 1048576 16 (.blocks 2) := ⟨_, rfl, rfl⟩

example : Faithful {} ⟨b!"adv", false, b!"UM", .advisor b!"PREFERRED_LOCATION" (some b!"HOST") (some 3)⟩ := by
  refine ⟨⟨by decide, by decide⟩, ⟨by decide, by decide⟩, ⟨by decide, by decide⟩, ?_, ?_⟩
  · intro s h; cases h; exact ⟨by decide, by decide⟩
  · intro d h; cases h; decide

end Umpire.Rebuild
