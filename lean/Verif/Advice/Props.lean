import Verif.Advice.Model
import Verif.Ops.Props
/-!
# C79: advice and prefetches concern exactly the memory and the device named

`Hist f user t w`: the calls and outcomes `t` (latest first) of advisors and prefetchers lead to `w`.  `asked` is what
the runtime is to be told, by the parameters of the strategies and the outcomes alone; `given` is what was handed out
and not freed since.
-/
set_option autoImplicit false
set_option linter.unusedSimpArgs false
namespace Umpire.Advice
open Umpire.Names (Name)
open Umpire.Ops
open Umpire.Judy (AMap Rec AReach Any byPtr Contains)

/-! ## Specification -/

/-- How a strategy was asked for: `AllocationAdvisor` with and without an accessing allocator (on platform `acc`), and
`AllocationPrefetcher`; `pl` is the platform of the allocator beneath. -/
inductive Params
  | advisor (pl acc : Plat) (advice : Name) (d : Int)
  | plain (pl : Plat) (advice : Name) (d : Int)
  | prefetcher (pl : Plat) (d : Int)
  deriving DecidableEq, Repr

def Params.make (f : Flags) (user : List (Entry MemOp)) : Params → Option Strat
  | .advisor pl acc n d => Advice.advisor f user pl acc n d
  | .plain pl n d => Advice.advisorPlain f user pl n d
  | .prefetcher pl d => Advice.prefetcher f user pl d

/-- What a runtime is to be told about an allocation: the advice, with the host as device if the accessing allocator
is one of the host, otherwise with the device named. -/
def Params.wants (p n : Nat) : Params → Told
  | .advisor _ acc x d => .advise x p n (if acc = .host then CPU else d)
  | .plain _ x d => .advise x p n d
  | .prefetcher _ d => .prefetch p n d

/-- The names of advice. -/
def six : List Name := ["SET_READ_MOSTLY".toList, "UNSET_READ_MOSTLY".toList, "SET_PREFERRED_LOCATION".toList, "UNSET_PREFERRED_LOCATION".toList,
  "SET_ACCESSED_BY".toList, "UNSET_ACCESSED_BY".toList]
def four : List Name := ["SET_PREFERRED_LOCATION".toList, "UNSET_PREFERRED_LOCATION".toList, "SET_ACCESSED_BY".toList, "UNSET_ACCESSED_BY".toList]
def two : List Name := ["SET_COARSE_GRAIN".toList, "UNSET_COARSE_GRAIN".toList]
def advices : List Name := six ++ two

inductive Op
  | alloc (q : Params) (n : Nat) (a : Ans)
  | free (p : Nat) (a : Ans)

def Op.do (f : Flags) (user : List (Entry MemOp)) (w : W) : Op → Out × W
  | .alloc q n a =>
    match q.make f user with
    | none => (.threw, w)
    | some s => allocate s n a w
  | .free p a => deallocate p a w

inductive Hist (f : Flags) (user : List (Entry MemOp)) : List (Op × Out) → W → Prop
  | new : Hist f user [] ⟨[], []⟩
  | step {t w op} : Hist f user t w → Hist f user ((op, (op.do f user w).1) :: t) (op.do f user w).2

def asked : List (Op × Out) → List Told
  | [] => []
  | (.alloc q n _, .ptr p) :: t => q.wants p n :: asked t
  | _ :: t => asked t

def given : List (Op × Out) → List (Nat × Nat)
  | [] => []
  | (.alloc _ n _, .ptr p) :: t => (p, n) :: given t
  | (.free p _, .done) :: t => (given t).filter fun b => decide (b.1 ≠ p)
  | _ :: t => given t

/-- The device whose properties decide about a prefetch has them. -/
def Capable (d : Int) (a : Ans) : Prop := ∃ g, (if d = CPU then a.cur else some d) = some g ∧ a.props g = some true

/-- A call within what C79 holds for: advisors with one of the names of advice; the host as accessing platform only
with CUDA; memory of the host with CUDA only with an accessing allocator; prefetching with CUDA only, on devices that
are able to. -/
def Plain (f : Flags) : Op → Prop
  | .alloc (.advisor _ acc x _) _ _ => x ∈ advices ∧ (acc = .host → f.cuda = true)
  | .alloc (.plain pl x _) _ _ => x ∈ advices ∧ (pl = .host → f.cuda = false)
  | .alloc (.prefetcher pl d) _ a => pl ≠ .sycl ∧ Capable d a
  | .free _ _ => True

/-- The program has not registered operations under these names itself. -/
def NoOverride (user : List (Entry MemOp)) : Prop := ∀ e ∈ user, e.name ∉ advices ∧ e.name ≠ PREFETCH

/-! ## Lemmas -/

def adviceOk (e : Entry MemOp) : Bool :=
  (!decide (e.name ∈ advices) || decide (e.op = .cudaAdvise e.name) || decide (e.op = .hipAdvise e.name)) &&
  (!decide (e.name = PREFETCH) || decide (e.op = .cudaPrefetch ∧ e.pl = (.cuda, .cuda)) || decide (e.op = .syclPrefetch ∧ e.pl = (.sycl, .sycl)))

theorem builtIn_advice (f : Flags) : (builtIn f).all adviceOk = true := by
  have key : ∀ (numa cuda hip hip5 omp sycl : Bool), (builtIn ⟨numa, cuda, hip, hip5, omp, sycl⟩).all adviceOk = true := by decide +kernel
  exact key _ _ _ _ _ _

theorem find_advice {f : Flags} {user : List (Entry MemOp)} (hu : NoOverride user) {x : Name} {pl : Plat × Plat} {o : MemOp}
    (h : find (registry f user) x pl = some o) : (x ∈ advices → o = .cudaAdvise x ∨ o = .hipAdvise x) ∧
      (x = PREFETCH → (o = .cudaPrefetch ∧ pl = (.cuda, .cuda)) ∨ (o = .syclPrefetch ∧ pl = (.sycl, .sycl))) := by
  obtain ⟨before, e, after, h1, h2, h3, h4, _⟩ := (dispatch_exact _ _ _ _).1 h
  have hm : e ∈ builtIn f ++ user := by rw [h1]; simp
  rcases List.mem_append.1 hm with hm | hm
  · have := List.all_eq_true.1 (builtIn_advice f) e hm
    unfold adviceOk at this
    rw [h2, h3, h4] at this
    simp only [Bool.and_eq_true, Bool.or_eq_true, Bool.not_eq_true', decide_eq_false_iff_not, decide_eq_true_eq] at this
    refine ⟨fun hx => ?_, fun hx => ?_⟩
    · rcases this.1 with (h | h) | h
      · exact absurd hx h
      · exact .inl h
      · exact .inr h
    · rcases this.2 with (h | h) | h
      · exact absurd hx h
      · exact .inl h
      · exact .inr h
  · have := hu e hm
    rw [h2] at this
    exact ⟨fun hx => absurd hx this.1, fun hx => absurd hx this.2⟩

/-- What the strategies of `Plain` calls do. -/
theorem apply_plain {f : Flags} {user : List (Entry MemOp)} (hu : NoOverride user) {q : Params} {n : Nat} {a : Ans} {s : Strat}
    (hp : Plain f (.alloc q n a)) (hs : q.make f user = some s) (p : Nat) (w : W) :
    apply s.op p none s.device n a w = tell (q.wants p n) a.call w := by
  have adv : ∀ {x : Name} {d : Int} {o : MemOp}, (o = .cudaAdvise x ∨ o = .hipAdvise x) → apply o p none d n a w = tell (.advise x p n d) a.call w := by
    intro x d o h
    rcases h with rfl | rfl <;> rfl
  cases q with
  | advisor pl acc x d =>
    simp only [Params.make, advisor] at hs
    split at hs
    · cases hs
    · rename_i o ho
      injection hs with hs
      subst hs
      dsimp only
      rw [adv ((find_advice hu ho).1 hp.1)]
      unfold Params.wants
      dsimp only
      by_cases hacc : acc = .host
      · rw [if_pos ⟨hp.2 hacc, hacc⟩, if_pos hacc]
      · rw [if_neg (fun h => hacc h.2), if_neg hacc]
  | plain pl x d =>
    simp only [Params.make, advisorPlain, advisor] at hs
    split at hs
    · cases hs
    · rename_i o ho
      injection hs with hs
      subst hs
      dsimp only
      rw [adv ((find_advice hu ho).1 hp.1)]
      unfold Params.wants
      rw [if_neg (fun h => by rw [hp.2 h.2] at h; cases h.1)]
  | prefetcher pl d =>
    simp only [Params.make, prefetcher] at hs
    split at hs
    · cases hs
    · rename_i o ho
      injection hs with hs
      subst hs
      dsimp only
      rcases (find_advice hu ho).2 rfl with ⟨rfl, hpl⟩ | ⟨rfl, hpl⟩
      · obtain ⟨g, hg, hg2⟩ := hp.2
        unfold apply Params.wants
        dsimp only
        have : (if d ≠ CPU then some d else a.cur) = some g := by
          rw [← hg]
          by_cases hd : d = CPU <;> simp [hd]
        rw [this]
        dsimp only
        rw [hg2]
      · injection hpl with h1 h2
        exact absurd h1 hp.1

/-- What a `Plain` allocation comes to. -/
theorem alloc_cases {f : Flags} {user : List (Entry MemOp)} (hu : NoOverride user) {q : Params} {n : Nat} {a : Ans} (hp : Plain f (.alloc q n a)) (w : W) :
    (∃ p, (q.make f user).isSome = true ∧ a.mem = some p ∧ a.call = true ∧
      (Op.alloc q n a).do f user w = (.ptr p, ⟨(p, n) :: w.blks, q.wants p n :: w.told⟩)) ∨
    (((q.make f user).isSome = false ∨ a.mem = none) ∧ (Op.alloc q n a).do f user w = (.threw, w)) ∨
    (∃ p, (q.make f user).isSome = true ∧ a.mem = some p ∧ a.call = false ∧ (Op.alloc q n a).do f user w = (.threw, ⟨(p, n) :: w.blks, w.told⟩)) := by
  unfold Op.do
  dsimp only
  cases hs : q.make f user with
  | none => exact .inr (.inl ⟨.inl rfl, rfl⟩)
  | some s =>
    dsimp only
    unfold allocate
    cases hm : a.mem with
    | none => exact .inr (.inl ⟨.inr rfl, rfl⟩)
    | some p =>
      dsimp only
      rw [apply_plain hu hp hs]
      unfold tell
      cases hc : a.call with
      | true => exact .inl ⟨p, rfl, rfl, rfl, rfl⟩
      | false => exact .inr (.inr ⟨p, rfl, rfl, rfl, rfl⟩)

section
variable {f : Flags} {user : List (Entry MemOp)} {t : List (Op × Out)} {w : W}

/-- **C79**: for every allocation handed out by an advisor or prefetcher the runtime was told the advice named, for all
its bytes and no others, with the device named (the host if the accessing allocator is there); it was told nothing
else, in this order. -/
theorem advice_told_partial (hh : Hist f user t w) (hu : NoOverride user) (hp : ∀ x ∈ t, Plain f x.1) : w.told = asked t := by
  induction hh with
  | new => rfl
  | @step t w op h ih =>
    have ih := ih fun x hx => hp x (List.mem_cons_of_mem _ hx)
    have hp := hp _ List.mem_cons_self
    cases op with
    | alloc q n a =>
      rcases alloc_cases hu hp w with ⟨p, _, _, _, e⟩ | ⟨_, e⟩ | ⟨p, _, _, _, e⟩ <;> rw [e]
      · show _ :: _ = _ :: asked t
        rw [ih]
      · exact ih
      · exact ih
    | free p a =>
      show (deallocate p a w).2.told = asked ((Op.free p a, (deallocate p a w).1) :: t)
      unfold deallocate
      cases a.free <;> exact ih

/-- The call of a runtime for an allocation has failed. -/
def Refused : Op × Out → Prop
  | (.alloc _ _ a, _) => a.call = false ∧ a.mem.isSome = true
  | _ => False

/-- **C79**: as long as no advice is refused, the parents have handed out exactly what the program holds. -/
theorem advice_nothing_left_partial (hh : Hist f user t w) (hu : NoOverride user) (hp : ∀ x ∈ t, Plain f x.1) (hr : ∀ x ∈ t, ¬Refused x) :
    w.blks = given t := by
  induction hh with
  | new => rfl
  | @step t w op h ih =>
    have ih := ih (fun x hx => hp x (List.mem_cons_of_mem _ hx)) (fun x hx => hr x (List.mem_cons_of_mem _ hx))
    have hp := hp _ List.mem_cons_self
    have hr := hr _ List.mem_cons_self
    cases op with
    | alloc q n a =>
      rcases alloc_cases hu hp w with ⟨p, _, _, _, e⟩ | ⟨_, e⟩ | ⟨p, _, h1, h2, e⟩
      · rw [e]
        show _ :: _ = _ :: given t
        rw [ih]
      · rw [e]; exact ih
      · exact absurd ⟨h2, by rw [h1]; rfl⟩ hr
    | free p a =>
      show (deallocate p a w).2.blks = given ((Op.free p a, (deallocate p a w).1) :: t)
      unfold deallocate
      cases a.free
      · exact ih
      · show w.blks.filter _ = (given t).filter _
        rw [ih]

/-- **C79**: an allocation succeeds exactly when there is such a strategy, the parent has memory and the runtime takes
the advice. -/
theorem advice_alloc_iff (hu : NoOverride user) {q : Params} {n p : Nat} {a : Ans} (hp : Plain f (.alloc q n a)) :
    ((Op.alloc q n a).do f user w).1 = .ptr p ↔ (q.make f user).isSome = true ∧ a.mem = some p ∧ a.call = true := by
  rcases alloc_cases hu hp w with ⟨p', h0, h1, h2, e⟩ | ⟨h, e⟩ | ⟨p', h0, h1, h2, e⟩ <;> rw [e]
  · refine ⟨fun h => ?_, fun h => ?_⟩
    · injection h with h
      exact ⟨h0, by rw [h1, h], h2⟩
    · have := h.2.1
      rw [h1] at this
      injection this with this
      rw [this]
  · refine ⟨fun h => (nomatch h), fun h' => ?_⟩
    rcases h with h | h
    · rw [h'.1] at h; cases h
    · rw [h'.2.1] at h; cases h
  · exact ⟨fun h => (nomatch h), fun h => absurd (h2.symm.trans h.2.2) (by decide)⟩

/-- **C79** fails: an advice that is refused leaves the memory behind. -/
theorem advice_leaks (hu : NoOverride user) {q : Params} {n p : Nat} {a : Ans} (hp : Plain f (.alloc q n a)) (hq : (q.make f user).isSome = true)
    (hm : a.mem = some p) (hc : a.call = false) : (Op.alloc q n a).do f user w = (.threw, ⟨(p, n) :: w.blks, w.told⟩) := by
  rcases alloc_cases hu hp w with ⟨p', _, h1, h2, e⟩ | ⟨h, e⟩ | ⟨p', _, h1, h2, e⟩
  · rw [hc] at h2; cases h2
  · rcases h with h | h
    · rw [hq] at h; cases h
    · rw [hm] at h; cases h
  · rw [hm] at h1
    injection h1 with h1
    rw [e, h1]
end

/-! ### Which strategies there are -/

def advised (f : Flags) (pl : Plat) (x : Name) : Bool :=
  (f.cuda && decide (pl = .cuda) && decide (x ∈ six)) || (f.cuda && decide (pl = .host) && decide (x ∈ four)) ||
  (f.hip && decide (pl = .hip) && (decide (x ∈ six) || (f.hip5 && decide (x ∈ two))))

/-- **C79**: each name of advice is accepted on exactly these platforms: all six for memory of CUDA and HIP, those about
locations and access also for memory of the host in a CUDA build, those about granularity for HIP from version 5 on. -/
theorem advice_accepted_iff (f : Flags) (user : List (Entry MemOp)) (hu : NoOverride user) (pl acc : Plat) (x : Name) (d : Int) (hx : x ∈ advices) :
    (advisor f user pl acc x d).isSome = advised f pl x := by
  have h1 : (advisor f user pl acc x d).isSome = (find (registry f user) x (pl, pl)).isSome := by
    unfold advisor
    cases find (registry f user) x (pl, pl) <;> rfl
  have h2 : find (registry f user) x (pl, pl) = ((builtIn f).find? fun e => decide (e.name = x ∧ e.pl = (pl, pl))).map (·.op) := by
    unfold registry
    rw [find_registerAll, find_empty, if_neg (by simp), List.find?_append]
    have : user.find? (fun e => decide (e.name = x ∧ e.pl = (pl, pl))) = none := by
      rw [List.find?_eq_none]
      intro e he hd
      have := of_decide_eq_true hd
      exact (hu e he).1 (by rw [this.1]; exact hx)
    rw [this, Option.or_none]
  rw [h1, h2]
  have key : ∀ (numa cuda hip hip5 omp sycl : Bool), ∀ x ∈ advices, ∀ pl ∈ [Plat.undefined, .host, .cuda, .omp, .hip, .sycl],
      (((builtIn ⟨numa, cuda, hip, hip5, omp, sycl⟩).find? fun e => decide (e.name = x ∧ e.pl = (pl, pl))).map (·.op)).isSome =
        advised ⟨numa, cuda, hip, hip5, omp, sycl⟩ pl x := by decide +kernel
  exact key _ _ _ _ _ _ x hx pl (by cases pl <;> decide)

example : (advisor ⟨false, true, false, false, false, false⟩ [] .host .cuda "SET_READ_MOSTLY".toList 0).isSome = false := by decide +kernel

/-! ### Counterexamples -/

/-- A build with CUDA, with HIP, with SYCL. -/
def cudaBuild : Flags := ⟨false, true, false, false, false, false⟩
def hipBuild : Flags := ⟨false, false, true, true, false, false⟩
def syclBuild : Flags := ⟨false, false, false, false, false, true⟩

/-- **C79** fails: with HIP the accessing allocator counts for nothing. -/
theorem advice_accessor_counterexample (f : Flags) (user : List (Entry MemOp)) (hf : f.cuda = false) (pl acc acc' : Plat) (x : Name) (d : Int) :
    advisor f user pl acc x d = advisor f user pl acc' x d := by
  unfold advisor
  rw [hf]
  cases find (registry f user) x (pl, pl) <;> simp

/-- **C79** fails: with CUDA the device given for memory of the host counts for nothing, unless an accessing allocator is
given. -/
theorem advice_host_counterexample (f : Flags) (user : List (Entry MemOp)) (hf : f.cuda = true) (x : Name) (d d' : Int) :
    advisorPlain f user .host x d = advisorPlain f user .host x d' := by
  unfold advisorPlain advisor
  rw [hf]
  cases find (registry f user) x (.host, .host) <;> simp

/-- **C79** fails: names of operations that are no advice are accepted too.  `MEMSET` fills every allocation with the
device; `REALLOCATE` and `COPY` hand the memory out to nobody. -/
theorem advice_other_counterexample (f : Flags) (user : List (Entry MemOp)) (d : Int) (p n : Nat) (a : Ans) (w : W) (hm : a.mem = some p) :
    ((Op.alloc (.advisor .host .cuda MEMSET d) n a).do f user w = (.ptr p, ⟨(p, n) :: w.blks, .fill p n d :: w.told⟩)) ∧
    (∀ x, x = COPY ∨ x = REALLOCATE → (Op.alloc (.advisor .host .cuda x d) n a).do f user w = (.threw, ⟨(p, n) :: w.blks, w.told⟩)) := by
  have h := host_total f user
  have key : ∀ x o, find (registry f user) x (.host, .host) = some o →
      (Op.alloc (.advisor .host .cuda x d) n a).do f user w = allocate ⟨o, d⟩ n a w := by
    intro x o ho
    unfold Op.do Params.make advisor
    dsimp only
    rw [ho]
    simp
  refine ⟨?_, fun x hx => ?_⟩
  · rw [key _ _ h.2.1]
    unfold allocate
    rw [hm]
    rfl
  · rcases hx with rfl | rfl
    · rw [key _ _ h.1]
      unfold allocate
      rw [hm]
      rfl
    · rw [key _ _ h.2.2]
      unfold allocate
      rw [hm]
      rfl

/-- **C79** fails: on a device that is not able to, a prefetcher hands out memory without telling anybody. -/
theorem prefetch_skipped (user : List (Entry MemOp)) (f : Flags) (hf : f.cuda = true) (d : Int) (hd : d ≠ CPU) (n p : Nat) (a : Ans) (w : W)
    (hm : a.mem = some p) (hc : a.props d = some false) :
    (Op.alloc (.prefetcher .cuda d) n a).do f user w = (.ptr p, ⟨(p, n) :: w.blks, w.told⟩) := by
  have : find (registry f user) PREFETCH (.cuda, .cuda) = some .cudaPrefetch := by
    refine find_builtin (e := ⟨PREFETCH, (.cuda, .cuda), .cudaPrefetch⟩) ?_
    obtain ⟨numa, cuda, hip, hip5, omp, sycl⟩ := f
    dsimp only at hf
    subst hf
    cases numa <;> rfl
  unfold Op.do Params.make prefetcher
  dsimp only
  rw [this]
  unfold allocate
  dsimp only
  rw [hm]
  unfold apply
  dsimp only
  rw [if_pos hd]
  dsimp only
  rw [hc]

/-- **C79** fails: with SYCL every allocation through a prefetcher dereferences a null pointer. -/
theorem prefetch_sycl_undefined (user : List (Entry MemOp)) (f : Flags) (hf : f.sycl = true) (d : Int) (n p : Nat) (a : Ans) (w : W)
    (hm : a.mem = some p) : ((Op.alloc (.prefetcher .sycl d) n a).do f user w).1 = .ub := by
  have : find (registry f user) PREFETCH (.sycl, .sycl) = some .syclPrefetch := by
    refine find_builtin (e := ⟨PREFETCH, (.sycl, .sycl), .syclPrefetch⟩) ?_
    obtain ⟨numa, cuda, hip, hip5, omp, sycl⟩ := f
    dsimp only at hf
    subst hf
    cases numa <;> cases cuda <;> cases hip <;> cases hip5 <;> cases omp <;> rfl
  unfold Op.do Params.make prefetcher
  dsimp only
  rw [this]
  unfold allocate
  dsimp only
  rw [hm]
  rfl

/-! ### `ResourceManager::prefetch` -/

section
variable {m : AMap} {live : List Rec} {k : Nat} {tr : Nat → Traits} {f : Flags} {user : List (Entry MemOp)}

/-- **C79**: `prefetch(p, d)` on managed memory of CUDA, with a CUDA resource and a capable device, tells the runtime to
move the bytes from `p` to the end of an allocation that contains `p`, to device `d`, and nothing else; it throws
exactly when the runtime refuses. -/
theorem prefetch_exact_partial (h : AReach (Judy.SparseF fun _ => True) m (byPtr live) k) (hap : Judy.Apart live) (hf : f.cuda = true) {p : Nat} (hp : p < 2 ^ 64)
    {r : Rec} (hr : r ∈ live) (hc : Contains r p) (ht : (tr r.tag).um = true) (hpl : (tr r.tag).plat = .cuda)
    {d : Int} {a : Ans} (hd : Capable d a) (w : W) :
    managerPrefetch f user tr m .cuda p d a w =
      if a.call = true then (.done, { w with told := .prefetch p (r.ptr + r.size - p) d :: w.told }) else (.threw, w) := by
  have hfind := (Judy.allocmap_find_partial h hap hp).1 r hr hc
  have hop : find (registry f user) PREFETCH (.cuda, .cuda) = some .cudaPrefetch := by
    refine find_builtin (e := ⟨PREFETCH, (.cuda, .cuda), .cudaPrefetch⟩) ?_
    obtain ⟨numa, cuda, hip, hip5, omp, sycl⟩ := f
    dsimp only at hf
    subst hf
    cases numa <;> rfl
  obtain ⟨g, hg, hg2⟩ := hd
  unfold managerPrefetch
  rw [hfind]
  dsimp only
  rw [if_pos ht, hpl, hop]
  dsimp only
  have hcur : ¬(d = CPU ∧ a.cur = none) := by
    rintro ⟨h1, h2⟩
    rw [if_pos h1, h2] at hg
    cases hg
  have hgpu : (if d ≠ CPU then some d else a.cur) = some g := by
    rw [← hg]
    by_cases hd : d = CPU <;> simp [hd]
  have hsz : r.size - (p - r.ptr) = r.ptr + r.size - p := by have := hc.1; omega
  unfold applyAsync apply tell
  dsimp only
  rw [if_neg hcur, if_pos rfl, hgpu]
  dsimp only
  rw [hg2, hsz]

/-- **C79**: whatever a prefetch does, in every state of the registry, it tells the runtime at most about the bytes from
`p` to the end of a live allocation of managed memory, with the device given; the blocks stay. -/
theorem prefetch_within (h : AReach Any m (byPtr live) k) (hap : Judy.Apart live) (hu : NoOverride user) {p : Nat} (hp : p < 2 ^ 64) (ctx : Plat) (d : Int)
    (a : Ans) (w : W) : (managerPrefetch f user tr m ctx p d a w).2 = w ∨
      ∃ r ∈ live, Contains r p ∧ (tr r.tag).um = true ∧
        managerPrefetch f user tr m ctx p d a w = (.done, { w with told := .prefetch p (r.ptr + r.size - p) d :: w.told }) := by
  have hs := (Judy.allocmap_find_sound h hap hp).1
  unfold managerPrefetch
  cases hx : (m.findRecord p).2 with
  | none => exact .inl rfl
  | some r =>
    dsimp only
    have hr := hs r hx
    have hsz : r.size - (p - r.ptr) = r.ptr + r.size - p := by have := hr.2.1; omega
    have htell : ∀ b, (tell (.prefetch p (r.size - (p - r.ptr)) d) b w).2 = w ∨
        tell (.prefetch p (r.size - (p - r.ptr)) d) b w = (.done, { w with told := .prefetch p (r.ptr + r.size - p) d :: w.told }) := by
      intro b
      unfold tell
      cases b
      · exact .inl rfl
      · exact .inr (by rw [if_pos rfl, hsz])
    by_cases ht : (tr r.tag).um = true
    · rw [if_pos ht]
      cases ho : find (registry f user) PREFETCH ((tr r.tag).plat, (tr r.tag).plat) with
      | none => exact .inl rfl
      | some o =>
        dsimp only
        have fin : ∀ x : Out × W, (x.2 = w ∨ x = (.done, { w with told := .prefetch p (r.ptr + r.size - p) d :: w.told })) → x.2 = w ∨
            ∃ r ∈ live, Contains r p ∧ (tr r.tag).um = true ∧ x = (.done, { w with told := .prefetch p (r.ptr + r.size - p) d :: w.told }) :=
          fun x hx => hx.imp id fun e => ⟨r, hr.1, hr.2, ht, e⟩
        apply fin
        rcases (find_advice hu ho).2 rfl with ⟨rfl, _⟩ | ⟨rfl, _⟩
        · unfold applyAsync apply
          dsimp only
          split
          · exact .inl rfl
          · split
            · split
              · exact .inl rfl
              · split
                · exact .inl rfl
                · exact htell _
                · exact .inl rfl
            · exact .inl rfl
        · unfold applyAsync apply
          dsimp only
          split
          · exact .inl rfl
          · exact htell _
    · rw [if_neg ht]
      exact .inl rfl

/-- **C79**: a pointer into no allocation, an allocation of other than managed memory, and one of a platform without
prefetching (HIP in particular) are refused. -/
theorem prefetch_refused (h : AReach Any m (byPtr live) k) (hap : Judy.Apart live) (hu : NoOverride user) {p : Nat} (hp : p < 2 ^ 64) (ctx : Plat) (d : Int)
    (a : Ans) (w : W) (hno : ∀ r ∈ live, Contains r p → (tr r.tag).um = false ∨ ((tr r.tag).plat ≠ .cuda ∧ (tr r.tag).plat ≠ .sycl)) :
    managerPrefetch f user tr m ctx p d a w = (.threw, w) := by
  have hs := (Judy.allocmap_find_sound h hap hp).1
  unfold managerPrefetch
  cases hx : (m.findRecord p).2 with
  | none => rfl
  | some r =>
    dsimp only
    have hr := hs r hx
    rcases hno r hr.1 hr.2 with hn | hn
    · rw [hn]; rfl
    · by_cases ht : (tr r.tag).um = true
      · rw [if_pos ht]
        cases ho : find (registry f user) PREFETCH ((tr r.tag).plat, (tr r.tag).plat) with
        | none => rfl
        | some o =>
          rcases (find_advice hu ho).2 rfl with ⟨_, e⟩ | ⟨_, e⟩
          · injection e with e _; exact absurd e hn.1
          · injection e with e _; exact absurd e hn.2
      · rw [if_neg ht]
end

/-! ## Examples -/

def play (f : Flags) : List Op → List (Op × Out) × W
  | [] => ([], ⟨[], []⟩)
  | op :: ops => let x := play f ops; ((op, (op.do f [] x.2).1) :: x.1, (op.do f [] x.2).2)

theorem play_hist (f : Flags) : ∀ ops, Hist f [] (play f ops).1 (play f ops).2
  | [] => .new
  | _ :: ops => .step (play_hist f ops)

theorem play_ops (f : Flags) : ∀ ops, (play f ops).1.map (·.1) = ops
  | [] => rfl
  | op :: ops => by
    show op :: (play f ops).1.map (·.1) = _
    rw [play_ops f ops]

/-- Memory accessed by the host, memory preferred on device 3, memory prefetched to device 1 and to the host, a release,
a request that fails. -/
def calls : List Op :=
  [.alloc (.prefetcher .cuda 1) 64 { mem := some 8192 }, .alloc (.prefetcher .cuda CPU) 16 { mem := some 65536, cur := some 5 }, .free 4096 {},
    .alloc (.plain .cuda "SET_PREFERRED_LOCATION".toList 3) 24 { mem := some 4096 }, .alloc (.plain .cuda "SET_ACCESSED_BY".toList 2) 8 {},
    .alloc (.advisor .cuda .host "SET_ACCESSED_BY".toList 2) 32 { mem := some 512 }]

example : Hist cudaBuild [] (play cudaBuild calls).1 (play cudaBuild calls).2 ∧ NoOverride [] ∧ (∀ x ∈ (play cudaBuild calls).1, Plain cudaBuild x.1) ∧
    (∀ x ∈ (play cudaBuild calls).1, ¬Refused x) ∧ given (play cudaBuild calls).1 = [(8192, 64), (65536, 16), (512, 32)] ∧
    asked (play cudaBuild calls).1 = [.prefetch 8192 64 1, .prefetch 65536 16 (-1), .advise "SET_PREFERRED_LOCATION".toList 4096 24 3,
      .advise "SET_ACCESSED_BY".toList 512 32 (-1)] := by
  have hall : ∀ x ∈ (play cudaBuild calls).1, x.1 ∈ calls := by
    intro x hx
    have := List.mem_map_of_mem (f := (·.1)) hx
    rwa [play_ops] at this
  refine ⟨play_hist _ _, fun e he => (nomatch he), fun x hx => ?_, fun x hx => ?_, by decide +kernel, by decide +kernel⟩
  · have h := hall x hx
    simp only [calls, List.mem_cons, List.not_mem_nil, or_false] at h
    rcases h with h | h | h | h | h | h <;> rw [h]
    · exact ⟨by decide, 1, rfl, rfl⟩
    · exact ⟨by decide, 5, rfl, rfl⟩
    · trivial
    · exact ⟨by decide +kernel, fun h => by cases h⟩
    · exact ⟨by decide +kernel, fun h => by cases h⟩
    · exact ⟨by decide +kernel, fun _ => rfl⟩
  · have h := hall x hx
    obtain ⟨op, o⟩ := x
    simp only [calls, List.mem_cons, List.not_mem_nil, or_false] at h
    rcases h with h | h | h | h | h | h <;> subst h <;> intro hr <;> first | exact hr | cases hr.1

/-- An allocation of 256 bytes of managed memory at 4096: from the middle on. -/
def umMap : AMap := AMap.new.insert 4096 ⟨4096, 256, 7⟩

theorem umMap_reach : AReach (Judy.SparseF fun _ => True) umMap (byPtr [⟨4096, 256, 7⟩]) 1 := by
  have e0 : (fun _ => []) = byPtr [] := by funext q; rfl
  have h1 := AReach.insert (P := Judy.SparseF fun _ => True) (p := 4096) (r := ⟨4096, 256, 7⟩) .new (by decide) (by
    rw [e0, Judy.push_byPtr [] ⟨4096, 256, 7⟩]
    refine Judy.sparse_of_sizes (List.pairwise_singleton _ _) fun r hr => ?_
    rw [List.mem_singleton.1 hr]
    decide)
  rw [e0, Judy.push_byPtr [] ⟨4096, 256, 7⟩] at h1
  exact h1

example : managerPrefetch cudaBuild [] (fun _ => ⟨true, 0, .cuda⟩) umMap .cuda 4160 2 {} ⟨[], []⟩ = (.done, ⟨[], [.prefetch 4160 192 2]⟩) := by decide +kernel

end Umpire.Advice
