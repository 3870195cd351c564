import Verif.Devops.Model
import Verif.Ops.Props
/-!
# C82: copies and fills reach the right bytes of the right memory

For all builds, chains of strategies, resources and contents.  The specification is bytes: after a copy that returns, the
bytes from `dst` are those that were at `src`; whatever happens, no other byte changes.
-/
set_option autoImplicit false
set_option linter.unusedSimpArgs false
namespace Umpire.Devops
open Umpire.Ops (Plat Res Strat Flags MemOp Kind Entry platformOf findFor registry COPY MEMSET Built Moves Sets Bytes)
open Umpire.Judy (AMap Rec AReach Any byPtr Contains)
open Umpire.Gpu (Api Place)

/-! ### Specification -/

/-- Where the memory of the resource with number `j` is. -/
def memory (w : World) (j : Nat) : Res → Home
  | .hostMalloc | .hostPosix | .file | .shared => .host
  | .cudaDevice | .cudaConst => .gpu .cuda (.device (w.dev j))
  | .cudaUM => .gpu .cuda .managed
  | .cudaPinned => .gpu .cuda .pinned
  | .hipDevice | .hipConst => .gpu .hip (.device (w.dev j))
  | .hipUM => .gpu .hip .managed
  | .hipPinned => .gpu .hip .pinned
  | .omp => if w.dev j = w.initial then .host else .omp (w.dev j)
  | .syclDevice => .sycl j (.device (w.dev j))
  | .syclUM => .sycl j .managed
  | .syclPinned => .sycl j .pinned
  | .null | .noOp => .none

/-- The resource at the end of the chain of parents, and its number. -/
inductive RootAt (h : List Strat) : Nat → Nat → Res → Prop
  | here {i : Nat} {r : Res} : h[i]? = some (.resource r) → RootAt h i i r
  | up {i p j : Nat} {s : Strat} {r : Res} : h[i]? = some s → s.parent = some p → RootAt h p j r → RootAt h i j r

/-- A program with the live allocations `live`: strategies are built one on another, resources are those of the build, the
map is what registrations made of it, allocations do not share bytes, and their bytes are in the memory of their
resource. -/
structure Sane (w : World) (live : List Rec) : Prop where
  built : Built w.strats
  enabled : ∀ (j : Nat) (r : Res), w.strats[j]? = some (.resource r) → r.platform = .undefined ∨ w.flags.has r.platform = true
  reach : ∃ n, AReach Any w.amap (byPtr live) n
  apart : Judy.Apart live
  tags : ∀ r ∈ live, r.tag < w.strats.length
  places : ∀ r ∈ live, ∀ j res, RootAt w.strats r.tag j res → ∀ x, Bytes r x → w.home x = memory w j res

/-- The allocation is from resource `res` with number `j`, which has memory, and its allocator reports the platform of it
(always, without a `NumaPolicy` on a GPU: `owned_plain`). -/
structure Owned (w : World) (r : Rec) (j : Nat) (res : Res) : Prop where
  root : RootAt w.strats r.tag j res
  own : platformOf w.strats w.strats.length r.tag = some res.platform
  real : res ≠ .noOp

/-- The two resources go together: memory of SYCL from one resource only, and no `SHARED` memory with OpenMP devices. -/
def Fits (js : Nat) (s : Res) (jd : Nat) (d : Res) : Prop :=
  (s.platform = .sycl → d.platform = .sycl → js = jd) ∧ (d = .omp → s ≠ .shared) ∧ (s = .omp → d ≠ .shared)

/-- Pairs of platforms between which memory can be copied. -/
def Pair (s d : Plat) : Prop := s ≠ .undefined ∧ d ≠ .undefined ∧ (s = .host ∨ d = .host ∨ s = d)

/-- The bytes from `dst` are those that were at `src`, all others are as before. -/
def Copied (m m' : Mem) (dst src n : Nat) : Prop :=
  (∀ i < n, m' (dst + i) = m (src + i)) ∧ ∀ x, ¬(dst ≤ x ∧ x < dst + n) → m' x = m x

/-- The bytes from `p` are `v`, all others are as before. -/
def Filled (m m' : Mem) (p n : Nat) (v : Int) : Prop :=
  (∀ i < n, (m' (p + i) : Int) = v % 256) ∧ ∀ x, ¬(p ≤ x ∧ x < p + n) → m' x = m x

/-- Only bytes from `p` may have changed. -/
def Within (m m' : Mem) (p n : Nat) : Prop := ∀ x, ¬(p ≤ x ∧ x < p + n) → m' x = m x

/-! ### Chains -/

theorem RootAt.rootOf {h : List Strat} {i j : Nat} {r : Res} (hr : RootAt h i j r) : Ops.RootOf h i r := by
  induction hr with
  | here h1 => exact .here h1
  | up h1 h2 _ ih => exact .up h1 h2 ih

theorem RootAt.resource {h : List Strat} {i j : Nat} {r : Res} (hr : RootAt h i j r) : h[j]? = some (.resource r) := by
  induction hr with
  | here h1 => exact h1
  | up _ _ _ ih => exact ih

theorem traits_root {w : World} (hb : Built w.strats) {i j : Nat} {r : Res} (hr : RootAt w.strats i j r) :
    ∀ fuel, i < fuel → traitsOf w fuel i = some (resTraits w j r) := by
  induction hr with
  | here h1 =>
    intro fuel hf
    cases fuel with
    | zero => omega
    | succ fuel => unfold traitsOf; rw [h1]
  | @up i p j s r h1 h2 _ ih =>
    intro fuel hf
    have hlt := hb.parent_lt _ _ _ h1 h2
    cases fuel with
    | zero => omega
    | succ fuel =>
      unfold traitsOf; rw [h1]
      cases s with
      | resource r => cases h2
      | over q => injection h2 with h2; subst h2; exact ih fuel (by omega)
      | numa q _ => injection h2 with h2; subst h2; exact ih fuel (by omega)

/-- Allocators without a `NumaPolicy` beneath report the platform of their resource. -/
theorem owned_plain {w : World} {live : List Rec} (hw : Sane w live) {r : Rec} (hr : r ∈ live) {j : Nat} {res : Res}
    (h : RootAt w.strats r.tag j res) (hp : Ops.Plain w.strats r.tag) (hn : res ≠ .noOp) : Owned w r j res :=
  ⟨h, Ops.platform_plain hw.built h.rootOf hp _ (hw.tags r hr), hn⟩

theorem Owned.traits {w : World} {live : List Rec} (hw : Sane w live) {r : Rec} (hr : r ∈ live) {j : Nat} {res : Res}
    (h : Owned w r j res) : recTraits w r = some (resTraits w j res) :=
  traits_root hw.built h.root _ (hw.tags r hr)

theorem all_side {w : World} {p n : Nat} {side : Home → Bool} {m : Home} (h : ∀ i < n, w.home (p + i) = m) (hs : side m = true) :
    w.all p n side = true := by
  unfold World.all
  rw [List.all_eq_true]
  intro i hi
  rw [h i (List.mem_range.1 hi)]
  exact hs

theorem not_side {w : World} {p n : Nat} {side : Home → Bool} {m : Home} (hn : 0 < n) (h : ∀ i < n, w.home (p + i) = m) (hs : side m = false) :
    w.all p n side = false := by
  unfold World.all
  rw [← Bool.not_eq_true, List.all_eq_true]
  intro hh
  have := hh 0 (List.mem_range.2 hn)
  rw [h 0 hn, hs] at this
  cases this

/-! ### Where the memory of each platform is -/

theorem memory_host {w : World} {j : Nat} {r : Res} (h : r.platform = .host) (hn : r ≠ .noOp) : memory w j r = .host := by
  cases r <;> first | exact absurd rfl hn | rfl | cases h

theorem memory_cuda {w : World} {j : Nat} {r : Res} (h : r.platform = .cuda) : ∃ pl, memory w j r = .gpu .cuda pl := by
  cases r <;> first | exact ⟨_, rfl⟩ | cases h

theorem memory_hip {w : World} {j : Nat} {r : Res} (h : r.platform = .hip) : ∃ pl, memory w j r = .gpu .hip pl := by
  cases r <;> first | exact ⟨_, rfl⟩ | cases h

theorem memory_sycl {w : World} {j : Nat} {r : Res} (h : r.platform = .sycl) : ∃ pl, memory w j r = .sycl j pl := by
  cases r <;> first | exact ⟨_, rfl⟩ | cases h

theorem queue_sycl {w : World} {j : Nat} {r : Res} (h : r.platform = .sycl) : (resTraits w j r).queue = some j := by
  cases r <;> first | rfl | cases h

theorem is_omp {r : Res} (h : r.platform = .omp) : r = .omp := by cases r <;> first | rfl | cases h

/-- The device number that goes with memory of the host or of an OpenMP device. -/
theorem omp_id {w : World} {j : Nat} {r : Res} (hf : w.flags.omp = true) (h : r.platform = .host ∨ r.platform = .omp) (hn : r ≠ .noOp)
    (hs : r ≠ .shared) : ∃ d, (resTraits w j r).id = some d ∧ ompSide w.initial d (memory w j r) = true := by
  cases r with
  | hostMalloc | hostPosix => exact ⟨w.initial, by simp [resTraits, hf], by simp [memory, ompSide]⟩
  | omp =>
    refine ⟨w.dev j, rfl, ?_⟩
    unfold memory
    by_cases hd : w.dev j = w.initial
    · rw [if_pos hd]; simp [ompSide, hd]
    · rw [if_neg hd]; simp [ompSide]
  | shared => exact absurd rfl hs
  | noOp => exact absurd rfl hn
  | _ => rcases h with h | h <;> cases h

/-! ### One call -/

theorem put_copied {m : Mem} {dst src n : Nat} {f : Nat → Nat} (h : ∀ i < n, f i = m (src + i)) : Copied m (put m dst n f) dst src n := by
  refine ⟨fun i hi => ?_, fun x hx => ?_⟩
  · unfold put
    rw [if_pos ⟨by omega, by omega⟩, Nat.add_sub_cancel_left]
    exact h i hi
  · unfold put; rw [if_neg hx]

theorem put_within {m : Mem} {p n : Nat} {f : Nat → Nat} : Within m (put m p n f) p n := by
  intro x hx
  unfold put; rw [if_neg hx]

theorem put_filled {m : Mem} {p n : Nat} {v : Int} : Filled m (put m p n fun _ => byte v) p n v := by
  refine ⟨fun i hi => ?_, put_within⟩
  unfold put
  rw [if_pos ⟨by omega, by omega⟩]
  unfold byte
  exact Int.toNat_of_nonneg (Int.emod_nonneg v (by decide))

theorem apart_of {dst src n : Nat} (h : n = 0 ∨ dst + n ≤ src ∨ src + n ≤ dst) : apart dst src n = true := decide_eq_true h

/-- What the caller sees if the runtime fails. -/
def onFail (o : MemOp) (a : Ans) : Out :=
  match o with
  | .hostCopy | .hostMemset => .ub
  | .cudaCopy _ | .hipCopy _ | .cudaMemset | .hipMemset => .threw
  | .ompCopy | .ompMemset => .done
  | _ => if a = .refused then .threw else .done

/-- Host memory is copied and set without a runtime that could fail. -/
def byHost : MemOp → Bool
  | .hostCopy | .hostMemset => true
  | _ => false

variable {w : World} {live : List Rec}

/-- Whatever operation is dispatched to for the platforms of two allocations that fit asks the runtime for the right bytes,
and within the contract. -/
theorem transform_right (hw : Sane w live) {rs rd : Rec} (hs : rs ∈ live) (hd : rd ∈ live) {js jd : Nat} {s d : Res}
    (os : Owned w rs js s) (od : Owned w rd jd d) (hfit : Fits js s jd d) {o : MemOp} (ho : Moves o s.platform d.platform = true)
    {src dst n : Nat} (hsl : rs.ptr ≤ src) (hsr : n = 0 ∨ src + n ≤ rs.ptr + rs.size) (hdl : rd.ptr ≤ dst) (hdr : n = 0 ∨ dst + n ≤ rd.ptr + rd.size)
    (hap : n = 0 ∨ dst + n ≤ src ∨ src + n ≤ dst) (a : Ans) (junk : Nat → Nat) :
    ∃ c, transform w o src dst rs rd n = some c ∧
      exec w a junk c = perform w dst n (fun i => w.mem (src + i)) junk (onFail o a) (byHost o || decide (a = .ok)) := by
  have hs1 : ∀ i < n, w.home (src + i) = memory w js s := fun i hi => hw.places rs hs js s os.root _ ⟨by omega, by omega⟩
  have hd1 : ∀ i < n, w.home (dst + i) = memory w jd d := fun i hi => hw.places rd hd jd d od.root _ ⟨by omega, by omega⟩
  have ts := os.traits hw hs
  have td := od.traits hw hd
  have hap' := apart_of hap
  have ens := hw.enabled js s os.root.resource
  have end' := hw.enabled jd d od.root.resource
  have omp : (s.platform = .host ∨ s.platform = .omp) → (d.platform = .host ∨ d.platform = .omp) → w.flags.omp = true →
      s ≠ .shared → d ≠ .shared → ∃ c, transform w .ompCopy src dst rs rd n = some c ∧
      exec w a junk c = perform w dst n (fun i => w.mem (src + i)) junk (onFail .ompCopy a) (byHost .ompCopy || decide (a = .ok)) := by
    intro h1 h2 h3 h4 h5
    obtain ⟨i1, e1, e2⟩ := omp_id (w := w) (j := js) h3 h1 os.real h4
    obtain ⟨i2, e3, e4⟩ := omp_id (w := w) (j := jd) h3 h2 od.real h5
    have r1 : recId w rs = some i1 := by unfold recId; rw [ts]; exact e1
    have r2 : recId w rd = some i2 := by unfold recId; rw [td]; exact e3
    refine ⟨.ompMemcpy rd.ptr rs.ptr n (dst - rd.ptr) (src - rs.ptr) i2 i1, by unfold transform; rw [r1, r2], ?_⟩
    have k1 : rd.ptr + (dst - rd.ptr) = dst := by omega
    have k2 : rs.ptr + (src - rs.ptr) = src := by omega
    unfold exec
    dsimp only
    rw [k1, k2, all_side hd1 e4, all_side hs1 e2, hap']
    rfl
  cases o with
  | hostCopy =>
    have p1 : s.platform = .host := by cases hp : s.platform <;> rw [hp] at ho <;> first | rfl | (cases hq : d.platform <;> rw [hq] at ho <;> cases ho)
    have p2 : d.platform = .host := by rw [p1] at ho; cases hp : d.platform <;> rw [hp] at ho <;> first | rfl | cases ho
    refine ⟨_, rfl, ?_⟩
    unfold exec
    dsimp only
    rw [all_side hd1 (by rw [memory_host p2 od.real]; rfl), all_side hs1 (by rw [memory_host p1 os.real]; rfl), hap']
    rfl
  | cudaCopy k =>
    refine ⟨_, rfl, ?_⟩
    unfold exec
    dsimp only
    cases k with
    | h2d =>
      have p1 : s.platform = .host ∧ d.platform = .cuda := by
        cases hp : s.platform <;> cases hq : d.platform <;> rw [hp, hq] at ho <;> first | exact ⟨rfl, rfl⟩ | cases ho
      obtain ⟨pl, e⟩ := memory_cuda (w := w) (j := jd) p1.2
      dsimp only
      rw [all_side hd1 (by rw [e]; rfl), all_side hs1 (by rw [memory_host p1.1 os.real]; rfl), hap']
      rfl
    | d2h =>
      have p1 : s.platform = .cuda ∧ d.platform = .host := by
        cases hp : s.platform <;> cases hq : d.platform <;> rw [hp, hq] at ho <;> first | exact ⟨rfl, rfl⟩ | cases ho
      obtain ⟨pl, e⟩ := memory_cuda (w := w) (j := js) p1.1
      dsimp only
      rw [all_side hd1 (by rw [memory_host p1.2 od.real]; rfl), all_side hs1 (by rw [e]; rfl), hap']
      rfl
    | d2d =>
      have p1 : s.platform = .cuda ∧ d.platform = .cuda := by
        cases hp : s.platform <;> cases hq : d.platform <;> rw [hp, hq] at ho <;> first | exact ⟨rfl, rfl⟩ | cases ho
      obtain ⟨pl, e⟩ := memory_cuda (w := w) (j := js) p1.1
      obtain ⟨pl', e'⟩ := memory_cuda (w := w) (j := jd) p1.2
      dsimp only
      rw [all_side hd1 (by rw [e']; rfl), all_side hs1 (by rw [e]; rfl), hap']
      rfl
  | hipCopy k =>
    refine ⟨_, rfl, ?_⟩
    unfold exec
    dsimp only
    cases k with
    | h2d =>
      have p1 : s.platform = .host ∧ d.platform = .hip := by
        cases hp : s.platform <;> cases hq : d.platform <;> rw [hp, hq] at ho <;> first | exact ⟨rfl, rfl⟩ | cases ho
      obtain ⟨pl, e⟩ := memory_hip (w := w) (j := jd) p1.2
      dsimp only
      rw [all_side hd1 (by rw [e]; rfl), all_side hs1 (by rw [memory_host p1.1 os.real]; rfl), hap']
      rfl
    | d2h =>
      have p1 : s.platform = .hip ∧ d.platform = .host := by
        cases hp : s.platform <;> cases hq : d.platform <;> rw [hp, hq] at ho <;> first | exact ⟨rfl, rfl⟩ | cases ho
      obtain ⟨pl, e⟩ := memory_hip (w := w) (j := js) p1.1
      dsimp only
      rw [all_side hd1 (by rw [memory_host p1.2 od.real]; rfl), all_side hs1 (by rw [e]; rfl), hap']
      rfl
    | d2d =>
      have p1 : s.platform = .hip ∧ d.platform = .hip := by
        cases hp : s.platform <;> cases hq : d.platform <;> rw [hp, hq] at ho <;> first | exact ⟨rfl, rfl⟩ | cases ho
      obtain ⟨pl, e⟩ := memory_hip (w := w) (j := js) p1.1
      obtain ⟨pl', e'⟩ := memory_hip (w := w) (j := jd) p1.2
      dsimp only
      rw [all_side hd1 (by rw [e']; rfl), all_side hs1 (by rw [e]; rfl), hap']
      rfl
  | ompCopy =>
    have p1 : (s.platform = .host ∧ d.platform = .omp) ∨ (s.platform = .omp ∧ d.platform = .host) ∨ (s.platform = .omp ∧ d.platform = .omp) := by
      cases hp : s.platform <;> cases hq : d.platform <;> rw [hp, hq] at ho <;>
        first | exact .inl ⟨rfl, rfl⟩ | exact .inr (.inl ⟨rfl, rfl⟩) | exact .inr (.inr ⟨rfl, rfl⟩) | cases ho
    have fl : s.platform = .omp ∨ d.platform = .omp → w.flags.omp = true := by
      rintro (h | h)
      · rw [h] at ens; exact ens.resolve_left (fun h => nomatch h)
      · rw [h] at end'; exact end'.resolve_left (fun h => nomatch h)
    have ns : ∀ r : Res, r.platform = .omp → r ≠ .shared := fun r h e => by rw [e] at h; cases h
    rcases p1 with ⟨h1, h2⟩ | ⟨h1, h2⟩ | ⟨h1, h2⟩
    · exact omp (.inl h1) (.inr h2) (fl (.inr h2)) (hfit.2.1 (is_omp h2)) (ns d h2)
    · exact omp (.inr h1) (.inl h2) (fl (.inl h1)) (ns s h1) (hfit.2.2 (is_omp h1))
    · exact omp (.inr h1) (.inr h2) (fl (.inl h1)) (ns s h1) (ns d h2)
  | syclCopyTo =>
    have p1 : s.platform = .host ∧ d.platform = .sycl := by
      cases hp : s.platform <;> cases hq : d.platform <;> rw [hp, hq] at ho <;> first | exact ⟨rfl, rfl⟩ | cases ho
    obtain ⟨pl, e⟩ := memory_sycl (w := w) (j := jd) p1.2
    have q : recQueue w rd = some jd := by unfold recQueue; rw [td]; exact queue_sycl p1.2
    refine ⟨.syclMemcpy jd dst src n, by unfold transform; rw [q]; rfl, ?_⟩
    unfold exec
    dsimp only
    rw [all_side hd1 (by rw [e]; simp [syclSide]), all_side hs1 (by rw [memory_host p1.1 os.real]; rfl), hap']
    rfl
  | syclCopyFrom =>
    have p1 : s.platform = .sycl ∧ d.platform = .host := by
      cases hp : s.platform <;> cases hq : d.platform <;> rw [hp, hq] at ho <;> first | exact ⟨rfl, rfl⟩ | cases ho
    obtain ⟨pl, e⟩ := memory_sycl (w := w) (j := js) p1.1
    have q : recQueue w rs = some js := by unfold recQueue; rw [ts]; exact queue_sycl p1.1
    refine ⟨.syclMemcpy js dst src n, by unfold transform; rw [q]; rfl, ?_⟩
    unfold exec
    dsimp only
    rw [all_side hd1 (by rw [memory_host p1.2 od.real]; rfl), all_side hs1 (by rw [e]; simp [syclSide]), hap']
    rfl
  | syclCopy =>
    have p1 : s.platform = .sycl ∧ d.platform = .sycl := by
      cases hp : s.platform <;> cases hq : d.platform <;> rw [hp, hq] at ho <;> first | exact ⟨rfl, rfl⟩ | cases ho
    have hj := hfit.1 p1.1 p1.2
    obtain ⟨pl, e⟩ := memory_sycl (w := w) (j := js) p1.1
    obtain ⟨pl', e'⟩ := memory_sycl (w := w) (j := jd) p1.2
    have q : recQueue w rd = some jd := by unfold recQueue; rw [td]; exact queue_sycl p1.2
    refine ⟨.syclMemcpy jd dst src n, by unfold transform; rw [q]; rfl, ?_⟩
    unfold exec
    dsimp only
    rw [all_side hd1 (by rw [e']; simp [syclSide]), all_side hs1 (by rw [e]; simp [syclSide, hj]), hap']
    rfl
  | _ => cases hp : s.platform <;> cases hq : d.platform <;> rw [hp, hq] at ho <;> cases ho

/-- The same for operations that fill. -/
theorem apply_right (hw : Sane w live) {r : Rec} (hr : r ∈ live) {j : Nat} {s : Res} (os : Owned w r j s) {o : MemOp}
    (ho : Sets o s.platform = true) {p n : Nat} (hsl : r.ptr ≤ p) (hsr : n = 0 ∨ p + n ≤ r.ptr + r.size) 
    (v : Int) (a : Ans) (junk : Nat → Nat) :
    ∃ c, apply w o p r v n = some c ∧ exec w a junk c = perform w p n (fun _ => byte v) junk (onFail o a) (byHost o || decide (a = .ok)) := by
  have hs1 : ∀ i < n, w.home (p + i) = memory w j s := fun i hi => hw.places r hr j s os.root _ ⟨by omega, by omega⟩
  have ts := os.traits hw hr
  have ens := hw.enabled j s os.root.resource
  cases o with
  | hostMemset =>
    have p1 : s.platform = .host := by cases hp : s.platform <;> rw [hp] at ho <;> first | rfl | cases ho
    refine ⟨_, rfl, ?_⟩
    unfold exec
    dsimp only
    rw [all_side hs1 (by rw [memory_host p1 os.real]; rfl)]
    rfl
  | cudaMemset =>
    have p1 : s.platform = .cuda := by cases hp : s.platform <;> rw [hp] at ho <;> first | rfl | cases ho
    obtain ⟨pl, e⟩ := memory_cuda (w := w) (j := j) p1
    refine ⟨_, rfl, ?_⟩
    unfold exec
    dsimp only
    rw [all_side hs1 (by rw [e]; rfl)]
    rfl
  | hipMemset =>
    have p1 : s.platform = .hip := by cases hp : s.platform <;> rw [hp] at ho <;> first | rfl | cases ho
    obtain ⟨pl, e⟩ := memory_hip (w := w) (j := j) p1
    refine ⟨_, rfl, ?_⟩
    unfold exec
    dsimp only
    rw [all_side hs1 (by rw [e]; rfl)]
    rfl
  | ompMemset =>
    have p1 : s.platform = .omp := by cases hp : s.platform <;> rw [hp] at ho <;> first | rfl | cases ho
    rw [p1] at ens
    have hf := ens.resolve_left (fun h => nomatch h)
    obtain ⟨i1, e1, e2⟩ := omp_id (w := w) (j := j) hf (.inr p1) os.real (fun e => by rw [e] at p1; cases p1)
    have r1 : recId w r = some i1 := by unfold recId; rw [ts]; exact e1
    refine ⟨.ompFill i1 p v n, by unfold apply; rw [r1]; rfl, ?_⟩
    unfold exec
    dsimp only
    rw [all_side hs1 e2]
    rfl
  | syclMemset =>
    have p1 : s.platform = .sycl := by cases hp : s.platform <;> rw [hp] at ho <;> first | rfl | cases ho
    obtain ⟨pl, e⟩ := memory_sycl (w := w) (j := j) p1
    have q : recQueue w r = some j := by unfold recQueue; rw [ts]; exact queue_sycl p1
    refine ⟨.syclMemset j p v n, by unfold apply; rw [q]; rfl, ?_⟩
    unfold exec
    dsimp only
    rw [all_side hs1 (by rw [e]; simp [syclSide])]
    rfl
  | _ => cases hp : s.platform <;> rw [hp] at ho <;> cases ho

/-! ### Lookups -/

theorem lookup {a : AMap} (hr : ∃ n, AReach Any a (byPtr live) n) (ha : Judy.Apart live) {q : Nat} (hq : q < 2 ^ 64) {r : Rec} (hm : r ∈ live)
    (hc : Contains r q) : (a.findRecord q).2 = none ∨ (a.findRecord q).2 = some r := by
  obtain ⟨n, hn⟩ := hr
  cases hf : (a.findRecord q).2 with
  | none => exact .inl rfl
  | some c =>
    obtain ⟨h1, h2⟩ := (Judy.allocmap_find_sound hn ha hq).1 c hf
    exact .inr (congrArg some (Judy.apart_eq ha h1 hm h2 hc))

theorem lookup_base {a : AMap} (hr : ∃ n, AReach Any a (byPtr live) n) (ha : Judy.Apart live) {r : Rec} (hq : r.ptr < 2 ^ 64) (hm : r ∈ live) :
    (a.findRecord r.ptr).2 = some r := by
  obtain ⟨n, hn⟩ := hr
  exact (Judy.allocmap_find_sound hn ha hq).2 r hm rfl

theorem reach_find {a : AMap} (hr : ∃ n, AReach Any a (byPtr live) n) (q : Nat) : ∃ n, AReach Any (a.findRecord q).1 (byPtr live) n :=
  hr.imp fun _ h => .find h

/-- The length of a copy: given, or to the end of the source. -/
def copyLen (rs : Rec) (src size : Nat) : Nat := if size = 0 then rs.ptr + rs.size - src else size

theorem planCopy_found {dst src size : Nat} {rs rd : Rec} (h1 : (w.amap.findRecord src).2 = some rs)
    (h2 : ((w.amap.findRecord src).1.findRecord dst).2 = some rd) (hsl : rs.ptr ≤ src) :
    (planCopy w dst src size).1 =
      if copyLen rs src size > rd.size - (dst - rd.ptr) then .threw
      else match findFor (registry w.flags w.user) w.strats w.strats.length COPY rs.tag rd.tag with
        | some (some o) =>
          match transform w o src dst rs rd (copyLen rs src size) with
          | some c => .call o c
          | none => .ub
        | some none => .threw
        | none => .ub := by
  have hl : (if size = 0 then rs.size - (src - rs.ptr) else size) = copyLen rs src size := by
    unfold copyLen
    by_cases h : size = 0
    · rw [if_pos h, if_pos h]; omega
    · rw [if_neg h, if_neg h]
  unfold planCopy
  have e1 : w.amap.findRecord src = ((w.amap.findRecord src).1, some rs) := by rw [← h1]
  rw [e1]
  dsimp only
  have e2 : (w.amap.findRecord src).1.findRecord dst = (((w.amap.findRecord src).1.findRecord dst).1, some rd) := by rw [← h2]
  rw [e2]
  dsimp only
  rw [hl]
  split
  · rfl
  · cases findFor (registry w.flags w.user) w.strats w.strats.length COPY rs.tag rd.tag with
    | none => rfl
    | some x =>
      cases x with
      | none => rfl
      | some o => dsimp only; cases transform w o src dst rs rd (copyLen rs src size) <;> rfl

theorem planCopy_threw {dst src size : Nat} (h : (w.amap.findRecord src).2 = none ∨ ((w.amap.findRecord src).1.findRecord dst).2 = none) :
    (planCopy w dst src size).1 = .threw := by
  unfold planCopy
  rcases hf : w.amap.findRecord src with ⟨a1, _ | rs⟩
  · rfl
  · rw [hf] at h
    have h := h.resolve_left (fun h => nomatch h)
    dsimp only at h ⊢
    rcases hg : a1.findRecord dst with ⟨a2, _ | rd⟩
    · rfl
    · rw [hg] at h; cases h

theorem planFill_found {p size : Nat} {v : Int} {r : Rec} (h1 : (w.amap.findRecord p).2 = some r) (hsl : r.ptr ≤ p) :
    (planFill w p v size).1 =
      if copyLen r p size > r.size - (p - r.ptr) then .threw
      else match findFor (registry w.flags w.user) w.strats w.strats.length MEMSET r.tag r.tag with
        | some (some o) =>
          match apply w o p r v (copyLen r p size) with
          | some c => .call o c
          | none => .ub
        | some none => .threw
        | none => .ub := by
  have hl : (if size = 0 then r.size - (p - r.ptr) else size) = copyLen r p size := by
    unfold copyLen
    by_cases h : size = 0
    · rw [if_pos h, if_pos h]; omega
    · rw [if_neg h, if_neg h]
  unfold planFill
  have e1 : w.amap.findRecord p = ((w.amap.findRecord p).1, some r) := by rw [← h1]
  rw [e1]
  dsimp only
  rw [hl]
  split
  · rfl
  · cases findFor (registry w.flags w.user) w.strats w.strats.length MEMSET r.tag r.tag with
    | none => rfl
    | some x =>
      cases x with
      | none => rfl
      | some o => dsimp only; cases apply w o p r v (copyLen r p size) <;> rfl

theorem planFill_threw {p size : Nat} {v : Int} (h : (w.amap.findRecord p).2 = none) : (planFill w p v size).1 = .threw := by
  unfold planFill
  rcases hf : w.amap.findRecord p with ⟨a1, _ | r⟩
  · rfl
  · rw [hf] at h; cases h

/-- How a call ends that has come to a plan. -/
def Plan.ends (w : World) (a : Ans) (junk : Nat → Nat) : Plan → Out × Mem
  | .threw => (.threw, w.mem)
  | .ub => (.ub, w.mem)
  | .call _ c => exec w a junk c

theorem finish_eq {a : Ans} {junk : Nat → Nat} {P : Plan × AMap} {P' : Plan} (h : P.1 = P') :
    (finish w a junk P).1 = (P'.ends w a junk).1 ∧ (finish w a junk P).2.mem = (P'.ends w a junk).2 := by
  subst h
  obtain ⟨P1, m⟩ := P
  cases P1 <;> exact ⟨rfl, rfl⟩

theorem findFor_own {n : Names.Name} {rs rd : Rec} {js jd : Nat} {s d : Res} (os : Owned w rs js s) (od : Owned w rd jd d) :
    findFor (registry w.flags w.user) w.strats w.strats.length n rs.tag rd.tag =
      some (Ops.find (registry w.flags w.user) n (s.platform, d.platform)) := by
  unfold findFor
  rw [os.own, od.own]

instance (s d : Plat) : Decidable (Pair s d) := inferInstanceAs (Decidable (_ ∧ _ ∧ _))

theorem moves_pair {o : MemOp} {s d : Plat} (h : Moves o s d = true) : Pair s d := by
  cases o with
  | cudaCopy k => cases k <;> cases s <;> cases d <;> first | decide | cases h
  | hipCopy k => cases k <;> cases s <;> cases d <;> first | decide | cases h
  | _ => cases s <;> cases d <;> first | decide | cases h

/-- An operation that moves data between two platforms is one of the runtime of the one that is not the host. -/
theorem moves_kind {o : MemOp} {s d : Plat} (h : Moves o s d = true) :
    (o = .hostCopy ∧ s = .host ∧ d = .host) ∨ ((∃ k, o = .cudaCopy k) ∧ (s = .cuda ∨ d = .cuda)) ∨ ((∃ k, o = .hipCopy k) ∧ (s = .hip ∨ d = .hip)) ∨
    (o = .ompCopy ∧ (s = .omp ∨ d = .omp)) ∨ ((o = .syclCopyTo ∨ o = .syclCopyFrom ∨ o = .syclCopy) ∧ (s = .sycl ∨ d = .sycl)) := by
  cases o with
  | hostCopy => cases s <;> cases d <;> first | exact .inl ⟨rfl, rfl, rfl⟩ | cases h
  | cudaCopy k => refine .inr (.inl ⟨⟨k, rfl⟩, ?_⟩); cases k <;> cases s <;> cases d <;> first | decide | cases h
  | hipCopy k => refine .inr (.inr (.inl ⟨⟨k, rfl⟩, ?_⟩)); cases k <;> cases s <;> cases d <;> first | decide | cases h
  | ompCopy => refine .inr (.inr (.inr (.inl ⟨rfl, ?_⟩))); cases s <;> cases d <;> first | decide | cases h
  | syclCopyTo => refine .inr (.inr (.inr (.inr ⟨.inl rfl, ?_⟩))); cases s <;> cases d <;> first | decide | cases h
  | syclCopyFrom => refine .inr (.inr (.inr (.inr ⟨.inr (.inl rfl), ?_⟩))); cases s <;> cases d <;> first | decide | cases h
  | syclCopy => refine .inr (.inr (.inr (.inr ⟨.inr (.inr rfl), ?_⟩))); cases s <;> cases d <;> first | decide | cases h
  | _ => cases s <;> cases d <;> cases h

theorem Owned.has (hw : Sane w live) {r : Rec} {j : Nat} {s : Res} (os : Owned w r j s) (hn : s.platform ≠ .undefined) :
    w.flags.has s.platform = true := (hw.enabled j s os.root.resource).resolve_left hn

/-- There is an operation for each pair of platforms that can be copied between. -/
theorem pair_found {s d : Plat} (hp : Pair s d) (hs : w.flags.has s = true) (hd : w.flags.has d = true) :
    ∃ o, Ops.find (registry w.flags w.user) COPY (s, d) = some o ∧ Moves o s d = true := by
  obtain ⟨_, _, h | h | h⟩ := hp
  · subst h; exact (Ops.device_total w.flags w.user d hd).1
  · subst h; exact (Ops.device_total w.flags w.user s hs).2.1
  · subst h; exact (Ops.device_total w.flags w.user s hs).2.2.1

/-- A copy from the base of one allocation to the base of another. -/
theorem plan_base (hw : Sane w live) {rs rd : Rec} (hs : rs ∈ live) (hd : rd ∈ live) (hsb : rs.ptr < 2 ^ 64) (hdb : rd.ptr < 2 ^ 64) {size : Nat} :
    (planCopy w rd.ptr rs.ptr size).1 =
      if copyLen rs rs.ptr size > rd.size then .threw
      else match findFor (registry w.flags w.user) w.strats w.strats.length COPY rs.tag rd.tag with
        | some (some o) =>
          match transform w o rs.ptr rd.ptr rs rd (copyLen rs rs.ptr size) with
          | some c => .call o c
          | none => .ub
        | some none => .threw
        | none => .ub := by
  have h1 := lookup_base hw.reach hw.apart hsb hs
  have h2 := lookup_base (reach_find hw.reach rs.ptr) hw.apart hdb hd
  rw [planCopy_found h1 h2 (Nat.le_refl _), Nat.sub_self, Nat.sub_zero]

theorem plan_fill_base (hw : Sane w live) {r : Rec} (hr : r ∈ live) (hb : r.ptr < 2 ^ 64) {size : Nat} {v : Int} :
    (planFill w r.ptr v size).1 =
      if copyLen r r.ptr size > r.size then .threw
      else match findFor (registry w.flags w.user) w.strats w.strats.length MEMSET r.tag r.tag with
        | some (some o) =>
          match apply w o r.ptr r v (copyLen r r.ptr size) with
          | some c => .call o c
          | none => .ub
        | some none => .threw
        | none => .ub := by
  rw [planFill_found (lookup_base hw.reach hw.apart hb hr) (Nat.le_refl _), Nat.sub_self, Nat.sub_zero]

/-! ### C82 -/

/-- What the runtime's answer has to be for the caller to be told of a failure: OpenMP never tells, SYCL not of all. -/
def Told (s d : Plat) (a : Ans) : Prop := a ≠ .lost ∧ (s = .omp ∨ d = .omp → a = .ok)

section Copy
variable (hw : Sane w live) {rs rd : Rec} (hs : rs ∈ live) (hd : rd ∈ live) {js jd : Nat} {s d : Res}
  (os : Owned w rs js s) (od : Owned w rd jd d) (hfit : Fits js s jd d) (hu : ∀ e ∈ w.user, e.name ≠ COPY)
  {src dst size : Nat} (hsb : src < 2 ^ 64) (hdb : dst < 2 ^ 64) (hsc : Contains rs src) (hdc : Contains rd dst)
  (hsr : src + copyLen rs src size ≤ rs.ptr + rs.size)
  (hap : dst + copyLen rs src size ≤ src ∨ src + copyLen rs src size ≤ dst) (a : Ans) (junk : Nat → Nat)
include hw hs hd os od hfit hu hsb hdb hsc hdc hsr hap

/-- **C82** (partial: see `sycl_two_resources`, `omp_failure`, `omp_shared`, `numa_gpu`) A copy between allocations that fit, of
bytes the source has, either returns and the bytes from `dst` are those that were at `src`, or it throws; no other byte
changes. -/
theorem copy_partial (ht : Told s.platform d.platform a) :
    ((copy w dst src size a junk).1 = .done ∧ Copied w.mem (copy w dst src size a junk).2.mem dst src (copyLen rs src size)) ∨
    ((copy w dst src size a junk).1 = .threw ∧ Within w.mem (copy w dst src size a junk).2.mem dst (copyLen rs src size)) := by
  have bad : (planCopy w dst src size).1 = .threw →
      (copy w dst src size a junk).1 = .threw ∧ Within w.mem (copy w dst src size a junk).2.mem dst (copyLen rs src size) := by
    intro h
    obtain ⟨e1, e2⟩ := finish_eq (w := w) (a := a) (junk := junk) h
    exact ⟨e1, fun x _ => congrFun e2 x⟩
  rcases lookup hw.reach hw.apart hsb hs hsc with h1 | h1
  · exact .inr (bad (planCopy_threw (.inl h1)))
  rcases lookup (reach_find hw.reach src) hw.apart hdb hd hdc with h2 | h2
  · exact .inr (bad (planCopy_threw (.inr h2)))
  have hp := planCopy_found (size := size) h1 h2 hsc.1
  by_cases hbig : copyLen rs src size > rd.size - (dst - rd.ptr)
  · rw [if_pos hbig] at hp
    exact .inr (bad hp)
  rw [if_neg hbig, findFor_own os od] at hp
  cases hf : Ops.find (registry w.flags w.user) COPY (s.platform, d.platform) with
  | none => rw [hf] at hp; exact .inr (bad hp)
  | some o =>
    rw [hf] at hp
    dsimp only at hp
    have ho : Moves o s.platform d.platform = true := by
      rcases Ops.dispatch_right _ _ _ _ _ _ hf with ⟨e, he, hn, _⟩ | h
      · exact absurd hn (hu e he)
      · exact h.1 rfl
    have hdr : copyLen rs src size = 0 ∨ dst + copyLen rs src size ≤ rd.ptr + rd.size := by
      have := hdc.1
      rcases hdc.2 with h | h <;> omega
    obtain ⟨c, hc, hx⟩ := transform_right hw hs hd os od hfit ho hsc.1 (.inr hsr) hdc.1 hdr (.inr hap) a junk
    rw [hc] at hp
    dsimp only at hp
    obtain ⟨e1, e2⟩ := finish_eq (w := w) (a := a) (junk := junk) hp
    unfold Plan.ends at e1 e2
    dsimp only at e1 e2
    rw [hx] at e1 e2
    unfold copy
    by_cases hg : (byHost o || decide (a = .ok)) = true
    · left
      rw [hg] at e1 e2
      exact ⟨e1, by rw [e2]; exact put_copied fun _ _ => rfl⟩
    · right
      rw [Bool.not_eq_true] at hg
      rw [hg] at e1 e2
      obtain ⟨g1, g2⟩ := Bool.or_eq_false_iff.1 hg
      have g2 := of_decide_eq_false g2
      refine ⟨e1.trans ?_, by rw [e2]; exact put_within⟩
      have hr : a = .refused := by
        cases a with
        | ok => exact absurd rfl g2
        | lost => exact absurd rfl ht.1
        | refused => rfl
      show onFail o a = .threw
      cases o with
      | hostCopy => cases g1
      | hostMemset => cases g1
      | cudaCopy _ | hipCopy _ | cudaMemset | hipMemset => rfl
      | ompCopy =>
        have : s.platform = .omp ∨ d.platform = .omp := by
          cases hp : s.platform <;> cases hq : d.platform <;> rw [hp, hq] at ho <;> first | exact .inl rfl | exact .inr rfl | cases ho
        exact absurd (ht.2 this) g2
      | ompMemset => cases hp : s.platform <;> cases hq : d.platform <;> rw [hp, hq] at ho <;> cases ho
      | _ => exact if_pos hr

end Copy

/-- **C82** When a copy between the bases of two allocations throws: the destination is too small, there is no way between
the platforms, or the runtime reports an error. -/
theorem copy_throws_iff (hw : Sane w live) {rs rd : Rec} (hs : rs ∈ live) (hd : rd ∈ live) {js jd : Nat} {s d : Res}
    (os : Owned w rs js s) (od : Owned w rd jd d) (hfit : Fits js s jd d) (hu : ∀ e ∈ w.user, e.name ≠ COPY) {size : Nat}
    (hsb : rs.ptr < 2 ^ 64) (hdb : rd.ptr < 2 ^ 64) (hsr : copyLen rs rs.ptr size ≤ rs.size)
    (hap : rd.ptr + copyLen rs rs.ptr size ≤ rs.ptr ∨ rs.ptr + copyLen rs rs.ptr size ≤ rd.ptr) (a : Ans) (junk : Nat → Nat)
    (ht : Told s.platform d.platform a) :
    (copy w rd.ptr rs.ptr size a junk).1 = .threw ↔
      copyLen rs rs.ptr size > rd.size ∨ ¬Pair s.platform d.platform ∨ (a = .refused ∧ ¬(s.platform = .host ∧ d.platform = .host)) := by
  have hp := plan_base hw hs hd hsb hdb (size := size)
  by_cases hbig : copyLen rs rs.ptr size > rd.size
  · rw [if_pos hbig] at hp
    exact ⟨fun _ => .inl hbig, fun _ => (finish_eq hp).1⟩
  rw [if_neg hbig, findFor_own os od] at hp
  by_cases hpair : Pair s.platform d.platform
  · obtain ⟨o, hf, ho⟩ := pair_found (w := w) hpair (os.has hw hpair.1) (od.has hw hpair.2.1)
    obtain ⟨c, hc, hx⟩ := transform_right hw hs hd os od hfit ho (Nat.le_refl _) (.inr (by omega)) (Nat.le_refl _) (.inr (by omega)) (.inr hap) a junk
    rw [hf] at hp
    dsimp only at hp
    rw [hc] at hp
    dsimp only at hp
    have e := (finish_eq (w := w) (a := a) (junk := junk) hp).1
    unfold Plan.ends at e
    dsimp only at e
    rw [hx] at e
    unfold copy
    rw [e]
    have hk := moves_kind ho
    have lost : a = .lost → False := ht.1
    constructor
    · intro h
      right; right
      refine ⟨?_, ?_⟩
      · cases a with
        | refused => rfl
        | lost => exact (lost rfl).elim
        | ok => rw [decide_eq_true rfl, Bool.or_true] at h; cases h
      · rintro ⟨h1, h2⟩
        rw [h1, h2] at hk
        rcases hk with ⟨rfl, _⟩ | ⟨_, h | h⟩ | ⟨_, h | h⟩ | ⟨_, h | h⟩ | ⟨_, h | h⟩ <;> cases h
    · rintro (h | h | ⟨rfl, h⟩)
      · exact absurd h hbig
      · exact absurd hpair h
      · rcases hk with ⟨_, h1, h2⟩ | ⟨⟨k, rfl⟩, _⟩ | ⟨⟨k, rfl⟩, _⟩ | ⟨_, h1⟩ | ⟨rfl | rfl | rfl, _⟩
        · exact absurd ⟨h1, h2⟩ h
        · rfl
        · rfl
        · cases ht.2 h1
        · rfl
        · rfl
        · rfl
  · have hf : Ops.find (registry w.flags w.user) COPY (s.platform, d.platform) = none := by
      cases hf : Ops.find (registry w.flags w.user) COPY (s.platform, d.platform) with
      | none => rfl
      | some o =>
        rcases Ops.dispatch_right _ _ _ _ _ _ hf with ⟨e, he, hn, _⟩ | h
        · exact absurd hn (hu e he)
        · exact absurd (moves_pair (h.1 rfl)) hpair
    rw [hf] at hp
    exact ⟨fun _ => .inr (.inl hpair), fun _ => (finish_eq hp).1⟩

theorem sets_kind {o : MemOp} {s : Plat} (h : Sets o s = true) :
    (o = .hostMemset ∧ s = .host) ∨ (o = .cudaMemset ∧ s = .cuda) ∨ (o = .hipMemset ∧ s = .hip) ∨ (o = .ompMemset ∧ s = .omp) ∨
    (o = .syclMemset ∧ s = .sycl) := by
  cases o <;> cases s <;> first
    | exact .inl ⟨rfl, rfl⟩
    | exact .inr (.inl ⟨rfl, rfl⟩)
    | exact .inr (.inr (.inl ⟨rfl, rfl⟩))
    | exact .inr (.inr (.inr (.inl ⟨rfl, rfl⟩)))
    | exact .inr (.inr (.inr (.inr ⟨rfl, rfl⟩)))
    | exact nomatch h

/-- **C82** (partial: see `omp_failure`, `numa_gpu`) A fill either returns and the bytes from `p`, as many as asked for or to the
end of the allocation, are the value, or it throws; no other byte changes. -/
theorem fill_partial (hw : Sane w live) {r : Rec} (hr : r ∈ live) {j : Nat} {s : Res} (os : Owned w r j s) (hu : ∀ e ∈ w.user, e.name ≠ MEMSET)
    {p size : Nat} (hb : p < 2 ^ 64) (hc : Contains r p) (v : Int) (a : Ans) (junk : Nat → Nat) (ht : Told s.platform s.platform a) :
    ((fill w p v size a junk).1 = .done ∧ Filled w.mem (fill w p v size a junk).2.mem p (copyLen r p size) v) ∨
    ((fill w p v size a junk).1 = .threw ∧ Within w.mem (fill w p v size a junk).2.mem p (copyLen r p size)) := by
  have bad : (planFill w p v size).1 = .threw →
      (fill w p v size a junk).1 = .threw ∧ Within w.mem (fill w p v size a junk).2.mem p (copyLen r p size) := by
    intro h
    obtain ⟨e1, e2⟩ := finish_eq (w := w) (a := a) (junk := junk) h
    exact ⟨e1, fun x _ => congrFun e2 x⟩
  rcases lookup hw.reach hw.apart hb hr hc with h1 | h1
  · exact .inr (bad (planFill_threw h1))
  have hp := planFill_found (size := size) (v := v) h1 hc.1
  by_cases hbig : copyLen r p size > r.size - (p - r.ptr)
  · rw [if_pos hbig] at hp
    exact .inr (bad hp)
  rw [if_neg hbig, findFor_own os os] at hp
  cases hf : Ops.find (registry w.flags w.user) MEMSET (s.platform, s.platform) with
  | none => rw [hf] at hp; exact .inr (bad hp)
  | some o =>
    rw [hf] at hp
    dsimp only at hp
    have ho : Sets o s.platform = true := by
      rcases Ops.dispatch_right _ _ _ _ _ _ hf with ⟨e, he, hn, _⟩ | h
      · exact absurd hn (hu e he)
      · exact (h.2.1 rfl).2
    have hdr : copyLen r p size = 0 ∨ p + copyLen r p size ≤ r.ptr + r.size := by
      have := hc.1
      rcases hc.2 with h | h <;> omega
    obtain ⟨c, hc', hx⟩ := apply_right hw hr os ho hc.1 hdr v a junk
    rw [hc'] at hp
    dsimp only at hp
    obtain ⟨e1, e2⟩ := finish_eq (w := w) (a := a) (junk := junk) hp
    unfold Plan.ends at e1 e2
    dsimp only at e1 e2
    rw [hx] at e1 e2
    unfold fill
    by_cases hg : (byHost o || decide (a = .ok)) = true
    · left
      rw [hg] at e1 e2
      exact ⟨e1, by rw [e2]; exact put_filled⟩
    · right
      rw [Bool.not_eq_true] at hg
      rw [hg] at e1 e2
      obtain ⟨g1, g2⟩ := Bool.or_eq_false_iff.1 hg
      have g2 := of_decide_eq_false g2
      refine ⟨e1.trans ?_, by rw [e2]; exact put_within⟩
      have hr : a = .refused := by
        cases a with
        | ok => exact absurd rfl g2
        | lost => exact absurd rfl ht.1
        | refused => rfl
      show onFail o a = .threw
      rcases sets_kind ho with ⟨rfl, _⟩ | ⟨rfl, _⟩ | ⟨rfl, _⟩ | ⟨rfl, h⟩ | ⟨rfl, _⟩
      · cases g1
      · rfl
      · rfl
      · exact absurd (ht.2 (.inl h)) g2
      · exact if_pos hr

/-- **C82** When a fill from the base of an allocation throws. -/
theorem fill_throws_iff (hw : Sane w live) {r : Rec} (hr : r ∈ live) {j : Nat} {s : Res} (os : Owned w r j s) (hu : ∀ e ∈ w.user, e.name ≠ MEMSET)
    {size : Nat} (hb : r.ptr < 2 ^ 64) (v : Int) (a : Ans) (junk : Nat → Nat) (ht : Told s.platform s.platform a) :
    (fill w r.ptr v size a junk).1 = .threw ↔ copyLen r r.ptr size > r.size ∨ s.platform = .undefined ∨ (a = .refused ∧ s.platform ≠ .host) := by
  have hp := plan_fill_base hw hr hb (size := size) (v := v)
  by_cases hbig : copyLen r r.ptr size > r.size
  · rw [if_pos hbig] at hp
    exact ⟨fun _ => .inl hbig, fun _ => (finish_eq hp).1⟩
  rw [if_neg hbig, findFor_own os os] at hp
  by_cases hund : s.platform = .undefined
  · have hf : Ops.find (registry w.flags w.user) MEMSET (s.platform, s.platform) = none := by
      cases hf : Ops.find (registry w.flags w.user) MEMSET (s.platform, s.platform) with
      | none => rfl
      | some o =>
        rcases Ops.dispatch_right _ _ _ _ _ _ hf with ⟨e, he, hn, _⟩ | h
        · exact absurd hn (hu e he)
        · have := (h.2.1 rfl).2
          rw [hund] at this
          cases o <;> cases this
    rw [hf] at hp
    exact ⟨fun _ => .inr (.inl hund), fun _ => (finish_eq hp).1⟩
  · obtain ⟨o, hf, ho⟩ := (Ops.device_total w.flags w.user s.platform (os.has hw hund)).2.2.2.1
    obtain ⟨c, hc, hx⟩ := apply_right hw hr os ho (p := r.ptr) (n := copyLen r r.ptr size) (Nat.le_refl _) (.inr (by omega)) v a junk
    rw [hf] at hp
    dsimp only at hp
    rw [hc] at hp
    dsimp only at hp
    have e := (finish_eq (w := w) (a := a) (junk := junk) hp).1
    unfold Plan.ends at e
    dsimp only at e
    rw [hx] at e
    unfold fill
    rw [e]
    have lost : a = .lost → False := ht.1
    constructor
    · intro h
      right; right
      refine ⟨?_, ?_⟩
      · cases a with
        | refused => rfl
        | lost => exact (lost rfl).elim
        | ok => rw [decide_eq_true rfl, Bool.or_true] at h; cases h
      · intro h1
        rcases sets_kind ho with ⟨rfl, _⟩ | ⟨_, h2⟩ | ⟨_, h2⟩ | ⟨_, h2⟩ | ⟨_, h2⟩
        · cases h
        all_goals (rw [h1] at h2; cases h2)
    · rintro (h | h | ⟨rfl, h⟩)
      · exact absurd h hbig
      · exact absurd h hund
      · rcases sets_kind ho with ⟨_, h1⟩ | ⟨rfl, _⟩ | ⟨rfl, _⟩ | ⟨_, h1⟩ | ⟨rfl, _⟩
        · exact absurd h1 h
        · rfl
        · rfl
        · cases ht.2 (.inl h1)
        · rfl

/-! ### With a resource -/

theorem start_same {x : Ctx} {P : Plan × AMap} {c : Call} (h : (∃ api t, start x P = .queued api t c) ∨ start x P = .now c) : ∃ o, P.1 = .call o c := by
  obtain ⟨P1, m⟩ := P
  unfold start at h
  cases P1 with
  | threw => rcases h with ⟨_, _, h⟩ | h <;> cases h
  | ub => rcases h with ⟨_, _, h⟩ | h <;> cases h
  | call o c' =>
    refine ⟨o, ?_⟩
    dsimp only at h
    split at h
    all_goals first
      | (split at h <;> rcases h with ⟨_, _, h⟩ | h <;> first | (injection h with _ _ h; rw [h]) | cases h)
      | (rcases h with ⟨_, _, h⟩ | h <;> first | (injection h with h; rw [h]) | cases h)

/-- **C82** What a copy or a fill with a resource hands to a stream, or does at once, is what the call without one does. -/
theorem on_same (dst src size : Nat) (p : Nat) (v : Int) (x : Ctx) (c : Call) (a : Ans) (junk : Nat → Nat) :
    ((∃ api t, copyOn w dst src size x = .queued api t c) ∨ copyOn w dst src size x = .now c →
      (copy w dst src size a junk).1 = (exec w a junk c).1 ∧ (copy w dst src size a junk).2.mem = (exec w a junk c).2) ∧
    ((∃ api t, fillOn w p v size x = .queued api t c) ∨ fillOn w p v size x = .now c →
      (fill w p v size a junk).1 = (exec w a junk c).1 ∧ (fill w p v size a junk).2.mem = (exec w a junk c).2) := by
  constructor
  · intro h
    obtain ⟨o, ho⟩ := start_same h
    obtain ⟨e1, e2⟩ := finish_eq (w := w) (a := a) (junk := junk) ho
    exact ⟨e1, e2⟩
  · intro h
    obtain ⟨o, ho⟩ := start_same h
    obtain ⟨e1, e2⟩ := finish_eq (w := w) (a := a) (junk := junk) ho
    exact ⟨e1, e2⟩

/-- The runtime with streams that is to copy between two platforms. -/
def apiOf (s d : Plat) : Option Api :=
  if s = .cuda ∨ d = .cuda then some .cuda else if s = .hip ∨ d = .hip then some .hip else none

/-- The runtime with streams an operation belongs to. -/
def opApi : MemOp → Option Api
  | .cudaCopy _ | .cudaMemset => some .cuda
  | .hipCopy _ | .hipMemset => some .hip
  | _ => none

theorem moves_api {o : MemOp} {s d : Plat} (h : Moves o s d = true) : opApi o = apiOf s d := by
  cases o with
  | cudaCopy k => cases k <;> cases s <;> cases d <;> first | rfl | cases h
  | hipCopy k => cases k <;> cases s <;> cases d <;> first | rfl | cases h
  | _ => cases s <;> cases d <;> first | rfl | cases h

theorem sets_api {o : MemOp} {s : Plat} (h : Sets o s = true) : opApi o = apiOf s s := by
  cases o <;> cases s <;> first | rfl | cases h

theorem start_call (o : MemOp) (c : Call) (m : AMap) (x : Ctx) :
    (∀ api t, opApi o = some api → x = .stream api t → start x (.call o c, m) = .queued api t c) ∧
    (∀ api, opApi o = some api → (∀ t, x ≠ .stream api t) → start x (.call o c, m) = .threw) ∧
    (opApi o = none → start x (.call o c, m) = .now c) := by
  refine ⟨fun api t h hx => ?_, fun api h hx => ?_, fun h => ?_⟩
  · subst hx
    cases o <;> first | (cases h; rfl) | cases h
  · cases o <;> first | cases h | skip
    all_goals (rcases x with _ | ⟨_ | _, t⟩ | _ <;> first | rfl | exact absurd rfl (hx t))
  · cases o <;> first | rfl | cases h

/-- **C82** A copy between the bases of two allocations, with a resource: memory of CUDA or HIP needs a stream of it, which
gets the copy; without such memory the copy is made at once. -/
theorem copyOn_cases (hw : Sane w live) {rs rd : Rec} (hs : rs ∈ live) (hd : rd ∈ live) {js jd : Nat} {s d : Res}
    (os : Owned w rs js s) (od : Owned w rd jd d) (hfit : Fits js s jd d) {size : Nat}
    (hsb : rs.ptr < 2 ^ 64) (hdb : rd.ptr < 2 ^ 64) (hsr : copyLen rs rs.ptr size ≤ rs.size) (hdr : copyLen rs rs.ptr size ≤ rd.size)
    (hap : rd.ptr + copyLen rs rs.ptr size ≤ rs.ptr ∨ rs.ptr + copyLen rs rs.ptr size ≤ rd.ptr)
    (hpair : Pair s.platform d.platform) (x : Ctx) :
    (∀ api t, apiOf s.platform d.platform = some api → x = .stream api t → ∃ c, copyOn w rd.ptr rs.ptr size x = .queued api t c) ∧
    (∀ api, apiOf s.platform d.platform = some api → (∀ t, x ≠ .stream api t) → copyOn w rd.ptr rs.ptr size x = .threw) ∧
    (apiOf s.platform d.platform = none → ∃ c, copyOn w rd.ptr rs.ptr size x = .now c) := by
  have hp := plan_base hw hs hd hsb hdb (size := size)
  rw [if_neg (Nat.not_lt.2 hdr), findFor_own os od] at hp
  obtain ⟨o, hf, ho⟩ := pair_found (w := w) hpair (os.has hw hpair.1) (od.has hw hpair.2.1)
  obtain ⟨c, hc, _⟩ := transform_right hw hs hd os od hfit ho (Nat.le_refl _) (.inr (by omega)) (Nat.le_refl _) (.inr (by omega)) (.inr hap) .ok fun _ => 0
  rw [hf] at hp
  dsimp only at hp
  rw [hc] at hp
  dsimp only at hp
  have hst : copyOn w rd.ptr rs.ptr size x = start x (.call o c, (planCopy w rd.ptr rs.ptr size).2) :=
    congrArg (start x) (Prod.ext hp rfl)
  rw [hst, ← moves_api ho]
  obtain ⟨k1, k2, k3⟩ := start_call o c (planCopy w rd.ptr rs.ptr size).2 x
  exact ⟨fun api t h hx => ⟨c, k1 api t h hx⟩, k2, fun h => ⟨c, k3 h⟩⟩

/-- **C82** A fill from the base of an allocation, with a resource. -/
theorem fillOn_cases (hw : Sane w live) {r : Rec} (hr : r ∈ live) {j : Nat} {s : Res} (os : Owned w r j s) {size : Nat} (hb : r.ptr < 2 ^ 64) (v : Int)
    (hsz : copyLen r r.ptr size ≤ r.size) (hund : s.platform ≠ .undefined) (x : Ctx) :
    (∀ api t, apiOf s.platform s.platform = some api → x = .stream api t → ∃ c, fillOn w r.ptr v size x = .queued api t c) ∧
    (∀ api, apiOf s.platform s.platform = some api → (∀ t, x ≠ .stream api t) → fillOn w r.ptr v size x = .threw) ∧
    (apiOf s.platform s.platform = none → ∃ c, fillOn w r.ptr v size x = .now c) := by
  have hp := plan_fill_base hw hr hb (size := size) (v := v)
  rw [if_neg (Nat.not_lt.2 hsz), findFor_own os os] at hp
  obtain ⟨o, hf, ho⟩ := (Ops.device_total w.flags w.user s.platform (os.has hw hund)).2.2.2.1
  obtain ⟨c, hc, _⟩ := apply_right hw hr os ho (p := r.ptr) (n := copyLen r r.ptr size) (Nat.le_refl _) (.inr (by omega)) v .ok fun _ => 0
  rw [hf] at hp
  dsimp only at hp
  rw [hc] at hp
  dsimp only at hp
  have hst : fillOn w r.ptr v size x = start x (.call o c, (planFill w r.ptr v size).2) :=
    congrArg (start x) (Prod.ext hp rfl)
  rw [hst, ← sets_api ho]
  obtain ⟨k1, k2, k3⟩ := start_call o c (planFill w r.ptr v size).2 x
  exact ⟨fun api t h hx => ⟨c, k1 api t h hx⟩, k2, fun h => ⟨c, k3 h⟩⟩

/-! ### Where it goes wrong -/

section Bad
variable (hw : Sane w live) {rs rd : Rec} (hs : rs ∈ live) (hd : rd ∈ live) (hsb : rs.ptr < 2 ^ 64) (hdb : rd.ptr < 2 ^ 64) {size : Nat}
  (hsr : copyLen rs rs.ptr size ≤ rs.size) (hdr : copyLen rs rs.ptr size ≤ rd.size) (a : Ans) (junk : Nat → Nat)
include hw hs hd hsb hdb hdr

theorem copy_of {o : MemOp} (hf : findFor (registry w.flags w.user) w.strats w.strats.length COPY rs.tag rd.tag = some (some o)) :
    (copy w rd.ptr rs.ptr size a junk).1 =
      (match transform w o rs.ptr rd.ptr rs rd (copyLen rs rs.ptr size) with | some c => (exec w a junk c).1 | none => .ub) ∧
    (copy w rd.ptr rs.ptr size a junk).2.mem =
      (match transform w o rs.ptr rd.ptr rs rd (copyLen rs rs.ptr size) with | some c => (exec w a junk c).2 | none => w.mem) := by
  have hp := plan_base hw hs hd hsb hdb (size := size)
  rw [if_neg (Nat.not_lt.2 hdr), hf] at hp
  dsimp only at hp
  cases ht : transform w o rs.ptr rd.ptr rs rd (copyLen rs rs.ptr size) with
  | none => rw [ht] at hp; exact finish_eq hp
  | some c => rw [ht] at hp; exact finish_eq hp

include hsr in
/-- **C82** With SYCL, copying between memory of two resources (`DEVICE`, `DEVICE::1`, `UM`, `PINNED`) is outside of the contract
of the queue: each resource has a context of its own. -/
theorem sycl_two_resources {js jd : Nat} {s d : Res} (os : Owned w rs js s) (od : Owned w rd jd d) (h1 : s.platform = .sycl)
    (h2 : d.platform = .sycl) (hne : js ≠ jd) (hn : 0 < copyLen rs rs.ptr size) : (copy w rd.ptr rs.ptr size a junk).1 = .ub := by
  obtain ⟨o, hf, ho⟩ := pair_found (w := w) (s := s.platform) (d := d.platform) (by rw [h1, h2]; decide) (os.has hw (by rw [h1]; decide))
    (od.has hw (by rw [h2]; decide))
  have e := (copy_of hw hs hd hsb hdb hdr a junk (by rw [findFor_own os od, hf])).1
  have hk : o = .syclCopy := by rw [h1, h2] at ho; cases o <;> first | rfl | cases ho | (rename_i k; cases k <;> cases ho)
  subst hk
  have q : recQueue w rd = some jd := by unfold recQueue; rw [od.traits hw hd]; exact queue_sycl h2
  rw [e]
  unfold transform
  rw [q]
  dsimp only [Option.map]
  unfold exec
  dsimp only
  obtain ⟨pl, em⟩ := memory_sycl (w := w) (j := js) h1
  rw [not_side (p := rs.ptr) (side := syclSide jd) hn (fun i hi => hw.places rs hs js s os.root (rs.ptr + i) ⟨by omega, by omega⟩) (by rw [em]; exact decide_eq_false hne),
    Bool.and_false, Bool.false_and]
  rfl

include hsr in
/-- **C82** A copy to, from or between OpenMP devices that fails returns as if it had succeeded. -/
theorem omp_failure {js jd : Nat} {s d : Res} (os : Owned w rs js s) (od : Owned w rd jd d) (hfit : Fits js s jd d)
    (hpair : Pair s.platform d.platform) (ho : s = .omp ∨ d = .omp) (ha : a ≠ .ok)
    (hap : rd.ptr + copyLen rs rs.ptr size ≤ rs.ptr ∨ rs.ptr + copyLen rs rs.ptr size ≤ rd.ptr) :
    (copy w rd.ptr rs.ptr size a junk).1 = .done ∧
      ∀ i < copyLen rs rs.ptr size, (copy w rd.ptr rs.ptr size a junk).2.mem (rd.ptr + i) = junk i := by
  obtain ⟨o, hf, hm⟩ := pair_found (w := w) hpair (os.has hw hpair.1) (od.has hw hpair.2.1)
  have e := copy_of hw hs hd hsb hdb hdr a junk (by rw [findFor_own os od, hf])
  obtain ⟨c, hc, hx⟩ := transform_right hw hs hd os od hfit hm (Nat.le_refl _) (.inr (by omega)) (Nat.le_refl _) (.inr (by omega)) (.inr hap) a junk
  have hk : o = .ompCopy := by
    rcases ho with rfl | rfl
    · cases hq : d.platform <;> rw [hq] at hm <;> cases o <;> first | rfl | cases hm | (rename_i k; cases k <;> cases hm)
    · cases hq : s.platform <;> rw [hq] at hm <;> cases o <;> first | rfl | cases hm | (rename_i k; cases k <;> cases hm)
  subst hk
  rw [hc] at e
  dsimp only at e
  rw [hx, decide_eq_false ha] at e
  refine ⟨e.1, fun i hi => ?_⟩
  rw [e.2]
  show put w.mem rd.ptr _ junk (rd.ptr + i) = junk i
  unfold put
  rw [if_pos ⟨by omega, by omega⟩, Nat.add_sub_cancel_left]

/-- **C82** With OpenMP target, a copy between `SHARED` memory and a device uses a device number that was never set. -/
theorem omp_shared {js jd : Nat} {s d : Res} (os : Owned w rs js s) (od : Owned w rd jd d)
    (h : (s = .shared ∧ d = .omp) ∨ (s = .omp ∧ d = .shared)) : (copy w rd.ptr rs.ptr size a junk).1 = .ub := by
  have hpair : Pair s.platform d.platform := by rcases h with ⟨rfl, rfl⟩ | ⟨rfl, rfl⟩ <;> decide
  obtain ⟨o, hf, hm⟩ := pair_found (w := w) hpair (os.has hw hpair.1) (od.has hw hpair.2.1)
  have e := (copy_of hw hs hd hsb hdb hdr a junk (by rw [findFor_own os od, hf])).1
  have hk : o = .ompCopy := by
    rcases h with ⟨rfl, rfl⟩ | ⟨rfl, rfl⟩ <;> cases o <;> first | rfl | cases hm | (rename_i k; cases k <;> cases hm)
  subst hk
  rw [e]
  have hn : transform w .ompCopy rs.ptr rd.ptr rs rd (copyLen rs rs.ptr size) = none := by
    unfold transform recId
    rw [os.traits hw hs, od.traits hw hd]
    rcases h with ⟨rfl, rfl⟩ | ⟨rfl, rfl⟩ <;> rfl
  rw [hn]

/-- **C82** Memory of a `NumaPolicy` on a GPU's node is host memory that is said to be of CUDA: copying host memory there tells
`cudaMemcpy` a direction that is not the one of the pointers. -/
theorem numa_gpu {js jd : Nat} {s d : Res} (os : Owned w rs js s) (hr : RootAt w.strats rd.tag jd d) (h1 : s.platform = .host)
    (h2 : d.platform = .host) (hno : d ≠ .noOp) (hp : platformOf w.strats w.strats.length rd.tag = some .cuda) (hc : w.flags.cuda = true)
    (hn : 0 < copyLen rs rs.ptr size) : (copy w rd.ptr rs.ptr size a junk).1 = .ub := by
  obtain ⟨o, hf, hm⟩ := (Ops.device_total w.flags w.user .cuda hc).1
  have hf' : findFor (registry w.flags w.user) w.strats w.strats.length COPY rs.tag rd.tag = some (some o) := by
    unfold findFor
    rw [os.own, h1, hp]
    exact congrArg some hf
  have e := (copy_of hw hs hd hsb hdb hdr a junk hf').1
  have hk : o = .cudaCopy .h2d := by cases o <;> first | cases hm | (rename_i k; cases k <;> first | rfl | cases hm)
  subst hk
  rw [e]
  unfold transform
  dsimp only
  unfold exec
  dsimp only
  rw [not_side (p := rd.ptr) (side := gpuSide .cuda) hn (fun i hi => hw.places rd hd jd d hr (rd.ptr + i) ⟨by omega, by omega⟩) (by rw [memory_host h2 hno]; rfl),
    Bool.false_and, Bool.false_and]
  rfl

end Bad

/-! ### A program -/

theorem RootAt.unique {h : List Strat} {i j k : Nat} {r q : Res} (h1 : RootAt h i j r) (h2 : RootAt h i k q) : j = k ∧ r = q := by
  induction h1 with
  | here a =>
    cases h2 with
    | here b => rw [a] at b; injection b with b; injection b with b; exact ⟨rfl, b⟩
    | up b c _ => rw [a] at b; injection b with b; subst b; cases c
  | up a c _ ih =>
    cases h2 with
    | here b => rw [a] at b; injection b with b; subst b; cases c
    | up b d e => rw [a] at b; injection b with b; subst b; rw [c] at d; injection d with d; subst d; exact ih e

namespace Demo

/-- A pool on `HOST`, a pool on `DEVICE` of CUDA, `DEVICE` and `UM` of SYCL, `DEVICE::1` of OpenMP, `SHARED`, and a policy for the node of a GPU. -/
def strats : List Strat :=
  [.resource .hostPosix, .over 0, .resource .cudaDevice, .over 2, .resource .syclDevice, .resource .syclUM, .resource .omp, .resource .shared, .numa 1 .cuda]

theorem built : Built strats := by
  have b1 : Built [.resource .hostPosix] := .resource (h := []) _ .nil
  have b2 : Built [.resource .hostPosix, .over 0] := .over 0 b1 (by decide)
  have b3 : Built [.resource .hostPosix, .over 0, .resource .cudaDevice] := .resource _ b2
  have b4 : Built [.resource .hostPosix, .over 0, .resource .cudaDevice, .over 2] := .over 2 b3 (by decide)
  have b5 : Built [.resource .hostPosix, .over 0, .resource .cudaDevice, .over 2, .resource .syclDevice] := .resource _ b4
  have b6 : Built [.resource .hostPosix, .over 0, .resource .cudaDevice, .over 2, .resource .syclDevice, .resource .syclUM] := .resource _ b5
  have b7 : Built [.resource .hostPosix, .over 0, .resource .cudaDevice, .over 2, .resource .syclDevice, .resource .syclUM, .resource .omp] := .resource _ b6
  have b8 : Built [.resource .hostPosix, .over 0, .resource .cudaDevice, .over 2, .resource .syclDevice, .resource .syclUM, .resource .omp,
    .resource .shared] := .resource _ b7
  exact .numa 1 .cuda b8 (by decide) (by decide) (by decide)

def host : Rec := ⟨0x1000, 64, 1⟩
def cuda : Rec := ⟨0x2000, 64, 3⟩
def sycl : Rec := ⟨0x3000, 64, 4⟩
def um : Rec := ⟨0x4000, 64, 5⟩
def omp : Rec := ⟨0x5000, 64, 6⟩
def shared : Rec := ⟨0x6000, 64, 7⟩
def node : Rec := ⟨0x7000, 64, 8⟩

def recs : List Rec := [node, shared, omp, um, sycl, cuda, host]

def amap : AMap :=
  ((((((AMap.new.insert 0x1000 host).insert 0x2000 cuda).insert 0x3000 sycl).insert 0x4000 um).insert 0x5000 omp).insert 0x6000 shared).insert 0x7000 node

theorem reach : AReach Any amap (byPtr recs) 7 := by
  have h1 : AReach Any _ _ _ := .insert (p := host.ptr) (r := host) .new (by decide) trivial
  have h2 : AReach Any _ _ _ := .insert (p := cuda.ptr) (r := cuda) h1 (by decide) trivial
  have h3 : AReach Any _ _ _ := .insert (p := sycl.ptr) (r := sycl) h2 (by decide) trivial
  have h4 : AReach Any _ _ _ := .insert (p := um.ptr) (r := um) h3 (by decide) trivial
  have h5 : AReach Any _ _ _ := .insert (p := omp.ptr) (r := omp) h4 (by decide) trivial
  have h6 : AReach Any _ _ _ := .insert (p := shared.ptr) (r := shared) h5 (by decide) trivial
  have h7 : AReach Any _ _ _ := .insert (p := node.ptr) (r := node) h6 (by decide) trivial
  have e0 : (fun _ => []) = byPtr [] := by funext q; rfl
  rw [e0, Judy.push_byPtr [] host, Judy.push_byPtr _ cuda, Judy.push_byPtr _ sycl, Judy.push_byPtr _ um, Judy.push_byPtr _ omp,
    Judy.push_byPtr _ shared, Judy.push_byPtr _ node] at h7
  exact h7

def home (x : Nat) : Home :=
  if x < 0x2000 then .host else if x < 0x3000 then .gpu .cuda (.device 0) else if x < 0x4000 then .sycl 4 (.device 0)
  else if x < 0x5000 then .sycl 5 .managed else if x < 0x6000 then .omp 1 else .host

def world : World where
  flags := ⟨true, true, false, false, true, true⟩
  user := []
  strats := strats
  dev := fun i => if i = 6 then 1 else 0
  initial := 4
  home := home
  amap := amap
  mem := fun x => x % 251

theorem rootHost : RootAt strats 1 0 .hostPosix := .up (s := .over 0) rfl rfl (.here rfl)
theorem rootCuda : RootAt strats 3 2 .cudaDevice := .up (s := .over 2) rfl rfl (.here rfl)
theorem rootSycl : RootAt strats 4 4 .syclDevice := .here rfl
theorem rootUM : RootAt strats 5 5 .syclUM := .here rfl
theorem rootOmp : RootAt strats 6 6 .omp := .here rfl
theorem rootShared : RootAt strats 7 7 .shared := .here rfl
theorem rootNode : RootAt strats 8 0 .hostPosix := .up (s := .numa 1 .cuda) rfl rfl rootHost

theorem sane : Sane world recs where
  built := built
  enabled j r h := by
    have hj : j < 9 := (List.getElem?_eq_some_iff.1 h).1
    have : j = 0 ∨ j = 1 ∨ j = 2 ∨ j = 3 ∨ j = 4 ∨ j = 5 ∨ j = 6 ∨ j = 7 ∨ j = 8 := by omega
    rcases this with rfl | rfl | rfl | rfl | rfl | rfl | rfl | rfl | rfl <;> first
      | (injection h with h; injection h with h; subst h; exact .inr rfl)
      | (injection h with h; cases h)
  reach := ⟨7, reach⟩
  apart := by
    unfold Judy.Apart recs
    simp only [List.pairwise_cons, List.mem_cons, List.not_mem_nil, or_false, forall_eq_or_imp, forall_eq, Contains, node, shared, omp, um, sycl, cuda, host,
      List.Pairwise.nil, and_true, false_imp_iff, implies_true]
    refine ⟨?_, ?_, ?_, ?_, ?_, ?_⟩ <;> (try refine ⟨?_, ?_⟩) <;> grind
  tags := by decide
  places := by
    have key : ∀ (r : Rec) (j : Nat) (res : Res), RootAt strats r.tag j res → (∀ x, Bytes r x → home x = memory world j res) →
        ∀ j' res', RootAt strats r.tag j' res' → ∀ x, Bytes r x → home x = memory world j' res' := by
      intro r j res h1 h2 j' res' h3 x hx
      obtain ⟨rfl, rfl⟩ := h1.unique h3
      exact h2 x hx
    intro r hr
    simp only [recs, List.mem_cons, List.not_mem_nil, or_false] at hr
    rcases hr with rfl | rfl | rfl | rfl | rfl | rfl | rfl
    · exact key _ _ _ rootNode fun x hx => by
        obtain ⟨h1, h2⟩ : 0x7000 ≤ x ∧ x < 0x7040 := hx
        show home x = .host; unfold home
        rw [if_neg (by omega), if_neg (by omega), if_neg (by omega), if_neg (by omega), if_neg (by omega)]
    · exact key _ _ _ rootShared fun x hx => by
        obtain ⟨h1, h2⟩ : 0x6000 ≤ x ∧ x < 0x6040 := hx
        show home x = .host; unfold home
        rw [if_neg (by omega), if_neg (by omega), if_neg (by omega), if_neg (by omega), if_neg (by omega)]
    · exact key _ _ _ rootOmp fun x hx => by
        obtain ⟨h1, h2⟩ : 0x5000 ≤ x ∧ x < 0x5040 := hx
        show home x = .omp 1; unfold home
        rw [if_neg (by omega), if_neg (by omega), if_neg (by omega), if_neg (by omega), if_pos (by omega)]
    · exact key _ _ _ rootUM fun x hx => by
        obtain ⟨h1, h2⟩ : 0x4000 ≤ x ∧ x < 0x4040 := hx
        show home x = .sycl 5 .managed; unfold home
        rw [if_neg (by omega), if_neg (by omega), if_neg (by omega), if_pos (by omega)]
    · exact key _ _ _ rootSycl fun x hx => by
        obtain ⟨h1, h2⟩ : 0x3000 ≤ x ∧ x < 0x3040 := hx
        show home x = .sycl 4 (.device 0); unfold home
        rw [if_neg (by omega), if_neg (by omega), if_pos (by omega)]
    · exact key _ _ _ rootCuda fun x hx => by
        obtain ⟨h1, h2⟩ : 0x2000 ≤ x ∧ x < 0x2040 := hx
        show home x = .gpu .cuda (.device 0); unfold home
        rw [if_neg (by omega), if_pos (by omega)]
    · exact key _ _ _ rootHost fun x hx => by
        obtain ⟨h1, h2⟩ : 0x1000 ≤ x ∧ x < 0x1040 := hx
        show home x = .host; unfold home
        rw [if_pos (by omega)]

theorem ownHost : Owned world host 0 .hostPosix := ⟨rootHost, rfl, by decide⟩
theorem ownCuda : Owned world cuda 2 .cudaDevice := ⟨rootCuda, rfl, by decide⟩
theorem ownSycl : Owned world sycl 4 .syclDevice := ⟨rootSycl, rfl, by decide⟩
theorem ownUM : Owned world um 5 .syclUM := ⟨rootUM, rfl, by decide⟩
theorem ownOmp : Owned world omp 6 .omp := ⟨rootOmp, rfl, by decide⟩
theorem ownShared : Owned world shared 7 .shared := ⟨rootShared, rfl, by decide⟩

/-- Non-vacuity: 16 bytes from the middle of host memory into the middle of device memory. -/
example : let r := copy world 0x2008 0x1004 16 .ok fun _ => 7
    r.1 = .done ∧ (∀ i < 16, r.2.mem (0x2008 + i) = (0x1004 + i) % 251) ∧ r.2.mem 0x2018 = 0x2018 % 251 := by decide +kernel
example : (copy world 0x2008 0x1004 16 .ok fun _ => 7).1 = .done ∨ (copy world 0x2008 0x1004 16 .ok fun _ => 7).1 = .threw :=
  (copy_partial sane (by decide) (by decide) ownHost ownCuda ⟨nofun, nofun, nofun⟩ (fun _ h => nomatch h) (by decide) (by decide)
    ⟨by decide, .inl (by decide)⟩ ⟨by decide, .inl (by decide)⟩ (by decide) (by decide) .ok (fun _ => 7) ⟨nofun, fun _ => rfl⟩).imp And.left And.left
example : (copy world cuda.ptr host.ptr 0 .refused fun _ => 7).1 = .threw :=
  (copy_throws_iff sane (by decide) (by decide) ownHost ownCuda ⟨nofun, nofun, nofun⟩ (fun _ h => nomatch h) (by decide) (by decide) (by decide) (by decide)
    .refused (fun _ => 7) ⟨nofun, fun h => by rcases h with h | h <;> cases h⟩).2 (.inr (.inr ⟨rfl, fun h => nomatch h.2⟩))
example : let r := fill world 0x3010 (-1) 8 .ok fun _ => 7
    r.1 = .done ∧ r.2.mem 0x3010 = 255 ∧ r.2.mem 0x3017 = 255 ∧ r.2.mem 0x3018 = 0x3018 % 251 := by decide +kernel
example : copyOn world 0x2000 0x1000 0 (.stream .cuda 3) = .queued .cuda 3 (.gpuMemcpy .cuda .h2d 0x2000 0x1000 64) ∧
    copyOn world 0x2000 0x1000 0 .host = .threw ∧ fillOn world 0x5000 5 0 .other = .now (.ompFill 1 0x5000 5 64) := by decide +kernel
example : (copy world sycl.ptr um.ptr 0 .ok fun _ => 7).1 = .ub :=
  sycl_two_resources sane (by decide) (by decide) (by decide) (by decide) (by decide) (by decide) .ok _ ownUM ownSycl rfl rfl (by decide) (by decide)
example : (copy world omp.ptr host.ptr 0 .lost fun _ => 7).1 = .done :=
  (omp_failure sane (by decide) (by decide) (by decide) (by decide) (by decide) (by decide) .lost _ ownHost ownOmp ⟨nofun, nofun, nofun⟩ (by decide) (.inr rfl)
    (by decide) (by decide)).1
example : (copy world omp.ptr shared.ptr 0 .ok fun _ => 7).1 = .ub :=
  omp_shared sane (by decide) (by decide) (by decide) (by decide) (by decide) .ok _ ownShared ownOmp (.inl ⟨rfl, rfl⟩)
example : (copy world node.ptr host.ptr 0 .ok fun _ => 7).1 = .ub :=
  numa_gpu sane (by decide) (by decide) (by decide) (by decide) (by decide) .ok _ ownHost rootNode rfl rfl (by decide) rfl rfl (by decide)

end Demo

end Umpire.Devops
