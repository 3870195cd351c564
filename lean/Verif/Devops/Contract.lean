import Verif.Devops.Props
/-!
# Which memory a runtime may be given (C82)

The contracts of the runtimes, byte by byte and independently of the tests in
the model: a call is undefined unless every byte it reads or writes can be reached
by the runtime and the ranges are apart.
-/
set_option autoImplicit false
set_option linter.unusedSimpArgs false
namespace Umpire.Devops
open Umpire.Ops (Kind)
open Umpire.Gpu (Api Place)

/-- Who touches memory. -/
inductive Who
  | processor
  | gpu (api : Api)
  | queue (q : Nat)
  | device (d : Int)

/-- What each of them can reach; `initial` is the number of the host for OpenMP. -/
inductive Reaches (initial : Int) : Who → Home → Prop
  | own : Reaches initial .processor .host
  | managedGpu {api} : Reaches initial .processor (.gpu api .managed)
  | pinnedGpu {api} : Reaches initial .processor (.gpu api .pinned)
  | managedSycl {c} : Reaches initial .processor (.sycl c .managed)
  | pinnedSycl {c} : Reaches initial .processor (.sycl c .pinned)
  | gpu {api pl} : Reaches initial (.gpu api) (.gpu api pl)
  | queueHost {q} : Reaches initial (.queue q) .host
  | queueOwn {q pl} : Reaches initial (.queue q) (.sycl q pl)
  | ompHost : Reaches initial (.device initial) .host
  | ompOwn {d} : Reaches initial (.device d) (.omp d)

/-- Who reads the source of a copy and who writes the destination, where they are, and the length. -/
structure Touch where
  writer : Who
  dst : Nat
  reader : Option (Who × Nat)
  len : Nat

/-- `cudaMemcpyHostToDevice` reads by the processor, `cudaMemcpyDeviceToHost` writes by it. -/
def touch : Call → Touch
  | .memcpy dst src n => ⟨.processor, dst, some (.processor, src), n⟩
  | .gpuMemcpy api .h2d dst src n => ⟨.gpu api, dst, some (.processor, src), n⟩
  | .gpuMemcpy api .d2h dst src n => ⟨.processor, dst, some (.gpu api, src), n⟩
  | .gpuMemcpy api .d2d dst src n => ⟨.gpu api, dst, some (.gpu api, src), n⟩
  | .ompMemcpy dst src n doff soff dd sd => ⟨.device dd, dst + doff, some (.device sd, src + soff), n⟩
  | .syclMemcpy q dst src n => ⟨.queue q, dst, some (.queue q, src), n⟩
  | .memset p _ n => ⟨.processor, p, none, n⟩
  | .gpuMemset api p _ n => ⟨.gpu api, p, none, n⟩
  | .ompFill d p _ n => ⟨.device d, p, none, n⟩
  | .syclMemset q p _ n => ⟨.queue q, p, none, n⟩

/-- The contract: all bytes can be reached and no byte is both read and written. -/
def Within' (w : World) (t : Touch) : Prop :=
  (∀ i < t.len, Reaches w.initial t.writer (w.home (t.dst + i))) ∧
  ∀ r ∈ t.reader, (∀ i < t.len, Reaches w.initial r.1 (w.home (r.2 + i))) ∧
    ∀ i < t.len, ∀ j < t.len, t.dst + i ≠ r.2 + j

theorem host_reach {ini : Int} (h : Home) : hostSide h = true ↔ Reaches ini .processor h := by
  constructor
  · intro hh
    unfold hostSide at hh
    split at hh <;> first | constructor | cases hh
  · intro hh; cases hh <;> rfl

theorem gpu_reach {ini : Int} (api : Api) (h : Home) : gpuSide api h = true ↔ Reaches ini (.gpu api) h := by
  constructor
  · intro hh
    unfold gpuSide at hh
    split at hh
    · rw [of_decide_eq_true hh]; constructor
    · cases hh
  · intro hh; cases hh; exact decide_eq_true rfl

theorem sycl_reach {ini : Int} (q : Nat) (h : Home) : syclSide q h = true ↔ Reaches ini (.queue q) h := by
  constructor
  · intro hh
    unfold syclSide at hh
    split at hh
    · constructor
    · rw [of_decide_eq_true hh]; constructor
    · cases hh
  · intro hh; cases hh
    · rfl
    · exact decide_eq_true rfl

theorem omp_reach {ini : Int} (d : Int) (h : Home) : ompSide ini d h = true ↔ Reaches ini (.device d) h := by
  constructor
  · intro hh
    unfold ompSide at hh
    split at hh
    · rw [of_decide_eq_true hh]; constructor
    · rw [of_decide_eq_true hh]; constructor
    · cases hh
  · intro hh; cases hh <;> exact decide_eq_true rfl

theorem all_iff {w : World} {p n : Nat} {side : Home → Bool} {P : Home → Prop} (h : ∀ x, side x = true ↔ P x) :
    w.all p n side = true ↔ ∀ i < n, P (w.home (p + i)) := by
  unfold World.all
  rw [List.all_eq_true]
  exact ⟨fun hh i hi => (h _).1 (hh i (List.mem_range.2 hi)), fun hh i hi => (h _).2 (hh i (List.mem_range.1 hi))⟩

theorem apart_iff {dst src n : Nat} : apart dst src n = true ↔ ∀ i < n, ∀ j < n, dst + i ≠ src + j := by
  unfold apart
  rw [decide_eq_true_eq]
  constructor
  · intro h i hi j hj; omega
  · intro h
    rcases Nat.eq_zero_or_pos n with h0 | hpos
    · exact .inl h0
    · rcases Nat.le_total dst src with hl | hl
      · rcases Nat.lt_or_ge (src - dst) n with h1 | h1
        · exact absurd (h (src - dst) h1 0 hpos) (by omega)
        · omega
      · rcases Nat.lt_or_ge (dst - src) n with h1 | h1
        · exact absurd (h 0 hpos (dst - src) h1) (by omega)
        · omega

theorem perform_mem {w : World} {p n : Nat} {f junk : Nat → Nat} {o : Out} {g : Bool} (h : g = true ∨ o ≠ .ub) :
    (perform w p n f junk o g).1 ≠ .ub := by
  unfold perform
  cases g
  · simpa using h
  · simp

/-- Copies and fills of any runtime: the call is defined exactly when it keeps the contract, and when it does not, nothing
is said to be written. -/
theorem contract (w : World) (a : Ans) (junk : Nat → Nat) (c : Call) :
    (exec w a junk c).1 ≠ .ub ↔ Within' w (touch c) := by
  have two : ∀ {s1 s2 : Home → Bool} {w1 w2 : Who} {dst src n : Nat} {f : Nat → Nat} {o : Out} {g : Bool},
      (∀ x, s1 x = true ↔ Reaches w.initial w1 x) → (∀ x, s2 x = true ↔ Reaches w.initial w2 x) → (g = true ∨ o ≠ .ub) →
      ((if (w.all dst n s1 && w.all src n s2 && apart dst src n) = true then perform w dst n f junk o g else (.ub, w.mem)).1 ≠ .ub ↔
        Within' w ⟨w1, dst, some (w2, src), n⟩) := by
    intro s1 s2 w1 w2 dst src n f o g h1 h2 hg
    have e : (w.all dst n s1 && w.all src n s2 && apart dst src n) = true ↔ Within' w ⟨w1, dst, some (w2, src), n⟩ := by
      rw [Bool.and_eq_true, Bool.and_eq_true, all_iff h1, all_iff h2, apart_iff]
      unfold Within'
      constructor
      · rintro ⟨⟨g1, g2⟩, g3⟩
        exact ⟨g1, fun r hr => by cases hr; exact ⟨g2, g3⟩⟩
      · rintro ⟨g1, g2⟩
        have := g2 _ rfl
        exact ⟨⟨g1, this.1⟩, this.2⟩
    by_cases hc : (w.all dst n s1 && w.all src n s2 && apart dst src n) = true
    · rw [if_pos hc]
      exact ⟨fun _ => e.1 hc, fun _ => perform_mem hg⟩
    · rw [if_neg hc]
      exact ⟨fun h => absurd rfl h, fun h => absurd (e.2 h) hc⟩
  have one : ∀ {s1 : Home → Bool} {w1 : Who} {dst n : Nat} {f : Nat → Nat} {o : Out} {g : Bool},
      (∀ x, s1 x = true ↔ Reaches w.initial w1 x) → (g = true ∨ o ≠ .ub) →
      ((if w.all dst n s1 = true then perform w dst n f junk o g else (.ub, w.mem)).1 ≠ .ub ↔ Within' w ⟨w1, dst, none, n⟩) := by
    intro s1 w1 dst n f o g h1 hg
    have e : w.all dst n s1 = true ↔ Within' w ⟨w1, dst, none, n⟩ := by
      rw [all_iff h1]
      exact ⟨fun h => ⟨h, fun r hr => nomatch hr⟩, fun h => h.1⟩
    by_cases hc : w.all dst n s1 = true
    · rw [if_pos hc]
      exact ⟨fun _ => e.1 hc, fun _ => perform_mem hg⟩
    · rw [if_neg hc]
      exact ⟨fun h => absurd rfl h, fun h => absurd (e.2 h) hc⟩
  have ns : ∀ x : Ans, (if x = .refused then Out.threw else .done) ≠ .ub := by intro x; split <;> simp
  cases c with
  | memcpy dst src n => exact two host_reach host_reach (.inl rfl)
  | gpuMemcpy api k dst src n =>
    cases k with
    | h2d => exact two (gpu_reach api) host_reach (.inr (by simp))
    | d2h => exact two host_reach (gpu_reach api) (.inr (by simp))
    | d2d => exact two (gpu_reach api) (gpu_reach api) (.inr (by simp))
  | ompMemcpy dst src n doff soff dd sd => exact two (omp_reach dd) (omp_reach sd) (.inr (by simp))
  | syclMemcpy q dst src n => exact two (sycl_reach q) (sycl_reach q) (.inr (ns a))
  | memset p v n => exact one host_reach (.inl rfl)
  | gpuMemset api p v n => exact one (gpu_reach api) (.inr (by simp))
  | ompFill d p v n => exact one (omp_reach d) (.inr (by simp))
  | syclMemset q p v n => exact one (sycl_reach q) (.inr (ns a))

/-- Host memory is beyond a GPU: `cudaMemset` of it is undefined, `memset` of device memory too. -/
theorem contract_host (w : World) (a : Ans) (junk : Nat → Nat) (api : Api) (d : Int) (p n : Nat) (v : Int) (hn : 0 < n) :
    (w.home p = .host → (exec w a junk (.gpuMemset api p v n)).1 = .ub) ∧
    (w.home p = .gpu api (.device d) → (exec w a junk (.memset p v n)).1 = .ub) := by
  constructor
  · intro h
    apply Classical.byContradiction
    intro hc
    have := ((contract w a junk _).1 hc).1 0 hn
    rw [show (touch (.gpuMemset api p v n)).dst + 0 = p from rfl, h] at this
    cases this
  · intro h
    apply Classical.byContradiction
    intro hc
    have := ((contract w a junk _).1 hc).1 0 hn
    rw [show (touch (.memset p v n)).dst + 0 = p from rfl, h] at this
    cases this

open Demo in
example : Within' world (touch (.gpuMemcpy .cuda .h2d 0x2000 0x1000 64)) :=
  (contract world .ok (fun _ => 0) _).1 (by decide +kernel)
open Demo in
example : (exec world .ok (fun _ => 0) (.gpuMemset .cuda 0x1000 5 64)).1 = .ub :=
  (contract_host world .ok _ .cuda 0 0x1000 64 5 (by decide)).1 (by decide +kernel)

end Umpire.Devops
