import Verif.Threads.Play
import Verif.Threads.Alone
/-!
# C65: threads that share the facade see only their own allocations

Any number of threads call `Allocator` and `ResourceManager`; the actions of the calls
interleave in any way.  As long as every thread only passes what it owns to calls
(`Pre`), every call gives the result it would give if the thread were alone (`Fits`, and
the ledger `after`), nothing is undefined, the allocations of all threads are disjoint and
known to the allocation map, and the bytes of an allocation change only by the thread
that owns it.

What is missing for the full statement: `reallocate` on memory of `HOST`
(`thr_host_realloc_counterexample`), and calls about memory of other threads, which may
disturb the owner even when they only throw (`thr_wrong_free_counterexample`) and read
freed records (`thr_stale_read_counterexample`).
-/
set_option autoImplicit false
set_option linter.unusedSimpArgs false
namespace Umpire.Thr
open Umpire.Judy Umpire.Mgr

section
variable {T : Type} [DecidableEq T] {c : Cfg} {tk : Nat → Nat → Prop} {S S' : MS T}

/-- `t` owns `r` and is not in a call that may give it up. -/
def Steady (S : MS T) (t : T) (r : Rec) : Prop := r ∈ S.own t ∧ ∀ cl m, S.thr t = some (cl, m) → r.ptr ≠ target cl

/-- `r` is owned by a thread, which is not about to give it up, or on its way. -/
def Kept (S : MS T) (r : Rec) : Prop := r ∈ S.box ∨ ∃ t, Steady S t r

omit [DecidableEq T] in
theorem kept_lv {g : Gh T} (h : Inv c tk S g) {r : Rec} (hk : Kept S r) : r ∈ g.live := by
  rcases hk with hb | ⟨t, ht⟩
  · exact h.lv.sub _ r ((h.box r).2 hb)
  · exact h.lv.sub _ r (h.keep t r ht.1 ht.2)

/-- Whatever the threads do, the next action of none of them is undefined behaviour: no
memory is handed back or touched that is not held, no removed record is read. -/
theorem thr_safe_partial (h : Reach c (Pre c tk) S) {t : T} {cl : Call} {a : Act} {k : a.Ans → CP Nat} (ht : S.thr t = some (cl, .act a k)) : ¬Bad tk S.sh a := by
  obtain ⟨g, hg⟩ := reach_inv h
  exact (act_ok hg ht).1

/-- Every result is right for the thread that gets it. -/
theorem thr_results_partial (h : Reach c (Pre c tk) S) {t : T} {cl : Call} {o : Option Nat} (ht : S.thr t = some (cl, .ret o)) : Fits (S.own t) cl o := by
  obtain ⟨g, hg⟩ := reach_inv h
  have := hg.thr t
  unfold ThrOk at this
  rw [ht] at this
  exact this.1

/-- The allocations of all threads are disjoint. -/
theorem thr_disjoint_partial (h : Reach c (Pre c tk) S) {r r' : Rec} (hr : Kept S r) (hr' : Kept S r') (hne : r ≠ r') :
    Disj r.ptr (max 1 r.size) r'.ptr (max 1 r'.size) := by
  obtain ⟨g, hg⟩ := reach_inv h
  have e : ∀ x : Rec, (blkOf x).size = max 1 x.size := by
    intro x
    unfold blkOf
    split
    · rename_i h0; rw [h0]; rfl
    · dsimp only; omega
  have hb : blkOf r ≠ blkOf r' := by
    intro he
    apply hne
    apply live_inj hg.mem (kept_lv hg hr) (kept_lv hg hr')
    have := congrArg Blk.ptr he
    rwa [blkOf_ptr, blkOf_ptr] at this
  have := hg.mem.bdisj (hg.mem.mem_held (kept_lv hg hr)) (hg.mem.mem_held (kept_lv hg hr')) hb
  unfold BDisj at this
  rwa [blkOf_ptr, blkOf_ptr, e, e] at this

/-- Nothing has two owners. -/
theorem thr_one_owner_partial (h : Reach c (Pre c tk) S) {t t' : T} {r : Rec} (hr : Steady S t r) : r ∉ S.box ∧ (Steady S t' r → t = t') := by
  obtain ⟨g, hg⟩ := reach_inv h
  have h1 := hg.keep t r hr.1 hr.2
  constructor
  · intro hb
    have := hg.lv.one _ _ r h1 ((hg.box r).2 hb)
    cases this
  · intro hr'
    have := hg.lv.one _ _ r h1 (hg.keep t' r hr'.1 hr'.2)
    injection this

/-- The allocation map knows every allocation, at every moment. -/
theorem thr_known_partial (h : Reach c (Pre c tk) S) {r : Rec} (hr : Kept S r) :
    (S.sh.am.findRecord r.ptr).2 = some r ∧ ∃ b ∈ S.sh.w.held, b.ptr = r.ptr ∧ b.size = max 1 r.size ∧ (r.size ≠ 0 → b.own = r.tag) := by
  obtain ⟨g, hg⟩ := reach_inv h
  have hl := kept_lv hg hr
  have hlt : r.ptr < 2 ^ 64 := by have := hg.mem.rec_lt hl; omega
  refine ⟨(hg.mem.find_sound hlt).2.1 r hl rfl, blkOf r, hg.mem.mem_held hl, blkOf_ptr r, ?_, ?_⟩
  · unfold blkOf
    split
    · rename_i h0; rw [h0]; rfl
    · dsimp only; omega
  · intro h0
    unfold blkOf
    rw [if_neg h0]

/-- A step of a thread leaves the bytes of the allocations of the others alone. -/
theorem thr_bytes_partial (h : Reach c (Pre c tk) S) {t : T} (hs : Step c (Pre c tk) t S S') {r : Rec} (hr : r ∈ S.box ∨ ∃ u, u ≠ t ∧ Steady S u r) {q : Nat}
    (h1 : r.ptr ≤ q) (h2 : q < r.ptr + r.size) : S'.sh.w.mem q = S.sh.w.mem q := by
  obtain ⟨g, hg⟩ := reach_inv h
  have ho := (step_ok hg hs).2
  rcases hr with hb | ⟨u, hu, hr⟩
  · exact ho none (by simp) r ((hg.box r).2 hb) q h1 h2
  · exact ho (some u) (by simpa using hu) r (hg.keep u r hr.1 hr.2) q h1 h2

/-- When no call is in progress, the memory held and the records are those of the
allocations that threads own. -/
theorem thr_quiet_partial (h : Reach c (Pre c tk) S) (hq : ∀ t, S.thr t = none) :
    (∀ b ∈ S.sh.w.held, ∃ r, Kept S r ∧ b.ptr = r.ptr ∧ b.size = max 1 r.size) ∧
    ∀ p r, p < 2 ^ 64 → (S.sh.am.findRecord p).2 = some r → Kept S r ∧ Contains r p := by
  obtain ⟨g, hg⟩ := reach_inv h
  have hidle : ∀ t, g.tr t = [] ∧ ∀ r, r ∈ g.lv (some t) ↔ r ∈ S.own t := by
    intro t
    have := hg.thr t
    unfold ThrOk at this
    rw [hq t] at this
    exact this
  have hkept : ∀ r ∈ g.live, Kept S r := by
    intro r hr
    obtain ⟨o, ho⟩ := hg.lv.cov r hr
    cases o with
    | none => exact Or.inl ((hg.box r).1 ho)
    | some t => exact Or.inr ⟨t, ((hidle t).2 r).1 ho, fun cl m he => by rw [hq t] at he; cases he⟩
  constructor
  · intro b hb
    rcases List.mem_append.1 (hg.mem.perm.mem_iff.1 hb) with h1 | h1
    · obtain ⟨r, hr, rfl⟩ := List.mem_map.1 h1
      refine ⟨r, hkept r hr, blkOf_ptr r, ?_⟩
      unfold blkOf
      split
      · rename_i h0; rw [h0]; rfl
      · dsimp only; omega
    · obtain ⟨t, ht⟩ := hg.tr.cov b h1
      rw [(hidle t).1] at ht
      cases ht
  · intro p r hp hf
    have := (hg.mem.find_sound hp).1 r hf
    exact ⟨hkept r this.1, this.2⟩
end

/-- The calls of `Verif.Manager`. -/
def alone' (c : Cfg) : Call → M Nat
  | .alloc s n => Mgr.allocate c s n
  | .free s p => do Mgr.deallocate c s p; return 0
  | .freeAny p => do Mgr.deallocateAny c p; return 0
  | .size p => Mgr.getSize p
  | .owner p => Mgr.getOwner p
  | .has p => do let b ← Mgr.hasAllocator p; return (if b then 1 else 0)
  | .copy d s n => do Mgr.copy d s n; return 0
  | .memset p v n => do Mgr.memset p v n; return 0
  | .realloc dflt p n => Mgr.reallocate c dflt p n
  | .move p s => Mgr.move c p s

/-- Run without interruption, the calls are those that the sequential theorems (C23-C31)
are about. -/
theorem thr_alone (c : Cfg) (cl : Call) : alone (code c cl) = alone' c cl := by
  cases cl with
  | alloc s n => exact alone_allocate c s n
  | free s p => show alone (_ >>= _) = _; rw [alone_bind, alone_deallocate]; rfl
  | freeAny p => show alone (_ >>= _) = _; rw [alone_bind, alone_deallocateAny]; rfl
  | size p => exact alone_getSize p
  | owner p => exact alone_getOwner p
  | has p => show alone (_ >>= _) = _; rw [alone_bind, alone_has]; rfl
  | copy d s n => show alone (_ >>= _) = _; rw [alone_bind, alone_copy]; rfl
  | memset p v n => show alone (_ >>= _) = _; rw [alone_bind, alone_memset]; rfl
  | realloc d p n => exact alone_reallocate c d p n
  | move p s => exact alone_move c p s

/-! ## Two threads at work -/

theorem anyAll : ∀ s n, anySize s n := fun _ _ => trivial

def exCfg : Cfg := ⟨fun _ => true, 2⟩

/-- `t` allocates `n` bytes from `s` and gets `p`; the record is kept in block `b`. -/
def exAlloc (t s n p b : Nat) : List Move := [.start t (.alloc s n), .go t (some p), .go t none, .go t (some b), .ret t]

def isRet (S : MS Nat) (t : Nat) (cl : Call) (o : Option Nat) : Bool :=
  match S.thr t with
  | some (cl', .ret o') => decide (cl' = cl ∧ o' = o)
  | _ => false

theorem isRet_eq {S : MS Nat} {t : Nat} {cl : Call} {o : Option Nat} (h : isRet S t cl o = true) : S.thr t = some (cl, .ret o) := by
  unfold isRet at h
  split at h
  · rename_i cl' o' he
    obtain ⟨rfl, rfl⟩ := of_decide_eq_true h
    exact he
  · cases h

/-- Thread 0 frees an allocation that thread 1 made and handed over, while thread 1
allocates from the same allocator and gets the same address. -/
def exShare : List Move :=
  exAlloc 1 5 64 4096 0 ++ [.give 1 ⟨4096, 64, 5⟩, .take 0 ⟨4096, 64, 5⟩, .start 1 (.alloc 5 64), .start 0 (.free 5 4096),
    .go 0 none, .go 0 none, .go 0 none, .go 0 none, .go 1 (some 4096), .go 1 none, .ret 0, .start 0 (.has 4096), .go 1 (some 0), .ret 1, .go 0 none]

/-- The theorems apply to it: thread 1 owns the address, thread 0 is told that it is known. -/
example : ∃ S : MS Nat, Reach exCfg (Pre exCfg anySize) S ∧ Steady S 1 ⟨4096, 64, 5⟩ ∧ S.own 0 = [] ∧ S.thr 0 = some (.has 4096, .ret (some 1)) := by
  have h : leads exCfg (preB exCfg) exShare (fun S => decide (S.own 1 = [⟨4096, 64, 5⟩]) && (S.thr 1).isNone && decide (S.own 0 = []) &&
      isRet S 0 (.has 4096) (some 1)) = true := by decide +kernel
  obtain ⟨S, hr, hp⟩ := leads_reach h
  simp only [Bool.and_eq_true, decide_eq_true_eq, Option.isNone_iff_eq_none] at hp
  refine ⟨S, hr.weaken fun own cl h => preB_pre anyAll h, ⟨?_, fun cl m he => ?_⟩, hp.1.2, isRet_eq hp.2⟩
  · rw [hp.1.1.1]; exact List.mem_singleton.2 rfl
  · rw [hp.1.1.2] at he; cases he

/-- Thread 0 is about to read a record that it has found, thread 1 about to hand back memory. -/
def exMid : List Move :=
  exAlloc 0 5 64 4096 0 ++ exAlloc 1 6 100 8192 1 ++ [.start 0 (.size 4100), .go 0 none, .start 1 (.free 6 8192), .go 1 none, .go 1 none, .go 1 none]

example : ∃ S : MS Nat, Reach exCfg (Pre exCfg anySize) S ∧ (∃ cl h k, S.thr 0 = some (cl, .act (.look h) k)) ∧ ∃ cl s p n k, S.thr 1 = some (cl, .act (.hand s p n) k) := by
  have h : leads exCfg (preB exCfg) exMid (fun S => (match S.thr 0 with | some (_, .act (.look _) _) => true | _ => false) &&
      (match S.thr 1 with | some (_, .act (.hand _ _ _) _) => true | _ => false)) = true := by decide +kernel
  obtain ⟨S, hr, hp⟩ := leads_reach h
  simp only [Bool.and_eq_true] at hp
  refine ⟨S, hr.weaken fun own cl h => preB_pre anyAll h, ?_, ?_⟩
  · have := hp.1
    split at this
    · rename_i cl h k he; exact ⟨cl, h, k, he⟩
    · cases this
  · have := hp.2
    split at this
    · rename_i cl s p n k he; exact ⟨cl, s, p, n, k, he⟩
    · cases this

/-! ## Where it fails -/

/-- Thread 1 tries to free an allocation of thread 0 through an allocator it does not come
from.  That is an error which is detected; but the record is removed first and put back
afterwards, and when thread 0 asks for the size of its allocation in between it gets an
exception. -/
def exWrong : List Move := exAlloc 0 5 100 4096 0 ++ [.start 1 (.free 6 4096), .go 1 none, .start 0 (.size 4096), .go 0 none]

theorem thr_wrong_free_counterexample :
    ∃ S : MS Nat, Reach exCfg (fun own cl => Pre exCfg anySize own cl ∨ cl = .free 6 4096) S ∧
      S.own 0 = [⟨4096, 100, 5⟩] ∧ S.thr 0 = some (.size 4096, .ret none) ∧ ¬Fits (S.own 0) (.size 4096) none := by
  have h : leads exCfg (fun own cl => preB exCfg own cl || decide (cl = .free 6 4096)) exWrong (fun S => decide (S.own 0 = [⟨4096, 100, 5⟩]) &&
      isRet S 0 (.size 4096) none) = true := by decide +kernel
  obtain ⟨S, hr, hp⟩ := leads_reach h
  simp only [Bool.and_eq_true, decide_eq_true_eq] at hp
  refine ⟨S, hr.weaken fun own cl h => ?_, hp.1, isRet_eq hp.2, fun hf => ?_⟩
  · simp only [Bool.or_eq_true, decide_eq_true_eq] at h
    exact h.imp (preB_pre anyAll) id
  · rw [hp.1] at hf
    rcases hf ⟨4096, 100, 5⟩ (List.mem_singleton.2 rfl) (contains_base _) with h | h
    · cases h
    · exact h.2 rfl

/-- Thread 1 asks for the size of an allocation of thread 0, which frees it: the record is
read after it has been removed. -/
def exStale : List Move := exAlloc 0 5 100 4096 0 ++ [.start 1 (.size 4096), .go 1 none, .start 0 (.free 5 4096), .go 0 none]

theorem thr_stale_read_counterexample :
    ∃ S : MS Nat, Reach exCfg (fun own cl => Pre exCfg anySize own cl ∨ cl = .size 4096) S ∧
      ∃ a k, S.thr 1 = some (.size 4096, .act a k) ∧ Bad anySize S.sh a := by
  have h : leads exCfg (fun own cl => preB exCfg own cl || decide (cl = .size 4096)) exStale (fun S =>
      match S.thr 1 with
      | some (cl, .act (.look h) _) => decide (cl = .size 4096 ∧ h.2 ∉ S.sh.top h.1.ptr)
      | _ => false) = true := by decide +kernel
  obtain ⟨S, hr, hp⟩ := leads_reach h
  refine ⟨S, hr.weaken fun own cl h => ?_, ?_⟩
  · simp only [Bool.or_eq_true, decide_eq_true_eq] at h
    exact h.imp (preB_pre anyAll) id
  · split at hp
    · rename_i cl h k he
      obtain ⟨rfl, hb⟩ := of_decide_eq_true hp
      exact ⟨_, k, he, hb⟩
    · cases hp

/-- Thread 0 reallocates its memory of `HOST` while thread 1 allocates from another
allocator.  `HostReallocateOperation` reads the strategy of the new record from the old
record, whose block has been freed and now holds the record of thread 1. -/
def exHost : List Move :=
  exAlloc 0 2 100 4096 0 ++ [.start 0 (.realloc 2 4096 200), .go 0 none, .go 0 none, .go 0 none, .go 0 none, .go 0 none, .go 0 none, .go 0 (some 8192)] ++
    exAlloc 1 5 64 65536 0 ++ [.go 0 none, .go 0 (some 1), .ret 0]

/-- Each thread only ever names its own allocations; afterwards the map says that the
memory of thread 0 belongs to the allocator of thread 1. -/
theorem thr_host_realloc_counterexample :
    ∃ S : MS Nat, Reach exCfg (fun own cl => Pre exCfg anySize own cl ∨ ∃ d p n, cl = .realloc d p n ∧ ∃ r ∈ own, r.ptr = p) S ∧
      Steady S 0 ⟨8192, 200, 2⟩ ∧ (S.sh.am.findRecord 8192).2 = some ⟨8192, 200, 5⟩ ∧ ⟨2, 8192, 200⟩ ∈ S.sh.w.held := by
  have h : leads exCfg (fun own cl => preB exCfg own cl || (match cl with | .realloc _ p _ => own.any fun r => decide (r.ptr = p) | _ => false)) exHost
      (fun S => decide (S.own 0 = [⟨8192, 200, 2⟩]) && (S.thr 0).isNone && decide ((S.sh.am.findRecord 8192).2 = some ⟨8192, 200, 5⟩) &&
        decide (⟨2, 8192, 200⟩ ∈ S.sh.w.held)) = true := by decide +kernel
  obtain ⟨S, hr, hp⟩ := leads_reach h
  simp only [Bool.and_eq_true, decide_eq_true_eq, Option.isNone_iff_eq_none] at hp
  refine ⟨S, hr.weaken fun own cl h => ?_, ⟨?_, fun cl m he => ?_⟩, hp.1.2, hp.2⟩
  · simp only [Bool.or_eq_true] at h
    rcases h with h | h
    · exact Or.inl (preB_pre anyAll h)
    · right
      split at h
      · rename_i d p n
        obtain ⟨r, hr, h1⟩ := List.any_eq_true.1 h
        exact ⟨d, p, n, rfl, r, hr, of_decide_eq_true h1⟩
      · cases h
  · rw [hp.1.1.1]; exact List.mem_singleton.2 rfl
  · rw [hp.1.1.2] at he; cases he
end Umpire.Thr
