import Verif.Replay.Props
/-!
# What `replay --stats` and `replay --dump` report (tools/replay)

The loop of `runOperations` with the histograms it keeps and the trace it writes.

Simplifications: allocations succeed; addresses are found in the records of the replaying library only
as the first byte of an allocation.  Of the trace only the series `allocation count` is modelled, with the
allocator in place of its name; the others are the statistics of C04, C24 and C81.
-/
set_option autoImplicit false
set_option linter.unusedSimpArgs false
namespace Umpire.Replay.Stats

/-! ## Model -/

/-- `--stats`, `--dump` (ReplayOptions.hpp:41-42). -/
structure Flags where
  stats : Bool
  dump : Bool
deriving DecidableEq, Repr

/-- `TrackedHistogram` with its `allocation_count` (ReplayOperationManager.cpp:101-141). -/
structure Track where
  hist : Hist
  count : Nat

/-- A fresh one (ReplayOperationManager.cpp:136-140). -/
def Track.new : Track := ⟨.new, 0⟩

/-- `increment` (ReplayOperationManager.cpp:102-111). -/
def Track.inc (t : Track) (n : Nat) : Track := ⟨t.hist.inc n, (t.count + 1) % 2 ^ 64⟩

/-- `decrement` (ReplayOperationManager.cpp:113-118); `size_t` arithmetic. -/
def Track.dec (t : Track) (n : Nat) : Track := ⟨t.hist.dec n, (t.count + (2 ^ 64 - 1)) % 2 ^ 64⟩

/-- A line of the series `allocation count`: number of the operation, allocator, value. -/
structure Line where
  time : Nat
  alloc : Nat
  count : Nat
deriving DecidableEq, Repr

/-- `op_allocated_ptr` of the operations so far, the map `size_histogram`, the records of the library
(address, allocator and size), the allocators that exist, the series. -/
structure S where
  tab : List Nat
  track : Nat → Track
  recs : List (Nat × Nat × Nat)
  made : List Nat
  series : List Line

/-- Before the first operation (ReplayOperationManager.cpp:146-148, 162). -/
def S.init : S := ⟨[0], fun _ => .new, [], [], []⟩

/-- Replace one entry of the map. -/
def put (a : Nat) (t : Track) (m : Nat → Track) : Nat → Track := fun b => if b = a then t else m b

/-- `Allocator::deallocate` (Allocator.inl:91-112): a tracking allocator throws for an address it has no record of. -/
def dealloc (tr : Nat → Bool) (a p : Nat) (recs : List (Nat × Nat × Nat)) : Option (List (Nat × Nat × Nat)) :=
  if tr a then
    match find p recs with
    | none => none
    | some x => if x.1 = a then some (erase p recs) else none
  else some recs

/-- `ResourceManager::reallocate` with an allocator (ResourceManager.cpp:657-705). -/
def realloc (tr : Nat → Bool) (a p n new : Nat) (recs : List (Nat × Nat × Nat)) : Option (List (Nat × Nat × Nat)) :=
  if p = 0 then some (if tr a then (new, a, n) :: recs else recs)
  else
    match find p recs with
    | none => none
    | some x => if x.1 = a then some ((new, a, n) :: erase p recs) else none

/-- One operation (ReplayOperationManager.cpp:166-222, 1063-1152); `ret` is the address it gets, if it allocates.  `none`: an
exception ends the replay. -/
def step (f : Flags) (tr : Nat → Bool) (ret : Nat) (s : S) (o : Op) : Option S :=
  match o.kind with
  | .blank => none
  | .creation =>
    some { s with
      track := if f.stats then put o.alloc .new s.track else s.track
      made := s.made ++ [o.alloc], tab := s.tab ++ [0] }
  | .setDefault =>
    some { s with track := if f.stats then put o.alloc .new s.track else s.track, tab := s.tab ++ [0] }
  | .allocate =>
    some { s with
      track := if f.stats || f.dump then put o.alloc ((s.track o.alloc).inc o.size) s.track else s.track
      recs := if tr o.alloc then (ret, o.alloc, o.size) :: s.recs else s.recs
      tab := s.tab ++ [ret] }
  | .deallocate =>
    let p := s.tab.getD o.src0 0
    match (if f.stats || f.dump then
        match find p s.recs with
        | none => none
        | some x => some (put o.alloc ((s.track o.alloc).dec x.2) s.track)
      else some s.track), dealloc tr o.alloc p s.recs with
    | some t, some r => some { s with track := t, recs := r, tab := s.tab ++ [0] }
    | _, _ => none
  | .reallocateEx =>
    match realloc tr o.alloc (s.tab.getD o.src1 0) o.size ret s.recs with
    | none => none
    | some r => some { s with recs := r, tab := s.tab ++ [ret] }
  | .coalesce | .release => some { s with tab := s.tab ++ [0] }

/-- The trace after an operation (ReplayOperationManager.cpp:225-287); the counter of operations starts at 0. -/
def note (f : Flags) (s : S) : S :=
  if f.dump then { s with series := s.series ++ s.made.map fun a => ⟨s.tab.length - 2, a, (s.track a).count⟩ } else s

/-- `runOperations` (ReplayOperationManager.cpp:162-288). -/
def run (f : Flags) (tr : Nat → Bool) (ret : Nat → Nat) (s : S) : List Op → Option S
  | [] => some s
  | o :: os =>
    match step f tr (ret s.tab.length) s o with
    | none => none
    | some s' => run f tr ret (note f s') os

/-! ## Specification -/

/-- Memory the program holds: the operation it came from, allocator and size. -/
structure Blk where
  idx : Nat
  alloc : Nat
  size : Nat
deriving DecidableEq, Repr

/-- What is held after operation number `i`. -/
def liveStep (i : Nat) (L : List Blk) (o : Op) : List Blk :=
  match o.kind with
  | .allocate => ⟨i, o.alloc, o.size⟩ :: L
  | .deallocate => L.filter fun b => decide (b.idx ≠ o.src0)
  | .reallocateEx => ⟨i, o.alloc, o.size⟩ :: L.filter fun b => decide (b.idx ≠ o.src1)
  | _ => L

/-- What is held after operations `i`, `i + 1`, …. -/
def live (i : Nat) (L : List Blk) : List Op → List Blk
  | [] => L
  | o :: os => live (i + 1) (liveStep i L o) os

/-- The operation deals with memory of its allocator; nothing untracked is reallocated. -/
def OkOp (tr : Nat → Bool) (L : List Blk) (o : Op) : Prop :=
  match o.kind with
  | .blank => False
  | .deallocate => ∃ b ∈ L, b.idx = o.src0 ∧ b.alloc = o.alloc
  | .reallocateEx => o.src1 = 0 ∨ ∃ b ∈ L, b.idx = o.src1 ∧ b.alloc = o.alloc ∧ tr o.alloc = true
  | _ => True

/-- All operations do, and the blocks held at any time have addresses of their own. -/
def Good (tr : Nat → Bool) (ret : Nat → Nat) (i : Nat) (L : List Blk) : List Op → Prop
  | [] => True
  | o :: os => OkOp tr L o ∧ (∀ b ∈ liveStep i L o, ret b.idx ≠ 0) ∧
      (∀ b ∈ liveStep i L o, ∀ c ∈ liveStep i L o, ret b.idx = ret c.idx → b.idx = c.idx) ∧ Good tr ret (i + 1) (liveStep i L o) os

/-- Size of a block that is held. -/
def sizeOf (L : List Blk) (j : Nat) : Nat := ((L.find? fun b => decide (b.idx = j)).map (·.size)).getD 0

/-- `ALLOCATE` and `DEALLOCATE` of allocator `a`, with the size of the block at that time. -/
def uses (a i : Nat) (L : List Blk) : List Op → List HOp
  | [] => []
  | o :: os =>
    (if o.alloc = a ∧ o.kind = .allocate then [.alloc o.size]
      else if o.alloc = a ∧ o.kind = .deallocate then [.free (sizeOf L o.src0)] else []) ++ uses a (i + 1) (liveStep i L o) os

/-- The histogram of `a` starts again. -/
def Resets (a : Nat) (o : Op) : Prop := o.alloc = a ∧ (o.kind = .creation ∨ o.kind = .setDefault)

instance (a : Nat) (o : Op) : Decidable (Resets a o) := by unfold Resets; infer_instance

/-- A histogram after a sequence. -/
def trackRun (t : Track) : List HOp → Track
  | [] => t
  | .alloc n :: es => trackRun (t.inc n) es
  | .free n :: es => trackRun (t.dec n) es

/-- Blocks of `a`. -/
def holds (a : Nat) (L : List Blk) : Nat := L.countP fun b => decide (b.alloc = a)

/-- Sizes of the blocks of `a`. -/
def sizes (a : Nat) (L : List Blk) : List Nat := (L.filter fun b => decide (b.alloc = a)).map (·.size)

/-- Allocators created so far. -/
def created (os : List Op) : List Nat := (os.filter fun o => decide (o.kind = .creation)).map (·.alloc)

/-! ## Proofs -/

/-- The records of the blocks. -/
def recsOf (tr : Nat → Bool) (ret : Nat → Nat) (L : List Blk) : List (Nat × Nat × Nat) :=
  (L.filter fun b => tr b.alloc).map fun b => (ret b.idx, b.alloc, b.size)

/-- Blocks are told apart by their operation and by their address. -/
structure Apart (ret : Nat → Nat) (L : List Blk) : Prop where
  one : ∀ b ∈ L, ∀ c ∈ L, b.idx = c.idx → b = c
  inj : ∀ b ∈ L, ∀ c ∈ L, ret b.idx = ret c.idx → b.idx = c.idx
  pos : ∀ b ∈ L, ret b.idx ≠ 0
  nodup : L.Nodup

theorem find_recs (tr : Nat → Bool) (ret : Nat → Nat) {L : List Blk} {b : Blk} (hb : b ∈ L) (h : Apart ret L) :
    find (ret b.idx) (recsOf tr ret L) = if tr b.alloc then some (b.alloc, b.size) else none := by
  have key : ∀ M : List Blk, (∀ c ∈ M, c ∈ L) →
      find (ret b.idx) (recsOf tr ret M) = if tr b.alloc = true ∧ b ∈ M then some (b.alloc, b.size) else none := by
    intro M
    induction M with
    | nil => intro _; simp [recsOf, find]
    | cons c M ih =>
      intro hM
      have hc := hM c (by simp)
      have ih := ih fun d hd => hM d (by simp [hd])
      by_cases ht : tr c.alloc = true
      · have : recsOf tr ret (c :: M) = (ret c.idx, c.alloc, c.size) :: recsOf tr ret M := by simp [recsOf, ht]
        rw [this]
        simp only [find]
        by_cases he : ret c.idx = ret b.idx
        · have : c = b := h.one _ hc _ hb (h.inj _ hc _ hb he)
          subst this
          simp [ht]
        · rw [if_neg he, ih]
          have : b ≠ c := fun e => he (by rw [e])
          simp [this]
      · have : recsOf tr ret (c :: M) = recsOf tr ret M := by simp [recsOf, ht]
        rw [this, ih]
        by_cases e : b = c
        · subst e; simp [ht]
        · simp [e]
  rw [key L fun _ h => h]
  simp [hb]

theorem erase_recs (tr : Nat → Bool) (ret : Nat → Nat) {L : List Blk} {b : Blk} (hb : b ∈ L) (h : Apart ret L) :
    erase (ret b.idx) (recsOf tr ret L) = recsOf tr ret (L.filter fun c => decide (c.idx ≠ b.idx)) := by
  have key : ∀ M : List Blk, (∀ c ∈ M, c ∈ L) →
      erase (ret b.idx) (recsOf tr ret M) = recsOf tr ret (M.filter fun c => decide (c.idx ≠ b.idx)) := by
    intro M
    induction M with
    | nil => intro _; rfl
    | cons c M ih =>
      intro hM
      have hc := hM c (by simp)
      have ih := ih fun d hd => hM d (by simp [hd])
      unfold erase recsOf at ih ⊢
      by_cases he : c.idx = b.idx
      · by_cases ht : tr c.alloc = true
        · simp only [List.filter_cons, ht, if_true, List.map_cons, he]
          simpa using ih
        · simp only [List.filter_cons, ht, he]
          simpa using ih
      · have hr : ret c.idx ≠ ret b.idx := fun e => he (h.inj _ hc _ hb e)
        by_cases ht : tr c.alloc = true
        · simp only [List.filter_cons, ht, if_true, List.map_cons, he, hr, ne_eq, not_false_eq_true, decide_true]
          rw [ih]
        · simp only [List.filter_cons, ht, he, ne_eq, not_false_eq_true, decide_true, if_true]
          simpa using ih
  exact key L fun _ h => h

theorem sizeOf_mem {ret : Nat → Nat} {L : List Blk} {b : Blk} (hb : b ∈ L) (h : Apart ret L) : sizeOf L b.idx = b.size := by
  unfold sizeOf
  cases hf : L.find? fun c => decide (c.idx = b.idx) with
  | none =>
    have := List.find?_eq_none.mp hf b hb
    simp at this
  | some c =>
    have h1 : c.idx = b.idx := by simpa using List.find?_some hf
    rw [h.one c (List.mem_of_find?_eq_some hf) b hb h1]; rfl

/-- The state belongs to what is held. -/
structure Inv (tr : Nat → Bool) (ret : Nat → Nat) (i : Nat) (L : List Blk) (s : S) : Prop where
  len : s.tab.length = i
  zero : s.tab.getD 0 0 = 0
  tab : ∀ b ∈ L, b.idx < i ∧ s.tab.getD b.idx 0 = ret b.idx
  recs : s.recs = recsOf tr ret L
  apart : Apart ret L

theorem inv_init (tr : Nat → Bool) (ret : Nat → Nat) : Inv tr ret 1 [] .init :=
  ⟨rfl, rfl, by simp, rfl, ⟨by simp, by simp, by simp, by simp⟩⟩

theorem getD_append {l : List Nat} {x j : Nat} (h : j < l.length) : (l ++ [x]).getD j 0 = l.getD j 0 := by
  simp [List.getD_eq_getElem?_getD, List.getElem?_append_left h]

theorem getD_last (l : List Nat) (x : Nat) : (l ++ [x]).getD l.length 0 = x := by
  simp [List.getD_eq_getElem?_getD]

theorem apart_step {ret : Nat → Nat} {i : Nat} {L : List Blk} {o : Op} (h : Apart ret L) (hi : ∀ b ∈ L, b.idx < i)
    (hp : ∀ b ∈ liveStep i L o, ret b.idx ≠ 0)
    (hj : ∀ b ∈ liveStep i L o, ∀ c ∈ liveStep i L o, ret b.idx = ret c.idx → b.idx = c.idx) : Apart ret (liveStep i L o) := by
  have hn : ∀ M : List Blk, (∀ b ∈ M, b ∈ L) → ∀ x : Blk, x.idx = i → x ∉ M := by
    intro M hM x hx hm
    have := hi x (hM x hm); omega
  refine ⟨?_, hj, hp, ?nd⟩
  case nd =>
    unfold liveStep
    split
    · exact List.nodup_cons.mpr ⟨hn L (fun _ h => h) _ rfl, h.nodup⟩
    · exact h.nodup.filter _
    · exact List.nodup_cons.mpr ⟨hn _ (fun _ h => (List.mem_filter.mp h).1) _ rfl, h.nodup.filter _⟩
    · exact h.nodup
  have new : ∀ M : List Blk, (∀ b ∈ M, b ∈ L) → ∀ x : Blk, x.idx = i → ∀ b ∈ x :: M, ∀ c ∈ x :: M, b.idx = c.idx → b = c := by
    intro M hM x hx b hb c hc e
    rcases List.mem_cons.mp hb with hb1 | hb1 <;> rcases List.mem_cons.mp hc with hc1 | hc1
    · rw [hb1, hc1]
    · have := hi c (hM c hc1); rw [hb1] at e; omega
    · have := hi b (hM b hb1); rw [hc1] at e; omega
    · exact h.one b (hM b hb1) c (hM c hc1) e
  unfold liveStep
  split
  · exact new L (fun _ h => h) _ rfl
  · intro b hb c hc e
    exact h.one b (List.mem_filter.mp hb).1 c (List.mem_filter.mp hc).1 e
  · exact new _ (fun _ h => (List.mem_filter.mp h).1) _ rfl
  · exact h.one

/-- The histogram of `a` after one operation. -/
def trackStep (f : Flags) (a : Nat) (L : List Blk) (t : Track) (o : Op) : Track :=
  if f.stats = true ∧ Resets a o then .new
  else trackRun t (if o.alloc = a ∧ o.kind = .allocate then [.alloc o.size]
      else if o.alloc = a ∧ o.kind = .deallocate then [.free (sizeOf L o.src0)] else [])

theorem tab_step {tr : Nat → Bool} {ret : Nat → Nat} {i : Nat} {L : List Blk} {s : S} (h : Inv tr ret i L s) (o : Op) (x : Nat)
    (hx : o.kind = .allocate ∨ o.kind = .reallocateEx → x = ret i) :
    ∀ b ∈ liveStep i L o, b.idx < i + 1 ∧ (s.tab ++ [x]).getD b.idx 0 = ret b.idx := by
  have old : ∀ b ∈ L, b.idx < i + 1 ∧ (s.tab ++ [x]).getD b.idx 0 = ret b.idx := by
    intro b hb
    have := h.tab b hb
    refine ⟨by omega, ?_⟩
    rw [getD_append (by have := h.len; omega)]
    exact this.2
  have new : x = ret i → i < i + 1 ∧ (s.tab ++ [x]).getD i 0 = ret i := by
    intro e
    refine ⟨by omega, ?_⟩
    rw [← h.len, getD_last, e, h.len]
  unfold liveStep
  intro b hb
  split at hb
  · rename_i hk
    rcases List.mem_cons.mp hb with rfl | hb
    · exact new (hx (.inl hk))
    · exact old b hb
  · exact old b (List.mem_filter.mp hb).1
  · rename_i hk
    rcases List.mem_cons.mp hb with rfl | hb
    · exact new (hx (.inr hk))
    · exact old b (List.mem_filter.mp hb).1
  · exact old b hb

theorem step_good {f : Flags} {tr : Nat → Bool} {ret : Nat → Nat} {i : Nat} {L : List Blk} {s : S} {o : Op} (h : Inv tr ret i L s)
    (h0 : 0 < i) (hz : ∀ b ∈ L, 0 < b.idx) (ho : OkOp tr L o) (hp : ∀ b ∈ liveStep i L o, ret b.idx ≠ 0)
    (hj : ∀ b ∈ liveStep i L o, ∀ c ∈ liveStep i L o, ret b.idx = ret c.idx → b.idx = c.idx) :
    if (f.stats || f.dump) = true ∧ o.kind = .deallocate ∧ tr o.alloc = false then step f tr (ret i) s o = none
    else ∃ s', step f tr (ret i) s o = some s' ∧ Inv tr ret (i + 1) (liveStep i L o) s' ∧ s'.series = s.series ∧
      s'.made = s.made ++ created [o] ∧ ((f.stats || f.dump) = true → ∀ a, s'.track a = trackStep f a L (s.track a) o) := by
  have ap := apart_step (o := o) h.apart (fun b hb => (h.tab b hb).1) hp hj
  have z : ∀ x, (s.tab ++ [x]).getD 0 0 = 0 := fun x => by rw [getD_append (by have := h.len; omega)]; exact h.zero
  have ln : ∀ x, (s.tab ++ [x]).length = i + 1 := fun x => by simp [h.len]
  have tb := tab_step h o
  cases hk : o.kind with
  | blank => unfold OkOp at ho; rw [hk] at ho; exact ho.elim
  | creation =>
    simp only [reduceCtorEq, false_and, and_false, if_false]
    refine ⟨{ s with track := if f.stats then put o.alloc .new s.track else s.track, made := s.made ++ [o.alloc], tab := s.tab ++ [0] }, by unfold step; rw [hk], ⟨ln _, z _, tb _ (by simp [hk]), ?_, ap⟩, rfl, ?_, ?_⟩
    · simp [liveStep, hk, h.recs]
    · simp [created, hk]
    · intro hf a
      by_cases ha : o.alloc = a
      · subst ha
        cases hs : f.stats <;> simp [trackStep, Resets, hk, hs, put, trackRun]
      · have : ¬ a = o.alloc := fun e => ha e.symm
        cases hs : f.stats <;> simp [trackStep, Resets, hk, hs, put, trackRun, ha, this]
  | setDefault =>
    simp only [reduceCtorEq, false_and, and_false, if_false]
    refine ⟨{ s with track := if f.stats then put o.alloc .new s.track else s.track, tab := s.tab ++ [0] }, by unfold step; rw [hk], ⟨ln _, z _, tb _ (by simp [hk]), ?_, ap⟩, rfl, ?_, ?_⟩
    · simp [liveStep, hk, h.recs]
    · simp [created, hk]
    · intro hf a
      by_cases ha : o.alloc = a
      · subst ha
        cases hs : f.stats <;> simp [trackStep, Resets, hk, hs, put, trackRun]
      · have : ¬ a = o.alloc := fun e => ha e.symm
        cases hs : f.stats <;> simp [trackStep, Resets, hk, hs, put, trackRun, ha, this]
  | allocate =>
    simp only [reduceCtorEq, false_and, and_false, if_false]
    refine ⟨{ s with track := if f.stats || f.dump then put o.alloc ((s.track o.alloc).inc o.size) s.track else s.track, recs := if tr o.alloc then (ret i, o.alloc, o.size) :: s.recs else s.recs, tab := s.tab ++ [ret i] }, by unfold step; rw [hk], ⟨ln _, z _, tb _ (by simp [hk]), ?_, ap⟩, rfl, ?_, ?_⟩
    · cases ht : tr o.alloc <;> simp [liveStep, hk, h.recs, recsOf, ht]
    · simp [created, hk]
    · intro hf a
      by_cases ha : o.alloc = a
      · subst ha
        simp [trackStep, Resets, hk, hf, put, trackRun]
      · have : ¬ a = o.alloc := fun e => ha e.symm
        simp [trackStep, Resets, hk, hf, put, trackRun, ha, this]
  | deallocate =>
    unfold OkOp at ho
    rw [hk] at ho
    obtain ⟨b, hb, hb1, hb2⟩ := ho
    have hpt : s.tab.getD o.src0 0 = ret b.idx := by rw [← hb1]; exact (h.tab b hb).2
    have hfind := find_recs tr ret hb h.apart
    rw [hb2] at hfind
    have herase := erase_recs tr ret hb h.apart
    cases ht : tr o.alloc with
    | false =>
      rw [ht] at hfind
      by_cases hf : (f.stats || f.dump) = true
      · rw [if_pos ⟨hf, rfl, rfl⟩]
        unfold step
        rw [hk]
        simp only [hf, if_true, hpt, h.recs, hfind]
        rfl
      · rw [if_neg (fun hh => hf hh.1)]
        refine ⟨{ s with tab := s.tab ++ [0] }, ?_, ⟨ln _, z _, tb _ (by simp [hk]), ?_, ap⟩, rfl, by simp [created, hk], fun hh => absurd hh hf⟩
        · unfold step
          rw [hk]
          simp only [hf, if_false, dealloc, ht]
          simp
        · have : recsOf tr ret (L.filter fun c => decide (c.idx ≠ o.src0)) = recsOf tr ret L := by
            have e2 := herase
            rw [← hb1, ← e2]
            unfold erase
            apply List.filter_eq_self.mpr
            intro x hx
            obtain ⟨c, hc, rfl⟩ := List.mem_map.mp hx
            have hc1 := (List.mem_filter.mp hc).1
            have hc2 := (List.mem_filter.mp hc).2
            have : ret c.idx ≠ ret b.idx := by
              intro e
              have e3 := h.apart.one c hc1 b hb (h.apart.inj c hc1 b hb e)
              rw [e3, hb2, ht] at hc2
              cases hc2
            simpa using this
          simp only [liveStep, hk, this, h.recs]
    | true =>
      rw [ht] at hfind
      rw [if_neg (by simp)]
      have hd : dealloc tr o.alloc (ret b.idx) s.recs = some (recsOf tr ret (L.filter fun c => decide (c.idx ≠ o.src0))) := by
        unfold dealloc
        rw [if_pos ht, h.recs, hfind]
        simp only [if_true]
        rw [herase, hb1]
      refine ⟨{ s with track := if (f.stats || f.dump) = true then put o.alloc ((s.track o.alloc).dec b.size) s.track else s.track,
                       recs := recsOf tr ret (L.filter fun c => decide (c.idx ≠ o.src0)), tab := s.tab ++ [0] }, ?_,
        ⟨ln _, z _, tb _ (by simp [hk]), ?_, ap⟩, rfl, by simp [created, hk], ?_⟩
      · unfold step
        rw [hk]
        simp only [hpt, hd]
        by_cases hf : (f.stats || f.dump) = true
        · simp only [hf, if_true, h.recs, hfind]
        · simp only [hf, if_false]
          simp
      · simp only [liveStep, hk]
      · intro hf a
        have hsz := sizeOf_mem hb h.apart
        rw [hb1] at hsz
        by_cases ha : o.alloc = a
        · subst ha
          simp [trackStep, Resets, hk, hf, put, trackRun, hsz]
        · have : ¬ a = o.alloc := fun e => ha e.symm
          simp [trackStep, Resets, hk, hf, put, trackRun, ha, this]
  | reallocateEx =>
    simp only [reduceCtorEq, false_and, and_false, if_false]
    unfold OkOp at ho
    rw [hk] at ho
    have hr : ∃ r, realloc tr o.alloc (s.tab.getD o.src1 0) o.size (ret i) s.recs = some r ∧ r = recsOf tr ret (liveStep i L o) := by
      rcases ho with ho | ⟨b, hb, hb1, hb2, ht⟩
      · have hflt : (L.filter fun c => decide (c.idx ≠ o.src1)) = L := by
          apply List.filter_eq_self.mpr
          intro c hc
          have := hz c hc
          have : c.idx ≠ o.src1 := by omega
          simpa using this
        refine ⟨_, by unfold realloc; rw [ho, if_pos h.zero], ?_⟩
        simp only [liveStep, hk, hflt, h.recs]
        cases ht : tr o.alloc <;> simp [recsOf, ht]
      · have hpt : s.tab.getD o.src1 0 = ret b.idx := by rw [← hb1]; exact (h.tab b hb).2
        have hfind := find_recs tr ret hb h.apart
        rw [hb2, ht] at hfind
        have herase := erase_recs tr ret hb h.apart
        refine ⟨_, by unfold realloc; rw [hpt, if_neg (h.apart.pos b hb), h.recs, hfind]; simp only [if_true]; rfl, ?_⟩
        rw [herase, hb1]
        simp [liveStep, hk, recsOf, ht]
    obtain ⟨r, hr1, hr2⟩ := hr
    refine ⟨{ s with recs := r, tab := s.tab ++ [ret i] }, ?_, ⟨ln _, z _, tb _ (by simp), hr2, ap⟩, rfl, by simp [created, hk], ?_⟩
    · unfold step; rw [hk]; simp only [hr1]
    · intro hf a; simp [trackStep, Resets, hk, trackRun]
  | coalesce =>
    simp only [reduceCtorEq, false_and, and_false, if_false]
    refine ⟨{ s with tab := s.tab ++ [0] }, by unfold step; rw [hk], ⟨ln _, z _, tb _ (by simp [hk]), ?_, ap⟩, rfl, by simp [created, hk], ?_⟩
    · simp [liveStep, hk, h.recs]
    · intro hf a; simp [trackStep, Resets, hk, trackRun]
  | release =>
    simp only [reduceCtorEq, false_and, and_false, if_false]
    refine ⟨{ s with tab := s.tab ++ [0] }, by unfold step; rw [hk], ⟨ln _, z _, tb _ (by simp [hk]), ?_, ap⟩, rfl, by simp [created, hk], ?_⟩
    · simp [liveStep, hk, h.recs]
    · intro hf a; simp [trackStep, Resets, hk, trackRun]

theorem live_append (i : Nat) (L : List Blk) (xs ys : List Op) : live i L (xs ++ ys) = live (i + xs.length) (live i L xs) ys := by
  induction xs generalizing i L with
  | nil => rfl
  | cons o xs ih =>
    simp only [List.cons_append, live, List.length_cons]
    rw [ih]
    congr 1
    omega

/-- The histogram of `a` after operations. -/
def trackAll (f : Flags) (a i : Nat) (L : List Blk) (t : Track) : List Op → Track
  | [] => t
  | o :: os => trackAll f a (i + 1) (liveStep i L o) (trackStep f a L t o) os

theorem pos_step {i : Nat} {L : List Blk} (h0 : 0 < i) (hz : ∀ b ∈ L, 0 < b.idx) (o : Op) : ∀ b ∈ liveStep i L o, 0 < b.idx := by
  unfold liveStep
  intro b hb
  split at hb
  · rcases List.mem_cons.mp hb with rfl | hb
    · exact h0
    · exact hz b hb
  · exact hz b (List.mem_filter.mp hb).1
  · rcases List.mem_cons.mp hb with rfl | hb
    · exact h0
    · exact hz b (List.mem_filter.mp hb).1
  · exact hz b hb

theorem inv_note {f : Flags} {tr : Nat → Bool} {ret : Nat → Nat} {i : Nat} {L : List Blk} {s : S} (h : Inv tr ret i L s) :
    Inv tr ret i L (note f s) ∧ (note f s).track = s.track ∧ (note f s).made = s.made := by
  unfold note
  split
  · exact ⟨⟨h.len, h.zero, h.tab, h.recs, h.apart⟩, rfl, rfl⟩
  · exact ⟨h, rfl, rfl⟩

/-- Some allocator that does not track gets memory back. -/
def Untracked (tr : Nat → Bool) (ops : List Op) : Prop := ∃ o ∈ ops, o.kind = .deallocate ∧ tr o.alloc = false

theorem run_good {f : Flags} {tr : Nat → Bool} {ret : Nat → Nat} (ops : List Op) : ∀ {i : Nat} {L : List Blk} {s : S}, Inv tr ret i L s →
    0 < i → (∀ b ∈ L, 0 < b.idx) → Good tr ret i L ops →
    ((f.stats || f.dump) = true ∧ Untracked tr ops → run f tr ret s ops = none) ∧
    (¬ ((f.stats || f.dump) = true ∧ Untracked tr ops) → ∃ s', run f tr ret s ops = some s' ∧
      ((f.stats || f.dump) = true → ∀ a, s'.track a = trackAll f a i L (s.track a) ops)) := by
  induction ops with
  | nil =>
    intro i L s h h0 hz hg
    refine ⟨?_, fun _ => ⟨s, rfl, fun _ a => rfl⟩⟩
    rintro ⟨_, o, ho, _⟩
    cases ho
  | cons o ops ih =>
    intro i L s h h0 hz hg
    obtain ⟨g1, g2, g3, g4⟩ := hg
    have hs := step_good (f := f) h h0 hz g1 g2 g3
    by_cases hc : (f.stats || f.dump) = true ∧ o.kind = .deallocate ∧ tr o.alloc = false
    · rw [if_pos hc] at hs
      refine ⟨fun _ => by simp only [run, h.len, hs], fun hn => absurd ⟨hc.1, o, by simp, hc.2⟩ hn⟩
    · rw [if_neg hc] at hs
      obtain ⟨s', h1, h2, h3, h4, h5⟩ := hs
      obtain ⟨n1, n2, n3⟩ := inv_note (f := f) h2
      obtain ⟨i1, i2⟩ := ih n1 (by omega) (pos_step h0 hz o) g4
      have hr : run f tr ret s (o :: ops) = run f tr ret (note f s') ops := by simp only [run, h.len, h1]
      rw [hr]
      constructor
      · rintro ⟨hf, x, hx, hk, ht⟩
        rcases List.mem_cons.mp hx with rfl | hx
        · exact absurd ⟨hf, hk, ht⟩ hc
        · exact i1 ⟨hf, x, hx, hk, ht⟩
      · intro hn
        obtain ⟨s2, r1, r2⟩ := i2 (by
          rintro ⟨hf, x, hx, hk⟩
          exact hn ⟨hf, x, by simp [hx], hk⟩)
        refine ⟨s2, r1, ?_⟩
        intro hf a
        rw [r2 hf a, n2, h5 hf a]
        rfl

/-! ## Theorems -/

/-- **C93.**  Without the options the replay of any such operations gets through; with one of them it does exactly if no allocator
without tracking gets memory back. -/
theorem stats_through (f : Flags) {tr : Nat → Bool} {ret : Nat → Nat} {ops : List Op} (hg : Good tr ret 1 [] ops) :
    (run f tr ret .init ops).isSome = true ↔ (f.stats = true ∨ f.dump = true → ¬ Untracked tr ops) := by
  obtain ⟨h1, h2⟩ := run_good (f := f) ops (inv_init tr ret) (by omega) (by simp) hg
  constructor
  · intro h hf hu
    rw [h1 ⟨by simpa using hf, hu⟩] at h
    cases h
  · intro h
    obtain ⟨s, hs, _⟩ := h2 (fun hh => h (by simpa using hh.1) hh.2)
    rw [hs]; rfl

theorem trackAll_append (f : Flags) (a : Nat) (xs ys : List Op) : ∀ (i : Nat) (L : List Blk) (t : Track),
    trackAll f a i L t (xs ++ ys) = trackAll f a (i + xs.length) (live i L xs) (trackAll f a i L t xs) ys := by
  induction xs with
  | nil => intro i L t; rfl
  | cons o xs ih =>
    intro i L t
    simp only [List.cons_append, trackAll, live, List.length_cons]
    rw [ih]
    congr 1
    omega

theorem trackRun_append (t : Track) (xs ys : List HOp) : trackRun t (xs ++ ys) = trackRun (trackRun t xs) ys := by
  induction xs generalizing t with
  | nil => rfl
  | cons x xs ih => cases x <;> exact ih _

theorem trackAll_uses {f : Flags} {a : Nat} (ops : List Op) (h : f.stats = true → ∀ o ∈ ops, ¬ Resets a o) :
    ∀ (i : Nat) (L : List Blk) (t : Track), trackAll f a i L t ops = trackRun t (uses a i L ops) := by
  induction ops with
  | nil => intro i L t; rfl
  | cons o ops ih =>
    intro i L t
    simp only [trackAll, uses]
    rw [ih (fun hf x hx => h hf x (by simp [hx])), trackRun_append]
    congr 1
    unfold trackStep
    rw [if_neg]
    rintro ⟨hf, hr⟩
    exact h hf o (by simp) hr

theorem trackRun_hist (es : List HOp) : ∀ t : Track, (trackRun t es).hist = histRun t.hist es := by
  induction es with
  | nil => intro t; rfl
  | cons e es ih => intro t; cases e <;> (simp only [trackRun, histRun]; rw [ih]; rfl)

theorem histRun_totals (es : List HOp) : ∀ h : Hist, (histRun h es).allocs = h.allocs + es.countP (fun e => match e with | .alloc _ => true | _ => false) ∧
    (histRun h es).frees = h.frees + es.countP (fun e => match e with | .free _ => true | _ => false) := by
  induction es with
  | nil => intro h; exact ⟨rfl, rfl⟩
  | cons e es ih =>
    intro h
    cases e with
    | alloc n =>
      simp only [histRun]
      obtain ⟨i1, i2⟩ := ih (h.inc n)
      rw [i1, i2, List.countP_cons, List.countP_cons]
      simp [Hist.inc]; omega
    | free n =>
      simp only [histRun]
      obtain ⟨i1, i2⟩ := ih (h.dec n)
      rw [i1, i2, List.countP_cons, List.countP_cons]
      simp [Hist.dec]; omega

theorem uses_totals (a : Nat) (ops : List Op) : ∀ (i : Nat) (L : List Blk),
    (uses a i L ops).countP (fun e => match e with | .alloc _ => true | _ => false) = ops.countP (fun o => decide (o.alloc = a ∧ o.kind = .allocate)) ∧
    (uses a i L ops).countP (fun e => match e with | .free _ => true | _ => false) = ops.countP (fun o => decide (o.alloc = a ∧ o.kind = .deallocate)) := by
  induction ops with
  | nil => intro i L; exact ⟨rfl, rfl⟩
  | cons o ops ih =>
    intro i L
    obtain ⟨i1, i2⟩ := ih (i + 1) (liveStep i L o)
    simp only [uses, List.countP_append, i1, i2, List.countP_cons]
    by_cases h1 : o.alloc = a ∧ o.kind = .allocate
    · have h2 : ¬ (o.alloc = a ∧ o.kind = .deallocate) := by rw [h1.2]; simp
      simp [h1, h2]; omega
    · by_cases h2 : o.alloc = a ∧ o.kind = .deallocate
      · simp [h1, h2]; omega
      · simp [h1, h2]

/-- **C93.**  The histogram of an allocator that `--stats` prints is that of the calls since its creation or since it was last made
the default allocator, whichever came later: how many allocations and deallocations, and the calls in their order. -/
theorem stats_exact {d : Bool} {tr : Nat → Bool} {ret : Nat → Nat} {a : Nat} {pre rest : List Op} {r : Op} {s : S} (hr : Resets a r)
    (hn : ∀ o ∈ rest, ¬ Resets a o) (hg : Good tr ret 1 [] (pre ++ r :: rest))
    (hs : run ⟨true, d⟩ tr ret .init (pre ++ r :: rest) = some s) :
    (s.track a).hist.allocs = rest.countP (fun o => decide (o.alloc = a ∧ o.kind = .allocate)) ∧
    (s.track a).hist.frees = rest.countP (fun o => decide (o.alloc = a ∧ o.kind = .deallocate)) ∧
    (s.track a).hist = histRun .new (uses a (pre.length + 2) (live 1 [] (pre ++ [r])) rest) := by
  obtain ⟨h1, h2⟩ := run_good (f := ⟨true, d⟩) _ (inv_init tr ret) (by omega) (by simp) hg
  have hu : ¬ ((true || d) = true ∧ Untracked tr (pre ++ r :: rest)) := fun hh => by
    rw [h1 hh] at hs; cases hs
  obtain ⟨s', h3, h4⟩ := h2 hu
  rw [hs] at h3
  cases h3
  have h5 := h4 (by simp) a
  rw [show pre ++ r :: rest = (pre ++ [r]) ++ rest by simp, trackAll_append, trackAll_uses rest (fun _ => hn)] at h5
  have h6 : trackAll ⟨true, d⟩ a 1 [] (S.init.track a) (pre ++ [r]) = .new := by
    rw [trackAll_append]
    simp only [trackAll, trackStep]
    rw [if_pos ⟨trivial, hr⟩]
  rw [h6] at h5
  have h7 : (s.track a).hist = histRun .new (uses a (pre.length + 2) (live 1 [] (pre ++ [r])) rest) := by
    rw [h5, trackRun_hist]
    have : 1 + (pre ++ [r]).length = pre.length + 2 := by simp; omega
    rw [this]; rfl
  refine ⟨?_, ?_, h7⟩
  · rw [h7, (histRun_totals _ _).1, (uses_totals a rest _ _).1]; simp [Hist.new]
  · rw [h7, (histRun_totals _ _).2, (uses_totals a rest _ _).2]; simp [Hist.new]

theorem filter_perm {ret : Nat → Nat} {L : List Blk} {b : Blk} (hb : b ∈ L) (h : Apart ret L) :
    L.Perm (b :: L.filter fun c => decide (c.idx ≠ b.idx)) := by
  have e : (L.filter fun c => decide (c.idx ≠ b.idx)) = L.erase b := by
    rw [h.nodup.erase_eq_filter]
    apply List.filter_congr
    intro c hc
    by_cases hcb : c = b
    · subst hcb; simp
    · have : c.idx ≠ b.idx := fun e => hcb (h.one c hc b hb e)
      simp [hcb, this]
  rw [e]
  exact List.perm_cons_erase hb

/-- Only memory that is there is reallocated. -/
def NoFresh (ops : List Op) : Prop := ∀ o ∈ ops, o.kind = .reallocateEx → o.src1 ≠ 0

theorem holds_step {tr : Nat → Bool} {ret : Nat → Nat} {i a : Nat} {L : List Blk} {o : Op} (h : Apart ret L) (ho : OkOp tr L o)
    (hn : o.kind = .reallocateEx → o.src1 ≠ 0) :
    holds a (liveStep i L o) + (if o.alloc = a ∧ o.kind = .deallocate then 1 else 0) =
      holds a L + (if o.alloc = a ∧ o.kind = .allocate then 1 else 0) := by
  have drop : ∀ b ∈ L, holds a L = holds a (L.filter fun c => decide (c.idx ≠ b.idx)) + (if b.alloc = a then 1 else 0) := by
    intro b hb
    unfold holds
    rw [(filter_perm hb h).countP_eq, List.countP_cons]
    by_cases e : b.alloc = a <;> simp [e]
  unfold OkOp at ho
  unfold liveStep
  cases hk : o.kind <;> rw [hk] at ho <;> simp only [reduceCtorEq, and_false, if_false, and_true]
  · unfold holds
    rw [List.countP_cons]
    by_cases e : o.alloc = a <;> simp [e]
  · obtain ⟨b, hb, h1, h2⟩ := ho
    have := drop b hb
    rw [h1, h2] at this
    omega
  · rcases ho with ho | ⟨b, hb, h1, h2, _⟩
    · exact absurd ho (hn hk)
    · have := drop b hb
      rw [h1, h2] at this
      have e : holds a (⟨i, o.alloc, o.size⟩ :: L.filter fun c => decide (c.idx ≠ o.src1)) =
          holds a (L.filter fun c => decide (c.idx ≠ o.src1)) + (if o.alloc = a then 1 else 0) := by
        unfold holds
        rw [List.countP_cons]
        by_cases e : o.alloc = a <;> simp [e]
      omega

/-- The lines that should be written, operation by operation. -/
def expected (i : Nat) (L : List Blk) (m : List Nat) : List Op → List Line
  | [] => []
  | o :: os => ((m ++ created [o]).map fun a => ⟨i - 1, a, holds a (liveStep i L o)⟩) ++ expected (i + 1) (liveStep i L o) (m ++ created [o]) os

theorem dump_run {tr : Nat → Bool} {ret : Nat → Nat} (ops : List Op) : ∀ {i : Nat} {L : List Blk} {s s' : S}, Inv tr ret i L s → 0 < i →
    (∀ b ∈ L, 0 < b.idx) → Good tr ret i L ops → NoFresh ops → L.length + ops.length < 2 ^ 64 → (∀ a, (s.track a).count = holds a L) →
    run ⟨false, true⟩ tr ret s ops = some s' → s'.series = s.series ++ expected i L s.made ops := by
  induction ops with
  | nil =>
    intro i L s s' h h0 hz hg hn hl hc hr
    simp only [run, Option.some.injEq] at hr
    subst hr
    simp [expected]
  | cons o ops ih =>
    intro i L s s' h h0 hz hg hn hl hc hr
    obtain ⟨g1, g2, g3, g4⟩ := hg
    have hs := step_good (f := ⟨false, true⟩) h h0 hz g1 g2 g3
    split at hs
    · simp only [run, h.len, hs] at hr
      cases hr
    · obtain ⟨s1, h1, h2, h3, h4, h5⟩ := hs
      have hr : run ⟨false, true⟩ tr ret (note ⟨false, true⟩ s1) ops = some s' := by
        simpa only [run, h.len, h1] using hr
      obtain ⟨n1, n2, n3⟩ := inv_note (f := ⟨false, true⟩) h2
      have cnt : ∀ a, (s1.track a).count = holds a (liveStep i L o) := by
        intro a
        have hst := holds_step (i := i) (a := a) h.apart g1 (hn o (by simp))
        rw [h5 (by simp) a]
        unfold trackStep
        rw [if_neg (by simp)]
        have hle : holds a L ≤ L.length := List.countP_le_length
        simp only [List.length_cons] at hl
        have p64 : (2 : Nat) ^ 64 = 18446744073709551616 := rfl
        by_cases e1 : o.alloc = a ∧ o.kind = .allocate
        · have e2 : ¬ (o.alloc = a ∧ o.kind = .deallocate) := by rw [e1.2]; simp
          rw [if_pos e1] at hst ⊢
          rw [if_neg e2] at hst
          simp only [trackRun, Track.inc, hc a]
          omega
        · rw [if_neg e1] at hst ⊢
          by_cases e2 : o.alloc = a ∧ o.kind = .deallocate
          · rw [if_pos e2] at hst ⊢
            simp only [trackRun, Track.dec, hc a]
            omega
          · rw [if_neg e2] at hst ⊢
            simp only [trackRun, hc a]
            omega
      have hlen : (liveStep i L o).length + ops.length < 2 ^ 64 := by
        have : (liveStep i L o).length ≤ L.length + 1 := by
          unfold liveStep
          split
          · simp
          · exact Nat.le_trans (List.length_filter_le _ _) (by omega)
          · simpa using List.length_filter_le _ _
          · omega
        simp only [List.length_cons] at hl
        omega
      have := ih n1 (by omega) (pos_step h0 hz o) g4 (fun x hx => hn x (by simp [hx])) hlen (fun a => by rw [n2]; exact cnt a) hr
      rw [this, n3, h4]
      have e : (note ⟨false, true⟩ s1).series = s.series ++ ((s.made ++ created [o]).map fun a => (⟨i - 1, a, holds a (liveStep i L o)⟩ : Line)) := by
        unfold note
        simp only [if_true]
        rw [h3, h4]
        congr 1
        apply List.map_congr_left
        intro a _
        rw [cnt a, h2.len]
        simp
      rw [e]
      simp [expected]

theorem created_append (xs ys : List Op) : created (xs ++ ys) = created xs ++ created ys := by simp [created]

theorem expected_eq (ops : List Op) : ∀ pre : List Op, expected (pre.length + 1) (live 1 [] pre) (created pre) ops =
    (List.range ops.length).flatMap fun t =>
      (created (pre ++ ops.take (t + 1))).map fun a => ⟨pre.length + t, a, holds a (live 1 [] (pre ++ ops.take (t + 1)))⟩ := by
  induction ops with
  | nil => intro pre; rfl
  | cons o ops ih =>
    intro pre
    have e1 : live 1 [] (pre ++ [o]) = liveStep (pre.length + 1) (live 1 [] pre) o := by
      rw [live_append]
      simp only [live]
      rw [Nat.add_comm]
    have := ih (pre ++ [o])
    rw [e1, created_append, show (pre ++ [o]).length = pre.length + 1 by simp] at this
    simp only [expected]
    rw [this, List.length_cons, List.range_succ_eq_map, List.flatMap_cons, List.flatMap_map]
    congr 1
    · simp only [List.take_succ_cons, List.take_zero, created_append, e1]
      simp
    · congr 1
      funext t
      simp only [List.take_succ_cons, Nat.succ_eq_add_one, List.append_assoc, List.cons_append, List.nil_append]
      apply List.map_congr_left
      intro a _
      congr 1
      omega

/-- **C93.**  `--dump` alone: for every operation and every allocator created by then the trace has one line, in this order, with the
number of blocks of the allocator the program held at that time, if nothing is allocated by reallocating a null pointer. -/
theorem dump_exact_partial {tr : Nat → Bool} {ret : Nat → Nat} {ops : List Op} {s : S} (hg : Good tr ret 1 [] ops) (hn : NoFresh ops)
    (hl : ops.length < 2 ^ 64) (hs : run ⟨false, true⟩ tr ret .init ops = some s) :
    s.series = (List.range ops.length).flatMap fun t =>
      (created (ops.take (t + 1))).map fun a => ⟨t, a, holds a (live 1 [] (ops.take (t + 1)))⟩ := by
  have h := dump_run ops (inv_init tr ret) (by omega) (by simp) hg hn (by simpa using hl) (fun a => rfl) hs
  have e := expected_eq ops []
  simp only [List.nil_append, List.length_nil, Nat.zero_add, live, created, List.filter_nil, List.map_nil] at e
  rw [h]
  simp only [S.init, List.nil_append]
  rw [e]
  rfl

theorem good_append {tr : Nat → Bool} {ret : Nat → Nat} (xs ys : List Op) : ∀ {i : Nat} {L : List Blk}, Apart ret L → 0 < i →
    (∀ b ∈ L, 0 < b.idx ∧ b.idx < i) → Good tr ret i L (xs ++ ys) →
    Good tr ret (i + xs.length) (live i L xs) ys ∧ Apart ret (live i L xs) ∧ ∀ b ∈ live i L xs, 0 < b.idx ∧ b.idx < i + xs.length := by
  induction xs with
  | nil => intro i L h h0 hi hg; exact ⟨hg, h, hi⟩
  | cons o xs ih =>
    intro i L h h0 hi hg
    obtain ⟨g1, g2, g3, g4⟩ := hg
    have hi' : ∀ b ∈ liveStep i L o, 0 < b.idx ∧ b.idx < i + 1 := by
      unfold liveStep
      intro b hb
      split at hb
      · rcases List.mem_cons.mp hb with rfl | hb
        · exact ⟨h0, Nat.lt_succ_self i⟩
        · have := hi b hb; omega
      · have := hi b (List.mem_filter.mp hb).1; omega
      · rcases List.mem_cons.mp hb with rfl | hb
        · exact ⟨h0, Nat.lt_succ_self i⟩
        · have := hi b (List.mem_filter.mp hb).1; omega
      · have := hi b hb; omega
    have := ih (apart_step h (fun b hb => (hi b hb).2) g2 g3) (by omega) hi' g4
    simp only [live, List.length_cons]
    rw [show i + (xs.length + 1) = i + 1 + xs.length by omega]
    exact this

theorem sizes_cons (a : Nat) (b : Blk) (L : List Blk) : sizes a (b :: L) = if b.alloc = a then b.size :: sizes a L else sizes a L := by
  unfold sizes
  by_cases h : b.alloc = a <;> simp [h]

theorem sizes_perm (a : Nat) {L M : List Blk} (h : L.Perm M) : (sizes a L).Perm (sizes a M) := (h.filter _).map _

theorem sizes_drop {ret : Nat → Nat} {L : List Blk} {b : Blk} (a : Nat) (hb : b ∈ L) (h : Apart ret L) :
    (sizes a L).Perm (if b.alloc = a then b.size :: sizes a (L.filter fun c => decide (c.idx ≠ b.idx))
      else sizes a (L.filter fun c => decide (c.idx ≠ b.idx))) := by
  have := sizes_perm a (filter_perm hb h)
  rw [sizes_cons] at this
  exact this

theorem inBucket_perm (k : Nat) {l m : List Nat} (h : l.Perm m) : inBucket k l = inBucket k m := h.countP_eq _

theorem spec_uses {tr : Nat → Bool} {ret : Nat → Nat} (a k : Nat) (ops : List Op) : ∀ {i : Nat} {L : List Blk} {l0 : List Nat} {p0 : Nat},
    Apart ret L → 0 < i → (∀ b ∈ L, 0 < b.idx ∧ b.idx < i) → Good tr ret i L ops → (∀ o ∈ ops, o.alloc = a → o.kind ≠ .reallocateEx) →
    (∀ o ∈ ops, o.alloc = a → o.kind = .allocate → o.size ≠ 0 ∧ o.size < 2 ^ 64) → l0.Perm (sizes a L) → (∀ x ∈ l0, x ≠ 0 ∧ x < 2 ^ 64) →
    inBucket k l0 ≤ p0 →
    (∀ e ∈ uses a i L ops, sized e) ∧ (uses a i L ops).length ≤ ops.length ∧
    ∃ l1 p1, specRun k l0 p0 (uses a i L ops) = some (l1, p1) ∧ l1.Perm (sizes a (live i L ops)) ∧ p0 ≤ p1 ∧
      (∀ n, n ≤ ops.length → inBucket k (sizes a (live i L (ops.take n))) ≤ p1) ∧
      (p1 = p0 ∨ ∃ n, n ≤ ops.length ∧ p1 = inBucket k (sizes a (live i L (ops.take n)))) := by
  induction ops with
  | nil =>
    intro i L l0 p0 h hpos hi hg hr hz hp hx hk
    refine ⟨by simp [uses], by simp [uses], l0, p0, rfl, hp, Nat.le_refl _, ?_, .inl rfl⟩
    intro n _
    simp only [List.take_nil, live]
    rw [← inBucket_perm k hp]; exact hk
  | cons o ops ih =>
    intro i L l0 p0 h hpos hi hg hr hz hp hx hk
    obtain ⟨_, ap, hi'⟩ := good_append [o] ops h hpos hi hg
    obtain ⟨g1, g2, g3, g4⟩ := hg
    simp only [live, List.length_cons, List.length_nil, Nat.zero_add] at ap hi'
    have fin : ∀ {l0' : List Nat} {p0' : Nat} {es : List HOp}, l0'.Perm (sizes a (liveStep i L o)) → (∀ x ∈ l0', x ≠ 0 ∧ x < 2 ^ 64) →
        inBucket k l0' ≤ p0' → (∀ e ∈ es, sized e) → es.length ≤ 1 → p0 ≤ p0' → (p0' = p0 ∨ p0' = inBucket k l0') →
        (∀ fs, specRun k l0 p0 (es ++ fs) = specRun k l0' p0' fs) → uses a i L (o :: ops) = es ++ uses a (i + 1) (liveStep i L o) ops →
        (∀ e ∈ uses a i L (o :: ops), sized e) ∧ (uses a i L (o :: ops)).length ≤ (o :: ops).length ∧
        ∃ l1 p1, specRun k l0 p0 (uses a i L (o :: ops)) = some (l1, p1) ∧ l1.Perm (sizes a (live i L (o :: ops))) ∧ p0 ≤ p1 ∧
          (∀ n, n ≤ (o :: ops).length → inBucket k (sizes a (live i L ((o :: ops).take n))) ≤ p1) ∧
          (p1 = p0 ∨ ∃ n, n ≤ (o :: ops).length ∧ p1 = inBucket k (sizes a (live i L ((o :: ops).take n)))) := by
      intro l0' p0' es q1 q2 q3 q4 q5 q6 q7 q8 q9
      obtain ⟨r1, r2, l1, p1, r3, r4, r5, r6, r7⟩ := ih ap (by omega) hi' g4 (fun x hx' => hr x (by simp [hx'])) (fun x hx' => hz x (by simp [hx'])) q1 q2 q3
      rw [q9]
      refine ⟨?_, ?_, l1, p1, ?_, r4, by omega, ?_, ?_⟩
      · intro e he
        rcases List.mem_append.mp he with he | he
        · exact q4 e he
        · exact r1 e he
      · simp only [List.length_append, List.length_cons]; omega
      · rw [q8]; exact r3
      · intro n hn
        cases n with
        | zero =>
          simp only [List.take_zero, live]
          rw [← inBucket_perm k hp]; omega
        | succ n =>
          simp only [List.take_succ_cons, live]
          exact r6 n (by simpa using hn)
      · rcases r7 with r7 | ⟨n, n1, n2⟩
        · rcases q7 with q7 | q7
          · exact .inl (by rw [r7, q7])
          · refine .inr ⟨1, by simp, ?_⟩
            simp only [List.take_succ_cons, List.take_zero, live]
            rw [r7, q7, inBucket_perm k q1]
        · exact .inr ⟨n + 1, by simpa using n1, by simpa only [List.take_succ_cons, live] using n2⟩
    have same : (sizes a L).Perm (sizes a (liveStep i L o)) → ¬ (o.alloc = a ∧ o.kind = .allocate) → ¬ (o.alloc = a ∧ o.kind = .deallocate) → _ :=
      fun q n1 n2 => fin (es := []) (hp.trans q) hx hk (by simp) (by simp) (Nat.le_refl _) (.inl rfl) (fun _ => rfl) (by simp [uses, n1, n2])
    unfold OkOp at g1
    cases hk' : o.kind with
    | blank => rw [hk'] at g1; exact g1.elim
    | creation => exact same (by simp [liveStep, hk']) (by simp [hk']) (by simp [hk'])
    | setDefault => exact same (by simp [liveStep, hk']) (by simp [hk']) (by simp [hk'])
    | coalesce => exact same (by simp [liveStep, hk']) (by simp [hk']) (by simp [hk'])
    | release => exact same (by simp [liveStep, hk']) (by simp [hk']) (by simp [hk'])
    | reallocateEx =>
      rw [hk'] at g1
      have hne : o.alloc ≠ a := fun e => hr o (by simp) e hk'
      refine same ?_ (by simp [hk']) (by simp [hk'])
      simp only [liveStep, hk', sizes_cons]
      rw [if_neg hne]
      by_cases hm : ∃ b ∈ L, b.idx = o.src1
      · obtain ⟨b, hb, hb1⟩ := hm
        have hb2 : b.alloc ≠ a := by
          rcases g1 with g1 | ⟨c, hc, hc1, hc2, _⟩
          · have e0 := hi b hb
            omega
          · have := h.one b hb c hc (by omega)
            rw [this, hc2]; exact hne
        have := sizes_drop a hb h
        rw [if_neg hb2, hb1] at this
        exact this
      · have : (L.filter fun c => decide (c.idx ≠ o.src1)) = L := by
          apply List.filter_eq_self.mpr
          intro c hc
          have : c.idx ≠ o.src1 := fun e => hm ⟨c, hc, e⟩
          simpa using this
        rw [this]
    | allocate =>
      by_cases ha : o.alloc = a
      · have hs := hz o (by simp) ha hk'
        refine fin (es := [.alloc o.size]) (l0' := o.size :: l0) (p0' := max p0 (inBucket k (o.size :: l0))) ?_ ?_ (Nat.le_max_right _ _) ?_ (by simp)
          (Nat.le_max_left _ _) ?_ (fun _ => rfl) (by simp [uses, ha, hk'])
        · simp only [liveStep, hk', sizes_cons, ha, if_true]
          exact hp.cons _
        · intro x hx'
          rcases List.mem_cons.mp hx' with rfl | hx'
          · exact hs
          · exact hx x hx'
        · intro e he
          rcases List.mem_singleton.mp he with rfl
          exact hs
        · rw [Nat.max_def]; split
          · exact .inr rfl
          · exact .inl rfl
      · refine same ?_ (by simp [ha]) (by simp [ha])
        simp [liveStep, hk', sizes_cons, ha]
    | deallocate =>
      rw [hk'] at g1
      obtain ⟨b, hb, hb1, hb2⟩ := g1
      have hd := sizes_drop a hb h
      rw [hb1] at hd
      by_cases ha : o.alloc = a
      · have hba : b.alloc = a := by rw [hb2, ha]
        rw [if_pos hba] at hd
        have hsz : sizeOf L o.src0 = b.size := by rw [← hb1]; exact sizeOf_mem hb h
        have hm : b.size ∈ l0 := hp.mem_iff.mpr (hd.mem_iff.mpr (by simp))
        refine fin (es := [.free b.size]) (l0' := l0.erase b.size) (p0' := p0) ?_ ?_ ?_ ?_ (by simp) (Nat.le_refl _) (.inl rfl) ?_
          (by simp [uses, ha, hk', hsz])
        · simp only [liveStep, hk']
          exact ((List.perm_cons_erase hm).symm.trans (hp.trans hd)).cons_inv
        · intro x hx'
          exact hx x (List.mem_of_mem_erase hx')
        · have := inBucket_erase (k := k) hm; omega
        · intro e he
          rcases List.mem_singleton.mp he with rfl
          exact hx _ hm
        · intro fs
          simp only [List.cons_append, List.nil_append, specRun]
          rw [if_pos hm]
      · have hba : b.alloc ≠ a := by rw [hb2]; exact ha
        rw [if_neg hba] at hd
        refine same ?_ (by simp [ha]) (by simp [ha])
        simp only [liveStep, hk']
        exact hd

/-- **C93.**  With `--stats`, the high watermark printed for a range of sizes is the largest number of blocks of that size the program
held at the same time from the allocator: it was never exceeded, and it was reached.  For allocators whose memory is not reallocated and
that are not made the default allocator while they have memory in use. -/
theorem stats_watermark_partial {d : Bool} {tr : Nat → Bool} {ret : Nat → Nat} {a : Nat} {pre rest : List Op} {r : Op} {s : S} (hr : Resets a r)
    (hn : ∀ o ∈ rest, ¬ Resets a o) (hg : Good tr ret 1 [] (pre ++ r :: rest))
    (hs : run ⟨true, d⟩ tr ret .init (pre ++ r :: rest) = some s) (h0 : sizes a (live 1 [] (pre ++ [r])) = [])
    (hre : ∀ o ∈ rest, o.alloc = a → o.kind ≠ .reallocateEx)
    (hz : ∀ o ∈ rest, o.alloc = a → o.kind = .allocate → o.size ≠ 0 ∧ o.size < 2 ^ 64) (hl : rest.length < 2 ^ 64) (k : Nat) :
    ∃ peak, (s.track a).hist.bucket k = ⟨inBucket k (sizes a (live 1 [] (pre ++ r :: rest))), peak⟩ ∧
      (∀ n, n ≤ rest.length → inBucket k (sizes a (live 1 [] (pre ++ r :: rest.take n))) ≤ peak) ∧
      ∃ n, n ≤ rest.length ∧ peak = inBucket k (sizes a (live 1 [] (pre ++ r :: rest.take n))) := by
  have h7 := (stats_exact hr hn hg hs).2.2
  have hg' := hg
  rw [show pre ++ r :: rest = (pre ++ [r]) ++ rest by simp] at hg'
  obtain ⟨g1, g2, g3⟩ := good_append (pre ++ [r]) rest ⟨by simp, by simp, by simp, by simp⟩ (by omega) (by simp) hg'
  have hlen : 1 + (pre ++ [r]).length = pre.length + 2 := by simp; omega
  rw [hlen] at g1 g3
  have e : ∀ xs, live 1 [] (pre ++ r :: xs) = live (pre.length + 2) (live 1 [] (pre ++ [r])) xs := by
    intro xs
    rw [show pre ++ r :: xs = (pre ++ [r]) ++ xs by simp, live_append, hlen]
  obtain ⟨q1, q2, l1, p1, q3, q4, q5, q6, q7⟩ := spec_uses a k rest (l0 := []) (p0 := 0) g2 (by omega) g3 g1 hre hz (by rw [h0]) (by simp) (by simp [inBucket])
  refine ⟨p1, ?_, ?_, ?_⟩
  · rw [h7, histogram_exact_partial q1 (by omega) q3, inBucket_perm k q4, e rest]
  · intro n hn'
    rw [e]; exact q6 n hn'
  · rcases q7 with q7 | ⟨n, n1, n2⟩
    · refine ⟨0, by omega, ?_⟩
      have := q6 0 (by omega)
      rw [e]; omega
    · exact ⟨n, n1, by rw [e]; exact n2⟩

/-! ## Where the property is false -/

/-- An operation. -/
def op (k : Kind) (a size src0 src1 : Nat) : Op := { Op.zero with kind := k, alloc := a, size := size, src0 := src0, src1 := src1 }

/-- Addresses. -/
def addr (i : Nat) : Nat := 4096 * i

/-- An allocator is created, memory is taken from it, it becomes the default allocator, the memory is given back. -/
def wipeOps : List Op := [op .creation 0 0 0 0, op .allocate 0 64 0 0, op .setDefault 0 0 0 0, op .deallocate 0 0 2 0]

theorem wipe_good : Good (fun _ => true) addr 1 [] wipeOps := by simp [wipeOps, op, Good, OkOp, liveStep, addr]

/-- C93 is false after `setDefaultAllocator`: `--stats` has no allocation left of the one that was made, so that nothing is printed for the
allocator, and the count of allocations goes below zero. -/
theorem stats_wipe_counterexample : Good (fun _ => true) addr 1 [] wipeOps ∧
    (run ⟨true, true⟩ (fun _ => true) addr .init wipeOps).map (fun s => ((s.track 0).hist.allocs, (s.track 0).hist.frees, (s.track 0).hist.largest)) =
      some (0, 1, 0) ∧
    (run ⟨true, true⟩ (fun _ => true) addr .init wipeOps).map (·.series) =
      some [⟨0, 0, 0⟩, ⟨1, 0, 1⟩, ⟨2, 0, 0⟩, ⟨3, 0, 2 ^ 64 - 1⟩] :=
  ⟨wipe_good, by decide +kernel, by decide +kernel⟩

/-- Memory is made by reallocating a null pointer and given back. -/
def freshOps : List Op := [op .creation 0 0 0 0, op .reallocateEx 0 64 0 0, op .deallocate 0 0 2 0]

/-- C93 is false for memory that was made by reallocating a null pointer: it is counted only when it is given back. -/
theorem dump_fresh_counterexample : Good (fun _ => true) addr 1 [] freshOps ∧
    (run ⟨false, true⟩ (fun _ => true) addr .init freshOps).map (·.series) = some [⟨0, 0, 0⟩, ⟨1, 0, 0⟩, ⟨2, 0, 2 ^ 64 - 1⟩] ∧
    holds 0 (live 1 [] (freshOps.take 2)) = 1 ∧ holds 0 (live 1 [] freshOps) = 0 :=
  ⟨by simp [freshOps, op, Good, OkOp, liveStep, addr], by decide +kernel, by decide +kernel, by decide +kernel⟩

/-- Memory grows. -/
def growOps : List Op := [op .creation 0 0 0 0, op .allocate 0 100 0 0, op .reallocateEx 0 5000 0 2, op .deallocate 0 0 3 0]

/-- C93 is false for memory that is reallocated: the larger size was held, but no watermark shows it, and the block of 100 bytes counts
as held for ever. -/
theorem stats_grow_counterexample : Good (fun _ => true) addr 1 [] growOps ∧
    (run ⟨true, false⟩ (fun _ => true) addr .init growOps).map (fun s => ((s.track 0).hist.largest, ((s.track 0).hist.bucket 12).hwm, ((s.track 0).hist.bucket 6).cur)) =
      some (100, 0, 1) ∧
    sizes 0 (live 1 [] (growOps.take 3)) = [5000] ∧ live 1 [] growOps = [] :=
  ⟨by simp [growOps, op, Good, OkOp, liveStep, addr], by decide +kernel, by decide +kernel, by decide +kernel⟩

/-- Memory of an allocator made without tracking, taken and given back. -/
def plainOps : List Op := [op .creation 0 0 0 0, op .allocate 0 64 0 0, op .deallocate 0 0 2 0]

/-- C93 is false for allocators made without tracking: the replay gets through without the options, with either of them it ends at the first
deallocation. -/
theorem stats_untracked_counterexample (f : Flags) : Good (fun _ => false) addr 1 [] plainOps ∧
    ((run f (fun _ => false) addr .init plainOps).isSome = true ↔ f.stats = false ∧ f.dump = false) := by
  have hg : Good (fun _ => false) addr 1 [] plainOps := by simp [plainOps, op, Good, OkOp, liveStep, addr]
  refine ⟨hg, ?_⟩
  rw [stats_through f hg]
  have hu : Untracked (fun _ => false) plainOps := ⟨op .deallocate 0 0 2 0, by simp [plainOps], rfl, rfl⟩
  cases f.stats <;> cases f.dump <;> simp [hu]

/-! ## The hypotheses can be met -/

/-- Two allocators, a reallocation, memory of one size held twice at a time. -/
def demoOps : List Op := [op .creation 0 0 0 0, op .creation 1 0 0 0, op .allocate 1 64 0 0, op .allocate 0 8 0 0, op .allocate 1 100 0 0,
  op .deallocate 1 0 3 0, op .reallocateEx 0 32 0 4, op .allocate 1 127 0 0, op .deallocate 1 0 5 0]

theorem demo_good : Good (fun _ => true) addr 1 [] demoOps := by simp [demoOps, op, Good, OkOp, liveStep, addr]

example : ∃ s, NoFresh demoOps ∧ run ⟨false, true⟩ (fun _ => true) addr .init demoOps = some s ∧ s.series.getLast? = some ⟨8, 1, 1⟩ := by
  obtain ⟨s, hs⟩ := Option.isSome_iff_exists.mp ((stats_through ⟨false, true⟩ demo_good).mpr fun _ ⟨o, _, _, h⟩ => by cases h)
  refine ⟨s, by unfold NoFresh; decide, hs, ?_⟩
  have : (run ⟨false, true⟩ (fun _ => true) addr .init demoOps).map (fun s => s.series.getLast?) = some (some ⟨8, 1, 1⟩) := by decide +kernel
  rw [hs] at this
  simpa using this

example : ∃ pre r rest s, demoOps = pre ++ r :: rest ∧ Resets 1 r ∧ (∀ o ∈ rest, ¬ Resets 1 o) ∧ Good (fun _ => true) addr 1 [] (pre ++ r :: rest) ∧
    run ⟨true, false⟩ (fun _ => true) addr .init (pre ++ r :: rest) = some s ∧ sizes 1 (live 1 [] (pre ++ [r])) = [] ∧
    (∀ o ∈ rest, o.alloc = 1 → o.kind ≠ .reallocateEx) ∧ (∀ o ∈ rest, o.alloc = 1 → o.kind = .allocate → o.size ≠ 0 ∧ o.size < 2 ^ 64) ∧
    (s.track 1).hist.bucket 6 = ⟨1, 2⟩ := by
  obtain ⟨s, hs⟩ := Option.isSome_iff_exists.mp ((stats_through ⟨true, false⟩ demo_good).mpr fun _ ⟨o, _, _, h⟩ => by cases h)
  refine ⟨demoOps.take 1, op .creation 1 0 0 0, demoOps.drop 2, s, rfl, by decide, by decide, demo_good, hs, by decide +kernel, by decide, by decide, ?_⟩
  have : (run ⟨true, false⟩ (fun _ => true) addr .init demoOps).map (fun s => (s.track 1).hist.bucket 6) = some ⟨1, 2⟩ := by decide +kernel
  rw [hs] at this
  simpa using this

end Umpire.Replay.Stats
