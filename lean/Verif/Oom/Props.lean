import Verif.Oom.Model
/-!
# What an `out_of_memory_error` says: theorems
-/
set_option autoImplicit false
set_option linter.unusedSimpArgs false
namespace Umpire.Oom

/-! ## Specification -/

/-- Who reports a lack of memory as `out_of_memory_error`: the limiter and these resources. -/
def Tells : Src → Prop
  | .limit => True
  | .res r => r ∈ [Res.malloc, .memalign, .cuda, .hip, .shared]
  | _ => False

/-- The last event is a refusal. -/
def EndsRefused (evs : List Ev) : Prop := ∃ e, evs.getLast? = some e ∧ e.code ≠ .ok

/-- The last event is a lack of memory, told by someone who reports it as such. -/
def EndsTold (evs : List Ev) : Prop := ∃ e, evs.getLast? = some e ∧ e.code = .lack ∧ Tells e.src

/-- How a run ends is decided by its last event alone. -/
structure Decided (r : R) : Prop where
  ret : r.1 = .ret ↔ ¬ EndsRefused r.2.1
  oom : (∃ i n, r.1 = .threw (.oom i n)) ↔ EndsTold r.2.1
  other : r.1 = .threw .other ↔ EndsRefused r.2.1 ∧ ¬ EndsTold r.2.1

/-- Nobody has set the members of the error. -/
def Unset (r : R) : Prop := ∀ i n, r.1 = .threw (.oom i n) → i = -1 ∧ n = 0

/-! ## Proofs -/

theorem ends_nil : ¬ EndsRefused [] := fun ⟨_, h, _⟩ => by simp at h
theorem told_nil : ¬ EndsTold [] := fun ⟨_, h, _⟩ => by simp at h
theorem told_refused {evs : List Ev} (h : EndsTold evs) : EndsRefused evs := by
  obtain ⟨e, h1, h2, _⟩ := h; exact ⟨e, h1, by rw [h2]; decide⟩
theorem ends_snoc (l : List Ev) (e : Ev) : EndsRefused (l ++ [e]) ↔ e.code ≠ .ok := by
  constructor
  · rintro ⟨x, h, hx⟩
    rw [List.getLast?_append] at h; simp at h; subst h; exact hx
  · intro h; exact ⟨e, by simp, h⟩
theorem told_snoc (l : List Ev) (e : Ev) : EndsTold (l ++ [e]) ↔ e.code = .lack ∧ Tells e.src := by
  constructor
  · rintro ⟨x, h, hx⟩
    rw [List.getLast?_append] at h; simp at h; subst h; exact hx
  · intro h; exact ⟨e, by simp, h⟩
theorem last_app (l m : List Ev) (hm : m ≠ []) : (l ++ m).getLast? = m.getLast? := by
  rw [List.getLast?_append]
  cases h : m.getLast? with
  | none => exact absurd (List.getLast?_eq_none_iff.mp h) hm
  | some e => rfl
theorem ends_app (l m : List Ev) (hm : m ≠ []) : EndsRefused (l ++ m) ↔ EndsRefused m := by
  unfold EndsRefused; rw [last_app _ _ hm]
theorem told_app (l m : List Ev) (hm : m ≠ []) : EndsTold (l ++ m) ↔ EndsTold m := by
  unfold EndsTold; rw [last_app _ _ hm]

theorem decided_ret (l : List Ev) (w : List Ans) (h : ¬ EndsRefused l) : Decided (.ret, l, w) := by
  constructor
  · simp [h]
  · simp; exact fun h' => h (told_refused h')
  · simp [h]
theorem decided_oom (l : List Ev) (w : List Ans) (i : Int) (n : Nat) (h : EndsTold l) :
    Decided (.threw (.oom i n), l, w) := by
  constructor
  · simp [told_refused h]
  · simp [h]
  · simp [h]
theorem decided_other (l : List Ev) (w : List Ans) (h : EndsRefused l) (h' : ¬ EndsTold l) :
    Decided (.threw .other, l, w) := by
  constructor
  · simp [h]
  · simp [h']
  · simp [h, h']

theorem one_ref (e : Ev) : EndsRefused [e] ↔ e.code ≠ .ok := ends_snoc [] e
theorem one_told (e : Ev) : EndsTold [e] ↔ e.code = .lack ∧ Tells e.src := told_snoc [] e

theorem askRes_ok (r : Res) (named : Bool) (w : List Ans) :
    Decided (askRes r named w) ∧ Unset (askRes r named w) := by
  unfold askRes
  split
  · exact ⟨decided_other _ _ (by simp [one_ref]) (by simp [one_told]), fun _ _ h => by simp at h⟩
  · dsimp only
    split
    · exact ⟨decided_ret _ _ (by simp [one_ref]), fun _ _ h => by simp at h⟩
    · cases r <;> simp only [Res.raise, fresh] <;>
        first
        | exact ⟨decided_oom _ _ _ _ (by simp [one_told, Tells]), fun _ _ h => by simp at h; exact ⟨h.1.symm, h.2.symm⟩⟩
        | exact ⟨decided_other _ _ (by simp [one_ref]) (by simp [one_told, Tells]), fun _ _ h => by simp at h⟩
    · exact ⟨decided_other _ _ (by simp [one_ref]) (by simp [one_told]), fun _ _ h => by simp at h⟩

theorem andWork_decided (r : R) (h : Decided r) : Decided (andWork .work r) := by
  obtain ⟨o, evs, w⟩ := r
  cases o with
  | threw e => exact h
  | ret =>
    unfold andWork; dsimp only
    split
    · exact decided_ret _ _ (by simp [ends_snoc])
    · exact decided_other _ _ (by simp [ends_snoc]) (by simp [told_snoc])

theorem andWork_oom (src : Src) (r : R) (i : Int) (n : Nat) :
    (andWork src r).1 = .threw (.oom i n) ↔ r.1 = .threw (.oom i n) := by
  obtain ⟨o, evs, w⟩ := r
  cases o with
  | threw e => exact Iff.rfl
  | ret => unfold andWork; dsimp only; split <;> simp

theorem askPool_ok (child : Nat → List Ans → R) (hc : ∀ n w, Decided (child n w) ∧ Unset (child n w)) (w : List Ans) :
    Decided (askPool child w) ∧ Unset (askPool child w) := by
  unfold askPool
  dsimp only
  split
  · exact ⟨decided_ret _ _ ends_nil, fun _ _ h => by simp at h⟩
  · have h1 := hc (next w).1.num (next w).2
    split
    next evs w' he => rw [he] at h1; exact h1
    next e evs w' he =>
      rw [he] at h1
      split
      · have h2 := hc (next w).1.num (next w').2
        generalize child (next w).1.num (next w').2 = r2 at h2
        obtain ⟨o, evs2, w2⟩ := r2
        dsimp only
        refine ⟨?_, fun i n h => h2.2 i n h⟩
        by_cases hn : evs2 = []
        · subst hn
          have := h2.1.ret.mpr ends_nil
          dsimp only at this; subst this
          exact decided_ret _ _ (by simp [ends_snoc])
        · have hd := h2.1
          constructor
          · dsimp only; rw [ends_app _ _ hn]; exact hd.ret
          · dsimp only; rw [told_app _ _ hn]; exact hd.oom
          · dsimp only; rw [told_app _ _ hn, ends_app _ _ hn]; exact hd.other
      · exact ⟨decided_other _ _ (by simp [ends_snoc]) (by simp [told_snoc]), fun _ _ h => by simp at h⟩

theorem askFixed_ok (b : Nat) (child : Nat → List Ans → R) (hc : ∀ n w, Decided (child n w) ∧ Unset (child n w))
    (w : List Ans) : Decided (askFixed b child w) ∧ Unset (askFixed b child w) := by
  unfold askFixed
  dsimp only
  split
  · exact ⟨decided_ret _ _ ends_nil, fun _ _ h => by simp at h⟩
  · exact hc _ _

theorem alloc_ok (s : Strat) : ∀ (named : Bool) (n : Nat) (w : List Ans),
    Decided (alloc s named n w) ∧ Unset (alloc s named n w) := by
  induction s with
  | res r => intro named n w; exact askRes_ok r named w
  | over s ih => intro named n w; exact ih _ _ _
  | acts s ih =>
    intro named n w
    exact ⟨andWork_decided _ (ih _ _ _).1, fun i k h => (ih _ _ _).2 i k ((andWork_oom _ _ _ _).mp h)⟩
  | aligned al s ih => intro named n w; exact ih _ _ _
  | shim s ih => intro named n w; exact ih _ _ _
  | limiter l s ih =>
    intro named n w
    unfold alloc; dsimp only
    split
    · exact ⟨decided_oom _ _ _ _ (by simp [one_told, Tells]), fun i k h => by simp [fresh] at h; exact ⟨h.1.symm, h.2.symm⟩⟩
    · exact ih _ _ _
  | mono c =>
    intro named n w
    unfold alloc; dsimp only
    split
    · exact ⟨decided_other _ _ (by simp [one_ref]) (by simp [one_told, Tells]), fun _ _ h => by simp at h⟩
    · exact ⟨decided_ret _ _ (by simp [one_ref]), fun _ _ h => by simp at h⟩
  | slot s ih =>
    intro named n w
    unfold alloc
    split
    · exact ⟨decided_other _ _ (by simp [one_ref]) (by simp [one_told, Tells]), fun _ _ h => by simp at h⟩
    · dsimp only
      split
      · exact ⟨decided_ret _ _ ends_nil, fun _ _ h => by simp at h⟩
      · exact ih _ _ _
  | fixed b s ih => intro named n w; exact askFixed_ok b _ (fun n w => ih false n w) w
  | pool s ih => intro named n w; exact askPool_ok _ (fun n w => ih false n w) w
  | mixed b s ih =>
    intro named n w
    unfold alloc; dsimp only
    split
    · exact askFixed_ok b _ (fun n w => ih false n w) _
    · exact askPool_ok _ (fun n w => ih false n w) _

/-- The handler of `do_allocate`. -/
theorem allocate_eq (h : Handle) (n : Nat) (w : List Ans) (hn : n ≠ 0) :
    ((∃ i k, (alloc h.strat false n w).1 = .threw (.oom i k)) ∧
      allocate h n w = (.threw (.oom h.id n), (alloc h.strat false n w).2)) ∨
    ((∀ i k, (alloc h.strat false n w).1 ≠ .threw (.oom i k)) ∧ allocate h n w = alloc h.strat false n w) := by
  unfold allocate
  rw [if_neg hn]
  generalize alloc h.strat false n w = r
  obtain ⟨o, evs, w'⟩ := r
  cases o with
  | ret => exact Or.inr ⟨by simp, rfl⟩
  | threw e =>
    cases e with
    | oom i k => exact Or.inl ⟨⟨i, k, rfl⟩, rfl⟩
    | other => exact Or.inr ⟨by simp, rfl⟩

/-! ## Theorems -/

/-- **C89**: an `out_of_memory_error` that leaves `Allocator::allocate(n)` carries the id of the allocator asked and the
size asked for - not those of the resource or of the chunk some pool below wanted -, for every nesting of strategies in
every state and whatever the system answers. -/
theorem oom_told (h : Handle) (n : Nat) (w : List Ans) (i : Int) (k : Nat)
    (ht : (allocate h n w).1 = .threw (.oom i k)) : i = h.id ∧ k = n ∧ n ≠ 0 := by
  by_cases hn : n = 0
  · unfold allocate at ht; rw [if_pos hn] at ht; simp at ht
  · rcases allocate_eq h n w hn with ⟨_, e⟩ | ⟨hno, e⟩
    · rw [e] at ht; simp at ht; exact ⟨ht.1.symm, ht.2.symm, hn⟩
    · rw [e] at ht; exact absurd ht (hno i k)

/-- **C89**: `allocate` returns exactly if the last step of the run was not refused (a pool that was refused once and
then served returns), throws `out_of_memory_error` exactly if the last step was a lack of memory at a resource that tells
it or at a limiter, and throws something else in every other case. -/
theorem oom_decided (h : Handle) (n : Nat) (w : List Ans) : Decided (allocate h n w) := by
  by_cases hn : n = 0
  · unfold allocate; rw [if_pos hn]; exact decided_ret _ _ ends_nil
  · have hd := (alloc_ok h.strat false n w).1
    rcases allocate_eq h n w hn with ⟨hi, e⟩ | ⟨_, e⟩
    · rw [e]; exact decided_oom _ _ _ _ (hd.oom.mp hi)
    · rw [e]; exact hd

/-- **C89**: a request for nothing is never refused. -/
theorem oom_zero (h : Handle) (w : List Ans) :
    (allocate h 0 w).1 = .ret ∧ (allocateNamed h 0 w).1 = .ret ∧ (allocate h 0 w).2.1 = [] := ⟨rfl, rfl, rfl⟩

/-- A strategy all of whose parts report a lack of memory as such, asked for `n` bytes: no monotonic strategy, no
advice, prefetch or NUMA policy, resources that tell. -/
def AllTell : Strat → Prop
  | .res r => r ∈ [Res.malloc, .memalign, .cuda, .hip]
  | .over s | .aligned _ s | .shim s | .limiter _ s | .fixed _ s | .pool s | .mixed _ s => AllTell s
  | .acts _ | .mono _ | .slot _ => False

/-- The system fails for lack of memory only. -/
def OnlyLack (w : List Ans) : Prop := ∀ a ∈ w, a.code ≠ .fail

/-- Giving memory back succeeds wherever a pool does so. -/
def Releases (evs : List Ev) : Prop := ∀ e ∈ evs, e.src = .release → e.code = .ok

theorem next_only {w : List Ans} (h : OnlyLack w) : (next w).1.code ≠ .fail ∧ OnlyLack (next w).2 := by
  cases w with
  | nil => exact ⟨by simp [next], fun _ h => by simp [next] at h⟩
  | cons a w => exact ⟨h a (by simp), fun b hb => h b (List.mem_cons_of_mem _ hb)⟩

/-- All refusals of a run are told. -/
def Good (r : R) : Prop := (∀ e ∈ r.2.1, e.code ≠ .ok → e.src ≠ .release → e.code = .lack ∧ Tells e.src) ∧ OnlyLack r.2.2

theorem askPool_good (child : Nat → List Ans → R) (hc : ∀ n w, OnlyLack w → Good (child n w)) (w : List Ans)
    (hw : OnlyLack w) : Good (askPool child w) := by
  unfold askPool
  dsimp only
  split
  · exact ⟨fun _ h => by simp at h, (next_only hw).2⟩
  · have h1 := hc (next w).1.num _ (next_only hw).2
    split
    next evs w' he => rw [he] at h1; exact h1
    next e evs w' he =>
      rw [he] at h1
      split
      · have h2 := hc (next w).1.num _ (next_only h1.2).2
        generalize child (next w).1.num (next w').2 = r2 at h2
        obtain ⟨o, evs2, w2⟩ := r2
        dsimp only
        refine ⟨fun x hx hr hs => ?_, h2.2⟩
        simp only [List.mem_append, List.mem_singleton] at hx
        rcases hx with (hx | hx) | hx
        · exact h1.1 x hx hr hs
        · subst hx; exact absurd rfl hs
        · exact h2.1 x hx hr hs
      · refine ⟨fun x hx hr hs => ?_, (next_only h1.2).2⟩
        simp only [List.mem_append, List.mem_singleton] at hx
        rcases hx with hx | hx
        · exact h1.1 x hx hr hs
        · subst hx; exact absurd rfl hs

theorem askFixed_good (b : Nat) (child : Nat → List Ans → R) (hc : ∀ n w, OnlyLack w → Good (child n w)) (w : List Ans)
    (hw : OnlyLack w) : Good (askFixed b child w) := by
  unfold askFixed
  dsimp only
  split
  · exact ⟨fun _ h => by simp at h, (next_only hw).2⟩
  · exact hc _ _ (next_only hw).2

theorem alloc_good (s : Strat) (hs : AllTell s) : ∀ (named : Bool) (n : Nat) (w : List Ans), OnlyLack w →
    Good (alloc s named n w) := by
  induction s with
  | res r =>
    intro named n w hw
    have hn := next_only hw
    have hr : r ≠ .shared := fun h => by subst h; simp [AllTell] at hs
    unfold alloc askRes
    rw [if_neg (fun h => hr h.1)]
    dsimp only
    split
    · exact ⟨fun e he hr => by simp at he; subst he; exact absurd rfl hr, hn.2⟩
    · refine ⟨fun e he _ _ => ?_, hn.2⟩
      simp at he; subst he
      refine ⟨rfl, ?_⟩
      simp [AllTell] at hs; simp [Tells]; rcases hs with h | h | h | h <;> simp [h]
    · next hc => exact absurd hc hn.1
  | over s ih => intro _ n w hw; exact ih hs _ _ _ hw
  | acts s ih => exact absurd hs (by simp [AllTell])
  | aligned al s ih => intro _ n w hw; exact ih hs _ _ _ hw
  | shim s ih => intro _ n w hw; exact ih hs _ _ _ hw
  | limiter l s ih =>
    intro _ n w hw
    unfold alloc; dsimp only
    split
    · exact ⟨fun e he _ _ => by simp at he; subst he; exact ⟨rfl, trivial⟩, (next_only hw).2⟩
    · exact ih hs _ _ _ (next_only hw).2
  | mono c => exact absurd hs (by simp [AllTell])
  | slot s ih => exact absurd hs (by simp [AllTell])
  | fixed b s ih => intro _ n w hw; exact askFixed_good b _ (fun n w h => ih hs false n w h) w hw
  | pool s ih => intro _ n w hw; exact askPool_good _ (fun n w h => ih hs false n w h) w hw
  | mixed b s ih =>
    intro _ n w hw
    unfold alloc; dsimp only
    split
    · exact askFixed_good b _ (fun n w h => ih hs false n w h) _ (next_only hw).2
    · exact askPool_good _ (fun n w h => ih hs false n w h) _ (next_only hw).2

/-- **C89**: over host, CUDA and HIP memory, below any nesting of pools, limiters, aligned and passing strategies, when
the system fails for lack of memory only and memory can be given back, `allocate` either returns or throws an
`out_of_memory_error` with the id and the size of the call: no lack of memory shows as anything else. -/
theorem oom_all (h : Handle) (hs : AllTell h.strat) (n : Nat) (w : List Ans) (hw : OnlyLack w)
    (hr : Releases (allocate h n w).2.1) :
    (allocate h n w).1 = .ret ∨ (allocate h n w).1 = .threw (.oom h.id n) := by
  by_cases hn : n = 0
  · left; unfold allocate; rw [if_pos hn]
  · rcases allocate_eq h n w hn with ⟨_, e⟩ | ⟨hno, e⟩
    · right; rw [e]
    · left
      rw [e] at hr ⊢
      have hg := alloc_good h.strat hs false n w hw
      have hd := (alloc_ok h.strat false n w).1
      refine hd.ret.mpr fun hend => ?_
      obtain ⟨ev, hl, hc⟩ := hend
      have hm : ev ∈ (alloc h.strat false n w).2.1 := List.mem_of_getLast? hl
      by_cases hrel : ev.src = .release
      · exact hc (hr ev hm hrel)
      · have ht := hg.1 ev hm hc hrel
        obtain ⟨i, k, hik⟩ := hd.oom.mpr ⟨ev, hl, ht⟩
        exact hno i k hik

/-- **C89**: the same for `TypedAllocator`, with the size in bytes, and for the `reallocate` operations that allocate:
the error names the allocator and the new size. -/
theorem oom_users (h : Handle) (w : List Ans) (i : Int) (k : Nat) :
    (∀ t c, (typed h t c w).1 = .threw (.oom i k) → i = h.id ∧ k = t * c % 2 ^ 64) ∧
    (∀ n, (reallocate h n w).1 = .threw (.oom i k) → i = h.id ∧ k = n) ∧
    (∀ old n, (reallocateHost h old n w).1 = .threw (.oom i k) → old = 0 ∧ i = h.id ∧ k = n) := by
  have hre : ∀ n, (reallocate h n w).1 = .threw (.oom i k) → i = h.id ∧ k = n := fun n ht =>
    have := oom_told h n w i k ((andWork_oom _ _ _ _).mp ht); ⟨this.1, this.2.1⟩
  refine ⟨fun t c ht => have := oom_told h _ w i k ht; ⟨this.1, this.2.1⟩, hre, fun old n ht => ?_⟩
  unfold reallocateHost at ht
  by_cases ho : old = 0
  · rw [if_pos ho] at ht; exact ⟨ho, hre n ht⟩
  · rw [if_neg ho] at ht
    dsimp only at ht
    split at ht <;> simp at ht

/-- **C89**, refuted for the other ways to ask: whatever the allocator, an `out_of_memory_error` that leaves
`allocate(name, n)` or the making of a monotonic strategy carries id -1 and size 0. -/
theorem oom_unset (h : Handle) (n : Nat) (w : List Ans) (i : Int) (k : Nat)
    (ht : (allocateNamed h n w).1 = .threw (.oom i k) ∨ (makeMonotonic h n w).1 = .threw (.oom i k)) :
    i = -1 ∧ k = 0 := by
  rcases ht with ht | ht
  · unfold allocateNamed at ht
    split at ht
    · simp at ht
    · exact (alloc_ok _ _ _ _).2 i k ht
  · exact (alloc_ok _ _ _ _).2 i k ht

/-- Which exception leaves a named allocation is decided in the same way. -/
theorem oom_named (h : Handle) (n : Nat) (w : List Ans) : Decided (allocateNamed h n w) := by
  unfold allocateNamed
  split
  · exact decided_ret _ _ ends_nil
  · exact (alloc_ok _ _ _ _).1

/-- **C89**: a pool that was refused and could give its free memory back (answer `b`) returns exactly if the second
request for the same chunk is served, and otherwise tells the second refusal. -/
theorem oom_retry (id : Int) (s : Strat) (n : Nat) (a b : Ans) (w w2 : List Ans) (e : Exc) (evs : List Ev)
    (hn : n ≠ 0) (ha : a.have_ = false) (hb : b.code = .ok)
    (h1 : alloc s false a.num w = (.threw e, evs, b :: w2)) :
    ((allocate ⟨id, .pool s⟩ n (a :: w)).1 = .ret ↔ (alloc s false a.num w2).1 = .ret) ∧
    ((allocate ⟨id, .pool s⟩ n (a :: w)).1 = .threw .other ↔ (alloc s false a.num w2).1 = .threw .other) ∧
    (allocate ⟨id, .pool s⟩ n (a :: w)).2.2 = (alloc s false a.num w2).2.2 := by
  have he : alloc (.pool s) false n (a :: w) =
      ((alloc s false a.num w2).1, evs ++ [⟨.release, .ok⟩] ++ (alloc s false a.num w2).2.1, (alloc s false a.num w2).2.2) := by
    show askPool _ _ = _
    unfold askPool
    simp only [next, ha, h1, hb, if_true, Bool.false_eq_true, if_false]
  rcases allocate_eq ⟨id, .pool s⟩ n (a :: w) hn with ⟨⟨i, k, hi⟩, h⟩ | ⟨_, h⟩
  · rw [h]
    dsimp only at hi ⊢
    rw [he] at hi ⊢
    dsimp only at hi
    rw [hi]
    simp
  · rw [h]; dsimp only; rw [he]; simp

/-- A pool over malloc, asked for 100 bytes; it wants 512 MiB and gets neither attempt served. -/
def poolW : List Ans := [⟨.ok, false, 2 ^ 29⟩, ⟨.lack, true, 0⟩, ⟨.ok, true, 0⟩, ⟨.lack, true, 0⟩]

/-- The error says 100 bytes from allocator 7 - and the second attempt, if served, hides the first refusal. -/
example : (allocate ⟨7, .pool (.over (.res .malloc))⟩ 100 poolW).1 = .threw (.oom 7 100) ∧
    (allocate ⟨7, .pool (.over (.res .malloc))⟩ 100 (poolW.take 3)).1 = .ret ∧
    (allocate ⟨7, .pool (.over (.res .malloc))⟩ 100 (poolW.take 3)).2.1 =
      [⟨.res .malloc, .lack⟩, ⟨.release, .ok⟩, ⟨.res .malloc, .ok⟩] := by decide +kernel

/-- `oom_retry` applies to it. -/
example : alloc (.over (.res .malloc)) false (2 ^ 29) (poolW.drop 1) =
    (.threw fresh, [⟨.res .malloc, .lack⟩], ⟨.ok, true, 0⟩ :: poolW.drop 3) := by decide +kernel

/-- `oom_all` applies to it. -/
example : AllTell (.pool (.over (.res .malloc))) ∧ OnlyLack poolW ∧
    Releases (allocate ⟨7, .pool (.over (.res .malloc))⟩ 100 poolW).2.1 := by
  refine ⟨by simp [AllTell], by unfold OnlyLack poolW; decide, by unfold Releases poolW; decide +kernel⟩

/-- `oom_users`: ten doubles, and growing to 64 bytes. -/
example : (typed ⟨3, .limiter 64 (.res .malloc)⟩ 8 10 []).1 = .threw (.oom 3 80) ∧
    (reallocate ⟨3, .limiter 63 (.res .malloc)⟩ 64 []).1 = .threw (.oom 3 64) ∧
    (reallocateHost ⟨0, .res .malloc⟩ 0 64 [⟨.lack, true, 0⟩]).1 = .threw (.oom 0 64) := by decide +kernel

/-- **C89**, refuted: a shared memory segment that is full, asked by name; a monotonic strategy made on a full limiter.
The errors say id -1 and size 0, although allocator 5 was asked for 64 bytes. -/
theorem oom_unset_counterexample :
    (allocateNamed ⟨5, .res .shared⟩ 64 [⟨.lack, true, 0⟩]).1 = .threw (.oom (-1) 0) ∧
    (makeMonotonic ⟨5, .limiter 10 (.res .malloc)⟩ 64 []).1 = .threw (.oom (-1) 0) := by decide +kernel

/-- **C89**, refuted: lack of memory that is not an `out_of_memory_error`, for SYCL, OpenMP, file and constant memory, for
a full monotonic strategy, for `::realloc`, and for a pool over CUDA memory whose second attempt fails otherwise. -/
theorem oom_kind_counterexample :
    (∀ r ∈ [Res.sycl, .omp, .file, .const], (allocate ⟨1, .res r⟩ 64 [⟨.lack, true, 0⟩]).1 = .threw .other) ∧
    (allocate ⟨1, .mono 10⟩ 64 []).1 = .threw .other ∧
    (reallocateHost ⟨0, .res .malloc⟩ 32 64 [⟨.lack, true, 0⟩]).1 = .threw .other ∧
    (allocate ⟨1, .pool (.res .cuda)⟩ 64 [⟨.ok, false, 64⟩, ⟨.lack, true, 0⟩, ⟨.ok, true, 0⟩, ⟨.fail, true, 0⟩]).1 =
      .threw .other := by decide +kernel

end Umpire.Oom
