import Verif.Ops.Model
/-!
Properties C34 (dispatch), C35 (ranges), C44 (fragmentation), C49 and C56
(accessibility).
-/
set_option autoImplicit false
set_option linter.unusedSimpArgs false

namespace Umpire.Ops

open Umpire.Names (Name)

/-! ### C34: dispatch -/

section Registry
variable {α : Type}

theorem assoc_insertNew {κ β : Type} [DecidableEq κ] (m : List (κ × β)) (k k' : κ) (v : β) :
    assoc (insertNew m k v) k' = if (assoc m k').isSome then assoc m k' else if k = k' then some v else none := by
  unfold insertNew
  by_cases h : (assoc m k).isSome
  · rw [if_pos h]
    by_cases h' : (assoc m k').isSome
    · rw [if_pos h']
    · rw [if_neg h', if_neg (by intro he; rw [he] at h; exact h' h)]
      simpa using h'
  · rw [if_neg h]
    have hcons : assoc ((k, v) :: m) k' = if k = k' then some v else assoc m k' := by
      unfold assoc
      rw [List.find?_cons]
      by_cases he : k = k' <;> simp [he]
    rw [hcons]
    by_cases he : k = k'
    · rw [if_pos he, if_neg (by rw [← he]; exact h)]; simp [he]
    · rw [if_neg he]
      by_cases h' : (assoc m k').isSome
      · rw [if_pos h']
      · rw [if_neg h', if_neg he]; simpa using h'

theorem assoc_setAt {κ β : Type} [DecidableEq κ] (m : List (κ × β)) (k k' : κ) (v : β) :
    assoc (setAt m k v) k' = if k = k' then (assoc m k).map (fun _ => v) else assoc m k' := by
  induction m with
  | nil => simp [assoc, setAt]
  | cons e m ih =>
    have h1 : ∀ (e : κ × β) l q, assoc (e :: l) q = if e.1 = q then some e.2 else assoc l q := by
      intro e l q
      unfold assoc
      rw [List.find?_cons]
      by_cases he : e.1 = q <;> simp [he]
    have h2 : setAt (e :: m) k v = (if e.1 = k then (k, v) else e) :: setAt m k v := rfl
    rw [h2, h1, h1, h1, ih]
    by_cases he : e.1 = k
    · rw [if_pos he]
      dsimp only
      by_cases hk : k = k'
      · rw [if_pos hk, if_pos hk, if_pos he]; rfl
      · rw [if_neg hk, if_neg hk, if_neg hk, if_neg (by rw [he]; exact hk)]
    · rw [if_neg he, if_neg he]
      by_cases hk : k = k'
      · rw [if_pos hk, if_pos hk, if_neg (by rw [← hk]; exact he)]
      · rw [if_neg hk, if_neg hk]

theorem find_register (m : Registry α) (n n' : Name) (p p' : Plat × Plat) (o : α) :
    find (register m n p o) n' p' =
      if (find m n' p').isSome then find m n' p' else if n = n' ∧ p = p' then some o else none := by
  unfold register
  dsimp only
  have key : ∃ inner, assoc (insertNew m n []) n = some inner ∧ assoc inner p' = find m n p' := by
    rw [assoc_insertNew]
    unfold find
    cases hm : assoc m n with
    | none => exact ⟨[], by simp, by simp [assoc]⟩
    | some i => exact ⟨i, by simp, rfl⟩
  obtain ⟨inner, hk1, hk2⟩ := key
  rw [hk1]
  dsimp only
  show (match assoc (setAt (insertNew m n []) n (insertNew inner p o)) n' with
    | none => none
    | some i => assoc i p') = _
  rw [assoc_setAt]
  by_cases hn : n = n'
  · subst hn
    rw [if_pos rfl, hk1]
    show assoc (insertNew inner p o) p' = _
    rw [assoc_insertNew, hk2]
    by_cases hp : p = p' <;> simp [hp]
  · rw [if_neg hn]
    have h0 : (match assoc (insertNew m n []) n' with
      | none => none
      | some i => assoc i p') = find m n' p' := by
      rw [assoc_insertNew]
      unfold find
      cases hm : assoc m n' with
      | none => simp [hn]
      | some i => simp
    rw [h0]
    cases hf : find m n' p' with
    | none => simp [hn]
    | some x => simp

theorem find_registerAll (n : Name) (p : Plat × Plat) : ∀ (es : List (Entry α)) (m : Registry α),
    find (registerAll m es) n p =
      if (find m n p).isSome then find m n p
      else (es.find? fun e => decide (e.name = n ∧ e.pl = p)).map (·.op)
  | [], m => by
    show find m n p = _
    by_cases h : (find m n p).isSome
    · rw [if_pos h]
    · rw [if_neg h]; simpa using h
  | e :: es, m => by
    show find (registerAll (register m e.name e.pl e.op) es) n p = _
    rw [find_registerAll n p es, find_register, List.find?_cons]
    by_cases h : (find m n p).isSome
    · simp [h]
    · by_cases he : e.name = n ∧ e.pl = p
      · simp [h, he]
      · simp [h, he]

theorem find_empty (n : Name) (p : Plat × Plat) : find ([] : Registry α) n p = none := rfl

/-- **C34** After any registrations, in any order, a lookup returns the operation
that was registered first for exactly that name and that (ordered) pair of
platforms, and throws when there is none. -/
theorem dispatch_exact (regs : List (Entry α)) (n : Name) (p : Plat × Plat) (o : α) :
    find (registerAll [] regs) n p = some o ↔
      ∃ before e after, regs = before ++ e :: after ∧ e.name = n ∧ e.pl = p ∧ e.op = o ∧
        ∀ e' ∈ before, ¬ (e'.name = n ∧ e'.pl = p) := by
  rw [find_registerAll, find_empty, if_neg (by simp)]
  constructor
  · intro h
    obtain ⟨e, he, ho⟩ := Option.map_eq_some_iff.1 h
    obtain ⟨h1, before, after, h2, h3⟩ := List.find?_eq_some_iff_append.1 he
    refine ⟨before, e, after, h2, (of_decide_eq_true h1).1, (of_decide_eq_true h1).2, ho, ?_⟩
    intro e' hm
    have := h3 e' hm
    simp only [Bool.not_eq_true', decide_eq_false_iff_not] at this
    exact this
  · rintro ⟨before, e, after, h1, h2, h3, h4, h5⟩
    rw [Option.map_eq_some_iff]
    refine ⟨e, ?_, h4⟩
    rw [List.find?_eq_some_iff_append]
    exact ⟨by simp [h2, h3], before, after, h1, fun e' hm => by simp only [Bool.not_eq_true', decide_eq_false_iff_not]; exact h5 e' hm⟩

/-- **C34** A lookup throws exactly when nothing was registered for that name and
that pair. -/
theorem dispatch_throws (regs : List (Entry α)) (n : Name) (p : Plat × Plat) :
    find (registerAll [] regs) n p = none ↔ ∀ e ∈ regs, ¬ (e.name = n ∧ e.pl = p) := by
  rw [find_registerAll, find_empty, if_neg (by simp)]
  simp [List.find?_eq_none]

/-- **C34** Registering an operation does not affect lookups of other names or
pairs, nor any lookup that succeeded before. -/
theorem register_others (m : Registry α) (n n' : Name) (p p' : Plat × Plat) (o : α)
    (h : (n', p') ≠ (n, p) ∨ (find m n' p').isSome) :
    find (register m n p o) n' p' = find m n' p' := by
  rw [find_register]
  by_cases hf : (find m n' p').isSome
  · rw [if_pos hf]
  · rw [if_neg hf]
    rcases h with h | h
    · rw [if_neg (by rintro ⟨h1, h2⟩; exact h (by rw [h1, h2]))]
      cases hx : find m n' p' with
      | none => rfl
      | some x => rw [hx] at hf; exact absurd rfl hf
    · exact absurd h hf

/-- **C34** A second registration for the same name and pair is silently ignored,
although the documentation (MemoryOperationRegistry.hpp:85-94) promises that the
operation becomes available. -/
theorem second_registration_counterexample (m : Registry α) (n : Name) (p : Plat × Plat) (o o' : α)
    (h : find m n p = some o) : find (register m n p o') n p = some o := by
  rw [find_register, h]; rfl

end Registry

theorem find_builtin {f : Flags} {user : List (Entry MemOp)} {n : Name} {p : Plat × Plat} {e : Entry MemOp}
    (h : (builtIn f).find? (fun e => decide (e.name = n ∧ e.pl = p)) = some e) :
    find (registry f user) n p = some e.op := by
  unfold registry
  rw [find_registerAll, find_empty, if_neg (by simp), List.find?_append, h]
  rfl

/-- **C34** In every build, whatever the program registers itself, copying,
setting and reallocating between host allocators finds the host operations. -/
theorem host_total (f : Flags) (user : List (Entry MemOp)) :
    find (registry f user) COPY (.host, .host) = some .hostCopy ∧
    find (registry f user) MEMSET (.host, .host) = some .hostMemset ∧
    find (registry f user) REALLOCATE (.host, .host) = some .hostRealloc :=
  ⟨find_builtin (e := ⟨COPY, (.host, .host), .hostCopy⟩) rfl,
   find_builtin (e := ⟨MEMSET, (.host, .host), .hostMemset⟩) rfl,
   find_builtin (e := ⟨REALLOCATE, (.host, .host), .hostRealloc⟩) rfl⟩

/-- Specification: the platforms a build supports. -/
def Flags.has (f : Flags) : Plat → Bool
  | .undefined => false
  | .host => true
  | .cuda => f.cuda
  | .hip => f.hip
  | .omp => f.omp
  | .sycl => f.sycl

/-- Specification: which operation moves data from `s` to `d` in the right
direction. -/
def Moves : MemOp → Plat → Plat → Bool
  | .hostCopy, .host, .host => true
  | .cudaCopy .h2d, .host, .cuda => true
  | .cudaCopy .d2h, .cuda, .host => true
  | .cudaCopy .d2d, .cuda, .cuda => true
  | .hipCopy .h2d, .host, .hip => true
  | .hipCopy .d2h, .hip, .host => true
  | .hipCopy .d2d, .hip, .hip => true
  | .ompCopy, .host, .omp => true
  | .ompCopy, .omp, .host => true
  | .ompCopy, .omp, .omp => true
  | .syclCopyTo, .host, .sycl => true
  | .syclCopyFrom, .sycl, .host => true
  | .syclCopy, .sycl, .sycl => true
  | _, _, _ => false

theorem moves_undefined (o : MemOp) (p : Plat) : Moves o .undefined p = false ∧ Moves o p .undefined = false := by
  cases o with
  | cudaCopy k => cases k <;> cases p <;> exact ⟨rfl, rfl⟩
  | hipCopy k => cases k <;> cases p <;> exact ⟨rfl, rfl⟩
  | _ => cases p <;> exact ⟨rfl, rfl⟩

/-- Specification: which operation sets memory of a platform. -/
def Sets : MemOp → Plat → Bool
  | .hostMemset, .host => true
  | .cudaMemset, .cuda => true
  | .hipMemset, .hip => true
  | .ompMemset, .omp => true
  | .syclMemset, .sycl => true
  | _, _ => false

/-- Specification: which operation reallocates memory of a platform: `realloc` is
for host memory only. -/
def Resizes : MemOp → Plat → Bool
  | .hostRealloc, .host => true
  | .genericRealloc, .host => false
  | .genericRealloc, _ => true
  | _, _ => false

/-- **C34** In every build and for every supported platform `p`, whatever the
program registers itself: copies between host and `p` in both directions and
within `p` find an operation for that direction; memset and reallocate find an
operation for `p`. -/
theorem device_total (f : Flags) (user : List (Entry MemOp)) (p : Plat) (hp : f.has p = true) :
    (∃ o, find (registry f user) COPY (.host, p) = some o ∧ Moves o .host p = true) ∧
    (∃ o, find (registry f user) COPY (p, .host) = some o ∧ Moves o p .host = true) ∧
    (∃ o, find (registry f user) COPY (p, p) = some o ∧ Moves o p p = true) ∧
    (∃ o, find (registry f user) MEMSET (p, p) = some o ∧ Sets o p = true) ∧
    (∃ o, find (registry f user) REALLOCATE (p, p) = some o ∧ Resizes o p = true) := by
  obtain ⟨numa, cuda, hip, hip5, omp, sycl⟩ := f
  cases p with
  | undefined => cases hp
  | host =>
    obtain ⟨h1, h2, h3⟩ := host_total ⟨numa, cuda, hip, hip5, omp, sycl⟩ user
    exact ⟨⟨_, h1, rfl⟩, ⟨_, h1, rfl⟩, ⟨_, h1, rfl⟩, ⟨_, h2, rfl⟩, ⟨_, h3, rfl⟩⟩
  | cuda =>
    have hc : cuda = true := hp
    subst hc
    refine ⟨⟨.cudaCopy .h2d, find_builtin (e := ⟨COPY, (.host, .cuda), .cudaCopy .h2d⟩) ?_, rfl⟩,
      ⟨.cudaCopy .d2h, find_builtin (e := ⟨COPY, (.cuda, .host), .cudaCopy .d2h⟩) ?_, rfl⟩,
      ⟨.cudaCopy .d2d, find_builtin (e := ⟨COPY, (.cuda, .cuda), .cudaCopy .d2d⟩) ?_, rfl⟩,
      ⟨.cudaMemset, find_builtin (e := ⟨MEMSET, (.cuda, .cuda), .cudaMemset⟩) ?_, rfl⟩,
      ⟨.genericRealloc, find_builtin (e := ⟨REALLOCATE, (.cuda, .cuda), .genericRealloc⟩) ?_, rfl⟩⟩ <;>
      cases numa <;> rfl
  | hip =>
    have hc : hip = true := hp
    subst hc
    refine ⟨⟨.hipCopy .h2d, find_builtin (e := ⟨COPY, (.host, .hip), .hipCopy .h2d⟩) ?_, rfl⟩,
      ⟨.hipCopy .d2h, find_builtin (e := ⟨COPY, (.hip, .host), .hipCopy .d2h⟩) ?_, rfl⟩,
      ⟨.hipCopy .d2d, find_builtin (e := ⟨COPY, (.hip, .hip), .hipCopy .d2d⟩) ?_, rfl⟩,
      ⟨.hipMemset, find_builtin (e := ⟨MEMSET, (.hip, .hip), .hipMemset⟩) ?_, rfl⟩,
      ⟨.genericRealloc, find_builtin (e := ⟨REALLOCATE, (.hip, .hip), .genericRealloc⟩) ?_, rfl⟩⟩ <;>
      cases numa <;> cases cuda <;> cases hip5 <;> rfl
  | omp =>
    have hc : omp = true := hp
    subst hc
    refine ⟨⟨.ompCopy, find_builtin (e := ⟨COPY, (.host, .omp), .ompCopy⟩) ?_, rfl⟩,
      ⟨.ompCopy, find_builtin (e := ⟨COPY, (.omp, .host), .ompCopy⟩) ?_, rfl⟩,
      ⟨.ompCopy, find_builtin (e := ⟨COPY, (.omp, .omp), .ompCopy⟩) ?_, rfl⟩,
      ⟨.ompMemset, find_builtin (e := ⟨MEMSET, (.omp, .omp), .ompMemset⟩) ?_, rfl⟩,
      ⟨.genericRealloc, find_builtin (e := ⟨REALLOCATE, (.omp, .omp), .genericRealloc⟩) ?_, rfl⟩⟩ <;>
      cases numa <;> cases cuda <;> cases hip <;> cases hip5 <;> rfl
  | sycl =>
    have hc : sycl = true := hp
    subst hc
    refine ⟨⟨.syclCopyTo, find_builtin (e := ⟨COPY, (.host, .sycl), .syclCopyTo⟩) ?_, rfl⟩,
      ⟨.syclCopyFrom, find_builtin (e := ⟨COPY, (.sycl, .host), .syclCopyFrom⟩) ?_, rfl⟩,
      ⟨.syclCopy, find_builtin (e := ⟨COPY, (.sycl, .sycl), .syclCopy⟩) ?_, rfl⟩,
      ⟨.syclMemset, find_builtin (e := ⟨MEMSET, (.sycl, .sycl), .syclMemset⟩) ?_, rfl⟩,
      ⟨.genericRealloc, find_builtin (e := ⟨REALLOCATE, (.sycl, .sycl), .genericRealloc⟩) ?_, rfl⟩⟩ <;>
      cases numa <;> cases cuda <;> cases hip <;> cases hip5 <;> cases omp <;> rfl

/-- What each built-in registration must satisfy. -/
def entryOk (e : Entry MemOp) : Bool :=
  (!decide (e.name = COPY) || Moves e.op e.pl.1 e.pl.2) &&
  (!decide (e.name = MEMSET) || (decide (e.pl.1 = e.pl.2) && Sets e.op e.pl.1)) &&
  (!decide (e.name = REALLOCATE) || (decide (e.pl.1 = e.pl.2) && Resizes e.op e.pl.1))

theorem builtIn_ok (f : Flags) : (builtIn f).all entryOk = true := by
  obtain ⟨numa, cuda, hip, hip5, omp, sycl⟩ := f
  cases numa <;> cases cuda <;> cases hip <;> cases hip5 <;> cases omp <;> cases sycl <;> rfl

/-- **C34** Whatever copy, memset or reallocate operation a lookup returns is one
for exactly these platforms and this direction, unless the program registered it
itself. -/
theorem dispatch_right (f : Flags) (user : List (Entry MemOp)) (n : Name) (s d : Plat) (o : MemOp)
    (hf : find (registry f user) n (s, d) = some o) :
    (∃ e ∈ user, e.name = n ∧ e.pl = (s, d) ∧ e.op = o) ∨
    ((n = COPY → Moves o s d = true) ∧ (n = MEMSET → s = d ∧ Sets o s = true) ∧
      (n = REALLOCATE → s = d ∧ Resizes o s = true)) := by
  obtain ⟨before, e, after, h1, h2, h3, h4, _⟩ := (dispatch_exact _ _ _ _).1 hf
  have hm : e ∈ builtIn f ++ user := by rw [h1]; simp
  rcases List.mem_append.1 hm with hm | hm
  · right
    have := List.all_eq_true.1 (builtIn_ok f) e hm
    unfold entryOk at this
    rw [h2, h3, h4] at this
    simp only [Bool.and_eq_true, Bool.or_eq_true, Bool.not_eq_true', decide_eq_false_iff_not, decide_eq_true_eq] at this
    obtain ⟨⟨t1, t2⟩, t3⟩ := this
    exact ⟨fun h => t1.resolve_left (fun k => k h), fun h => t2.resolve_left (fun k => k h), fun h => t3.resolve_left (fun k => k h)⟩
  · left
    exact ⟨e, hm, h2, h3, h4⟩

/-- Non-vacuity of `dispatch_exact`: two registrations for different pairs, one
ignored. -/
example : find (registerAll [] [⟨COPY, (.host, .cuda), 1⟩, ⟨COPY, (.cuda, .host), 2⟩, ⟨COPY, (.host, .cuda), (3 : Nat)⟩])
    COPY (.cuda, .host) = some 2 := by decide

/-! ### C49: accessibility -/

/-- Specification: the memory resource at the end of the chain of parents. -/
inductive RootOf (h : List Strat) : Nat → Res → Prop
  | here {i : Nat} {r : Res} : h[i]? = some (.resource r) → RootOf h i r
  | up {i p : Nat} {s : Strat} {r : Res} : h[i]? = some s → s.parent = some p → RootOf h p r → RootOf h i r

theorem RootOf.unique {h : List Strat} {i : Nat} {r r' : Res} (a : RootOf h i r) (b : RootOf h i r') : r = r' := by
  induction a with
  | here h1 =>
    cases b with
    | here h2 => rw [h1] at h2; injection h2 with h2; injection h2
    | up h2 h3 _ => rw [h1] at h2; injection h2 with h2; subst h2; cases h3
  | up h1 h2 _ ih =>
    cases b with
    | here h3 => rw [h1] at h3; injection h3 with h3; subst h3; cases h2
    | up h3 h4 h5 =>
      rw [h1] at h3; injection h3 with h3; subst h3
      rw [h2] at h4; injection h4 with h4; subst h4
      exact ih h5

theorem Built.parent_lt {h : List Strat} (hb : Built h) : ∀ (i : Nat) (s : Strat) (p : Nat), h[i]? = some s → s.parent = some p → p < i := by
  have step : ∀ {h : List Strat} {t : Strat}, (∀ (i : Nat) (s : Strat) (p : Nat), h[i]? = some s → s.parent = some p → p < i) →
      (∀ p, t.parent = some p → p < h.length) →
      ∀ (i : Nat) (s : Strat) (p : Nat), (h ++ [t])[i]? = some s → s.parent = some p → p < i := by
    intro h t ih ht i s p hi hp
    rw [List.getElem?_append] at hi
    split at hi
    · exact ih i s p hi hp
    · rename_i hn
      have hi0 : i - h.length = 0 := by
        cases hk : i - h.length with
        | zero => rfl
        | succ k => rw [hk] at hi; simp at hi
      rw [hi0] at hi
      simp only [List.getElem?_cons_zero, Option.some.injEq] at hi
      rw [← hi] at hp
      have := ht p hp
      omega
  induction hb with
  | nil => intro i s p hi; simp at hi
  | resource r _ ih => exact step ih (fun p hp => by cases hp)
  | over p _ hlt ih => exact step ih (fun q hq => by cases hq; exact hlt)
  | numa p pl _ hlt _ _ ih => exact step ih (fun q hq => by cases hq; exact hlt)

/-- Every allocator has a memory resource at the end of its chain, and the loop
finds it in at most as many steps as there are allocators. -/
theorem climb_root {h : List Strat} (hb : Built h) : ∀ (a : Nat), a < h.length → ∀ fuel, a < fuel →
    ∃ j r, climb h fuel a = some j ∧ h[j]? = some (.resource r) ∧ RootOf h a r := by
  intro a
  induction a using Nat.strongRecOn with
  | _ a ih =>
    intro ha fuel hf
    cases fuel with
    | zero => omega
    | succ fuel =>
      have hs : h[a]? = some h[a] := List.getElem?_eq_getElem ha
      cases hp : (h[a]).parent with
      | none =>
        cases hk : h[a] with
        | resource r =>
          refine ⟨a, r, ?_, by rw [hs, hk], .here (by rw [hs, hk])⟩
          unfold climb
          rw [hs]; dsimp only; rw [hp]
        | over p => rw [hk] at hp; cases hp
        | numa p pl => rw [hk] at hp; cases hp
      | some p =>
        have hlt := hb.parent_lt a _ p hs hp
        obtain ⟨j, r, h1, h2, h3⟩ := ih p hlt (by omega) fuel (by omega)
        refine ⟨j, r, ?_, h2, .up hs hp h3⟩
        unfold climb
        rw [hs]; dsimp only; rw [hp]; exact h1

/-- **C49** For every allocator, `is_accessible` comes to an end (after at most as
many steps as allocators were created before it), never throws, and answers what
the memory resource at the end of the chain of parents answers. -/
theorem accessible_root (h : List Strat) (hb : Built h) (a : Nat) (ha : a < h.length) :
    ∃ r, RootOf h a r ∧ ∀ pageable p fuel, a < fuel →
      isAccessible pageable h fuel p a = some (some (r.accessibleFrom pageable p)) := by
  obtain ⟨_, r, _, _, hr⟩ := climb_root hb a ha (a + 1) (by omega)
  refine ⟨r, hr, fun pageable p fuel hf => ?_⟩
  obtain ⟨j, r', h1, h2, h3⟩ := climb_root hb a ha fuel hf
  unfold isAccessible
  rw [h1]; dsimp only; rw [h2]; dsimp only
  rw [h3.unique hr]

/-- **C49** Allocators over the same resource agree, for every platform. -/
theorem accessible_same_root (h : List Strat) (hb : Built h) (a b : Nat) (ha : a < h.length) (hb' : b < h.length)
    (r : Res) (hra : RootOf h a r) (hrb : RootOf h b r) (pageable : Bool) (p : Plat) (fuel : Nat)
    (hf : h.length ≤ fuel) :
    isAccessible pageable h fuel p a = isAccessible pageable h fuel p b := by
  obtain ⟨ra, h1, h2⟩ := accessible_root h hb a ha
  obtain ⟨rb, h3, h4⟩ := accessible_root h hb b hb'
  rw [h2 pageable p fuel (by omega), h4 pageable p fuel (by omega), h1.unique hra, h3.unique hrb]

/-- **C49** Creating further allocators does not change the answer. -/
theorem accessible_stable (h t : List Strat) (hb : Built h) (hb' : Built (h ++ t)) (a : Nat) (ha : a < h.length)
    (pageable : Bool) (p : Plat) (fuel : Nat) (hf : a < fuel) :
    isAccessible pageable (h ++ t) fuel p a = isAccessible pageable h fuel p a := by
  obtain ⟨r, h1, h2⟩ := accessible_root h hb a ha
  obtain ⟨r', h3, h4⟩ := accessible_root (h ++ t) hb' a (by simp; omega)
  have lift : ∀ {i r}, RootOf h i r → RootOf (h ++ t) i r := by
    intro i r hr
    have ext : ∀ {i : Nat} {s : Strat}, h[i]? = some s → (h ++ t)[i]? = some s := by
      intro i s hi
      have := (List.getElem?_eq_some_iff.1 hi).1
      rw [List.getElem?_append_left this]; exact hi
    induction hr with
    | here k => exact .here (ext k)
    | up k1 k2 _ ih => exact .up (ext k1) k2 ih
  rw [h2 pageable p fuel hf, h4 pageable p fuel hf, h3.unique (lift h1)]

/-- A pool on a pool on `HOST`, a limiter on device memory. -/
def sample : List Strat := [.resource .hostPosix, .over 0, .over 1, .resource .cudaDevice, .over 3, .numa 2 .cuda]

theorem sample_built : Built sample := by
  have b1 : Built [.resource .hostPosix] := .resource (h := []) _ .nil
  have b2 : Built [.resource .hostPosix, .over 0] := .over 0 b1 (by decide)
  have b3 : Built [.resource .hostPosix, .over 0, .over 1] := .over 1 b2 (by decide)
  have b4 : Built [.resource .hostPosix, .over 0, .over 1, .resource .cudaDevice] := .resource _ b3
  have b5 : Built [.resource .hostPosix, .over 0, .over 1, .resource .cudaDevice, .over 3] := .over 3 b4 (by decide)
  exact .numa 2 .cuda b5 (by decide) (by decide) (by decide)

/-- Non-vacuity. -/
example : isAccessible false sample 6 .host 2 = some (some true) ∧ isAccessible false sample 6 .host 4 = some (some false) ∧
    isAccessible false sample 6 .cuda 4 = some (some true) := by decide

/-! ### C56: platform and accessibility agree -/

/-- Specification: the chain of parents contains no `NumaPolicy`. -/
inductive Plain (h : List Strat) : Nat → Prop
  | here {i : Nat} {r : Res} : h[i]? = some (.resource r) → Plain h i
  | up {i p : Nat} : h[i]? = some (.over p) → Plain h p → Plain h i

theorem platformOf_total {h : List Strat} (hb : Built h) : ∀ (a : Nat), a < h.length → ∃ pl, ∀ fuel, a < fuel →
    platformOf h fuel a = some pl := by
  intro a
  induction a using Nat.strongRecOn with
  | _ a ih =>
    intro ha
    have hs : h[a]? = some h[a] := List.getElem?_eq_getElem ha
    cases hk : h[a] with
    | resource r =>
      refine ⟨r.platform, fun fuel hf => ?_⟩
      cases fuel with
      | zero => omega
      | succ fuel => unfold platformOf; rw [hs, hk]
    | numa p pl =>
      refine ⟨pl, fun fuel hf => ?_⟩
      cases fuel with
      | zero => omega
      | succ fuel => unfold platformOf; rw [hs, hk]
    | over p =>
      have hlt := hb.parent_lt a _ p hs (by rw [hk]; rfl)
      obtain ⟨pl, h1⟩ := ih p hlt (by omega)
      refine ⟨pl, fun fuel hf => ?_⟩
      cases fuel with
      | zero => omega
      | succ fuel => unfold platformOf; rw [hs, hk]; exact h1 fuel (by omega)

/-- Without `NumaPolicy` the platform is that of the resource. -/
theorem platform_plain {h : List Strat} (hb : Built h) {a : Nat} {r : Res} (hr : RootOf h a r) (hp : Plain h a)
    (fuel : Nat) (hf : a < fuel) : platformOf h fuel a = some r.platform := by
  induction hp generalizing fuel with
  | here h1 =>
    rw [hr.unique (.here h1)]
    cases fuel with
    | zero => omega
    | succ fuel => unfold platformOf; rw [h1]
  | up h1 _ ih =>
    cases fuel with
    | zero => omega
    | succ fuel =>
      unfold platformOf; rw [h1]
      dsimp only
      have hlt := hb.parent_lt _ _ _ h1 rfl
      cases hr with
      | here h2 => rw [h1] at h2; cases h2
      | up h2 h3 h4 =>
        rw [h1] at h2; injection h2 with h2; subst h2
        injection h3 with h3; subst h3
        exact ih h4 fuel (by omega)

/-- A `NumaPolicy` in the list was made over an allocator on the host. -/
theorem Built.numa_host {h : List Strat} (hb : Built h) : ∀ (i p : Nat) (pl : Plat), h[i]? = some (.numa p pl) →
    platformOf h h.length p = some .host := by
  have grow : ∀ {h : List Strat} {t : Strat} (fuel i : Nat) (pl : Plat), platformOf h fuel i = some pl →
      platformOf (h ++ [t]) fuel i = some pl := by
    intro h t fuel
    induction fuel with
    | zero => intro i pl hh; cases hh
    | succ fuel ih =>
      intro i pl hh
      unfold platformOf at hh ⊢
      cases hi : h[i]? with
      | none => rw [hi] at hh; cases hh
      | some s =>
        rw [List.getElem?_append_left (List.getElem?_eq_some_iff.1 hi).1, hi]
        rw [hi] at hh
        cases s with
        | resource r => exact hh
        | numa p q => exact hh
        | over p => exact ih p pl hh
  have more : ∀ {h : List Strat} (fuel i : Nat) (pl : Plat), platformOf h fuel i = some pl →
      platformOf h (fuel + 1) i = some pl := by
    intro h fuel
    induction fuel with
    | zero => intro i pl hh; cases hh
    | succ fuel ih =>
      intro i pl hh
      unfold platformOf at hh
      unfold platformOf
      cases hi : h[i]? with
      | none => rw [hi] at hh; cases hh
      | some s =>
        rw [hi] at hh
        cases s with
        | resource r => exact hh
        | numa p q => exact hh
        | over p => exact ih p pl hh
  have step : ∀ {h : List Strat} {t : Strat}, (∀ (i p : Nat) (pl : Plat), h[i]? = some (.numa p pl) → platformOf h h.length p = some .host) →
      (∀ p pl, t = .numa p pl → platformOf h h.length p = some .host) →
      ∀ (i p : Nat) (pl : Plat), (h ++ [t])[i]? = some (.numa p pl) → platformOf (h ++ [t]) (h ++ [t]).length p = some .host := by
    intro h t ih ht i p pl hi
    rw [List.length_append]
    apply more
    apply grow
    rw [List.getElem?_append] at hi
    split at hi
    · exact ih i p pl hi
    · have hi0 : i - h.length = 0 := by
        cases hk : i - h.length with
        | zero => rfl
        | succ k => rw [hk] at hi; simp at hi
      rw [hi0] at hi
      simp only [List.getElem?_cons_zero, Option.some.injEq] at hi
      exact ht p pl hi
  induction hb with
  | nil => intro i p pl hi; simp at hi
  | resource r _ ih => exact step ih (fun p pl h => by cases h)
  | over p _ _ ih => exact step ih (fun p pl h => by cases h)
  | numa p pl _ hlt hp _ ih => exact step ih (fun q ql h => by cases h; exact hp)

/-- An allocator whose platform is the host has a root on the host, `NumaPolicy`
or not. -/
theorem host_root {h : List Strat} (hb : Built h) : ∀ (a : Nat), a < h.length → ∀ r, RootOf h a r →
    ∀ fuel, platformOf h fuel a = some .host → r.platform = .host := by
  intro a
  induction a using Nat.strongRecOn with
  | _ a ih =>
    intro ha r hr fuel hp
    cases fuel with
    | zero => cases hp
    | succ fuel =>
      unfold platformOf at hp
      cases hr with
      | here h1 => rw [h1] at hp; dsimp only at hp; injection hp
      | @up _ p s _ h1 h2 h3 =>
        rw [h1] at hp
        have hlt := hb.parent_lt a _ p h1 h2
        cases s with
        | resource r' => cases h2
        | over q =>
          injection h2 with h2; subst h2
          exact ih q hlt (by omega) r h3 fuel hp
        | numa q pl =>
          injection h2 with h2; subst h2
          exact ih q hlt (by omega) r h3 h.length (hb.numa_host a q pl h1)

/-- **C56** (partial: see `own_platform_counterexample`) Memory is accessible from
the platform its allocator reports, unless there is a `NumaPolicy` for a device
node in the chain or the resource is `NO_OP`, `FILE` or the internal null
resource. -/
theorem own_platform_partial (h : List Strat) (hb : Built h) (a : Nat) (ha : a < h.length) (r : Res)
    (hr : RootOf h a r) (hpl : Plain h a) (h1 : r ≠ .noOp) (h2 : r ≠ .file) (h3 : r ≠ .null) (fuel : Nat) (hf : a < fuel) (pageable : Bool) :
    ∃ pl, platformOf h fuel a = some pl ∧ isAccessible pageable h fuel pl a = some (some true) := by
  refine ⟨r.platform, platform_plain hb hr hpl fuel hf, ?_⟩
  obtain ⟨r', hr', hacc⟩ := accessible_root h hb a ha
  rw [hacc pageable _ fuel hf, hr'.unique hr]
  cases r <;> first | rfl | contradiction

/-- **C56** is false for `NO_OP` (reports the host platform, accessible from
nowhere), for `FILE` (reports no platform although the host can access it) and for
a `NumaPolicy` that binds host memory to a device node (reports `cuda`, which
cannot access memory of `posix_memalign` according to `is_accessible`). -/
theorem own_platform_counterexample (pageable : Bool) :
    (platformOf [.resource .noOp] 1 0 = some .host ∧ isAccessible pageable [.resource .noOp] 1 .host 0 = some (some false)) ∧
    (platformOf [.resource .file] 1 0 = some .undefined ∧ isAccessible pageable [.resource .file] 1 .undefined 0 = some (some false) ∧
      isAccessible pageable [.resource .file] 1 .host 0 = some (some true)) ∧
    (Built sample ∧ platformOf sample 6 5 = some .cuda ∧ isAccessible pageable sample 6 .cuda 5 = some (some false)) :=
  ⟨⟨rfl, rfl⟩, ⟨rfl, rfl, rfl⟩, sample_built, rfl, rfl⟩

/-- **C56** (partial: see `host_operation_counterexample`) When a copy between two
allocators is carried out by the host's `memcpy`, both memories are accessible from
the host, unless one of them belongs to `NO_OP`.  `NumaPolicy` included. -/
theorem host_operation_partial (f : Flags) (user : List (Entry MemOp)) (hu : ∀ e ∈ user, e.op ≠ .hostCopy)
    (h : List Strat) (hb : Built h) (src dst : Nat) (hs : src < h.length) (hd : dst < h.length) (rs rd : Res)
    (hrs : RootOf h src rs) (hrd : RootOf h dst rd) (hn : rs ≠ .noOp ∧ rd ≠ .noOp) (fuel : Nat) (hf : h.length ≤ fuel)
    (hop : findFor (registry f user) h fuel COPY src dst = some (some .hostCopy)) (pageable : Bool) :
    isAccessible pageable h fuel .host src = some (some true) ∧ isAccessible pageable h fuel .host dst = some (some true) := by
  obtain ⟨ps, hps⟩ := platformOf_total hb src hs
  obtain ⟨pd, hpd⟩ := platformOf_total hb dst hd
  unfold findFor at hop
  rw [hps fuel (by omega), hpd fuel (by omega)] at hop
  injection hop with hop
  have hm : ps = .host ∧ pd = .host := by
    rcases dispatch_right f user COPY ps pd .hostCopy hop with ⟨e, he, _, _, h3⟩ | ⟨h1, _⟩
    · exact absurd h3 (hu e he)
    · have := h1 rfl
      cases ps <;> cases pd <;> first | exact ⟨rfl, rfl⟩ | cases this
  have fin : ∀ a r, a < h.length → RootOf h a r → r ≠ .noOp → platformOf h fuel a = some .host →
      isAccessible pageable h fuel .host a = some (some true) := by
    intro a r ha hr hno hpl
    have hp := host_root hb a ha r hr fuel hpl
    obtain ⟨r', hr', hacc⟩ := accessible_root h hb a ha
    rw [hacc pageable _ fuel (by omega), hr'.unique hr]
    cases r <;> first | exact absurd rfl hno | rfl | cases hp
  exact ⟨fin src rs hs hrs hn.1 (by rw [hps fuel (by omega), hm.1]), fin dst rd hd hrd hn.2 (by rw [hpd fuel (by omega), hm.2])⟩

/-- **C56** is false with `NO_OP`: copying from `HOST` to it is dispatched to the
host's `memcpy`, although the pointer is one nobody can access. -/
theorem host_operation_counterexample (f : Flags) (user : List (Entry MemOp)) (pageable : Bool) :
    Built [.resource .hostMalloc, .resource .noOp] ∧
    findFor (registry f user) [.resource .hostMalloc, .resource .noOp] 2 COPY 0 1 = some (some .hostCopy) ∧
    ∀ p, isAccessible pageable [.resource .hostMalloc, .resource .noOp] 2 p 1 = some (some false) := by
  refine ⟨.resource (h := [.resource .hostMalloc]) _ (.resource (h := []) _ .nil), ?_, fun p => ?_⟩
  · show some (find (registry f user) COPY (.host, .host)) = _
    rw [(host_total f user).1]
  · cases p <;> rfl

/-- **C34** Host memory is always copied, set and reallocated with the host
operations, however many strategies it comes through. -/
theorem host_dispatch (f : Flags) (user : List (Entry MemOp)) (h : List Strat) (hb : Built h) (src dst : Nat)
    (rs rd : Res) (hrs : RootOf h src rs) (hrd : RootOf h dst rd) (hps : Plain h src) (hpd : Plain h dst)
    (hs : rs.platform = .host) (hd : rd.platform = .host) (fuel : Nat) (hf : src < fuel ∧ dst < fuel) :
    findFor (registry f user) h fuel COPY src dst = some (some .hostCopy) ∧
    findFor (registry f user) h fuel MEMSET dst dst = some (some .hostMemset) ∧
    findFor (registry f user) h fuel REALLOCATE dst dst = some (some .hostRealloc) := by
  obtain ⟨h1, h2, h3⟩ := host_total f user
  unfold findFor
  rw [platform_plain hb hrs hps fuel hf.1, platform_plain hb hrd hpd fuel hf.2, hs, hd]
  dsimp only
  rw [h1, h2, h3]
  exact ⟨rfl, rfl, rfl⟩

/-- **C34**: "COPY, MEMSET and REALLOCATE are pre-registered for all
AllocationStrategy pairs" (MemoryOperationRegistry.hpp:49-53) is false: memory of
the `FILE` resource, which the host can access, can neither be copied nor set. -/
theorem all_pairs_counterexample (f : Flags) (pageable : Bool) :
    isAccessible pageable [.resource .hostMalloc, .resource .file] 2 .host 1 = some (some true) ∧
    findFor (registry f []) [.resource .hostMalloc, .resource .file] 2 COPY 0 1 = some none ∧
    findFor (registry f []) [.resource .hostMalloc, .resource .file] 2 COPY 1 0 = some none ∧
    findFor (registry f []) [.resource .hostMalloc, .resource .file] 2 MEMSET 1 1 = some none := by
  have none_of : ∀ n s d, (s = .undefined ∨ d = .undefined) → n = COPY ∨ n = MEMSET → find (registry f []) n (s, d) = none := by
    intro n s d hu hn
    cases hx : find (registry f []) n (s, d) with
    | none => rfl
    | some o =>
      rcases dispatch_right f [] n s d o hx with ⟨e, he, _⟩ | ⟨h1, h2, _⟩
      · cases he
      · rcases hn with hn | hn
        · have := h1 hn
          rcases hu with hu | hu <;> subst hu
          · rw [(moves_undefined o d).1] at this; cases this
          · rw [(moves_undefined o s).2] at this; cases this
        · have := h2 hn
          rcases hu with hu | hu <;> subst hu
          · cases o <;> cases this.2
          · rw [this.1] at this; cases o <;> cases this.2
  refine ⟨rfl, ?_, ?_, ?_⟩
  · exact congrArg some (none_of _ _ _ (.inr rfl) (.inl rfl))
  · exact congrArg some (none_of _ _ _ (.inl rfl) (.inl rfl))
  · exact congrArg some (none_of _ _ _ (.inl rfl) (.inr rfl))

example : findFor (registry ⟨true, true, false, false, false, false⟩ [⟨COPY, (.host, .host), .user 7⟩]) sample 6 COPY 2 4 =
    some (some (.cudaCopy .h2d)) := by decide +kernel

/-! ### C35: ranges -/

open Umpire.Judy (AMap Rec AReach Any byPtr Contains AInv)

/-- The bytes of an allocation. -/
def Bytes (r : Rec) (x : Nat) : Prop := r.ptr ≤ x ∧ x < r.ptr + r.size

/-- Lookups without the assumption that records are disjoint: what is found is the
newest record registered at some base address, and contains the address; a base
address finds the newest record registered there. -/
theorem find_top {a : AMap} {live : List Rec} {n : Nat} (hi : AInv a (byPtr live) n) {q : Nat} (hq : q < 2 ^ 64) :
    (∀ c, (a.findRecord q).2 = some c → (∃ rest, byPtr live c.ptr = c :: rest) ∧ Contains c q) ∧
    (∀ r rest, byPtr live q = r :: rest → (a.findRecord q).2 = some r) := by
  refine ⟨fun c hc => ?_, fun r rest hb => ?_⟩
  · obtain ⟨rest, h1, h2⟩ := Judy.find_some.1 hc
    obtain ⟨x, hx, x1, x2⟩ := Judy.fob_sound hi.ok hq h1
    have hlk := (Judy.look_mem hi.ok.sorted).2 hx
    rw [hi.tab] at hlk
    by_cases he : byPtr live x.1 = []
    · rw [if_pos he] at hlk; cases hlk
    · rw [if_neg he] at hlk
      injection hlk with hlk
      have hm : c ∈ byPtr live x.1 := by rw [hlk, x2]; exact List.mem_cons_self
      obtain ⟨m1, m2⟩ := List.mem_filter.1 hm
      have m2' := of_decide_eq_true m2
      refine ⟨⟨rest, by rw [m2', hlk, x2]⟩, by omega, by omega⟩
  · have hl := hi.present (p := q) (by rw [hb]; simp)
    have hv := (Judy.fob_found hi.ok hq hl).2
    rw [hb] at hv
    have hm : r ∈ byPtr live q := by rw [hb]; exact List.mem_cons_self
    have := of_decide_eq_true (List.mem_filter.1 hm).2
    rw [Judy.find_some]
    exact ⟨rest, hv, .inr this⟩

theorem withRecs_spec {cmp : Rec → Rec → Bool} {a : AMap} {lp rp : Nat} :
    withRecs cmp a lp rp =
      match (a.findRecord lp).2, (a.findRecord rp).2 with
      | some l, some r => some (cmp l r)
      | _, _ => none := by
  have hc : ((a.findRecord lp).1.findRecord rp).2 = (a.findRecord rp).2 :=
    Judy.findRecord_congr (Judy.find_same a lp).1 rp
  unfold withRecs
  rcases h1 : a.findRecord lp with ⟨a1, x⟩
  rw [h1] at hc
  dsimp only at hc
  cases x with
  | none => rfl
  | some l =>
    dsimp only
    rcases h2 : a1.findRecord rp with ⟨a2, y⟩
    rw [h2] at hc
    dsimp only at hc
    rw [← hc]
    cases y <;> rfl

/-- **C35** For every allocation map, in every state: asked for the base addresses
of two registered allocations, `pointer_contains(l, r)` answers whether the
allocation of `r` starts inside that of `l` and every byte of it belongs to `l`.
(Of several records registered at one address the newest counts.) -/
theorem contains_exact {a : AMap} {live : List Rec} {n : Nat} (h : AReach Any a (byPtr live) n) {l r : Rec}
    {ls rs : List Rec} (hl : byPtr live l.ptr = l :: ls) (hr : byPtr live r.ptr = r :: rs)
    (hlb : l.ptr < 2 ^ 64) (hrb : r.ptr < 2 ^ 64) :
    ∃ b, pointerContains a l.ptr r.ptr = some b ∧ (b = true ↔ Bytes l r.ptr ∧ ∀ x, Bytes r x → Bytes l x) := by
  have hi := Judy.areach_inv h
  unfold pointerContains
  rw [withRecs_spec, (find_top hi hlb).2 l ls hl, (find_top hi hrb).2 r rs hr]
  refine ⟨_, rfl, ?_⟩
  unfold containsRec Bytes
  simp only [Bool.and_eq_true, decide_eq_true_eq]
  constructor
  · rintro ⟨⟨h1, h2⟩, h3⟩
    exact ⟨⟨h1, h2⟩, fun x hx => ⟨by omega, by omega⟩⟩
  · rintro ⟨h1, h2⟩
    refine ⟨⟨h1.1, h1.2⟩, ?_⟩
    by_cases hz : r.size = 0
    · omega
    · have := h2 (r.ptr + r.size - 1) ⟨by omega, by omega⟩
      omega

/-- **C35** For allocations of at least one byte, `pointer_contains(l, r)` is true
exactly when every byte of `r`'s allocation belongs to `l`'s. -/
theorem contains_subset {a : AMap} {live : List Rec} {n : Nat} (h : AReach Any a (byPtr live) n) {l r : Rec}
    {ls rs : List Rec} (hl : byPtr live l.ptr = l :: ls) (hr : byPtr live r.ptr = r :: rs)
    (hlb : l.ptr < 2 ^ 64) (hrb : r.ptr < 2 ^ 64) (hpos : 0 < r.size) :
    ∃ b, pointerContains a l.ptr r.ptr = some b ∧ (b = true ↔ ∀ x, Bytes r x → Bytes l x) := by
  obtain ⟨b, h1, h2⟩ := contains_exact h hl hr hlb hrb
  refine ⟨b, h1, h2.trans ⟨fun k => k.2, fun k => ⟨k r.ptr ⟨Nat.le_refl _, by omega⟩, k⟩⟩⟩

/-- **C35** (partial: see `overlaps_order_counterexample`)
`pointer_overlaps(l, r)` is true exactly when the allocations share memory, neither
contains the other, and `l` starts first. -/
theorem overlaps_partial {a : AMap} {live : List Rec} {n : Nat} (h : AReach Any a (byPtr live) n) {l r : Rec}
    {ls rs : List Rec} (hl : byPtr live l.ptr = l :: ls) (hr : byPtr live r.ptr = r :: rs)
    (hlb : l.ptr < 2 ^ 64) (hrb : r.ptr < 2 ^ 64) :
    ∃ b, pointerOverlaps a l.ptr r.ptr = some b ∧
      (b = true ↔ (∃ x, Bytes l x ∧ Bytes r x) ∧ (¬∀ x, Bytes r x → Bytes l x) ∧ (¬∀ x, Bytes l x → Bytes r x) ∧ l.ptr < r.ptr) := by
  have hi := Judy.areach_inv h
  unfold pointerOverlaps
  rw [withRecs_spec, (find_top hi hlb).2 l ls hl, (find_top hi hrb).2 r rs hr]
  refine ⟨_, rfl, ?_⟩
  unfold overlapsRec Bytes
  simp only [Bool.and_eq_true, decide_eq_true_eq]
  constructor
  · rintro ⟨⟨h1, h2⟩, h3⟩
    have hne : l.ptr ≠ r.ptr := by
      intro he
      rw [he, hr] at hl
      injection hl with hl
      rw [hl] at h3
      omega
    refine ⟨⟨r.ptr, ⟨h1, h2⟩, Nat.le_refl _, by omega⟩, fun k => ?_, fun k => ?_, by omega⟩
    · have := k (l.ptr + l.size) ⟨by omega, by omega⟩
      omega
    · have := k l.ptr ⟨Nat.le_refl _, by omega⟩
      omega
  · rintro ⟨⟨x, hx1, hx2⟩, h2, _, h4⟩
    refine ⟨⟨by omega, by omega⟩, ?_⟩
    apply Classical.byContradiction
    intro h5
    exact h2 fun y hy => ⟨by omega, by omega⟩

/-- **C35** Asked in both orders, `pointer_overlaps` decides whether two allocations
share memory without one containing the other. -/
theorem overlaps_both {a : AMap} {live : List Rec} {n : Nat} (h : AReach Any a (byPtr live) n) {l r : Rec}
    {ls rs : List Rec} (hl : byPtr live l.ptr = l :: ls) (hr : byPtr live r.ptr = r :: rs)
    (hlb : l.ptr < 2 ^ 64) (hrb : r.ptr < 2 ^ 64) :
    (pointerOverlaps a l.ptr r.ptr = some true ∨ pointerOverlaps a r.ptr l.ptr = some true) ↔
      (∃ x, Bytes l x ∧ Bytes r x) ∧ (¬∀ x, Bytes r x → Bytes l x) ∧ ¬∀ x, Bytes l x → Bytes r x := by
  obtain ⟨b, h1, h2⟩ := overlaps_partial h hl hr hlb hrb
  obtain ⟨c, h3, h4⟩ := overlaps_partial h hr hl hrb hlb
  rw [h1, h3, Option.some.injEq, Option.some.injEq, h2, h4]
  constructor
  · rintro (⟨k1, k2, k3, _⟩ | ⟨⟨x, k0, k1⟩, k2, k3, _⟩)
    · exact ⟨k1, k2, k3⟩
    · exact ⟨⟨x, k1, k0⟩, k3, k2⟩
  · rintro ⟨⟨x, k0, k1⟩, k2, k3⟩
    by_cases hlt : l.ptr < r.ptr
    · exact .inl ⟨⟨x, k0, k1⟩, k2, k3, hlt⟩
    · by_cases hgt : r.ptr < l.ptr
      · exact .inr ⟨⟨x, k1, k0⟩, k3, k2, hgt⟩
      · have he : l.ptr = r.ptr := by omega
        rw [he, hr] at hl
        injection hl with hl
        rw [hl] at k2
        exact absurd (fun y hy => hy) k2

/-- **C35** A pointer that lies in no registered allocation is reported. -/
theorem range_unknown {a : AMap} {live : List Rec} {n : Nat} (h : AReach Any a (byPtr live) n) {lp rp : Nat}
    (hlb : lp < 2 ^ 64) (hrb : rp < 2 ^ 64) (hno : (∀ r ∈ live, ¬Contains r lp) ∨ (∀ r ∈ live, ¬Contains r rp)) :
    pointerContains a lp rp = none ∧ pointerOverlaps a lp rp = none := by
  have hi := Judy.areach_inv h
  have key : ∀ q, q < 2 ^ 64 → (∀ r ∈ live, ¬Contains r q) → (a.findRecord q).2 = none := by
    intro q hq hn
    cases hf : (a.findRecord q).2 with
    | none => rfl
    | some c =>
      obtain ⟨⟨rest, h1⟩, h2⟩ := (find_top hi hq).1 c hf
      have hm : c ∈ byPtr live c.ptr := by rw [h1]; exact List.mem_cons_self
      exact absurd h2 (hn c (List.mem_filter.1 hm).1)
  unfold pointerContains pointerOverlaps
  rw [withRecs_spec, withRecs_spec]
  rcases hno with hno | hno
  · rw [key lp hlb hno]
    exact ⟨rfl, rfl⟩
  · rw [key rp hrb hno]
    cases (a.findRecord lp).2 <;> exact ⟨rfl, rfl⟩

/-- Three registered ranges: 0x1000–0x1100, 0x1080–0x1180 and one byte pool entry of
size zero. -/
def ranges : AMap := ((AMap.new.insert 0x1000 ⟨0x1000, 256, 1⟩).insert 0x1080 ⟨0x1080, 256, 2⟩).insert 0x2000 ⟨0x2000, 0, 3⟩

def rangesLive : List Rec := [⟨0x2000, 0, 3⟩, ⟨0x1080, 256, 2⟩, ⟨0x1000, 256, 1⟩]

theorem ranges_reach : AReach Any ranges (byPtr rangesLive) 3 := by
  have h1 : AReach Any _ _ _ := .insert (p := 0x1000) (r := ⟨0x1000, 256, 1⟩) .new (by decide) trivial
  have h2 : AReach Any _ _ _ := .insert (p := 0x1080) (r := ⟨0x1080, 256, 2⟩) h1 (by decide) trivial
  have h3 : AReach Any _ _ _ := .insert (p := 0x2000) (r := ⟨0x2000, 0, 3⟩) h2 (by decide) trivial
  have e0 : (fun _ => []) = byPtr [] := by funext q; rfl
  rw [e0, Judy.push_byPtr [] ⟨0x1000, 256, 1⟩, Judy.push_byPtr _ ⟨0x1080, 256, 2⟩, Judy.push_byPtr _ ⟨0x2000, 0, 3⟩] at h3
  exact h3

/-- **C35** `pointer_overlaps` does depend on the order of its arguments. -/
theorem overlaps_order_counterexample : ∃ (a : AMap) (live : List Rec) (n lp rp : Nat), AReach Any a (byPtr live) n ∧
    pointerOverlaps a lp rp = some true ∧ pointerOverlaps a rp lp = some false :=
  ⟨ranges, rangesLive, 3, 0x1000, 0x1080, ranges_reach, by decide +kernel, by decide +kernel⟩

/-- **C35** An allocation of zero bytes does not contain itself. -/
theorem contains_zero_counterexample : ∃ (a : AMap) (live : List Rec) (n p : Nat), AReach Any a (byPtr live) n ∧
    pointerContains a p p = some false :=
  ⟨ranges, rangesLive, 3, 0x2000, ranges_reach, by decide +kernel⟩

example : byPtr rangesLive 0x1080 = [⟨0x1080, 256, 2⟩] ∧ pointerContains ranges 0x1000 0x1000 = some true := by decide +kernel

/-! ### C44: fragmentation -/

/-- **C44** (partial: see `fragmentation_diverges`) With a single record the
statistic is computed, and there is no free space. -/
theorem fragmentation_partial (r : Rec) (fuel : Nat) : relativeFragmentation [r] (fuel + 1) = .done 0 0 := by
  unfold relativeFragmentation
  rw [if_neg (by simp)]
  unfold fragLoop
  rw [if_pos (by simp)]

/-- **C44** is false: with two or more records the loop never ends. -/
theorem fragmentation_diverges (r s : Rec) (rest : List Rec) (fuel : Nat) :
    relativeFragmentation (r :: s :: rest) fuel = .running := by
  unfold relativeFragmentation
  rw [if_neg (by simp)]
  have : ∀ fuel largest total, fragLoop (r :: s :: rest) fuel 0 1 largest total = .running := by
    intro fuel
    induction fuel with
    | zero => intro _ _; rfl
    | succ fuel ih =>
      intro largest total
      unfold fragLoop
      rw [if_neg (by simp)]
      exact ih _ _
  exact this fuel 0 0

/-- **C44** is false for no records at all: the iterator is moved past the end. -/
theorem fragmentation_empty_counterexample (fuel : Nat) : relativeFragmentation [] fuel = .ub := rfl

end Umpire.Ops
