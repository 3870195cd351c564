import Verif.Mpi.Model
/-!
# Communicators for allocators: what they are and when nobody waits for ever (C85)
-/
set_option autoImplicit false
set_option linter.unusedSimpArgs false
namespace Umpire.Mpi

/-! ## Specification -/

/-- What a call should return to `p`: the processes of the communicator on its machine, or `MPI_COMM_NULL`. -/
def Right (machine : Nat → Nat) (p : Nat) (c : Call) (r : Option Comm) : Prop :=
  match r with
  | some g => c.node = true ∧ ∀ q, q ∈ g ↔ q ∈ c.comm ∧ machine q = machine p
  | none => c.node = false

/-- Calls of all processes of a communicator: each names the allocator by its own id. -/
structure Entry where
  ids : Nat → Nat
  node : Bool
  comm : Comm

/-- The part of process `p` in it. -/
def Entry.call (e : Entry) (p : Nat) : Call := { id := e.ids p, node := e.node, comm := e.comm }

/-- The calls of `p`, if all processes make the calls of `G` in this order, each those on communicators it is in. -/
def calls (G : List Entry) (p : Nat) : List Call := (G.filter fun e => decide (p ∈ e.comm)).map (·.call p)

/-- Every allocator is used with one communicator only. -/
def Agree (G : List Entry) : Prop :=
  ∀ e ∈ G, ∀ f ∈ G, ∀ p, p ∈ e.comm → p ∈ f.comm → e.ids p = f.ids p →
    e.comm = f.comm ∧ e.node = f.node ∧ ∀ q ∈ e.comm, e.ids q = f.ids q

/-! ## What is returned -/

/-- The first call with the id of `c`. -/
def first (l : List Call) (id : Nat) : Option Call := l.find? fun f => f.id = id

/-- What a call that is the first for its allocator returns. -/
def own (machine : Nat → Nat) (p : Nat) (c : Call) : Option Comm := if c.node then some (split machine c.comm p) else none

theorem own_right {machine : Nat → Nat} {p : Nat} {c : Call} : Right machine p c (own machine p c) := by
  unfold own Right
  cases h : c.node
  · rfl
  · simp [split]

theorem find_finish {s : PS} {c : Call} {rest : List Call} {r : Option Comm} {id : Nat} :
    (s.finish c rest r).find id = match s.find id with
      | some x => some x
      | none => if c.id = id ∧ s.find c.id = none then some r else none := by
  unfold PS.finish PS.find
  cases h : (s.cache.find? fun e => e.1 = c.id) with
  | some x =>
    simp only [Option.map_some]
    cases h2 : (s.cache.find? fun e => e.1 = id) <;> simp
  | none =>
    simp only [Option.map_none]
    by_cases hi : c.id = id
    · subst hi; simp [h]
    · rw [List.find?_cons, decide_eq_false hi]
      cases h2 : (s.cache.find? fun e => e.1 = id) <;> simp [hi]

/-- What has been done by `p`. -/
structure Done (machine : Nat → Nat) (p : Nat) (prog done : List Call) (s : PS) : Prop where
  split_ : prog = done ++ s.todo
  cache : ∀ id, s.find id = (first done id).map (own machine p)
  out : s.out = done.map fun c => match first done c.id with | some f => own machine p f | none => none

theorem first_append {l : List Call} {c : Call} {id : Nat} : first (l ++ [c]) id = match first l id with
    | some f => some f
    | none => if c.id = id then some c else none := by
  unfold first
  rw [List.find?_append]
  cases h : (l.find? fun f => f.id = id) <;> by_cases hi : c.id = id <;> simp [hi]

theorem first_mem {l : List Call} {c : Call} (h : c ∈ l) : ∃ f, first l c.id = some f := by
  cases h' : first l c.id with
  | some f => exact ⟨f, rfl⟩
  | none => have := List.find?_eq_none.1 h' c h; simp at this

/-- One call done. -/
theorem Done.finish {machine : Nat → Nat} {p : Nat} {prog done rest : List Call} {s : PS} {c : Call} {r : Option Comm}
    (h : Done machine p prog done s) (ht : s.todo = c :: rest)
    (hr : s.start c = some r ∨ s.start c = none ∧ r = some (split machine c.comm p)) : Done machine p prog (done ++ [c]) (s.finish c rest r) := by
  have hc := h.cache c.id
  have key : r = match first (done ++ [c]) c.id with | some f => own machine p f | none => none := by
    rw [first_append]
    unfold PS.start at hr
    cases hf : first done c.id with
    | some f =>
      rw [hf] at hc
      rw [hc] at hr
      simp only [Option.map_some, Option.some.injEq] at hr
      rcases hr with hr | ⟨hr, _⟩
      · exact hr.symm
      · exact nomatch hr
    | none =>
      rw [hf] at hc
      rw [hc] at hr
      simp only [Option.map_none] at hr
      simp only [if_true]
      unfold own
      cases hn : c.node <;> simp [hn] at hr ⊢ <;> simp [hr]
  refine ⟨?_, fun id => ?_, ?_⟩
  · rw [h.split_, ht]; simp [PS.finish]
  · rw [find_finish, h.cache id, first_append]
    cases hf : first done id with
    | some f => rfl
    | none =>
      simp only [Option.map_none]
      by_cases hi : c.id = id
      · subst hi
        rw [hc, hf]
        simp only [Option.map_none, and_self, if_true, Option.map_some]
        rw [key, first_append, hf]
        simp
      · simp [hi]
  · show s.out ++ [r] = _
    rw [h.out, List.map_append]
    congr 1
    · apply List.map_congr_left
      intro x hx
      obtain ⟨f, hf⟩ := first_mem hx
      rw [first_append, hf]
    · simp only [List.map_cons, List.map_nil]
      rw [← key]

theorem done_step {machine : Nat → Nat} {prog : Nat → List Call} {s t : State} (h : ∀ p, ∃ done, Done machine p (prog p) done (s p))
    (hs : Step machine s t) : ∀ p, ∃ done, Done machine p (prog p) done (t p) := by
  intro p
  obtain ⟨done, hd⟩ := h p
  cases hs with
  | ret p' c rest r ht hr =>
    dsimp only
    split
    · next e => subst e; exact ⟨_, hd.finish ht (.inl hr)⟩
    · exact ⟨done, hd⟩
  | split g h0 hg =>
    dsimp only
    split
    · next hp =>
      obtain ⟨c, rest, ht, hr, hc⟩ := hg p hp
      unfold PS.advance
      rw [ht]
      exact ⟨_, hd.finish ht (.inr ⟨hr, by rw [hc]⟩)⟩
    · exact ⟨done, hd⟩

theorem done_all {machine : Nat → Nat} {prog : Nat → List Call} {s : State} (h : Steps machine (init prog) s) :
    ∀ p, ∃ done, Done machine p (prog p) done (s p) := by
  induction h with
  | refl => exact fun p => ⟨[], rfl, fun id => rfl, rfl⟩
  | tail _ h ih => exact done_step ih h

/-- Whatever the processes do: a call returns what the first call of the process for that allocator should return: the communicator it
was made with counts, not the one at hand. -/
theorem comm_first {machine : Nat → Nat} {prog : Nat → List Call} {s : State} (h : Steps machine (init prog) s) (p : Nat) :
    ∃ done, prog p = done ++ (s p).todo ∧ (s p).out.length = done.length ∧
      ∀ (i : Nat) (c : Call), done[i]? = some c → ∃ (f : Call) (r : Option Comm),
        done.find? (fun f => decide (f.id = c.id)) = some f ∧ (s p).out[i]? = some r ∧ Right machine p f r := by
  obtain ⟨done, hd⟩ := done_all h p
  refine ⟨done, hd.split_, by rw [hd.out, List.length_map], fun i c hi => ?_⟩
  obtain ⟨f, hf⟩ := first_mem (List.mem_of_getElem? hi)
  refine ⟨f, own machine p f, hf, ?_, own_right⟩
  rw [hd.out, List.getElem?_map, hi]
  simp only [Option.map_some, hf]

/-! ## Nobody waits for ever -/

theorem calls_cons {e : Entry} {G : List Entry} {p : Nat} : calls (e :: G) p = if p ∈ e.comm then e.call p :: calls G p else calls G p := by
  unfold calls
  by_cases h : p ∈ e.comm <;> simp [h]

/-- Where the next call of a process comes from. -/
theorem calls_head {G : List Entry} {p : Nat} {c : Call} {rest : List Call} {d : Nat} (h : calls (G.drop d) p = c :: rest) :
    ∃ i e, d ≤ i ∧ G[i]? = some e ∧ p ∈ e.comm ∧ c = e.call p ∧ rest = calls (G.drop (i + 1)) p ∧
      ∀ j, d ≤ j → j < i → ∀ f, G[j]? = some f → p ∉ f.comm := by
  generalize hk : G.length - d = k
  induction k generalizing d with
  | zero => rw [List.drop_eq_nil_of_le (by omega)] at h; exact nomatch h
  | succ k ih =>
    have hd : d < G.length := by omega
    rw [List.drop_eq_getElem_cons hd, calls_cons] at h
    split at h
    · next hp =>
      injection h with h1 h2
      exact ⟨d, G[d], Nat.le_refl _, List.getElem?_eq_getElem hd, hp, h1.symm, h2.symm, fun j h1 h2 => absurd h1 (by omega)⟩
    · next hp =>
      obtain ⟨i, e, h1, h2, h3, h4, h5, h6⟩ := ih h (by omega)
      refine ⟨i, e, by omega, h2, h3, h4, h5, fun j hj1 hj2 f hf => ?_⟩
      by_cases hj : j = d
      · subst hj
        rw [List.getElem?_eq_getElem hd] at hf
        injection hf with hf
        rw [← hf]; exact hp
      · exact h6 j (by omega) hj2 f hf

theorem calls_some {G : List Entry} {p i d : Nat} {e : Entry} (hd : d ≤ i) (h : G[i]? = some e) (hp : p ∈ e.comm) :
    calls (G.drop d) p ≠ [] := by
  intro h0
  unfold calls at h0
  rw [List.map_eq_nil_iff, List.filter_eq_nil_iff] at h0
  have : e ∈ G.drop d := by
    have h2 : (G.drop d)[i - d]? = some e := by rw [List.getElem?_drop, show d + (i - d) = i by omega, h]
    exact List.mem_of_getElem? h2
  exact h0 e this (by simp [hp])

/-- No earlier call of `p` for this allocator. -/
def Fresh (G : List Entry) (i : Nat) (e : Entry) (p : Nat) : Prop :=
  ∀ j < i, ∀ f, G[j]? = some f → p ∈ f.comm → f.ids p ≠ e.ids p

theorem Fresh.all {G : List Entry} {i : Nat} {e : Entry} {p q : Nat} (ha : Agree G) (he : G[i]? = some e) (hp : p ∈ e.comm) (hq : q ∈ e.comm)
    (h : Fresh G i e p) : Fresh G i e q := by
  intro j hj f hf hqf heq
  obtain ⟨h1, _, h3⟩ := ha f (List.mem_of_getElem? hf) e (List.mem_of_getElem? he) q hqf hq heq
  exact h j hj f hf (by rw [h1]; exact hp) (h3 p (by rw [h1]; exact hp))

/-- How far each process has got. -/
structure At_ (G : List Entry) (s : State) (d : Nat → Nat) : Prop where
  todo : ∀ p, (s p).todo = calls (G.drop (d p)) p
  keys : ∀ p id, ((s p).find id).isSome ↔ ∃ j < d p, ∃ f, G[j]? = some f ∧ p ∈ f.comm ∧ f.ids p = id
  uniform : ∀ i e, G[i]? = some e → e.node = true → ∀ p q, p ∈ e.comm → q ∈ e.comm → Fresh G i e p → i < d p → i < d q

theorem keys_finish {G : List Entry} {s : PS} {p d i : Nat} {e : Entry} {rest : List Call} {r : Option Comm}
    (hk : ∀ id, (s.find id).isSome ↔ ∃ j < d, ∃ f, G[j]? = some f ∧ p ∈ f.comm ∧ f.ids p = id)
    (hd : d ≤ i) (he : G[i]? = some e) (hp : p ∈ e.comm) (hno : ∀ j, d ≤ j → j < i → ∀ f, G[j]? = some f → p ∉ f.comm) (id : Nat) :
    ((s.finish (e.call p) rest r).find id).isSome ↔ ∃ j < i + 1, ∃ f, G[j]? = some f ∧ p ∈ f.comm ∧ f.ids p = id := by
  rw [find_finish]
  have hk1 := hk id
  constructor
  · intro h
    cases hf : s.find id with
    | some x =>
      obtain ⟨j, hj, f, h1⟩ := hk1.1 (by rw [hf]; rfl)
      exact ⟨j, by omega, f, h1⟩
    | none =>
      rw [hf] at h
      dsimp only at h
      split at h
      · next hc => exact ⟨i, by omega, e, he, hp, hc.1⟩
      · exact nomatch h
  · rintro ⟨j, hj, f, h1, h2, h3⟩
    cases hf : s.find id with
    | some x => rfl
    | none =>
      have hn : ∀ j < d, ∀ f, G[j]? = some f → p ∈ f.comm → f.ids p ≠ id := by
        intro j hj f a b c
        have := hk1.2 ⟨j, hj, f, a, b, c⟩
        rw [hf] at this; exact nomatch this
      have hji : j = i := by
        rcases Nat.lt_or_ge j d with h | h
        · exact absurd h3 (hn j h f h1 h2)
        · rcases Nat.lt_or_ge j i with h' | h'
          · exact absurd h2 (hno j h h' f h1)
          · omega
      subst hji
      rw [he] at h1
      injection h1 with h1
      subst h1
      have : (e.call p).id = id := h3
      dsimp only
      rw [if_pos ⟨this, by rw [this]; exact hf⟩]
      rfl

theorem at_step {machine : Nat → Nat} {G : List Entry} {s t : State} {d : Nat → Nat} (ha : Agree G) (h : At_ G s d) (hs : Step machine s t) :
    ∃ d', At_ G t d' := by
  cases hs with
  | ret p c rest r ht hr =>
    have ht' := ht
    rw [h.todo p] at ht'
    obtain ⟨i, e, h1, h2, h3, h4, h5, h6⟩ := calls_head ht'
    refine ⟨fun q => if q = p then i + 1 else d q, fun q => ?_, fun q id => ?_, ?_⟩
    · by_cases e' : q = p
      · subst e'; simp only [if_pos]; exact h5
      · simp only [if_neg e']; exact h.todo q
    · by_cases e' : q = p
      · subst e'; simp only [if_pos]; rw [h4]; exact keys_finish (h.keys q) h1 h2 h3 h6 id
      · simp only [if_neg e']; exact h.keys q id
    · intro k f hk hn a b hpa hpb hfr hka
      have hstart : ¬ (k = i ∧ (a = p ∨ b = p)) := by
        rintro ⟨rfl, hab⟩
        rw [h2] at hk
        injection hk with hk
        subst hk
        have hfp : Fresh G k e p := hfr.all ha h2 hpa h3
        have hnone : (s p).find c.id = none := by
          cases hf : (s p).find c.id with
          | none => rfl
          | some x =>
            obtain ⟨j, hj, f, g1, g2, g3⟩ := (h.keys p c.id).1 (by rw [hf]; rfl)
            exact absurd (by rw [g3, h4]; rfl) (hfp j (by omega) f g1 g2)
        unfold PS.start at hr
        rw [hnone] at hr
        have hcn : c.node = true := by rw [h4]; exact hn
        rw [hcn] at hr
        exact nomatch hr
      have old : k < d a → k < d b := h.uniform k f hk hn a b hpa hpb hfr
      have move : ∀ x, x ∈ f.comm → ¬ (k = i ∧ x = p) → (k < (if x = p then i + 1 else d x) ↔ k < d x) := by
        intro x hx hne
        split
        · next ex =>
          subst ex
          constructor
          · intro hlt
            rcases Nat.lt_or_ge k (d x) with g | g
            · exact g
            · exact absurd hx (h6 k g (by omega) f hk)
          · intro hlt; omega
        · exact Iff.rfl
      exact (move b hpb (fun hh => hstart ⟨hh.1, .inr hh.2⟩)).2 (old ((move a hpa (fun hh => hstart ⟨hh.1, .inl hh.2⟩)).1 hka))
  | split g h0 hg =>
    -- All processes of `g` are at the same entry.
    obtain ⟨p0, g', hg0⟩ := List.exists_cons_of_ne_nil h0
    have hp0 : p0 ∈ g := by rw [hg0]; exact List.mem_cons_self ..
    have pos : ∀ q, q ∈ g → ∃ i e rest, d q ≤ i ∧ G[i]? = some e ∧ q ∈ e.comm ∧ (s q).todo = e.call q :: rest ∧ rest = calls (G.drop (i + 1)) q ∧
        (∀ j, d q ≤ j → j < i → ∀ f, G[j]? = some f → q ∉ f.comm) ∧ e.comm = g ∧ e.node = true ∧ Fresh G i e q := by
      intro q hq
      obtain ⟨c, rest, ht, hr, hc⟩ := hg q hq
      have ht' := ht
      rw [h.todo q] at ht'
      obtain ⟨i, e, h1, h2, h3, h4, h5, h6⟩ := calls_head ht'
      have hfind : (s q).find c.id = none ∧ c.node = true := by
        unfold PS.start at hr
        cases hf : (s q).find c.id with
        | some x => rw [hf] at hr; exact nomatch hr
        | none => rw [hf] at hr; cases hn : c.node with
          | true => exact ⟨rfl, rfl⟩
          | false => rw [hn] at hr; exact nomatch hr
      refine ⟨i, e, rest, h1, h2, h3, by rw [← h4]; exact ht, h5, h6, by rw [← hc, h4]; rfl, by rw [← hfind.2, h4]; rfl, ?_⟩
      intro j hj f hf hqf heq
      rcases Nat.lt_or_ge j (d q) with hlt | hge
      · have := (h.keys q c.id).2 ⟨j, hlt, f, hf, hqf, by rw [heq, h4]; rfl⟩
        rw [hfind.1] at this; exact nomatch this
      · exact h6 j hge hj f hf hqf
    obtain ⟨i, e, _, b1, he, hpe, _, _, b6, hcomm, hnode, hfresh⟩ := pos p0 hp0
    have same : ∀ q, q ∈ g → ∃ rest, d q ≤ i ∧ (s q).todo = e.call q :: rest ∧ rest = calls (G.drop (i + 1)) q ∧
        (∀ j, d q ≤ j → j < i → ∀ f, G[j]? = some f → q ∉ f.comm) := by
      intro q hq
      obtain ⟨i', e', rest, a1, a2, a3, a4, a5, a6, a7, a8, a9⟩ := pos q hq
      have hi : i' = i := by
        rcases Nat.lt_trichotomy i' i with hlt | heq | hgt
        · have hp : p0 ∈ e'.comm := by rw [a7]; exact hp0
          rcases Nat.lt_or_ge i' (d p0) with h' | h'
          · have := h.uniform i' e' a2 a8 p0 q hp a3 (a9.all ha a2 a3 hp) h'
            omega
          · exact absurd hp (b6 i' h' hlt e' a2)
        · exact heq
        · have hqe : q ∈ e.comm := by rw [hcomm]; exact hq
          rcases Nat.lt_or_ge i (d q) with h' | h'
          · have := h.uniform i e he hnode q p0 hqe hpe (hfresh.all ha he hpe hqe) h'
            omega
          · exact absurd hqe (a6 i h' hgt e he)
      subst hi
      rw [he] at a2
      injection a2 with a2
      subst a2
      exact ⟨rest, a1, a4, a5, a6⟩
    refine ⟨fun q => if q ∈ g then i + 1 else d q, fun q => ?_, fun q id => ?_, ?_⟩
    · by_cases hq : q ∈ g
      · obtain ⟨rest, c1, c2, c3, c4⟩ := same q hq
        simp only [if_pos hq, PS.advance, c2]
        exact c3
      · simp only [if_neg hq]; exact h.todo q
    · by_cases hq : q ∈ g
      · obtain ⟨rest, c1, c2, c3, c4⟩ := same q hq
        simp only [if_pos hq, PS.advance, c2]
        exact keys_finish (h.keys q) c1 he (by rw [hcomm]; exact hq) c4 id
      · simp only [if_neg hq]; exact h.keys q id
    · intro k f hk hn a b hpa hpb hfr hka
      by_cases hki : k = i
      · subst hki
        rw [he] at hk
        injection hk with hk
        subst hk
        rw [hcomm] at hpa hpb
        rw [if_pos hpb]; omega
      · have move : ∀ x, x ∈ f.comm → (k < (if x ∈ g then i + 1 else d x) ↔ k < d x) := by
          intro x hx
          split
          · next hg =>
            obtain ⟨rest, c1, c2, c3, c4⟩ := same x hg
            constructor
            · intro hlt
              rcases Nat.lt_or_ge k (d x) with g | g
              · exact g
              · exact absurd hx (c4 k g (by omega) f hk)
            · intro hlt; omega
          · exact Iff.rfl
        exact (move b hpb).2 (h.uniform k f hk hn a b hpa hpb hfr ((move a hpa).1 hka))

theorem at_all {machine : Nat → Nat} {G : List Entry} {s : State} (ha : Agree G) (h : Steps machine (init (calls G)) s) : ∃ d, At_ G s d := by
  induction h with
  | refl =>
    refine ⟨fun _ => 0, fun p => rfl, fun p id => ⟨fun h => (nomatch h), fun ⟨j, hj, _⟩ => absurd hj (Nat.not_lt_zero j)⟩,
      fun i e _ _ p q _ _ _ h => absurd h (Nat.not_lt_zero i)⟩
  | tail _ h ih =>
    obtain ⟨d, hd⟩ := ih
    exact at_step ha hd h

theorem least {P : Nat → Prop} {n : Nat} (h : P n) : ∃ m, P m ∧ ∀ k < m, ¬ P k := by
  induction n using Nat.strongRecOn with
  | _ n ih =>
    by_cases hk : ∃ k < n, P k
    · obtain ⟨k, h1, h2⟩ := hk; exact ih k h1 h2
    · exact ⟨n, h, fun k h1 h2 => hk ⟨k, h1, h2⟩⟩

/-- If all processes make the same calls in the same order, each those on communicators it is in, and use each allocator with one
communicator only, then nobody waits for ever: as long as a process has calls to make, something happens. -/
theorem comm_progress {machine : Nat → Nat} {G : List Entry} {s : State} (ha : Agree G) (h : Steps machine (init (calls G)) s) :
    (∀ p, (s p).todo = []) ∨ ∃ t, Step machine s t := by
  obtain ⟨d, hd⟩ := at_all ha h
  by_cases hall : ∀ p, (s p).todo = []
  · exact .inl hall
  refine .inr ?_
  -- the earliest entry some process has still to do
  let P : Nat → Prop := fun i => ∃ p e, d p ≤ i ∧ G[i]? = some e ∧ p ∈ e.comm
  have hP : ∃ n, P n := by
    refine Classical.byContradiction fun hno => hall fun p => ?_
    cases ht : (s p).todo with
    | nil => rfl
    | cons c rest =>
      rw [hd.todo p] at ht
      obtain ⟨i, e, h1, h2, h3, _⟩ := calls_head ht
      exact absurd ⟨i, p, e, h1, h2, h3⟩ hno
  obtain ⟨n, hn⟩ := hP
  obtain ⟨i, ⟨p, e, h1, h2, h3⟩, hmin⟩ := least hn
  have head : ∀ q, q ∈ e.comm → d q ≤ i → ∃ rest, (s q).todo = e.call q :: rest := by
    intro q hq hdq
    obtain ⟨c, rest, hc⟩ := List.exists_cons_of_ne_nil (calls_some hdq h2 hq)
    obtain ⟨i', e', a1, a2, a3, a4, _, a6⟩ := calls_head hc
    have hi : i' = i := by
      rcases Nat.lt_trichotomy i' i with hlt | heq | hgt
      · exact absurd ⟨q, e', a1, a2, a3⟩ (hmin i' hlt)
      · exact heq
      · exact absurd hq (a6 i hdq hgt e h2)
    subst hi
    rw [h2] at a2
    injection a2 with a2
    subst a2
    exact ⟨rest, by rw [hd.todo q, hc, a4]⟩
  obtain ⟨rest, ht⟩ := head p h3 h1
  cases hs : (s p).start (e.call p) with
  | some r => exact ⟨_, .ret p _ rest r ht hs⟩
  | none =>
    have hfind : (s p).find (e.call p).id = none ∧ e.node = true := by
      unfold PS.start at hs
      cases hf : (s p).find (e.call p).id with
      | some x => rw [hf] at hs; exact nomatch hs
      | none =>
        rw [hf] at hs
        refine ⟨rfl, ?_⟩
        cases hn : e.node with
        | true => rfl
        | false => rw [show (e.call p).node = e.node from rfl, hn] at hs; exact nomatch hs
    have hfresh : Fresh G i e p := by
      intro j hj f hf hpf heq
      rcases Nat.lt_or_ge j (d p) with hlt | hge
      · have := (hd.keys p (e.call p).id).2 ⟨j, hlt, f, hf, hpf, heq⟩
        rw [hfind.1] at this; exact nomatch this
      · exact hmin j hj ⟨p, f, hge, hf, hpf⟩
    refine ⟨_, .split e.comm (by intro h0; rw [h0] at h3; exact nomatch h3) fun q hq => ?_⟩
    have hfq := hfresh.all ha h2 h3 hq
    have hdq : d q ≤ i := by
      rcases Nat.lt_or_ge i (d q) with hlt | hge
      · have := hd.uniform i e h2 hfind.2 q p hq h3 hfq hlt
        omega
      · exact hge
    obtain ⟨rest', ht'⟩ := head q hq hdq
    refine ⟨e.call q, rest', ht', ?_, rfl⟩
    unfold PS.start
    cases hf : (s q).find (e.call q).id with
    | none => simp only [show (e.call q).node = e.node from rfl, hfind.2, if_true]
    | some x =>
      obtain ⟨j, hj, f, g1, g2, g3⟩ := (hd.keys q (e.call q).id).1 (by rw [hf]; rfl)
      exact absurd g3 (hfq j (by omega) f g1 g2)

/-- And then every call returns what it should. -/
theorem comm_right {machine : Nat → Nat} {G : List Entry} {s : State} (ha : Agree G) (h : Steps machine (init (calls G)) s) (p : Nat) :
    ∃ done, calls G p = done ++ (s p).todo ∧ (s p).out.length = done.length ∧
      ∀ (i : Nat) (c : Call), done[i]? = some c → ∃ r, (s p).out[i]? = some r ∧ Right machine p c r := by
  obtain ⟨done, h1, h2, h3⟩ := comm_first h p
  refine ⟨done, h1, h2, fun i c hi => ?_⟩
  obtain ⟨f, r, hf, ho, hr⟩ := h3 i c hi
  refine ⟨r, ho, ?_⟩
  have mem : ∀ x ∈ done, ∃ e ∈ G, p ∈ e.comm ∧ x = e.call p := by
    intro x hx
    have : x ∈ calls G p := by rw [h1]; exact List.mem_append_left _ hx
    unfold calls at this
    obtain ⟨e, he, rfl⟩ := List.mem_map.1 this
    rw [List.mem_filter] at he
    exact ⟨e, he.1, by simpa using he.2, rfl⟩
  obtain ⟨e, he, hpe, rfl⟩ := mem c (List.mem_of_getElem? hi)
  obtain ⟨e', he', hpe', rfl⟩ := mem f (List.mem_of_find?_eq_some hf)
  have hid := List.find?_some hf
  simp only [decide_eq_true_eq] at hid
  obtain ⟨a, b, _⟩ := ha e' he' e he p hpe' hpe hid
  unfold Right at hr ⊢
  rw [show (e.call p).node = (e'.call p).node from b.symm, show (e.call p).comm = (e'.call p).comm from a.symm]
  exact hr

/-- Calls still to be made by the processes of `P`. -/
def left (P : List Nat) (s : State) : Nat := (P.map fun p => (s p).todo.length).sum

theorem left_lt {P : List Nat} {s t : State} {p : Nat} (hp : p ∈ P) (hle : ∀ q, (t q).todo.length ≤ (s q).todo.length)
    (hlt : (t p).todo.length < (s p).todo.length) : left P t < left P s := by
  unfold left
  induction P with
  | nil => exact nomatch hp
  | cons q P ih =>
    simp only [List.map_cons, List.sum_cons]
    have hq := hle q
    have hP : (P.map fun p => (t p).todo.length).sum ≤ (P.map fun p => (s p).todo.length).sum := by
      clear ih hp
      induction P with
      | nil => exact Nat.le_refl _
      | cons r P ih => simp only [List.map_cons, List.sum_cons]; have := hle r; omega
    rcases List.mem_cons.1 hp with rfl | hp
    · omega
    · have := ih hp; omega

theorem step_left {machine : Nat → Nat} {s t : State} (h : Step machine s t) :
    (∀ q, (t q).todo.length ≤ (s q).todo.length) ∧ ∃ p, (s p).todo ≠ [] ∧ (t p).todo.length < (s p).todo.length := by
  cases h with
  | ret p c rest r ht hr =>
    refine ⟨fun q => ?_, p, by rw [ht]; exact List.cons_ne_nil _ _, ?_⟩
    · dsimp only
      split
      · next e => rw [e, ht]; simp [PS.finish]
      · exact Nat.le_refl _
    · dsimp only
      rw [if_pos rfl, ht]; simp [PS.finish]
  | split g h0 hg =>
    obtain ⟨p, g', hp⟩ := List.exists_cons_of_ne_nil h0
    have hpg : p ∈ g := by rw [hp]; exact List.mem_cons_self ..
    have adv : ∀ q, q ∈ g → ((s q).advance machine g q).todo.length < (s q).todo.length ∧ (s q).todo ≠ [] := by
      intro q hq
      obtain ⟨c, rest, ht, _⟩ := hg q hq
      unfold PS.advance
      rw [ht]
      exact ⟨by simp [PS.finish], List.cons_ne_nil _ _⟩
    refine ⟨fun q => ?_, p, (adv p hpg).2, ?_⟩
    · dsimp only
      split
      · next hq => exact Nat.le_of_lt (adv q hq).1
      · exact Nat.le_refl _
    · dsimp only
      rw [if_pos hpg]; exact (adv p hpg).1

/-- Nothing goes on for ever: of finitely many processes with calls to make, each call returns once. -/
theorem comm_terminates {machine : Nat → Nat} {prog : Nat → List Call} (P : List Nat) (hP : ∀ p, prog p ≠ [] → p ∈ P) (f : Nat → State)
    (h0 : f 0 = init prog) : ¬ ∀ k, Step machine (f k) (f (k + 1)) := by
  intro hs
  have reach : ∀ k, Steps machine (init prog) (f k) := by
    intro k
    induction k with
    | zero => rw [h0]; exact .refl
    | succ k ih => exact .tail ih (hs k)
  have dec : ∀ k, left P (f (k + 1)) < left P (f k) := by
    intro k
    obtain ⟨hle, p, hne, hlt⟩ := step_left (hs k)
    refine left_lt (hP p ?_) hle hlt
    obtain ⟨done, hd⟩ := done_all (reach k) p
    rw [hd.split_]
    intro he
    exact hne (List.append_eq_nil_iff.1 he).2
  have bound : ∀ k, left P (f k) + k ≤ left P (f 0) := by
    intro k
    induction k with
    | zero => exact Nat.le_refl _
    | succ k ih => have := dec k; omega
  have := bound (left P (f 0) + 1)
  omega

/-! ## What goes wrong otherwise -/

/-- A process whose next call waits for one that has no calls left waits for ever. -/
theorem comm_stuck {machine : Nat → Nat} {s t : State} {p q : Nat} {c : Call} {rest : List Call} (hp : (s p).todo = c :: rest)
    (hs : (s p).start c = none) (hq : q ∈ c.comm) (h0 : (s q).todo = []) (h : Steps machine s t) : t p = s p ∧ (t q).todo = [] := by
  induction h with
  | refl => exact ⟨rfl, h0⟩
  | @tail t u _ h ih =>
    obtain ⟨a, b⟩ := ih
    cases h with
    | ret p' c' rest' r ht hr =>
      dsimp only
      have h1 : p ≠ p' := by
        rintro rfl
        rw [a, hp] at ht
        injection ht with e1 _
        rw [← e1, a, hs] at hr
        exact nomatch hr
      have h2 : q ≠ p' := by rintro rfl; rw [b] at ht; exact nomatch ht
      rw [if_neg h1, if_neg h2]
      exact ⟨a, b⟩
    | split g _ hg =>
      dsimp only
      have h2 : q ∉ g := by
        intro hqg
        obtain ⟨c', rest', ht, _⟩ := hg q hqg
        rw [b] at ht; exact nomatch ht
      have h1 : p ∉ g := by
        intro hpg
        obtain ⟨c', rest', ht, _, hc⟩ := hg p hpg
        rw [a, hp] at ht
        injection ht with e1 _
        rw [← e1] at hc
        rw [hc] at hq
        exact h2 hq
      rw [if_neg h1, if_neg h2]
      exact ⟨a, b⟩

/-- The claim "if all processes of a communicator call with it, all calls return" is false: process 0 has used the allocator alone before,
so it does not take part, and the other `n + 1` wait for ever. -/
theorem comm_deadlock_counterexample (machine : Nat → Nat) (n a : Nat) :
    let world : Comm := List.range (n + 2)
    let all : Call := { id := a, node := true, comm := world }
    let prog : Nat → List Call := fun p => if p = 0 then [{ id := a, node := true, comm := [0] }, all] else if p < n + 2 then [all] else []
    ∃ s, Steps machine (init prog) s ∧ (s 0).todo = [] ∧ ∀ t, Steps machine s t → ∀ p, 0 < p → p < n + 2 → (t p).todo = [all] := by
  intro world all prog
  have h1 : Step machine (init prog) _ := .split [0] (by simp) (by
    intro q hq
    rw [List.mem_singleton.1 hq]
    exact ⟨_, _, rfl, rfl, rfl⟩)
  have h2 := Steps.tail .refl h1
  have h3 := Steps.tail h2 (.ret 0 all [] (some (split machine [0] 0)) rfl (by
    simp [PS.start, PS.find, PS.advance, PS.finish, init, prog, all]))
  refine ⟨_, h3, rfl, fun t ht p hp hpn => ?_⟩
  have hne : p ≠ 0 := by omega
  refine (comm_stuck (q := 0) (c := all) (rest := []) (p := p) ?_ ?_ ?_ rfl ht).1 ▸ ?_
  · simp [hne, init, prog, hpn]
  · simp [hne, init, prog, hpn, PS.start, PS.find, all]
  · simp [all, world]
  · simp [hne, init, prog, hpn]

/-- The claim "the communicator returned is a part of the one passed" is false: a second call with another communicator gets the first
one, whose processes need not even be among those passed. -/
theorem comm_wrong_counterexample (machine : Nat → Nat) (a : Nat) :
    let prog : Nat → List Call := fun p => if p = 0 then [{ id := a, node := true, comm := [0] }, { id := a, node := true, comm := [0, 1] }]
      else []
    ∃ s, Steps machine (init prog) s ∧ (s 0).todo = [] ∧ (s 0).out = [some [0], some [0]] ∧
      (machine 1 = machine 0 → ¬ Right machine 0 { id := a, node := true, comm := [0, 1] } (some [0])) := by
  intro prog
  have h1 : Step machine (init prog) _ := .split [0] (by simp) (by
    intro q hq
    rw [List.mem_singleton.1 hq]
    exact ⟨_, _, rfl, rfl, rfl⟩)
  have h2 := Steps.tail .refl h1
  have h3 := Steps.tail h2 (.ret 0 { id := a, node := true, comm := [0, 1] } [] (some (split machine [0] 0)) rfl (by
    simp [PS.start, PS.find, PS.advance, PS.finish, init, prog]))
  refine ⟨_, h3, rfl, ?_, ?_⟩
  · simp [PS.advance, PS.finish, init, prog, split]
  · intro hm h
    have := (h.2 1).2 ⟨by simp, hm⟩
    simp at this

/-! ### Not vacuous -/

/-- Four processes on two machines; two allocators, one used by all and then again, one by the even processes. -/
def sample : List Entry :=
  [{ ids := fun p => p, node := true, comm := [0, 1, 2, 3] }, { ids := fun _ => 9, node := true, comm := [0, 2] },
   { ids := fun p => p, node := true, comm := [0, 1, 2, 3] }]

example : Agree sample := by
  intro e he f hf p hpe hpf heq
  simp only [sample, List.mem_cons, List.not_mem_nil, or_false] at he hf
  rcases he with rfl | rfl | rfl <;> rcases hf with rfl | rfl | rfl <;> simp_all <;> omega

end Umpire.Mpi
