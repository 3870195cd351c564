import Verif.Replay.Program
/-!
# Compiling a recorded trace keeps the pairing of allocations and frees
-/
set_option autoImplicit false
set_option linter.unusedSimpArgs false
namespace Umpire.Replay

/-! ## Keys are injective -/

theorem hexDigit_inj : ∀ a b : Fin 16, hexDigit a.val = hexDigit b.val → a = b := by decide +kernel

theorem hexDigit_ne_x : ∀ a : Fin 16, hexDigit a.val ≠ 'x' := by decide +kernel

theorem hexRev_inj (n : Nat) : ∀ m, hexRev n = hexRev m → n = m := by
  induction n using Nat.strongRecOn with
  | ind n ih =>
    intro m h
    unfold hexRev at h
    by_cases hn : n < 16 <;> by_cases hm : m < 16 <;> simp only [hn, hm, dite_true, dite_false] at h
    · have := hexDigit_inj ⟨n, hn⟩ ⟨m, hm⟩ (by simpa using h)
      simpa using this
    · have hl := congrArg List.length h
      have h1 : 0 < (hexRev (m / 16)).length := by
        unfold hexRev; split <;> simp
      simp at hl; simp [hl] at h1
    · have hl := congrArg List.length h
      have h1 : 0 < (hexRev (n / 16)).length := by
        unfold hexRev; split <;> simp
      simp at hl; simp [hl] at h1
    · have h2 := List.cons.inj h
      have h3 := hexDigit_inj ⟨n % 16, Nat.mod_lt _ (by omega)⟩ ⟨m % 16, Nat.mod_lt _ (by omega)⟩ h2.1
      have h4 := ih (n / 16) (by omega) _ h2.2
      have h5 : n % 16 = m % 16 := by simpa using h3
      omega

theorem hexRev_noX (n : Nat) : 'x' ∉ hexRev n := by
  induction n using Nat.strongRecOn with
  | ind n ih =>
    unfold hexRev
    split
    · rename_i h
      intro hc
      exact hexDigit_ne_x ⟨n, h⟩ (List.mem_singleton.mp hc).symm
    · intro hc
      rcases List.mem_cons.mp hc with h1 | h1
      · exact hexDigit_ne_x ⟨n % 16, Nat.mod_lt _ (by omega)⟩ h1.symm
      · exact ih (n / 16) (by omega) h1

theorem split_x {xs xs' ys ys' : List Char} (h1 : 'x' ∉ xs) (h2 : 'x' ∉ xs')
    (h : xs ++ '0' :: 'x' :: ys = xs' ++ '0' :: 'x' :: ys') : xs = xs' ∧ ys = ys' := by
  induction xs generalizing xs' with
  | nil =>
    cases xs' with
    | nil => simpa using h
    | cons c t =>
      cases t with
      | nil => simp at h
      | cons c2 t2 =>
        simp only [List.nil_append, List.cons_append, List.cons.injEq] at h
        exact absurd (by rw [← h.2.1]; simp) h2
  | cons c t ih =>
    cases xs' with
    | nil =>
      cases t with
      | nil => simp at h
      | cons c2 t2 =>
        simp only [List.nil_append, List.cons_append, List.cons.injEq] at h
        exact absurd (by rw [h.2.1]; simp) h1
    | cons d t' =>
      simp only [List.cons_append, List.cons.injEq] at h
      have := ih (fun hh => h1 (List.mem_cons_of_mem _ hh)) (fun hh => h2 (List.mem_cons_of_mem _ hh)) h.2
      exact ⟨by rw [h.1, this.1], this.2⟩

/-- Two allocations have the same key only if allocator and pointer agree. -/
theorem key_inj {r p r' p' : Nat} (h : key r p = key r' p') : r = r' ∧ p = p' := by
  unfold key hex at h
  simp only [List.cons_append, List.cons.injEq, true_and] at h
  have := split_x (by simpa using hexRev_noX r) (by simpa using hexRev_noX r') h
  exact ⟨hexRev_inj _ _ (by simpa using this.1), hexRev_inj _ _ (by simpa using this.2)⟩

/-! ## Association lists -/

theorem find_erase_self {α β : Type} [DecidableEq α] (k : α) (l : List (α × β)) : find k (erase k l) = none := by
  induction l with
  | nil => rfl
  | cons e t ih =>
    unfold erase at ih ⊢
    rw [List.filter_cons]
    by_cases h : e.1 = k
    · simp only [h, ne_eq, not_true_eq_false, decide_false, Bool.false_eq_true, if_false]; exact ih
    · simp only [ne_eq, h, not_false_eq_true, decide_true, if_true]
      unfold find; rw [if_neg h]; exact ih

theorem find_erase_ne {α β : Type} [DecidableEq α] {k k' : α} (hne : k' ≠ k) (l : List (α × β)) :
    find k' (erase k l) = find k' l := by
  induction l with
  | nil => rfl
  | cons e t ih =>
    unfold erase at ih ⊢
    rw [List.filter_cons]
    obtain ⟨ek, ev⟩ := e
    by_cases h : ek = k
    · simp only [h, ne_eq, not_true_eq_false, decide_false, Bool.false_eq_true, if_false]
      conv => rhs; unfold find
      rw [if_neg (fun hh => hne (by rw [← hh]))]; exact ih
    · simp only [ne_eq, h, not_false_eq_true, decide_true, if_true]
      unfold find
      split
      · rfl
      · exact ih

theorem find_cons {α β : Type} [DecidableEq α] (k k' : α) (v : β) (l : List (α × β)) :
    find k ((k', v) :: l) = if k' = k then some v else find k l := rfl

/-! ## Executing one more operation -/

/-- The stored pointers after running operations. -/
def runTab (ret : Nat → Nat) (tab : List Nat) : List Op → List Nat
  | [] => tab
  | o :: os => runTab ret (tab ++ [o.stored (ret tab.length)]) os

theorem runTab_snoc (ret : Nat → Nat) (tab : List Nat) (xs : List Op) (o : Op) :
    runTab ret tab (xs ++ [o]) = runTab ret tab xs ++ [o.stored (ret (runTab ret tab xs).length)] := by
  induction xs generalizing tab with
  | nil => rfl
  | cons x t ih => simp only [List.cons_append, runTab]; exact ih _

theorem exec_snoc {ret : Nat → Nat} {tab : List Nat} {xs : List Op} {o : Op} {cs : List Call} {x : Call}
    (h : exec ret tab xs = some cs) (ho : o.call (runTab ret tab xs) = some x) :
    exec ret tab (xs ++ [o]) = some (cs ++ [x]) := by
  induction xs generalizing tab cs with
  | nil =>
    simp only [exec, Option.some.injEq] at h; subst h
    simp only [runTab] at ho
    simp only [List.nil_append, exec, ho]
  | cons y t ih =>
    simp only [exec] at h
    cases hy : y.call tab with
    | none => rw [hy] at h; simp at h
    | some z =>
      rw [hy] at h
      cases ht : exec ret (tab ++ [y.stored (ret tab.length)]) t with
      | none => rw [ht] at h; simp at h
      | some zs =>
        rw [ht] at h
        simp only [Option.some.injEq] at h; subst h
        simp only [List.cons_append, exec, hy, ih ht ho]

/-! ## The relation between program and compiler -/

/-- The compiler's state after the trace of a program that made `calls`. -/
structure Rel (s : P) (c : C) (calls : List Call) : Prop where
  len : c.ops.length = s.n
  pos : 1 ≤ s.n
  flag : c.flag = false
  nA : c.nAlloc = s.as.length
  refs : ∀ a r nm, s.as[a]? = some (r, nm) → find r c.refs = some a
  names : ∀ a r nm, s.as[a]? = some (r, nm) → find nm c.names = some a
  idRange : ∀ b ∈ s.live, 1 ≤ b.id ∧ b.id < s.n
  idUniq : ∀ b ∈ s.live, ∀ b' ∈ s.live, b.id = b'.id → b = b'
  apUniq : ∀ b ∈ s.live, ∀ b' ∈ s.live, b.a = b'.a → b.p = b'.p → b = b'
  nz : ∀ b ∈ s.live, b.p ≠ 0
  ids : ∀ a r nm p v, s.as[a]? = some (r, nm) → (find (key r p) c.ids = some v ↔ ∃ b ∈ s.live, b.a = a ∧ b.p = p ∧ b.id = v)
  known : ∀ b ∈ s.live, ∃ e, s.as[b.a]? = some e
  noStale : ∀ r p v, find (key r p) c.ids = some v → ∃ (a : Nat) (nm : List Char), s.as[a]? = some (r, nm)
  exec : ∀ ret, exec ret [0] (c.ops.drop 1) = some (calls.map (Call.withPtrs ret))
  tabLen : ∀ ret, (runTab ret [0] (c.ops.drop 1)).length = s.n
  tab : ∀ ret, ∀ b ∈ s.live, (runTab ret [0] (c.ops.drop 1)).getD b.id 0 = ret b.id
  tab0 : ∀ ret, (runTab ret [0] (c.ops.drop 1)).getD 0 0 = 0

theorem rel_init : Rel .init .init [] where
  len := rfl
  pos := Nat.le_refl _
  flag := rfl
  nA := rfl
  refs := by intro a r nm h; simp [P.init] at h
  names := by intro a r nm h; simp [P.init] at h
  idRange := by intro b h; simp [P.init] at h
  idUniq := by intro b h; simp [P.init] at h
  apUniq := by intro b h; simp [P.init] at h
  nz := by intro b h; simp [P.init] at h
  ids := by intro a r nm p v h; simp [P.init] at h
  known := by intro b h; simp [P.init] at h
  noStale := by intro r p v h; simp [C.init, find] at h
  exec := by intro ret; rfl
  tabLen := by intro ret; rfl
  tab := by intro ret b h; simp [P.init] at h
  tab0 := by intro ret; rfl

theorem Rel.line {s : P} {c : C} {calls : List Call} (h : Rel s c calls) (k : Nat) : Rel s { c with line := k } calls :=
  ⟨h.len, h.pos, h.flag, h.nA, h.refs, h.names, h.idRange, h.idUniq, h.apUniq, h.nz, h.ids, h.known, h.noStale,
    h.exec, h.tabLen, h.tab, h.tab0⟩

theorem Rel.ref_inj {s : P} {c : C} {calls : List Call} (h : Rel s c calls) {a a' r : Nat} {nm nm' : List Char}
    (h1 : s.as[a]? = some (r, nm)) (h2 : s.as[a']? = some (r, nm')) : a = a' := by
  have e1 := h.refs _ _ _ h1
  have e2 := h.refs _ _ _ h2
  rw [e1] at e2; simpa using e2

theorem Rel.drop_push {s : P} {c : C} {calls : List Call} (h : Rel s c calls) (o : Op) :
    (c.ops ++ [o]).drop 1 = c.ops.drop 1 ++ [o] := by
  have := h.len; have := h.pos
  exact List.drop_append_of_le_length (by omega)

/-- Counting one more operation that makes call `x`. -/
theorem Rel.exec_push {s : P} {c : C} {calls : List Call} (h : Rel s c calls) {o : Op} {x : Call}
    (ho : ∀ ret, o.call (runTab ret [0] (c.ops.drop 1)) = some (x.withPtrs ret)) :
    (∀ ret, Replay.exec ret [0] ((c.ops ++ [o]).drop 1) = some ((calls ++ [x]).map (Call.withPtrs ret))) ∧
    (∀ ret, (runTab ret [0] ((c.ops ++ [o]).drop 1)).length = s.n + 1) ∧
    (∀ ret, ∀ i, i < s.n → (runTab ret [0] ((c.ops ++ [o]).drop 1)).getD i 0 = (runTab ret [0] (c.ops.drop 1)).getD i 0) ∧
    (∀ ret, (runTab ret [0] ((c.ops ++ [o]).drop 1)).getD s.n 0 = o.stored (ret s.n)) := by
  rw [h.drop_push]
  refine ⟨fun ret => ?_, fun ret => ?_, fun ret i hi => ?_, fun ret => ?_⟩
  · rw [List.map_append]; exact exec_snoc (h.exec ret) (ho ret)
  · rw [runTab_snoc, List.length_append, h.tabLen]; rfl
  · rw [runTab_snoc]
    have := h.tabLen ret
    simp only [List.getD_eq_getElem?_getD]
    rw [List.getElem?_append_left (by omega)]
  · rw [runTab_snoc]
    have := h.tabLen ret
    simp only [List.getD_eq_getElem?_getD]
    rw [List.getElem?_append_right (by omega), this]
    simp

theorem blk_spec {s : P} {id : Nat} {b : Blk} (h : s.blk id = some b) : b ∈ s.live ∧ b.id = id := by
  unfold P.blk at h
  have h1 := List.mem_of_find?_eq_some h
  have h2 := List.find?_some h
  exact ⟨h1, by simpa using h2⟩

theorem mem_without {s : P} {id : Nat} {b : Blk} : b ∈ (s.without id).live ↔ b ∈ s.live ∧ b.id ≠ id := by
  unfold P.without
  simp [List.mem_filter]

theorem fresh_spec {s : P} {a p : Nat} (h : s.fresh a p = true) : p ≠ 0 ∧ ∀ b ∈ s.live, b.a = a → b.p ≠ p := by
  unfold P.fresh at h
  simp only [Bool.and_eq_true, decide_eq_true_eq, List.all_eq_true] at h
  exact ⟨h.1, fun b hb h1 h2 => h.2 b hb ⟨h1, h2⟩⟩

theorem viaInt_small {n : Nat} (h : n < 2 ^ 31) : viaInt n = n := by
  unfold viaInt
  have : n % 2 ^ 32 = n := Nat.mod_eq_of_lt (by omega)
  rw [this, if_pos h]

/-- A call that neither creates nor frees a block. -/
theorem Rel.tick {s : P} {c : C} {calls : List Call} (h : Rel s c calls) {o : Op} {x : Call}
    (ho : ∀ ret, o.call (runTab ret [0] (c.ops.drop 1)) = some (x.withPtrs ret)) :
    Rel s.tick (c.push o) (calls ++ [x]) := by
  obtain ⟨e1, e2, e3, _⟩ := h.exec_push ho
  have := h.pos
  exact
  { len := by simp [C.push, P.tick, h.len]
    pos := by simp [P.tick]
    flag := h.flag
    nA := h.nA
    refs := h.refs
    names := h.names
    idRange := fun b hb => ⟨(h.idRange b hb).1, by have := (h.idRange b hb).2; simp [P.tick]; omega⟩
    idUniq := h.idUniq
    apUniq := h.apUniq
    nz := h.nz
    ids := h.ids
    known := h.known
    noStale := h.noStale
    exec := e1
    tabLen := e2
    tab := fun ret b hb => by
      rw [show (c.push o).ops = c.ops ++ [o] from rfl, e3 ret _ (h.idRange b hb).2]; exact h.tab ret b hb
    tab0 := fun ret => by
      rw [show (c.push o).ops = c.ops ++ [o] from rfl, e3 ret 0 (by omega)]; exact h.tab0 ret }

/-- Dropping a block from program and table. -/
theorem Rel.drop {s : P} {c : C} {calls : List Call} (h : Rel s c calls) {b : Blk} {r : Nat} {nm : List Char}
    (hb : b ∈ s.live) (hr : s.as[b.a]? = some (r, nm)) :
    Rel (s.without b.id) { c with ids := erase (key r b.p) c.ids } calls where
  len := h.len
  pos := h.pos
  flag := h.flag
  nA := h.nA
  refs := h.refs
  names := h.names
  idRange := fun b' hb' => h.idRange b' (mem_without.mp hb').1
  idUniq := fun b1 h1 b2 h2 => h.idUniq b1 (mem_without.mp h1).1 b2 (mem_without.mp h2).1
  apUniq := fun b1 h1 b2 h2 => h.apUniq b1 (mem_without.mp h1).1 b2 (mem_without.mp h2).1
  nz := fun b' hb' => h.nz b' (mem_without.mp hb').1
  ids := by
    intro a' r' nm' p' v ha'
    have hid := h.ids a' r' nm' p' v ha'
    by_cases hk : key r' p' = key r b.p
    · obtain ⟨e1, e2⟩ := key_inj hk
      subst e1; subst e2
      have haa : a' = b.a := h.ref_inj ha' hr
      simp only [find_erase_self]
      constructor
      · intro hc; exact absurd hc (by simp)
      · rintro ⟨b', hb', h1, h2, _⟩
        obtain ⟨h3, h4⟩ := mem_without.mp hb'
        have := h.apUniq b' h3 b hb (by omega) h2
        exact absurd (by rw [this]) h4
    · show find (key r' p') (erase (key r b.p) c.ids) = some v ↔ _
      rw [find_erase_ne hk, hid]
      constructor
      · rintro ⟨b', hb', h1, h2, h3⟩
        refine ⟨b', mem_without.mpr ⟨hb', fun he => hk ?_⟩, h1, h2, h3⟩
        have := h.idUniq b' hb' b hb he
        subst this
        have : r' = r := by
          have e : s.as[a']? = some (r, nm) := by rw [← h1]; exact hr
          have ha2 : s.as[a']? = some (r', nm') := ha'
          rw [ha2] at e; simp at e; exact e.1
        rw [this, h2]
      · rintro ⟨b', hb', h1, h2, h3⟩
        exact ⟨b', (mem_without.mp hb').1, h1, h2, h3⟩
  known := fun b' hb' => h.known b' (mem_without.mp hb').1
  noStale := by
    intro r' p' v hf
    by_cases hk : key r' p' = key r b.p
    · have hf' : find (key r' p') (erase (key r b.p) c.ids) = some v := hf
      rw [hk, find_erase_self] at hf'; exact absurd hf' (by simp)
    · have hf' : find (key r' p') (erase (key r b.p) c.ids) = some v := hf
      rw [find_erase_ne hk] at hf'
      exact h.noStale r' p' v hf'
  exec := h.exec
  tabLen := h.tabLen
  tab := fun ret b' hb' => h.tab ret b' (mem_without.mp hb').1
  tab0 := h.tab0

/-- A call that produces a block. -/
theorem Rel.born {s : P} {c : C} {calls : List Call} (h : Rel s c calls) {o : Op} {x : Call} {a p r : Nat}
    {nm : List Char} (ha : s.as[a]? = some (r, nm)) (hf : s.fresh a p = true) (hn : s.n < 2 ^ 31)
    (hs : ∀ v, o.stored v = v)
    (ho : ∀ ret, o.call (runTab ret [0] (c.ops.drop 1)) = some (x.withPtrs ret)) :
    Rel (s.born a p) { c.push o with ids := (key r p, viaInt c.ops.length) :: c.ids } (calls ++ [x]) := by
  obtain ⟨e1, e2, e3, e4⟩ := h.exec_push ho
  obtain ⟨f1, f2⟩ := fresh_spec hf
  have hpos := h.pos
  have hv : viaInt c.ops.length = s.n := by rw [h.len, viaInt_small hn]
  have hmem : ∀ b, b ∈ (s.born a p).live ↔ b = ⟨s.n, a, p⟩ ∨ b ∈ s.live := by intro b; simp [P.born]
  refine
  { len := by simp [C.push, P.born, h.len]
    pos := by simp [P.born]
    flag := h.flag
    nA := h.nA
    refs := h.refs
    names := h.names
    idRange := ?_
    idUniq := ?_
    apUniq := ?_
    nz := ?_
    ids := ?_
    known := ?_
    noStale := ?_
    exec := e1
    tabLen := e2
    tab := ?_
    tab0 := fun ret => by
      show (runTab ret [0] ((c.ops ++ [o]).drop 1)).getD 0 0 = 0
      rw [e3 ret 0 (by omega)]; exact h.tab0 ret }
  · intro b hb
    rcases (hmem b).mp hb with rfl | hb
    · exact ⟨hpos, by simp [P.born]⟩
    · have := h.idRange b hb
      exact ⟨this.1, by simp [P.born]; omega⟩
  · intro b hb b' hb' he
    rcases (hmem b).mp hb with rfl | hb <;> rcases (hmem b').mp hb' with rfl | hb'
    · rfl
    · have := h.idRange b' hb'; simp at he; omega
    · have := h.idRange b hb; simp at he; omega
    · exact h.idUniq b hb b' hb' he
  · intro b hb b' hb' h1 h2
    rcases (hmem b).mp hb with rfl | hb <;> rcases (hmem b').mp hb' with rfl | hb'
    · rfl
    · exact absurd h2.symm (f2 b' hb' h1.symm)
    · exact absurd h2 (f2 b hb h1)
    · exact h.apUniq b hb b' hb' h1 h2
  · intro b hb
    rcases (hmem b).mp hb with rfl | hb
    · exact f1
    · exact h.nz b hb
  · intro a' r' nm' p' v ha'
    show find (key r' p') ((key r p, viaInt c.ops.length) :: c.ids) = some v ↔ _
    rw [find_cons, hv]
    have hid := h.ids a' r' nm' p' v ha'
    by_cases hk : key r p = key r' p'
    · rw [if_pos hk]
      obtain ⟨k1, k2⟩ := key_inj hk
      subst k1; subst k2
      have haa : a' = a := h.ref_inj ha' ha
      subst haa
      constructor
      · intro he
        exact ⟨⟨s.n, a', p⟩, (hmem _).mpr (Or.inl rfl), rfl, rfl, by simpa using he⟩
      · rintro ⟨b, hb, h1, h2, h3⟩
        rcases (hmem b).mp hb with rfl | hb
        · simpa using h3
        · exact absurd h2 (f2 b hb h1)
    · rw [if_neg hk, hid]
      constructor
      · rintro ⟨b, hb, h1⟩; exact ⟨b, (hmem _).mpr (Or.inr hb), h1⟩
      · rintro ⟨b, hb, h1, h2, h3⟩
        rcases (hmem b).mp hb with rfl | hb
        · simp at h1 h2
          have e : s.as[a]? = some (r', nm') := by rw [h1]; exact ha'
          rw [ha] at e; simp at e
          exact absurd (by rw [e.1, h2]) hk
        · exact ⟨b, hb, h1, h2, h3⟩
  · intro b hb
    rcases (hmem b).mp hb with rfl | hb
    · exact ⟨_, ha⟩
    · exact h.known b hb
  · intro r' p' v hff
    have hff' : find (key r' p') ((key r p, viaInt c.ops.length) :: c.ids) = some v := hff
    rw [find_cons] at hff'
    by_cases hk : key r p = key r' p'
    · obtain ⟨k1, _⟩ := key_inj hk
      exact ⟨a, nm, by rw [← k1]; exact ha⟩
    · rw [if_neg hk] at hff'
      exact h.noStale r' p' v hff'
  · intro ret b hb
    show (runTab ret [0] ((c.ops ++ [o]).drop 1)).getD b.id 0 = ret b.id
    rcases (hmem b).mp hb with rfl | hb
    · show (runTab ret [0] ((c.ops ++ [o]).drop 1)).getD s.n 0 = ret s.n
      rw [e4 ret, hs]
    · rw [e3 ret _ (h.idRange b hb).2]; exact h.tab ret b hb

/-! ## One action -/

theorem compileAll_append {c c' : C} {xs ys : List Ev} (h : compileAll c xs = some c') :
    compileAll c (xs ++ ys) = compileAll c' ys := by
  induction xs generalizing c with
  | nil => simp only [compileAll, Option.some.injEq] at h; subst h; rfl
  | cons e es ih =>
    simp only [compileAll, List.cons_append] at h ⊢
    cases he : compileEv c e with
    | none => rw [he] at h; simp at h
    | some c1 => rw [he] at h; exact ih h

theorem compileAll_one (c : C) (e : Ev) : compileAll c [e] = compileEv c e := by
  simp only [compileAll]
  cases compileEv c e <;> rfl

/-- The events inside a `reallocate` are skipped. -/
theorem inner_skipped {c : C} {inner : List Ev} (hf : c.flag = true) (hi : inner.all innerOk = true) :
    ∃ k, compileAll c inner = some { c with line := k } := by
  induction inner generalizing c with
  | nil => exact ⟨c.line, rfl⟩
  | cons e es ih =>
    simp only [List.all_cons, Bool.and_eq_true] at hi
    have h1 : compileEv c e = some { c with line := c.line + 1 } := by
      cases e <;> simp [innerOk] at hi <;> simp [compileEv, compileAllocate, compileDeallocate, hf]
    obtain ⟨k, hk⟩ := ih (c := { c with line := c.line + 1 }) hf hi.2
    exact ⟨k, by simp only [compileAll, h1, hk]⟩

theorem getElem?_snoc {α : Type} {l : List α} {x y : α} {i : Nat} (h : (l ++ [x])[i]? = some y) :
    l[i]? = some y ∨ (i = l.length ∧ x = y) := by
  by_cases hi : i < l.length
  · rw [List.getElem?_append_left hi] at h; exact Or.inl h
  · rw [List.getElem?_append_right (by omega)] at h
    by_cases h0 : i - l.length = 0
    · rw [h0] at h; simp at h; exact Or.inr ⟨by omega, h⟩
    · rw [List.getElem?_eq_none (by simp; omega)] at h; simp at h

theorem step_make {s : P} {c : C} {calls : List Call} (h : Rel s c calls) {ref : Nat} {nm : List Char} {d : Done}
    (hd : perform s (.make ref nm) = some d) :
    ∃ c', compileAll c d.evs = some c' ∧ Rel d.next c' (calls ++ d.calls) := by
  simp only [perform] at hd
  split at hd
  · rename_i hc
    simp only [Option.some.injEq] at hd; subst hd
    have hfr : ∀ (i r' : Nat) (nm' : List Char), s.as[i]? = some (r', nm') → r' ≠ ref ∧ nm' ≠ nm := by
      intro i r' nm' hi
      have := List.all_eq_true.mp hc.1 _ (List.mem_of_getElem? hi)
      simpa using this
    have hh := h.line (c.line + 1)
    have ht := hh.tick (o := { Op.zero with kind := .creation, line := c.line + 1, alloc := c.nAlloc })
      (x := .create s.as.length) (by intro ret; simp [Op.call, Call.withPtrs, h.nA])
    refine ⟨_, by
      simp only [compileAll_one, compileEv, compileMake]
      rw [if_neg (by have := h.nA; have := hc.2; omega)], ?_⟩
    exact
    { len := ht.len
      pos := ht.pos
      flag := ht.flag
      nA := by simp [h.nA]
      refs := by
        intro a r' nm' hi
        show find r' ((ref, c.nAlloc) :: c.refs) = some a
        rw [find_cons]
        rcases getElem?_snoc hi with hi | ⟨h1, h2⟩
        · rw [if_neg (fun e => (hfr _ _ _ hi).1 e.symm)]; exact h.refs _ _ _ hi
        · simp at h2; rw [if_pos h2.1, h.nA, h1]
      names := by
        intro a r' nm' hi
        show find nm' ((nm, c.nAlloc) :: c.names) = some a
        rw [find_cons]
        rcases getElem?_snoc hi with hi | ⟨h1, h2⟩
        · rw [if_neg (fun e => (hfr _ _ _ hi).2 e.symm)]; exact h.names _ _ _ hi
        · simp at h2; rw [if_pos h2.2, h.nA, h1]
      idRange := ht.idRange
      idUniq := ht.idUniq
      apUniq := ht.apUniq
      nz := ht.nz
      ids := by
        intro a r' nm' p v hi
        rcases getElem?_snoc hi with hi | ⟨h1, h2⟩
        · exact h.ids a r' nm' p v hi
        · simp at h2
          constructor
          · intro hf
            obtain ⟨a2, nm2, h3⟩ := h.noStale r' p v hf
            exact absurd h2.1.symm (hfr _ _ _ h3).1
          · rintro ⟨b, hb, hba, _⟩
            obtain ⟨e, he⟩ := h.known b hb
            have : b.a < s.as.length := by
              by_cases hlt : b.a < s.as.length
              · exact hlt
              · rw [List.getElem?_eq_none (by omega)] at he; simp at he
            have h1' : a = s.as.length := h1
            omega
      known := by
        intro b hb
        obtain ⟨e, he⟩ := h.known b hb
        refine ⟨e, ?_⟩
        show (s.as ++ [(ref, nm)])[b.a]? = some e
        have : b.a < s.as.length := by
          by_cases hlt : b.a < s.as.length
          · exact hlt
          · rw [List.getElem?_eq_none (by omega)] at he; simp at he
        rw [List.getElem?_append_left this]; exact he
      noStale := by
        intro r' p v hf
        obtain ⟨a2, nm2, h3⟩ := h.noStale r' p v hf
        refine ⟨a2, nm2, ?_⟩
        show (s.as ++ [(ref, nm)])[a2]? = some (r', nm2)
        have : a2 < s.as.length := by
          by_cases hlt : a2 < s.as.length
          · exact hlt
          · rw [List.getElem?_eq_none (by omega)] at h3; simp at h3
        rw [List.getElem?_append_left this]; exact h3
      exec := ht.exec
      tabLen := ht.tabLen
      tab := ht.tab
      tab0 := ht.tab0 }
  · simp at hd

theorem fresh_unknown {s : P} {c : C} {calls : List Call} (h : Rel s c calls) {a p r : Nat} {nm : List Char}
    (ha : s.as[a]? = some (r, nm)) (hf : ∀ b ∈ s.live, b.a = a → b.p ≠ p) : find (key r p) c.ids = none := by
  cases hk : find (key r p) c.ids with
  | none => rfl
  | some v =>
    obtain ⟨b, hb, h1, h2, _⟩ := (h.ids a r nm p v ha).mp hk
    exact absurd h2 (hf b hb h1)

theorem step_alloc {s : P} {c : C} {calls : List Call} (h : Rel s c calls) {a n p : Nat} {d : Done}
    (hd : perform s (.alloc a n p) = some d) :
    ∃ c', compileAll c d.evs = some c' ∧ Rel d.next c' (calls ++ d.calls) := by
  simp only [perform] at hd
  cases ha : s.as[a]? with
  | none => rw [ha] at hd; simp at hd
  | some e =>
    obtain ⟨r, nm⟩ := e
    rw [ha] at hd
    simp only at hd
    split at hd
    · rename_i hc
      simp only [Option.some.injEq] at hd; subst hd
      have hh := h.line (c.line + 1)
      refine ⟨_, ?_, hh.born (o := { Op.zero with kind := .allocate, line := c.line + 1, alloc := a, size := n })
        ha hc.2 hc.1 (by intro v; rfl) (by intro ret; rfl)⟩
      simp only [compileAll_one, compileEv, compileAllocate, h.flag, Bool.false_eq_true, if_false,
        h.refs _ _ _ ha, fresh_unknown h ha (fresh_spec hc.2).2]
    · simp at hd

theorem step_free {s : P} {c : C} {calls : List Call} (h : Rel s c calls) {id : Nat} {d : Done}
    (hd : perform s (.free id) = some d) :
    ∃ c', compileAll c d.evs = some c' ∧ Rel d.next c' (calls ++ d.calls) := by
  simp only [perform] at hd
  cases hb : s.blk id with
  | none => rw [hb] at hd; simp at hd
  | some b =>
    rw [hb] at hd
    simp only at hd
    obtain ⟨hbm, hbi⟩ := blk_spec hb
    subst hbi
    cases ha : s.as[b.a]? with
    | none => rw [ha] at hd; simp at hd
    | some e =>
      obtain ⟨r, nm⟩ := e
      rw [ha] at hd
      simp only [Option.some.injEq] at hd; subst hd
      have hh := (h.line (c.line + 1)).drop hbm ha
      have hid : b.id ≠ 0 := by have := (h.idRange b hbm).1; omega
      have ht := hh.tick (o := { Op.zero with kind := .deallocate, line := c.line + 1, alloc := b.a, src0 := b.id })
        (x := .deallocate b.a b.id) (by
          intro ret
          have := h.tab ret b hbm
          simp only [Op.call, Call.withPtrs, if_neg hid]
          rw [this])
      refine ⟨_, ?_, ht⟩
      have hf : find (key r b.p) c.ids = some b.id := (h.ids b.a r nm b.p b.id ha).mpr ⟨b, hbm, rfl, rfl, rfl⟩
      simp only [compileAll_one, compileEv, compileDeallocate, h.flag, Bool.false_eq_true, if_false,
        h.refs _ _ _ ha, hf]
      rfl

theorem step_stray {s : P} {c : C} {calls : List Call} (h : Rel s c calls) {a p : Nat} {d : Done}
    (hd : perform s (.stray a p) = some d) :
    ∃ c', compileAll c d.evs = some c' ∧ Rel d.next c' (calls ++ d.calls) := by
  simp only [perform] at hd
  cases ha : s.as[a]? with
  | none => rw [ha] at hd; simp at hd
  | some e =>
    obtain ⟨r, nm⟩ := e
    rw [ha] at hd
    simp only at hd
    split at hd
    · rename_i hc
      simp only [Option.some.injEq] at hd; subst hd
      have hu := fresh_unknown h ha (p := p) (by
        intro b hb h1 h2
        have := List.all_eq_true.mp hc b hb
        simp only [decide_eq_true_eq] at this
        exact this ⟨h1, h2⟩)
      refine ⟨_, ?_, by simpa using h.line (c.line + 1)⟩
      simp only [compileAll_one, compileEv, compileDeallocate, h.flag, Bool.false_eq_true, if_false,
        h.refs _ _ _ ha, hu]
    · simp at hd

theorem step_on {s : P} {c : C} {calls : List Call} (h : Rel s c calls) {a r : Nat} {nm : List Char}
    (ha : s.as[a]? = some (r, nm)) (k : Kind) (x : Call)
    (ho : ∀ ret tab, ({ Op.zero with kind := k, line := c.line + 1, alloc := a } : Op).call tab = some (x.withPtrs ret)) :
    ∃ c', compileOn k { c with line := c.line + 1 } r = some c' ∧ Rel s.tick c' (calls ++ [x]) := by
  refine ⟨_, ?_, (h.line (c.line + 1)).tick (fun ret => ho ret _)⟩
  simp only [compileOn, h.refs _ _ _ ha]

theorem step_coalesce {s : P} {c : C} {calls : List Call} (h : Rel s c calls) {a r : Nat} {nm : List Char}
    (ha : s.as[a]? = some (r, nm)) (hp : plainName nm = true) :
    ∃ c', compileAll c [.coalesce nm] = some c' ∧ Rel s.tick c' (calls ++ [.coalesce a]) := by
  have hs : stripBase nm = nm := by simpa [plainName] using hp
  refine ⟨_, ?_, (h.line (c.line + 1)).tick
    (o := { Op.zero with kind := .coalesce, line := c.line + 1, alloc := a }) (by intro ret; rfl)⟩
  simp only [compileAll_one, compileEv, compileCoalesce, hs, h.names _ _ _ ha]
  rfl

/-- The two `reallocate` events with whatever is between them. -/
theorem step_realloc_core {s : P} {c : C} {calls : List Call} {a r n p cur id : Nat} {nm : List Char}
    {inner : List Ev} {s1 : P} {ids1 : List (List Char × Nat)}
    (h1 : Rel s1 { c with ids := ids1 } calls) (hs1 : s1.n = s.n) (ha : s1.as[a]? = some (r, nm))
    (hsrc : (if cur = 0 then some 0 else find (key r cur) c.ids) = some id)
    (hids : ids1 = if cur = 0 then c.ids else erase (key r cur) c.ids)
    (hi : inner.all innerOk = true) (hf : s1.fresh a p = true) (hn : s.n < 2 ^ 31)
    (htab : ∀ ret, (runTab ret [0] (c.ops.drop 1)).getD id 0 = if id = 0 then 0 else ret id) :
    ∃ c', compileAll c (.realloc1 r cur n :: (inner ++ [.realloc2 r p])) = some c' ∧
      Rel (s1.born a p) c' (calls ++ [.reallocate a id n]) := by
  have hr := h1.refs _ _ _ ha
  have hr' : find r c.refs = some a := hr
  let o : Op := { Op.zero with kind := .reallocateEx, line := c.line + 1, alloc := a, size := n, src1 := id }
  have e1 : compileEv c (.realloc1 r cur n) =
      some { c with line := c.line + 1, flag := true, slot := o, ids := ids1 } := by
    simp only [compileEv, compileRealloc1, hsrc, hr', hids]
    rfl
  obtain ⟨k, hk⟩ := inner_skipped (c := { c with line := c.line + 1, flag := true, slot := o, ids := ids1 }) rfl hi
  have hu : find (key r p) ids1 = none := fresh_unknown h1 ha (fresh_spec hf).2
  have hb := (h1.line (k + 1)).born (o := o) (x := .reallocate a id n) ha hf (by omega) (by intro v; rfl) (by
    intro ret
    have := htab ret
    simp only [Op.call, Call.withPtrs, o]
    rw [this])
  refine ⟨_, ?_, hb⟩
  simp only [compileAll, e1]
  rw [compileAll_append hk, compileAll_one]
  simp only [compileEv, compileRealloc2, hu]
  have : c.flag = false := h1.flag
  simp only [C.push, this]

theorem step_realloc {s : P} {c : C} {calls : List Call} (h : Rel s c calls) {a id n p : Nat} {inner : List Ev}
    {d : Done} (hd : perform s (.realloc a id n p inner) = some d) :
    ∃ c', compileAll c d.evs = some c' ∧ Rel d.next c' (calls ++ d.calls) := by
  simp only [perform] at hd
  cases ha : s.as[a]? with
  | none => rw [ha] at hd; simp at hd
  | some e =>
    obtain ⟨r, nm⟩ := e
    rw [ha] at hd
    simp only at hd
    split at hd
    · rename_i hc
      by_cases h0 : id = 0
      · subst h0
        simp only [if_true] at hd
        split at hd
        · rename_i hf
          simp only [Option.some.injEq] at hd; subst hd
          exact step_realloc_core (ids1 := c.ids) (cur := 0) h rfl ha rfl rfl hc.2 hf hc.1
            (fun ret => h.tab0 ret)
        · simp at hd
      · rw [if_neg h0] at hd
        cases hb : s.blk id with
        | none => rw [hb] at hd; simp at hd
        | some b =>
          rw [hb] at hd
          simp only at hd
          obtain ⟨hbm, hbi⟩ := blk_spec hb
          subst hbi
          split at hd
          · rename_i hf
            simp only [Option.some.injEq] at hd; subst hd
            have haa := hf.1
            subst haa
            have hnz := h.nz b hbm
            refine step_realloc_core (ids1 := erase (key r b.p) c.ids) (h.drop hbm ha) rfl ha ?_ ?_ hc.2 hf.2 hc.1 ?_
            · rw [if_neg hnz]
              exact (h.ids b.a r nm b.p b.id ha).mpr ⟨b, hbm, rfl, rfl, rfl⟩
            · rw [if_neg hnz]
            · intro ret; rw [if_neg h0]; exact h.tab ret b hbm
          · simp at hd
    · simp at hd

theorem step {s : P} {c : C} {calls : List Call} (h : Rel s c calls) {x : Act} {d : Done}
    (hd : perform s x = some d) (hcl : clean s x = true) :
    ∃ c', compileAll c d.evs = some c' ∧ Rel d.next c' (calls ++ d.calls) := by
  cases x with
  | make ref nm => exact step_make h hd
  | alloc a n p => exact step_alloc h hd
  | free id => exact step_free h hd
  | stray a p => exact step_stray h hd
  | realloc a id n p inner => exact step_realloc h hd
  | reallocFail a id n inner => simp [clean] at hcl
  | reallocRace a n p m q => simp [clean] at hcl
  | memset => simp [clean] at hcl
  | quiet =>
    simp only [perform, Option.some.injEq] at hd; subst hd
    exact ⟨{ c with line := c.line + 1 }, by simp only [compileAll_one, compileEv], by simpa using h.line (c.line + 1)⟩
  | setDefault a =>
    simp only [perform] at hd
    cases ha : s.as[a]? with
    | none => rw [ha] at hd; simp at hd
    | some e =>
      obtain ⟨r, nm⟩ := e
      rw [ha] at hd
      simp only [Option.some.injEq] at hd; subst hd
      simp only [compileAll_one, compileEv]
      exact step_on h ha .setDefault (.setDefault a) (by intro ret tab; rfl)
  | release a =>
    simp only [perform] at hd
    cases ha : s.as[a]? with
    | none => rw [ha] at hd; simp at hd
    | some e =>
      obtain ⟨r, nm⟩ := e
      rw [ha] at hd
      simp only [Option.some.injEq] at hd; subst hd
      simp only [compileAll_one, compileEv]
      exact step_on h ha .release (.release a) (by intro ret tab; rfl)
  | coalesce a =>
    simp only [perform] at hd
    cases ha : s.as[a]? with
    | none => rw [ha] at hd; simp at hd
    | some e =>
      obtain ⟨r, nm⟩ := e
      rw [ha] at hd
      simp only [Option.some.injEq] at hd; subst hd
      simp only [clean, ha] at hcl
      exact step_coalesce h ha hcl

theorem steps {s : P} {c : C} {calls : List Call} (h : Rel s c calls) {xs : List Act} {d : Done}
    (hd : program s xs = some d) (hcl : cleanRun s xs = true) :
    ∃ c', compileAll c d.evs = some c' ∧ Rel d.next c' (calls ++ d.calls) := by
  induction xs generalizing s c calls d with
  | nil =>
    simp only [program, Option.some.injEq] at hd; subst hd
    exact ⟨c, rfl, by simpa using h⟩
  | cons x t ih =>
    simp only [program] at hd
    cases hp : perform s x with
    | none => rw [hp] at hd; simp at hd
    | some d1 =>
      rw [hp] at hd
      simp only [cleanRun, hp, Bool.and_eq_true] at hcl
      cases ht : program d1.next t with
      | none => simp only [ht] at hd; simp at hd
      | some d2 =>
        simp only [ht, Option.some.injEq] at hd; subst hd
        obtain ⟨c1, hc1, hr1⟩ := step h hp hcl.1
        obtain ⟨c2, hc2, hr2⟩ := ih hr1 ht hcl.2
        refine ⟨c2, ?_, by simpa [List.append_assoc] using hr2⟩
        rw [compileAll_append hc1]; exact hc2

end Umpire.Replay
