import Verif.Names.Model
/-!
What each naming operation does to the tables, and the invariant kept by every
program.
-/
set_option autoImplicit false
set_option linter.unusedSimpArgs false

namespace Umpire.Names

/-! ### Association lists -/

section
variable {α β : Type} [DecidableEq α]

theorem find_filter_ne {m : List (α × β)} {k j : α} (h : j ≠ k) :
    (m.filter (fun e => !decide (e.1 = k))).find? (fun e => decide (e.1 = j))
      = m.find? (fun e => decide (e.1 = j)) := by
  induction m with
  | nil => rfl
  | cons e es ih =>
    by_cases h1 : e.1 = k
    · have h2 : e.1 ≠ j := fun h2 => h (h2.symm.trans h1)
      rw [List.filter_cons, if_neg (by simp [h1]), ih, List.find?_cons]
      simp [h2]
    · rw [List.filter_cons, if_pos (by simp [h1]), List.find?_cons, List.find?_cons, ih]

theorem get_put_self (m : List (α × β)) (k : α) (v : β) : get (put m k v) k = some v := by
  simp [get, put]

theorem get_put_ne (m : List (α × β)) {k j : α} (v : β) (h : j ≠ k) :
    get (put m k v) j = get m j := by
  unfold get put
  rw [List.find?_cons]
  have : decide (k = j) = false := by simpa using fun h2 : k = j => h h2.symm
  simp only [this]
  rw [find_filter_ne h]

theorem get_put (m : List (α × β)) (k j : α) (v : β) :
    get (put m k v) j = if j = k then some v else get m j := by
  by_cases h : j = k
  · subst h; rw [if_pos rfl, get_put_self]
  · rw [if_neg h, get_put_ne m v h]

theorem get_del_self (m : List (α × β)) (k : α) : get (del m k) k = none := by
  unfold get del
  simp

theorem get_del_ne (m : List (α × β)) {k j : α} (h : j ≠ k) : get (del m k) j = get m j := by
  unfold get del
  rw [find_filter_ne h]

theorem filter_absent {m : List (α × β)} {k : α} (h : get m k = none) :
    m.filter (fun e => !decide (e.1 = k)) = m := by
  apply List.filter_eq_self.mpr
  intro e he
  have h' : m.find? (fun e => decide (e.1 = k)) = none := by
    simpa [get] using h
  have := (List.find?_eq_none.mp h') e he
  simpa using this

theorem get_mem {m : List (α × β)} {k : α} {v : β} (h : get m k = some v) : (k, v) ∈ m := by
  unfold get at h
  cases hf : m.find? (fun e => decide (e.1 = k)) with
  | none => rw [hf] at h; cases h
  | some e =>
    rw [hf] at h
    have h1 := List.find?_some hf
    have h2 := List.mem_of_find?_eq_some hf
    simp at h h1
    rw [← h, ← h1]; exact h2

theorem get_none_iff {m : List (α × β)} {k : α} : get m k = none ↔ k ∉ m.map (·.1) := by
  unfold get
  rw [Option.map_eq_none_iff, List.find?_eq_none]
  constructor
  · intro h hm
    obtain ⟨e, he, hk⟩ := List.mem_map.mp hm
    exact h e he (by simpa using hk)
  · intro h e he hk
    exact h (List.mem_map.mpr ⟨e, he, by simpa using hk⟩)

theorem mem_put {m : List (α × β)} {k : α} {v : β} {e : α × β} (h : e ∈ put m k v) :
    e = (k, v) ∨ e ∈ m := by
  unfold put at h
  rcases List.mem_cons.mp h with h | h
  · exact .inl h
  · exact .inr (List.mem_filter.mp h).1

theorem mem_del {m : List (α × β)} {k : α} {e : α × β} (h : e ∈ del m k) : e ∈ m :=
  (List.mem_filter.mp h).1

end

/-! ### Objects -/

theorem obj_lt {s : RM} {h : Nat} {o : Obj} (ho : obj s h = some o) : h < s.heap.length := by
  unfold obj at ho
  rcases Nat.lt_or_ge h s.heap.length with hl | hl
  · exact hl
  · rw [List.getElem?_eq_none hl] at ho; cases ho

theorem obj_append {s s' : RM} {x : Option Obj} (hs : s'.heap = s.heap ++ [x]) {h : Nat}
    (hl : h < s.heap.length) : obj s' h = obj s h := by
  unfold obj
  rw [hs, List.getElem?_append_left hl]

theorem obj_new {s s' : RM} {x : Option Obj} (hs : s'.heap = s.heap ++ [x]) :
    obj s' s.heap.length = x := by
  unfold obj
  rw [hs, List.getElem?_append_right (Nat.le_refl _)]
  simp

theorem obj_of_heap {s s' : RM} (hs : s'.heap = s.heap) (h : Nat) : obj s' h = obj s h := by
  unfold obj; rw [hs]

/-! ### Effects -/

/-- The resource names an operation may create a resource for. -/
def Op.mayCreate (g : Reg) : Op → Name → Prop
  | .resource n _, m => m = n
  | .resourceT n _, m => m = n
  | .byName n _, m => m = n ∧ m ∈ g.names
  | .byType t _, m => toName t = some m ∧ m ∈ g.names
  | .getDefault _, m => m = HOST ∧ m ∈ g.names
  | .alias n _ _, m => m = n ∧ m ∈ g.names
  | _, _ => False

/-- What an operation can do to the tables (ignoring the default allocator and
the table by type). -/
inductive Change (g : Reg) (op : Op) (s : RM) : RM → Prop
  | same (s' : RM) : s'.heap = s.heap → s'.byName = s.byName → s'.byId = s.byId →
      s'.nextId = s.nextId → Change g op s s'
  | burn (s' : RM) : s'.heap = s.heap → s'.byName = s.byName → s'.byId = s.byId →
      s'.nextId = s.nextId + 1 → Change g op s s'
  | made (n : Name) (s' : RM) : isAllocator g s n = false → s.nextId + 1 ≠ INVALID →
      s'.heap = s.heap ++ [some ⟨n, s.nextId⟩] → s'.byName = put s.byName n s.heap.length →
      s'.byId = put s.byId s.nextId s.heap.length → s'.nextId = s.nextId + 1 → Change g op s s'
  | res (n : Name) (s' : RM) : get s.byName n = none → op.mayCreate g n →
      s'.heap = s.heap ++ [some ⟨n, s.nextId⟩] → s'.byName = nameIt s.byName n s.heap.length →
      s'.byId = put s.byId s.nextId s.heap.length → s'.nextId = s.nextId + 1 → Change g op s s'
  | dangle (n : Name) (s' : RM) : get s.byName n = none → op.mayCreate g n →
      has COLONS n = false → ofName n = none → s'.heap = s.heap ++ [none] →
      s'.byName = nameIt s.byName n s.heap.length →
      s'.byId = s.byId → s'.nextId = s.nextId + 1 → Change g op s s'
  | aliased (n : Name) (h : Nat) (s' : RM) : op = .alias n h true ∨ op = .alias n h false →
      isAllocator g s n = false → s'.heap = s.heap →
      s'.byName = put s.byName n h → s'.byId = s.byId → s'.nextId = s.nextId → Change g op s s'
  | unaliased (n : Name) (h a : Nat) (o : Obj) (s' : RM) : op = .unalias n h →
      get s.byName n = some a → obj s a = some o →
      o.name ≠ n → s'.heap = s.heap → s'.byName = del s.byName n → s'.byId = s.byId →
      s'.nextId = s.nextId → Change g op s s'

theorem Change.refl (g : Reg) (op : Op) (s : RM) : Change g op s s := .same s rfl rfl rfl rfl

theorem errInfo_after {s s' : RM} (h : (errInfo s).after = some s') : s' = s := by
  unfold errInfo at h
  split at h
  · exact (Option.some.inj h).symm
  · cases h

theorem wrap_after {s s' : RM} {h : Nat} (hh : (wrap s h).after = some s') : s' = s := by
  unfold wrap at hh
  split at hh
  · exact (Option.some.inj hh).symm
  · cases hh

theorem makeResourceT_change {g : Reg} {op : Op} {s s' : RM} {n : Name} {c : Bool}
    (hm : op.mayCreate g n) (h : (makeResourceT g s n c).after = some s') : Change g op s s' := by
  unfold makeResourceT at h
  split at h
  · cases h; exact .refl _ _ _
  · rename_i hn
    have hnone : get s.byName n = none := by
      simpa using hn
    split at h
    · cases h; exact .refl _ _ _
    · dsimp only at h
      split at h
      · cases h; exact .burn _ rfl rfl rfl rfl
      · split at h
        · cases h; exact .res n _ hnone hm rfl rfl rfl rfl
        · rename_i hc
          have hc' : has COLONS n = false := by simpa using hc
          split at h
          · rename_i ho
            cases h; exact .dangle n _ hnone hm hc' ho rfl rfl rfl rfl
          · cases h; exact .res n _ hnone hm rfl rfl rfl rfl

theorem makeResource_change {g : Reg} {op : Op} {s s' : RM} {n : Name} {c : Bool}
    (hm : op.mayCreate g n) (h : (makeResource g s n c).after = some s') : Change g op s s' := by
  unfold makeResource at h
  split at h
  · exact makeResourceT_change hm h
  · cases h; exact .refl _ _ _

theorem bind_after {α β : Type} {x : Out α} {f : α → RM → Out β} {s' : RM}
    (h : (x.bind f).after = some s') :
    ∃ s1, x.after = some s1 ∧ (s' = s1 ∨ ∃ v, x = .ok v s1 ∧ (f v s1).after = some s') := by
  cases x with
  | ok v s => exact ⟨s, rfl, .inr ⟨v, rfl, h⟩⟩
  | err s => exact ⟨s, rfl, .inl (Option.some.inj h).symm⟩
  | ub => cases h

theorem getStrategy_change {g : Reg} {op : Op} {s s' : RM} {n : Name} {c : Bool}
    (hm : n ∈ g.names → op.mayCreate g n) (h : (getStrategy g s n c).after = some s') :
    Change g op s s' := by
  unfold getStrategy at h
  split at h
  · cases h; exact .refl _ _ _
  · split at h
    · rename_i hc
      have hc' : n ∈ g.names := by simpa using hc
      obtain ⟨s1, h1, h2⟩ := bind_after h
      have := makeResource_change (op := op) (hm hc') h1
      rcases h2 with h2 | ⟨v, _, h2⟩
      · rw [h2]; exact this
      · split at h2
        · cases h2; exact this
        · cases h2
    · rw [errInfo_after h]; exact .refl _ _ _

theorem getByName_change {g : Reg} {op : Op} {s s' : RM} {n : Name} {c : Bool}
    (hm : n ∈ g.names → op.mayCreate g n) (h : (getByName g s n c).after = some s') :
    Change g op s s' := by
  unfold getByName at h
  obtain ⟨s1, h1, h2⟩ := bind_after h
  have := getStrategy_change hm h1
  rcases h2 with h2 | ⟨v, _, h2⟩
  · rw [h2]; exact this
  · rw [wrap_after h2]; exact this

theorem Change.retarget {g : Reg} {op : Op} {s s1 s' : RM} (h : Change g op s s1)
    (h1 : s'.heap = s1.heap) (h2 : s'.byName = s1.byName) (h3 : s'.byId = s1.byId)
    (h4 : s'.nextId = s1.nextId) : Change g op s s' := by
  cases h with
  | same _ a b c d => exact .same _ (h1.trans a) (h2.trans b) (h3.trans c) (h4.trans d)
  | burn _ a b c d => exact .burn _ (h1.trans a) (h2.trans b) (h3.trans c) (h4.trans d)
  | made n _ x y a b c d => exact .made n _ x y (h1.trans a) (h2.trans b) (h3.trans c) (h4.trans d)
  | res n _ x y a b c d => exact .res n _ x y (h1.trans a) (h2.trans b) (h3.trans c) (h4.trans d)
  | dangle n _ x y p q a b c d =>
    exact .dangle n _ x y p q (h1.trans a) (h2.trans b) (h3.trans c) (h4.trans d)
  | aliased n h _ x y a b c d =>
    exact .aliased n h _ x y (h1.trans a) (h2.trans b) (h3.trans c) (h4.trans d)
  | unaliased n h a o _ x y z w a' b c d =>
    exact .unaliased n h a o _ x y z w (h1.trans a') (h2.trans b) (h3.trans c) (h4.trans d)

/-- Every operation that does not end in undefined behaviour makes one of the
listed changes. -/
theorem step_change {g : Reg} {op : Op} {s s' : RM} (h : (step g s op).after = some s') :
    Change g op s s' := by
  cases op with
  | make n c =>
    unfold step makeAllocator at h
    dsimp only at h
    split at h
    · cases h; exact .refl _ _ _
    · rename_i h1
      split at h
      · cases h; exact .refl _ _ _
      · rename_i h2
        split at h
        · cases h; exact .burn _ rfl rfl rfl rfl
        · cases h; exact .made n _ (by simpa using h2) h1 rfl rfl rfl rfl
  | resource n c => exact makeResource_change (op := .resource n c) rfl h
  | resourceT n c => exact makeResourceT_change (op := .resourceT n c) rfl h
  | byName n c => exact getByName_change (op := .byName n c) (fun hn => ⟨rfl, hn⟩) h
  | byType t c =>
    unfold step getByType at h
    dsimp only at h
    split at h
    · rw [wrap_after h]; exact .refl _ _ _
    · split at h
      · rename_i n hn
        exact getByName_change (op := .byType t c) (fun hn' => ⟨hn, hn'⟩) h
      · cases h; exact .refl _ _ _
  | byId i =>
    unfold step getById at h
    dsimp only at h
    split at h
    · cases h; exact .refl _ _ _
    · split at h
      · cases h; exact .refl _ _ _
      · split at h
        · rw [wrap_after h]; exact .refl _ _ _
        · rw [errInfo_after h]; exact .refl _ _ _
  | getDefault c =>
    unfold step getDefault at h
    dsimp only at h
    split at h
    · rw [wrap_after h]; exact .refl _ _ _
    · obtain ⟨s1, h1, h2⟩ := bind_after h
      have := getByName_change (op := .getDefault c) (fun hn' => ⟨rfl, hn'⟩) h1
      rcases h2 with h2 | ⟨v, _, h2⟩
      · rw [h2]; exact this
      · cases h2; exact this.retarget rfl rfl rfl rfl
  | setDefault d =>
    unfold step setDefault at h
    dsimp only at h
    obtain ⟨s1, h1, h2⟩ := bind_after h
    have e := wrap_after h1
    subst e
    rcases h2 with h2 | ⟨v, _, h2⟩
    · rw [h2]; exact .refl _ _ _
    · cases h2; exact .same _ rfl rfl rfl rfl
  | alias n d c =>
    unfold step addAlias at h
    dsimp only at h
    split at h
    · obtain ⟨s1, h1, h2⟩ := bind_after h
      have := getByName_change (op := .alias n d c) (fun hn' => ⟨rfl, hn'⟩) h1
      rcases h2 with h2 | ⟨v, _, h2⟩
      · rw [h2]; exact this
      · cases h2; exact this
    · rename_i hn
      cases h
      exact .aliased n d _ (by cases c <;> simp) (by simpa using hn) rfl rfl rfl rfl
  | unalias n d =>
    unfold step removeAlias at h
    dsimp only at h
    split at h
    · cases h; exact .refl _ _ _
    · split at h
      · cases h
      · rename_i a ha
        split at h
        · cases h
        · rename_i o ho
          split at h
          · cases h; exact .refl _ _ _
          · rename_i hne
            split at h
            · cases h
            · split at h
              · cases h; exact .refl _ _ _
              · cases h; exact .unaliased n d a o _ rfl ha ho hne rfl rfl rfl rfl

/-! ### The invariant -/

/-- Ids of live objects are below the counter, distinct, and found by id. -/
structure Inv (s : RM) : Prop where
  lt : ∀ h o, obj s h = some o → o.id < s.nextId
  inj : ∀ h h' o o', obj s h = some o → obj s h' = some o' → o.id = o'.id → h = h'
  byId : ∀ i h, get s.byId i = some h → ∃ o, obj s h = some o ∧ o.id = i
  found : ∀ h o, 2 ≤ h → obj s h = some o → get s.byId o.id = some h
  two : 2 ≤ s.heap.length

theorem Inv.init : Inv init := by
  constructor
  · intro h o ho
    have := obj_lt ho
    have : h = 0 ∨ h = 1 := by simp [Names.init] at this; omega
    rcases this with rfl | rfl <;> (simp [obj, Names.init] at ho; subst ho; decide)
  · intro h h' o o' ho ho' he
    have h1 := obj_lt ho
    have h2 := obj_lt ho'
    have h1 : h = 0 ∨ h = 1 := by simp [Names.init] at h1; omega
    have h2 : h' = 0 ∨ h' = 1 := by simp [Names.init] at h2; omega
    rcases h1 with rfl | rfl <;> rcases h2 with rfl | rfl <;>
      simp [obj, Names.init] at ho ho' <;> subst ho <;> subst ho' <;> simp_all
  · intro i h hh; simp [Names.init, get] at hh
  · intro h o h2 ho
    have := obj_lt ho
    simp [Names.init] at this
    omega
  · decide

/-- A step that adds an object with the next id. -/
theorem Inv.push {s s' : RM} (hi : Inv s) {n : Name} (h1 : s'.heap = s.heap ++ [some ⟨n, s.nextId⟩])
    (h2 : s'.byId = put s.byId s.nextId s.heap.length) (h3 : s'.nextId = s.nextId + 1) : Inv s' := by
  have hcase : ∀ h o, obj s' h = some o →
      (h < s.heap.length ∧ obj s h = some o) ∨ (h = s.heap.length ∧ o = ⟨n, s.nextId⟩) := by
    intro h o ho
    rcases Nat.lt_trichotomy h s.heap.length with hl | hl | hl
    · exact .inl ⟨hl, by rw [← obj_append h1 hl]; exact ho⟩
    · subst hl
      rw [obj_new h1] at ho
      exact .inr ⟨rfl, (Option.some.inj ho).symm⟩
    · have := obj_lt ho
      rw [h1] at this
      simp at this
      omega
  constructor
  · intro h o ho
    rw [h3]
    rcases hcase h o ho with ⟨_, ho'⟩ | ⟨_, rfl⟩
    · exact Nat.lt_succ_of_lt (hi.lt h o ho')
    · exact Nat.lt_succ_self _
  · intro h h' o o' ho ho' he
    rcases hcase h o ho with ⟨a, b⟩ | ⟨a, b⟩ <;> rcases hcase h' o' ho' with ⟨a', b'⟩ | ⟨a', b'⟩
    · exact hi.inj h h' o o' b b' he
    · have := hi.lt h o b; rw [he, b'] at this; exact absurd this (Nat.lt_irrefl _)
    · have := hi.lt h' o' b'; rw [← he, b] at this; exact absurd this (Nat.lt_irrefl _)
    · rw [a, a']
  · intro i h hh
    rw [h2, get_put] at hh
    split at hh
    · rename_i hi'
      cases hh
      exact ⟨_, obj_new h1, hi'.symm⟩
    · obtain ⟨o, ho, he⟩ := hi.byId i h hh
      exact ⟨o, by rw [obj_append h1 (obj_lt ho)]; exact ho, he⟩
  · intro h o h2' ho
    rw [h2, get_put]
    rcases hcase h o ho with ⟨a, b⟩ | ⟨a, b⟩
    · have := hi.lt h o b
      rw [if_neg (by omega)]
      exact hi.found h o h2' b
    · rw [b, if_pos rfl, a]
  · rw [h1]; simp; have := hi.two; omega

theorem nameIt_mem {m : List (Name × Nat)} {n : Name} {h : Nat} {e : Name × Nat}
    (he : e ∈ nameIt m n h) : e.2 = h ∨ e ∈ m := by
  have hp : ∀ {m : List (Name × Nat)} {k : Name}, e ∈ put m k h → e.2 = h ∨ e ∈ m := by
    intro m k hk
    rcases mem_put hk with h1 | h1
    · exact .inl (by rw [h1])
    · exact .inr h1
  have h2 : ∀ {b : Prop} [Decidable b] {m : List (Name × Nat)} {k : Name},
      e ∈ (if b then put m k h else m) → e.2 = h ∨ e ∈ m := by
    intro b _ m k hk
    split at hk
    · exact hp hk
    · exact .inr hk
  unfold nameIt at he
  dsimp only at he
  rcases h2 he with h1 | h1
  · exact .inl h1
  · rcases h2 h1 with h1 | h1
    · exact .inl h1
    · exact hp h1

theorem Inv.step {g : Reg} {op : Op} {s s' : RM} (hi : Inv s) (hc : Change g op s s') : Inv s' := by
  have hsame : ∀ {s' : RM}, s'.heap = s.heap → s'.byId = s.byId → s.nextId ≤ s'.nextId → Inv s' := by
    intro s' a b c
    constructor
    · intro h o ho; rw [obj_of_heap a] at ho; exact Nat.lt_of_lt_of_le (hi.lt h o ho) c
    · intro h h' o o' ho ho' he
      rw [obj_of_heap a] at ho ho'; exact hi.inj h h' o o' ho ho' he
    · intro i h hh
      rw [b] at hh
      obtain ⟨o, ho, he⟩ := hi.byId i h hh
      exact ⟨o, by rw [obj_of_heap a]; exact ho, he⟩
    · intro h o h2 ho; rw [obj_of_heap a] at ho; rw [b]; exact hi.found h o h2 ho
    · rw [a]; exact hi.two
  cases hc with
  | same _ a b c d => exact hsame a c (by rw [d]; exact Nat.le_refl _)
  | burn _ a b c d => exact hsame a c (by rw [d]; omega)
  | made n _ x y a b c d => exact hi.push a c d
  | res n _ x y a b c d => exact hi.push a c d
  | dangle n _ x y p q a b c d =>
    have hcase : ∀ h o, obj s' h = some o → obj s h = some o := by
      intro h o ho
      rcases Nat.lt_trichotomy h s.heap.length with hl | hl | hl
      · rw [← obj_append a hl]; exact ho
      · subst hl; rw [obj_new a] at ho; cases ho
      · have := obj_lt ho
        rw [a] at this
        simp at this
        omega
    constructor
    · intro h o ho; rw [d]; exact Nat.lt_succ_of_lt (hi.lt h o (hcase h o ho))
    · intro h h' o o' ho ho' he
      exact hi.inj h h' o o' (hcase _ _ ho) (hcase _ _ ho') he
    · intro i h hh
      rw [c] at hh
      obtain ⟨o, ho, he⟩ := hi.byId i h hh
      exact ⟨o, by rw [obj_append a (obj_lt ho)]; exact ho, he⟩
    · intro h o h2 ho; rw [c]; exact hi.found h o h2 (hcase _ _ ho)
    · rw [a]; simp; have := hi.two; omega
  | aliased n h _ x y a b c d => exact hsame a c (by rw [d]; exact Nat.le_refl _)
  | unaliased n h a o _ x y z w a' b c d => exact hsame a' c (by rw [d]; exact Nat.le_refl _)

theorem run_cons {g : Reg} {s s' : RM} {o : Op} {os : List Op} (h : run g s (o :: os) = some s') :
    ∃ s1, (step g s o).after = some s1 ∧ run g s1 os = some s' := by
  unfold run at h
  cases h1 : (step g s o).after with
  | none => rw [h1] at h; cases h
  | some s1 => rw [h1] at h; exact ⟨s1, rfl, h⟩

theorem run_inv {g : Reg} {os : List Op} : ∀ {s s' : RM}, Inv s → run g s os = some s' → Inv s' := by
  induction os with
  | nil => intro s s' hi h; cases h; exact hi
  | cons o os ih =>
    intro s s' hi h
    obtain ⟨s1, h1, h2⟩ := run_cons h
    exact ih (hi.step (step_change h1)) h2

/-! ### Stability of one name -/

/-- `r` is a resource whose creation also writes the entry of `n`. -/
def Claims (r n : Name) : Prop :=
  (r = DEVICE ∧ n = DEVICE0) ∨ (has COLONS0 r = true ∧ n = baseName r)

theorem nameIt_other {m : List (Name × Nat)} {r n : Name} {h : Nat} (hne : n ≠ r)
    (hc : ¬ Claims r n) : get (nameIt m r h) n = get m n := by
  have h1 : ¬ (r = DEVICE ∧ n = DEVICE0) := fun x => hc (.inl x)
  have h2 : ¬ (has COLONS0 r = true ∧ n = baseName r) := fun x => hc (.inr x)
  unfold nameIt
  dsimp only
  have e1 : get (if r = DEVICE then put (put m r h) DEVICE0 h else put m r h) n = get m n := by
    split
    · rename_i hr
      rw [get_put_ne _ _ (fun x => h1 ⟨hr, x⟩), get_put_ne _ _ hne]
    · rw [get_put_ne _ _ hne]
  split
  · rename_i hr
    rw [get_put_ne _ _ (fun x => h2 ⟨hr, x⟩), e1]
  · exact e1

theorem nameIt_self {m : List (Name × Nat)} {r : Name} {h : Nat} : get (nameIt m r h) r = some h := by
  unfold nameIt
  dsimp only
  have e1 : get (if r = DEVICE then put (put m r h) DEVICE0 h else put m r h) r = some h := by
    split
    · rw [get_put]
      split
      · rfl
      · rw [get_put_self]
    · rw [get_put_self]
  split
  · rw [get_put]
    split
    · rfl
    · exact e1
  · exact e1

/-- The object behind a live handle never changes. -/
theorem step_obj {g : Reg} {op : Op} {s s' : RM} (hc : Change g op s s') {h : Nat} {o : Obj}
    (ho : obj s h = some o) : obj s' h = some o := by
  have hl := obj_lt ho
  cases hc with
  | same _ a b c d => rw [obj_of_heap a]; exact ho
  | burn _ a b c d => rw [obj_of_heap a]; exact ho
  | made n _ x y a b c d => rw [obj_append a hl]; exact ho
  | res n _ x y a b c d => rw [obj_append a hl]; exact ho
  | dangle n _ x y p q a b c d => rw [obj_append a hl]; exact ho
  | aliased n h _ x y a b c d => rw [obj_of_heap a]; exact ho
  | unaliased n h a o _ x y z w a' b c d => rw [obj_of_heap a']; exact ho

/-- The entry of a name survives every step except the removal of this alias and
the creation of a resource that claims it. -/
theorem step_name {g : Reg} {op : Op} {s s' : RM} (hc : Change g op s s') {n : Name} {h : Nat}
    (hn : get s.byName n = some h) (hcl : ∀ r, op.mayCreate g r → ¬ Claims r n)
    (hal : (∃ o, obj s h = some o ∧ o.name = n) ∨ ∀ d, op ≠ .unalias n d) :
    get s'.byName n = some h := by
  have hres : ∀ {r : Name}, get s.byName r = none → op.mayCreate g r →
      get (nameIt s.byName r s.heap.length) n = some h := by
    intro r hr hm
    rw [nameIt_other (fun e => by rw [e, hr] at hn; cases hn) (hcl r hm)]; exact hn
  have hnew : ∀ {m : Name}, isAllocator g s m = false → n ≠ m := by
    intro m hm e
    unfold isAllocator at hm
    rw [← e, hn] at hm
    cases hm
  cases hc with
  | same _ a b c d => rw [b]; exact hn
  | burn _ a b c d => rw [b]; exact hn
  | made m _ x y a b c d => rw [b, get_put_ne _ _ (hnew x)]; exact hn
  | res r _ x y a b c d => rw [b]; exact hres x y
  | dangle r _ x y p q a b c d => rw [b]; exact hres x y
  | aliased m d _ x y a b c d => rw [b, get_put_ne _ _ (hnew y)]; exact hn
  | unaliased m d a o _ x y z w a' b c d' =>
    rw [b]
    by_cases e : n = m
    · subst e
      rcases hal with ⟨o', ho', he⟩ | hal
      · rw [hn] at y
        cases y
        rw [ho'] at z
        cases z
        exact absurd he w
      · exact absurd x (hal d)
    · rw [get_del_ne _ e]; exact hn

/-- The entry of an id survives every step. -/
theorem step_id {g : Reg} {op : Op} {s s' : RM} (hi : Inv s) (hc : Change g op s s') {i h : Nat}
    (hn : get s.byId i = some h) : get s'.byId i = some h := by
  have hlt : i < s.nextId := by
    obtain ⟨o, ho, he⟩ := hi.byId i h hn
    rw [← he]; exact hi.lt h o ho
  cases hc with
  | same _ a b c d => rw [c]; exact hn
  | burn _ a b c d => rw [c]; exact hn
  | made n _ x y a b c d => rw [c, get_put_ne _ _ (by omega)]; exact hn
  | res n _ x y a b c d => rw [c, get_put_ne _ _ (by omega)]; exact hn
  | dangle n _ x y p q a b c d => rw [c]; exact hn
  | aliased n h _ x y a b c d => rw [c]; exact hn
  | unaliased n h a o _ x y z w a' b c d => rw [c]; exact hn

theorem run_obj {g : Reg} {os : List Op} : ∀ {s s' : RM} {h : Nat} {o : Obj},
    run g s os = some s' → obj s h = some o → obj s' h = some o := by
  induction os with
  | nil => intro s s' h o hr ho; cases hr; exact ho
  | cons op os ih =>
    intro s s' h o hr ho
    obtain ⟨s1, h1, h2⟩ := run_cons hr
    exact ih h2 (step_obj (step_change h1) ho)

theorem run_id {g : Reg} {os : List Op} : ∀ {s s' : RM} {i h : Nat}, Inv s →
    run g s os = some s' → get s.byId i = some h → get s'.byId i = some h := by
  induction os with
  | nil => intro s s' h o _ hr ho; cases hr; exact ho
  | cons op os ih =>
    intro s s' h o hi hr ho
    obtain ⟨s1, h1, h2⟩ := run_cons hr
    exact ih (hi.step (step_change h1)) h2 (step_id hi (step_change h1) ho)

theorem run_name {g : Reg} {os : List Op} {n : Name} {h : Nat} : ∀ {s s' : RM},
    run g s os = some s' → get s.byName n = some h →
    (∀ op ∈ os, ∀ r, op.mayCreate g r → ¬ Claims r n) →
    ((∃ o, obj s h = some o ∧ o.name = n) ∨ ∀ op ∈ os, ∀ d, op ≠ .unalias n d) →
    get s'.byName n = some h := by
  induction os with
  | nil => intro s s' hr hn _ _; cases hr; exact hn
  | cons op os ih =>
    intro s s' hr hn hcl hal
    obtain ⟨s1, h1, h2⟩ := run_cons hr
    have hc := step_change h1
    have := step_name hc hn (hcl op (by simp)) (hal.imp_right fun x => x op (by simp))
    refine ih h2 this (fun o ho => hcl o (by simp [ho])) ?_
    rcases hal with ⟨o, ho, he⟩ | hal
    · exact .inl ⟨o, step_obj hc ho, he⟩
    · exact .inr fun o ho => hal o (by simp [ho])

theorem step_next {g : Reg} {op : Op} {s s' : RM} (hc : Change g op s s') :
    s'.nextId ≤ s.nextId + 1 := by
  cases hc <;> omega

theorem run_next {g : Reg} {os : List Op} : ∀ {s s' : RM}, run g s os = some s' →
    s'.nextId ≤ s.nextId + os.length := by
  induction os with
  | nil => intro s s' h; cases h; exact Nat.le_refl _
  | cons o os ih =>
    intro s s' h
    obtain ⟨s1, h1, h2⟩ := run_cons h
    have a := step_next (step_change h1)
    have b := ih h2
    simp only [List.length_cons]
    omega

end Umpire.Names
