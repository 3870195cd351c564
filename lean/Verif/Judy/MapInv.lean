import Verif.Judy.Map
import Verif.Judy.Update
/-!
# What the operations of `MemoryMap` do to the entries of its tree
-/
set_option autoImplicit false
set_option linter.unusedSimpArgs false
namespace Umpire.Judy
variable {V : Type}

/-- The value stored for `key` in a sorted list of entries. -/
def look (key : Nat) (L : List (Nat × V)) : Option V := (mid key L).head?.map (·.2)

theorem look_some {L : List (Nat × V)} (h : Sorted L) {key : Nat} {x : V} : look key L = some x ↔ mid key L = [(key, x)] := by
  unfold look
  rcases mid_cases h key with h | ⟨y, h⟩ <;> simp [h]

theorem look_none {L : List (Nat × V)} (h : Sorted L) {key : Nat} : look key L = none ↔ mid key L = [] := by
  unfold look
  rcases mid_cases h key with h | ⟨y, h⟩ <;> simp [h]

theorem look_mem {L : List (Nat × V)} (h : Sorted L) {key : Nat} {x : V} : look key L = some x ↔ (key, x) ∈ L := by
  rw [look_some h]
  constructor
  · intro hm
    have : (key, x) ∈ mid key L := by rw [hm]; exact List.mem_singleton.2 rfl
    exact (mem_mid.1 this).1
  · intro hm
    have hm' : (key, x) ∈ mid key L := mem_mid.2 ⟨hm, rfl⟩
    rcases mid_cases h key with h | ⟨y, h⟩
    · rw [h] at hm'; cases hm'
    · rw [h, List.mem_singleton] at hm'; rw [h, hm']

theorem look_put {L : List (Nat × V)} (key k : Nat) (x : V) :
    look k (lo key L ++ (key, x) :: hi key L) = if k = key then some x else look k L := by
  unfold look
  by_cases h : k = key
  · subst h
    have hc := cut_at (P := lo k L) (M := [(k, x)]) (S := hi k L) (v := k) (fun z hz => (mem_lo.1 hz).2) (by simp)
      (fun z hz => (mem_hi.1 hz).2)
    rw [List.append_assoc] at hc
    simp only [List.singleton_append] at hc
    rw [hc.2.1]; simp
  · rw [if_neg h]
    have e : mid k (lo key L ++ (key, x) :: hi key L) = mid k (lo key L) ++ mid k (hi key L) := by
      rw [mid_append]
      congr 1
      unfold mid
      rw [List.filter_cons, if_neg (by simp; omega)]
    rw [e]
    unfold mid lo hi
    rw [List.filter_filter, List.filter_filter]
    rcases Nat.lt_or_gt_of_ne h with h1 | h1
    · have a : (L.filter fun x => decide (x.1 = k) && decide (x.1 < key)) = L.filter fun x => decide (x.1 = k) := by
        apply List.filter_congr; intro z _
        by_cases hz : z.1 = k <;> simp [hz, h1]
      have b : (L.filter fun x => decide (x.1 = k) && decide (key < x.1)) = [] := by
        rw [List.filter_eq_nil_iff]; intro z _; simp; omega
      rw [a, b, List.append_nil]
    · have a : (L.filter fun x => decide (x.1 = k) && decide (key < x.1)) = L.filter fun x => decide (x.1 = k) := by
        apply List.filter_congr; intro z _
        by_cases hz : z.1 = k <;> simp [hz, h1]
      have b : (L.filter fun x => decide (x.1 = k) && decide (x.1 < key)) = [] := by
        rw [List.filter_eq_nil_iff]; intro z _; simp; omega
      rw [a, b, List.nil_append]

theorem look_del {L : List (Nat × V)} (key k : Nat) :
    look k (lo key L ++ hi key L) = if k = key then none else look k L := by
  by_cases h : k = key
  · subst h
    rw [if_pos rfl]
    unfold look
    have : mid k (lo k L ++ hi k L) = [] := by
      unfold mid
      rw [List.filter_eq_nil_iff]
      intro z hz
      rcases List.mem_append.1 hz with hz | hz
      · have := (mem_lo.1 hz).2; simp; omega
      · have := (mem_hi.1 hz).2; simp; omega
    rw [this]; rfl
  · rw [if_neg h]
    cases L with
    | nil => rfl
    | cons z L =>
      have := look_put (L := z :: L) key k z.2
      rw [if_neg h] at this
      rw [← this]
      unfold look
      rw [mid_append, mid_append]
      congr 3
      unfold mid
      rw [List.filter_cons, if_neg (by simp; omega)]

/-- The tree is well formed and `size` counts its entries. -/
structure Map.Ok (m : Map V) : Prop where
  wf : WF 8 m.root
  size : m.size = (ents 8 m.root).length

/-- The entries, ascending. -/
abbrev Map.ents (m : Map V) : List (Nat × V) := Judy.ents 8 m.root

theorem Map.Ok.sorted {m : Map V} (h : m.Ok) : Sorted m.ents := sorted_ents _ _ h.wf
theorem Map.Ok.lt {m : Map V} (h : m.Ok) : ∀ x ∈ m.ents, x.1 < 2 ^ 64 := ents_lt _ _ h.wf

theorem Map.new_ok : (Map.new : Map V).Ok := ⟨trivial, rfl⟩
theorem Map.new_ents : (Map.new : Map V).ents = [] := rfl

theorem cur_ne {k : Nat} {t : T V (k + 1)} {v : Nat} (h : cur (k + 1) t v = []) : t = Node.nil := by
  match t, h with
  | Node.nil, _ => rfl
  | Node.list ty sl, h => cases h
  | Node.radix ch, h => cases h

theorem ents_ne_cur {k : Nat} {t : T V (k + 1)} (v : Nat) (h : ents (k + 1) t ≠ []) : cur (k + 1) t v ≠ [] := by
  intro hc; rw [cur_ne hc] at h; exact h rfl

theorem len_put {L : List (Nat × V)} (h : Sorted L) {key : Nat} (hm : mid key L = []) (x : V) :
    (lo key L ++ (key, x) :: hi key L).length = L.length + 1 := by
  have := congrArg List.length (split3 h key)
  rw [hm] at this
  simp only [List.length_append, List.length_nil, List.length_cons] at this ⊢
  omega

theorem len_same {L : List (Nat × V)} (h : Sorted L) {key : Nat} {y : V} (hm : mid key L = [(key, y)]) (x : V) :
    (lo key L ++ (key, x) :: hi key L).length = L.length := by
  have := congrArg List.length (split3 h key)
  rw [hm] at this
  simp only [List.length_append, List.length_nil, List.length_cons] at this ⊢
  omega

theorem len_del {L : List (Nat × V)} (h : Sorted L) {key : Nat} {y : V} (hm : mid key L = [(key, y)]) :
    (lo key L ++ hi key L).length + 1 = L.length := by
  have := congrArg List.length (split3 h key)
  rw [hm] at this
  simp only [List.length_append, List.length_nil, List.length_cons] at this ⊢
  omega

/-! ## Insertion -/

theorem doInsert_new {m : Map V} (h : m.Ok) {key : Nat} (hk : key < 2 ^ 64) (hl : look key m.ents = none) (x : V) :
    (m.doInsert key x).2 = true ∧ (m.doInsert key x).1.Ok ∧
    (m.doInsert key x).1.ents = lo key m.ents ++ (key, x) :: hi key m.ents ∧
    (m.doInsert key x).1.oper = self ∧
    (∀ B, NoLeafRadix B 8 m.root → Sparse B (lo key m.ents ++ (key, x) :: hi key m.ents) → NoLeafRadix B 8 (m.doInsert key x).1.root) := by
  have hm := (look_none h.sorted).1 hl
  obtain ⟨h1, h2⟩ := cell_absent 8 (Nat.le_refl _) m.root h.wf key hk hm
  obtain ⟨w, e, _, n⟩ := h2 x
  have hd : m.doInsert key x = (⟨writeAt 8 (cellF 8 m.root key).1 (cellF 8 m.root key).2 (some x),
      (cellF 8 m.root key).2, some (cellF 8 m.root key).2, self, m.size + 1⟩, true) := by
    unfold Map.doInsert
    dsimp only
    rw [h1]
  rw [hd]
  refine ⟨rfl, ⟨w, ?_⟩, e, rfl, n⟩
  show m.size + 1 = (Judy.ents 8 _).length
  rw [e, len_put h.sorted hm, h.size]

theorem doInsert_old {m : Map V} (h : m.Ok) {key : Nat} (hk : key < 2 ^ 64) {y : V} (hl : look key m.ents = some y) (x : V) :
    m.doInsert key x = ({ m with stack := cur 8 m.root key, last := some (cur 8 m.root key), oper := self }, false) := by
  have hm := (look_some h.sorted).1 hl
  have hc := cell_present 8 m.root h.wf key hk y hm
  have hr := (slot_found 8 m.root h.wf key hk y hm).2
  unfold Map.doInsert
  rw [hc]
  dsimp only
  rw [hr]

/-! ## Exact lookup -/

theorem find_found {m : Map V} (h : m.Ok) {key : Nat} (hk : key < 2 ^ 64) {y : V} (hl : look key m.ents = some y) (a : Nat) :
    m.find a key = ({ m with stack := cur 8 m.root key, last := some (cur 8 m.root key), oper := self }, ⟨a, key, some y⟩) := by
  have hm := (look_some h.sorted).1 hl
  obtain ⟨h1, h2⟩ := slot_found 8 m.root h.wf key hk y hm
  unfold Map.find
  have : slotF 8 m.root key = (some (cur 8 m.root key), cur 8 m.root key) := Prod.ext h1 rfl
  rw [this]
  dsimp only [Map.value]
  rw [Option.bind_some, h2]
  rfl

theorem find_absent {m : Map V} (h : m.Ok) {key : Nat} (hk : key < 2 ^ 64) (hl : look key m.ents = none) (a : Nat) :
    (m.find a key).2.second = none ∧ (m.find a key).1.root = m.root ∧ (m.find a key).1.size = m.size ∧
    (m.find a key).1.value = none ∧ (m.find a key).1.oper = self := by
  have hm := (look_none h.sorted).1 hl
  unfold Map.find
  rcases slot_absent 8 m.root h.wf key hk hm with h1 | ⟨h1, h2⟩
  · have : slotF 8 m.root key = (none, cur 8 m.root key) := Prod.ext h1 rfl
    rw [this]
    exact ⟨rfl, rfl, rfl, rfl, rfl⟩
  · have : slotF 8 m.root key = (some (cur 8 m.root key), cur 8 m.root key) := Prod.ext h1 rfl
    rw [this]
    dsimp only [Map.value]
    rw [Option.bind_some, h2]
    exact ⟨rfl, rfl, rfl, rfl, rfl⟩

theorem find_state (m : Map V) (a key : Nat) :
    (m.find a key).1.root = m.root ∧ (m.find a key).1.size = m.size ∧ (m.find a key).1.oper = self := ⟨rfl, rfl, rfl⟩

/-! ## Removal -/

theorem erase_found {m : Map V} (h : m.Ok) {key : Nat} (hk : key < 2 ^ 64) {y : V} (hl : look key m.ents = some y) :
    ∃ m', m.erase key = .ok m' ∧ m'.Ok ∧ m'.ents = lo key m.ents ++ hi key m.ents ∧ m'.oper = self ∧
      (∀ B, NoLeafRadix B 8 m.root → NoLeafRadix B 8 m'.root) := by
  have hm := (look_some h.sorted).1 hl
  obtain ⟨h1, h2⟩ := slot_found 8 m.root h.wf key hk y hm
  obtain ⟨d1, d2, d3⟩ := del_spec 8 m.root h.wf key hk y hm
  have hs : slotF 8 m.root key = (some (cur 8 m.root key), cur 8 m.root key) := Prod.ext h1 rfl
  refine ⟨⟨delF 8 m.root (cur 8 m.root key), cur 8 m.root key, some (cur 8 m.root key), self, m.size - 1⟩, ?_, ⟨d1, ?_⟩, d2, rfl, d3⟩
  · unfold Map.erase
    rw [hs]
    dsimp only [Map.removeLast, Map.value]
    rw [Option.bind_some, h2]
    rfl
  · show m.size - 1 = (Judy.ents 8 _).length
    rw [d2, h.size]
    have : (lo key (Judy.ents 8 m.root) ++ hi key (Judy.ents 8 m.root)).length + 1 = m.ents.length := len_del h.sorted hm
    show m.ents.length - 1 = _
    omega

theorem erase_absent {m : Map V} (h : m.Ok) {key : Nat} (hk : key < 2 ^ 64) (hl : look key m.ents = none) :
    m.erase key = .ub ∨ ∃ m', m.erase key = .throws m' ∧ m'.root = m.root ∧ m'.size = m.size ∧ m'.oper = self := by
  have hm := (look_none h.sorted).1 hl
  unfold Map.erase
  rcases slot_absent 8 m.root h.wf key hk hm with h1 | ⟨h1, h2⟩
  · have : slotF 8 m.root key = (none, cur 8 m.root key) := Prod.ext h1 rfl
    rw [this]
    exact .inr ⟨_, rfl, rfl, rfl, rfl⟩
  · have : slotF 8 m.root key = (some (cur 8 m.root key), cur 8 m.root key) := Prod.ext h1 rfl
    rw [this]
    dsimp only [Map.removeLast, Map.value]
    rw [Option.bind_some, h2]
    exact .inl rfl

theorem clear_spec : ∀ (fuel : Nat) (m : Map V), m.Ok → m.ents.length < fuel →
    ∃ m', m.clearLoop fuel = some m' ∧ m'.Ok ∧ m'.ents = [] ∧ m'.stack = [] ∧ m'.oper = m.oper ∧ (∀ B, NoLeafRadix B 8 m.root → NoLeafRadix B 8 m'.root)
  | 0, m, _, h => absurd h (by omega)
  | fuel + 1, m, hok, h => by
    have hf := first_spec 8 m.root hok.wf
    unfold Map.clearLoop
    cases he : Judy.ents 8 m.root with
    | nil =>
      rw [he] at hf
      have hf' : firstF 8 m.root = none := hf
      rw [hf']
      exact ⟨_, rfl, ⟨hok.wf, by show 0 = (Judy.ents 8 m.root).length; rw [he]; rfl⟩, he, rfl, rfl, fun _ h => h⟩
    | cons x L =>
      rw [he] at hf
      have hf' : firstF 8 m.root = some (cur 8 m.root x.1) := hf
      have hx : x ∈ m.ents := by show x ∈ Judy.ents 8 m.root; rw [he]; exact List.mem_cons_self
      have hm := (look_some hok.sorted).1 ((look_mem hok.sorted).2 hx)
      have hk := hok.lt x hx
      obtain ⟨h1, h2⟩ := slot_found 8 m.root hok.wf x.1 hk x.2 hm
      obtain ⟨d1, d2, d3⟩ := del_spec 8 m.root hok.wf x.1 hk x.2 hm
      have hlen : (lo x.1 (Judy.ents 8 m.root) ++ hi x.1 (Judy.ents 8 m.root)).length + 1 = m.ents.length := len_del hok.sorted hm
      rw [hf']
      dsimp only [Map.removeLast, Map.value]
      rw [Option.bind_some, h2]
      dsimp only
      obtain ⟨m', r1, r2, r3, r4, r5, r6⟩ := clear_spec fuel
        { m with last := some (cur 8 m.root x.1), stack := cur 8 m.root x.1, root := delF 8 m.root (cur 8 m.root x.1), size := m.size - 1 }
        ⟨d1, by
          show m.size - 1 = (Judy.ents 8 _).length
          rw [d2, hok.size]
          show m.ents.length - 1 = _
          omega⟩ (by
          show (Judy.ents 8 (delF 8 m.root (cur 8 m.root x.1))).length < fuel
          rw [d2]
          omega)
      exact ⟨m', r1, r2, r3, r4, r5, fun B hn => r6 B (d3 B hn)⟩

/-! ## The greatest key at or below an address -/

theorem getLast_mem {α : Type} {L : List α} {x : α} (h : L.getLast? = some x) : x ∈ L := List.mem_of_getLast? h

theorem fob_found {m : Map V} (h : m.Ok) {key : Nat} (hk : key < 2 ^ 64) {y : V} (hl : look key m.ents = some y) :
    m.findOrBefore key = ({ m with stack := cur 8 m.root key, last := some (cur 8 m.root key), oper := self }, key) ∧
    (m.findOrBefore key).1.value = some y := by
  have hm := (look_some h.sorted).1 hl
  obtain ⟨h1, h2⟩ := slot_found 8 m.root h.wf key hk y hm
  have hs : slotF 8 m.root key = (some (cur 8 m.root key), cur 8 m.root key) := Prod.ext h1 rfl
  have hst : judyStrt m.root key = (some (cur 8 m.root key), cur 8 m.root key) := by unfold judyStrt; rw [hs]
  have hne : cur 8 m.root key ≠ [] := ents_ne_cur key (by
    intro he
    have := (look_mem h.sorted).1 hl
    unfold Map.ents at this
    rw [he] at this; cases this)
  have hkey : judyKey m.root (cur 8 m.root key) 0 = key := by
    unfold judyKey; rw [if_neg hne]; exact key_found 8 m.root h.wf key hk (by rw [h1]; rfl)
  have hr : m.findOrBefore key = ({ m with stack := cur 8 m.root key, last := some (cur 8 m.root key), oper := self }, key) := by
    unfold Map.findOrBefore
    rw [hst]
    dsimp only
    rw [hkey, Option.bind_some, h2]
    simp
  refine ⟨hr, ?_⟩
  rw [hr]
  exact h2

/-- Where `judy_prv` starts when the key is absent: at the key itself (an empty
cell), at the next larger one, or at the end. -/
theorem fob_absent {m : Map V} (h : m.Ok) {key : Nat} (hk : key < 2 ^ 64) (hl : look key m.ents = none) :
    (∃ v par, v < 2 ^ 64 ∧ (slotF 8 m.root v).1.isSome ∧ cur 8 m.root v ≠ [] ∧ lo v m.ents = lo key m.ents ∧
      m.findOrBefore key = ({ m with last := ((prvF 8 m.root (cur 8 m.root v)).getD (none, [])).1, stack := ((prvF 8 m.root (cur 8 m.root v)).getD (none, [])).2, oper := self },
        judyKey m.root ((prvF 8 m.root (cur 8 m.root v)).getD (none, [])).2 par)) ∨
    (m.ents = lo key m.ents ∧
      m.findOrBefore key = ({ m with last := (lastF 8 m.root).1, stack := (lastF 8 m.root).2, oper := self }, judyKey m.root (lastF 8 m.root).2 0)) := by
  have hm := (look_none h.sorted).1 hl
  unfold Map.findOrBefore
  rcases slot_absent 8 m.root h.wf key hk hm with h1 | ⟨h1, h2⟩
  · have hs : slotF 8 m.root key = (none, cur 8 m.root key) := Prod.ext h1 rfl
    by_cases hne : cur 8 m.root key = []
    · have hroot := cur_ne hne
      have hst : judyStrt m.root key = (none, []) := by
        unfold judyStrt; rw [hs]; dsimp only; rw [judyNxt, if_pos hne]; rw [hroot]; rfl
      right
      have he : m.ents = [] := by unfold Map.ents; rw [hroot]; rfl
      refine ⟨by rw [he]; rfl, ?_⟩
      rw [hst]
      dsimp only
      rw [if_pos (.inr rfl)]
      have : judyPrv m.root [] = lastF 8 m.root := if_pos rfl
      rw [this]
      rfl
    · have hnx : judyNxt m.root (cur 8 m.root key) = (hi key (Judy.ents 8 m.root)).head?.map fun x => cur 8 m.root x.1 := by
        rw [judyNxt, if_neg hne]; exact nxt_spec 8 m.root h.wf key hk
      have hsplit := split3 h.sorted key
      rw [hm, List.append_nil] at hsplit
      cases hh : hi key (Judy.ents 8 m.root) with
      | nil =>
        have hst : judyStrt m.root key = (none, []) := by
          unfold judyStrt; rw [hs]; dsimp only; rw [hnx, hh]; rfl
        right
        refine ⟨by
          conv => lhs; rw [hsplit]
          show _ ++ hi key (Judy.ents 8 m.root) = _
          rw [hh, List.append_nil], ?_⟩
        rw [hst]
        dsimp only
        rw [if_pos (.inr rfl)]
        have : judyPrv m.root [] = lastF 8 m.root := if_pos rfl
        rw [this]
        rfl
      | cons x L =>
        have hst : judyStrt m.root key = (some (cur 8 m.root x.1), cur 8 m.root x.1) := by
          unfold judyStrt; rw [hs]; dsimp only; rw [hnx, hh]; rfl
        have hx := mem_hi.1 (show x ∈ hi key (Judy.ents 8 m.root) by rw [hh]; exact List.mem_cons_self)
        have hxl := h.lt x hx.1
        obtain ⟨f1, f2⟩ := slot_found 8 m.root h.wf x.1 hxl x.2 ((look_some h.sorted).1 ((look_mem h.sorted).2 hx.1))
        have hne' : cur 8 m.root x.1 ≠ [] := ents_ne_cur x.1 (by intro he; rw [he] at hx; cases hx.1)
        have hkey : judyKey m.root (cur 8 m.root x.1) 0 = x.1 := by
          unfold judyKey; rw [if_neg hne']; exact key_found 8 m.root h.wf x.1 hxl (by rw [f1]; rfl)
        left
        refine ⟨x.1, x.1, hxl, by rw [f1]; rfl, hne', ?_, ?_⟩
        · have hso := h.sorted
          have hso2 : Sorted (lo key m.ents ++ hi key m.ents) := by rw [← hsplit]; exact hso
          have hhi : hi key m.ents = x :: L := hh
          rw [hhi] at hsplit hso2
          have hsx := (sorted_append.1 hso2).2.1
          have hc := cut_at (P := lo key m.ents) (M := [x]) (S := L) (v := x.1)
            (fun z hz => by have := (mem_lo.1 hz).2; omega) (by simp)
            (fun z hz => (List.pairwise_cons.1 hsx).1 z hz)
          rw [List.append_assoc] at hc
          simp only [List.singleton_append] at hc
          conv => lhs; rw [hsplit]
          exact hc.1
        · rw [hst]
          dsimp only
          rw [hkey, if_pos (.inl (by omega))]
          have : judyPrv m.root (cur 8 m.root x.1) = (prvF 8 m.root (cur 8 m.root x.1)).getD (none, []) := if_neg hne'
          rw [this]
  · have hs : slotF 8 m.root key = (some (cur 8 m.root key), cur 8 m.root key) := Prod.ext h1 rfl
    have hst : judyStrt m.root key = (some (cur 8 m.root key), cur 8 m.root key) := by unfold judyStrt; rw [hs]
    have hne : cur 8 m.root key ≠ [] := by
      intro hc
      have := cur_ne hc
      rw [this] at h1; cases h1
    left
    refine ⟨key, judyKey m.root (cur 8 m.root key) 0, hk, by rw [h1]; rfl, hne, rfl, ?_⟩
    rw [hst]
    dsimp only
    rw [Option.bind_some, h2, if_pos (.inr rfl)]
    have : judyPrv m.root (cur 8 m.root key) = (prvF 8 m.root (cur 8 m.root key)).getD (none, []) := if_neg hne
    rw [this]

theorem fob_state (m : Map V) (key : Nat) :
    (m.findOrBefore key).1.root = m.root ∧ (m.findOrBefore key).1.size = m.size ∧ (m.findOrBefore key).1.oper = self := by
  unfold Map.findOrBefore
  dsimp only
  split <;> exact ⟨rfl, rfl, rfl⟩

/-- Whatever `findOrBefore` finds is an entry at or below the address. -/
theorem fob_sound {m : Map V} (h : m.Ok) {key : Nat} (hk : key < 2 ^ 64) {y : V}
    (hv : (m.findOrBefore key).1.value = some y) : ∃ x ∈ m.ents, x.1 ≤ key ∧ x.2 = y := by
  cases hl : look key m.ents with
  | some z =>
    rw [(fob_found h hk hl).2] at hv
    injection hv with hv; subst hv
    exact ⟨_, (look_mem h.sorted).1 hl, Nat.le_refl _, rfl⟩
  | none =>
    rcases fob_absent h hk hl with ⟨v, par, v1, v2, v3, v4, v5⟩ | ⟨v1, v2⟩
    · rw [v5] at hv
      cases hp : prvF 8 m.root (cur 8 m.root v) with
      | none => rw [hp] at hv; cases hv
      | some r =>
        rw [hp] at hv
        have hv' : r.1.bind (readAt 8 m.root) = some y := hv
        obtain ⟨l, hl1, hl2⟩ := Option.bind_eq_some_iff.1 hv'
        obtain ⟨x, hx, hxy⟩ := prv_sound 8 m.root h.wf v v1 v2 l r.2 (by rw [hp, ← hl1]) y hl2
        have hx' : x ∈ lo v m.ents := hx
        rw [v4] at hx'
        have := mem_lo.1 hx'
        exact ⟨x, this.1, by omega, hxy⟩
    · rw [v2] at hv
      have hv' : (lastF 8 m.root).1.bind (readAt 8 m.root) = some y := hv
      obtain ⟨l, hl1, hl2⟩ := Option.bind_eq_some_iff.1 hv'
      obtain ⟨x, hx, hxy⟩ := last_sound 8 m.root h.wf l _ (Prod.ext hl1 rfl) y hl2
      have hx' : x ∈ m.ents := hx
      rw [v1] at hx'
      have := mem_lo.1 hx'
      exact ⟨x, this.1, by omega, hxy⟩

/-- Without a leaf radix node it is the greatest such entry. -/
theorem fob_spec {B : Nat → Prop} {m : Map V} (h : m.Ok) (hn : NoLeafRadix B 8 m.root) {key : Nat} (hk : key < 2 ^ 64)
    (hB : mid key m.ents = [] → ∀ x, (lo key m.ents).getLast? = some x → B (x.1 / 256)) :
    (m.findOrBefore key).1.value = (lo key m.ents ++ mid key m.ents).getLast?.map (·.2) ∧
    ∀ x, (lo key m.ents ++ mid key m.ents).getLast? = some x → (m.findOrBefore key).2 = x.1 := by
  have fin : ∀ x, x ∈ m.ents → readAt 8 m.root (cur 8 m.root x.1) = some x.2 ∧ ∀ old, judyKey m.root (cur 8 m.root x.1) old = x.1 := by
    intro x hx
    have hxl := h.lt x hx
    obtain ⟨f1, f2⟩ := slot_found 8 m.root h.wf x.1 hxl x.2 ((look_some h.sorted).1 ((look_mem h.sorted).2 hx))
    refine ⟨f2, fun old => ?_⟩
    have hne' : cur 8 m.root x.1 ≠ [] := ents_ne_cur x.1 (by
      intro he
      unfold Map.ents at hx
      rw [he] at hx; cases hx)
    unfold judyKey; rw [if_neg hne']; exact key_found 8 m.root h.wf x.1 hxl (by rw [f1]; rfl)
  cases hl : look key m.ents with
  | some z =>
    have hf := fob_found h hk hl
    rw [hf.2, (look_some h.sorted).1 hl]
    refine ⟨by simp, ?_⟩
    intro x hx
    rw [hf.1]
    simp at hx
    rw [← hx]
  | none =>
    rw [(look_none h.sorted).1 hl, List.append_nil]
    rcases fob_absent h hk hl with ⟨v, par, v1, v2, v3, v4, v5⟩ | ⟨v1, v2⟩
    · rw [v5]
      have v4' : lo v (Judy.ents 8 m.root) = lo key m.ents := v4
      have hp := prv_spec 8 B m.root h.wf hn v v1 v2 (by rw [v4']; exact hB ((look_none h.sorted).1 hl))
      rw [v4'] at hp
      cases hg : (lo key m.ents).getLast? with
      | none =>
        rw [hg] at hp
        have hp' : prvF 8 m.root (cur 8 m.root v) = none := hp
        rw [hp']
        exact ⟨rfl, fun x hx => by cases hx⟩
      | some x =>
        rw [hg] at hp
        have hp' : prvF 8 m.root (cur 8 m.root v) = some (some (cur 8 m.root x.1), cur 8 m.root x.1) := hp
        rw [hp']
        have hf := fin x (mem_lo.1 (getLast_mem hg)).1
        refine ⟨hf.1, fun y hy => ?_⟩
        injection hy with hy; subst hy
        exact hf.2 par
    · rw [v2]
      by_cases he : m.ents = []
      · have hw : Judy.ents 8 m.root = [] := he
        rw [he]
        have : m.root = Node.nil := by
          have := (isNil_iff 8 m.root h.wf).2 hw
          match hr : m.root, this with
          | Node.nil, _ => rfl
          | Node.list .., h => cases h
          | Node.radix .., h => cases h
        rw [this]
        exact ⟨rfl, fun x hx => by cases hx⟩
      · obtain ⟨x, x1, x2⟩ := last_spec 8 B m.root h.wf hn he (by
          intro x hx
          refine hB ((look_none h.sorted).1 hl) x ?_
          rw [← v1]; exact hx)
        have x1' : m.ents.getLast? = some x := x1
        rw [← v1, x1', x2]
        have hf := fin x (getLast_mem x1')
        refine ⟨hf.1, fun y hy => ?_⟩
        injection hy with hy; subst hy
        exact hf.2 0

/-! ## Iteration -/

/-- The cursor belongs to the iterator's key, if the iterator moved it last. -/
def Sync (m : Map V) (it : Iter V) : Prop := m.oper = it.addr → m.stack = cur 8 m.root it.first

theorem begin_spec {m : Map V} (h : m.Ok) (a : Nat) :
    (m.begin a).1.root = m.root ∧ (m.begin a).1.size = m.size ∧ (m.begin a).1.oper = a ∧ (m.begin a).2.addr = a ∧
    match m.ents.head? with
    | none => (m.begin a).2.first = 0 ∧ (m.begin a).2.second = none
    | some x => (m.begin a).2.first = x.1 ∧ (m.begin a).2.second = some x.2 ∧ Sync (m.begin a).1 (m.begin a).2 := by
  refine ⟨rfl, rfl, rfl, rfl, ?_⟩
  have hf := first_spec 8 m.root h.wf
  unfold Map.begin
  cases hh : m.ents.head? with
  | none =>
    have hh' : (Judy.ents 8 m.root).head? = none := hh
    rw [hh'] at hf
    have hf' : firstF 8 m.root = none := hf
    rw [hf']
    exact ⟨rfl, rfl⟩
  | some x =>
    have hh' : (Judy.ents 8 m.root).head? = some x := hh
    rw [hh'] at hf
    have hf' : firstF 8 m.root = some (cur 8 m.root x.1) := hf
    have hx : x ∈ m.ents := List.mem_of_head? hh
    have hxl := h.lt x hx
    obtain ⟨f1, f2⟩ := slot_found 8 m.root h.wf x.1 hxl x.2 ((look_some h.sorted).1 ((look_mem h.sorted).2 hx))
    have hne' : cur 8 m.root x.1 ≠ [] := ents_ne_cur x.1 (by
      intro he
      unfold Map.ents at hx
      rw [he] at hx; cases hx)
    have hkey : judyKey m.root (cur 8 m.root x.1) 0 = x.1 := by
      unfold judyKey; rw [if_neg hne']; exact key_found 8 m.root h.wf x.1 hxl (by rw [f1]; rfl)
    rw [hf']
    dsimp only [Option.getD_some, Map.value, Option.bind_some]
    refine ⟨hkey, f2, fun _ => ?_⟩
    show cur 8 m.root x.1 = cur 8 m.root (judyKey m.root (cur 8 m.root x.1) 0)
    rw [hkey]

theorem next_spec {m : Map V} (h : m.Ok) {it : Iter V} (hs : Sync m it) (h0 : it.first ≠ 0) (hk : it.first < 2 ^ 64) :
    (m.next it).1.root = m.root ∧ (m.next it).1.size = m.size ∧ (m.next it).1.oper = it.addr ∧ (m.next it).2.addr = it.addr ∧
    match (hi it.first m.ents).head? with
    | none => (m.next it).2.first = 0
    | some x => (m.next it).2.first = x.1 ∧ (m.next it).2.second = some x.2 ∧ Sync (m.next it).1 (m.next it).2 := by
  have hst : (if it.first ≠ 0 ∧ m.oper ≠ it.addr then (slotF 8 m.root it.first).2 else m.stack) = cur 8 m.root it.first := by
    split
    · rfl
    · rename_i hc
      exact hs (Classical.byContradiction fun hh => hc ⟨h0, hh⟩)
  have hnx : judyNxt m.root (cur 8 m.root it.first) = (hi it.first (Judy.ents 8 m.root)).head?.map fun x => cur 8 m.root x.1 := by
    unfold judyNxt
    by_cases hc : cur 8 m.root it.first = []
    · rw [if_pos hc]
      have := cur_ne hc
      rw [this]; rfl
    · rw [if_neg hc]; exact nxt_spec 8 m.root h.wf it.first hk
  unfold Map.next
  rw [hst]
  dsimp only
  rw [hnx]
  cases hh : (hi it.first m.ents).head? with
  | none =>
    exact ⟨rfl, rfl, rfl, rfl, rfl⟩
  | some x =>
    have hx : x ∈ m.ents := (mem_hi.1 (List.mem_of_head? hh)).1
    have hxl := h.lt x hx
    obtain ⟨f1, f2⟩ := slot_found 8 m.root h.wf x.1 hxl x.2 ((look_some h.sorted).1 ((look_mem h.sorted).2 hx))
    have hne' : cur 8 m.root x.1 ≠ [] := ents_ne_cur x.1 (by
      intro he
      unfold Map.ents at hx
      rw [he] at hx; cases hx)
    have hkey : judyKey m.root (cur 8 m.root x.1) it.first = x.1 := by
      unfold judyKey; rw [if_neg hne']; exact key_found 8 m.root h.wf x.1 hxl (by rw [f1]; rfl)
    refine ⟨rfl, rfl, rfl, rfl, hkey, f2, fun _ => ?_⟩
    show cur 8 m.root x.1 = cur 8 m.root (judyKey m.root (cur 8 m.root x.1) it.first)
    rw [hkey]

end Umpire.Judy
