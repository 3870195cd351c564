import Verif.Judy.MapInv
/-!
# `AllocationMap` against a table of stacks
-/
set_option autoImplicit false
set_option linter.unusedSimpArgs false
namespace Umpire.Judy

/-- The table with one more record for `p`. -/
def push (f : Nat → List Rec) (p : Nat) (r : Rec) : Nat → List Rec := fun q => if q = p then r :: f p else f q
/-- The table without the newest record for `p`. -/
def pop (f : Nat → List Rec) (p : Nat) : Nat → List Rec := fun q => if q = p then (f p).tail else f q

/-- The records of the map are those of the table; `n` counts them. -/
structure AInv (a : AMap) (f : Nat → List Rec) (n : Nat) : Prop where
  ok : a.map.Ok
  tab : ∀ p, look p a.map.ents = if f p = [] then none else some (f p)
  size : a.size = n
  sum : (a.map.ents.map (·.2.length)).sum = n

theorem ainv_new : AInv AMap.new (fun _ => []) 0 := ⟨Map.new_ok, fun _ => rfl, rfl, rfl⟩

variable {V : Type}

theorem sum_put {L : List (Nat × V)} (h : Sorted L) (g : Nat × V → Nat) {key : Nat} (hm : mid key L = []) (x : V) :
    ((lo key L ++ (key, x) :: hi key L).map g).sum = (L.map g).sum + g (key, x) := by
  have := congrArg (fun l => (l.map g).sum) (split3 h key)
  rw [hm] at this
  simp only [List.map_append, List.map_cons, List.map_nil, List.sum_append, List.sum_cons, List.sum_nil] at this ⊢
  omega

theorem sum_same {L : List (Nat × V)} (h : Sorted L) (g : Nat × V → Nat) {key : Nat} {y : V} (hm : mid key L = [(key, y)]) (x : V) :
    ((lo key L ++ (key, x) :: hi key L).map g).sum + g (key, y) = (L.map g).sum + g (key, x) := by
  have := congrArg (fun l => (l.map g).sum) (split3 h key)
  rw [hm] at this
  simp only [List.map_append, List.map_cons, List.map_nil, List.sum_append, List.sum_cons, List.sum_nil] at this ⊢
  omega

theorem sum_del {L : List (Nat × V)} (h : Sorted L) (g : Nat × V → Nat) {key : Nat} {y : V} (hm : mid key L = [(key, y)]) :
    ((lo key L ++ hi key L).map g).sum + g (key, y) = (L.map g).sum := by
  have := congrArg (fun l => (l.map g).sum) (split3 h key)
  rw [hm] at this
  simp only [List.map_append, List.map_cons, List.map_nil, List.sum_append, List.sum_cons, List.sum_nil] at this ⊢
  omega

theorem AInv.absent {a : AMap} {f : Nat → List Rec} {n : Nat} (h : AInv a f n) {p : Nat} (hf : f p = []) : look p a.map.ents = none := by
  rw [h.tab, if_pos hf]

theorem AInv.present {a : AMap} {f : Nat → List Rec} {n : Nat} (h : AInv a f n) {p : Nat} (hf : f p ≠ []) :
    look p a.map.ents = some (f p) := by
  rw [h.tab, if_neg hf]

theorem AInv.bound {a : AMap} {f : Nat → List Rec} {n : Nat} (h : AInv a f n) {p : Nat} (hf : f p ≠ []) : p < 2 ^ 64 :=
  h.ok.lt (p, f p) ((look_mem h.ok.sorted).1 (h.present hf))

/-- At most 56 occupied addresses in every aligned block of 256 bytes of `B` (given by
its number). -/
def SparseF (B : Nat → Prop) (f : Nat → List Rec) : Prop :=
  ∀ b, B b → ((List.range 256).filter fun i => decide (f (256 * b + i) ≠ [])).length ≤ 56

theorem keys_nodup_of_sorted {L : List (Nat × V)} (h : Sorted L) : (L.map (·.1)).Nodup := by
  rw [List.Nodup, List.pairwise_map]
  exact List.Pairwise.imp (fun h => Nat.ne_of_lt h) h

theorem nodup_length_le : ∀ {A B : List Nat}, A.Nodup → (∀ a ∈ A, a ∈ B) → A.length ≤ B.length
  | [], _, _, _ => Nat.zero_le _
  | a :: A, B, hn, hs => by
    have ha := hs a List.mem_cons_self
    have hn' := List.nodup_cons.1 hn
    have := nodup_length_le (B := B.erase a) hn'.2 fun x hx =>
      (List.mem_erase_of_ne (fun h : x = a => hn'.1 (h ▸ hx))).2 (hs x (List.mem_cons_of_mem _ hx))
    rw [List.length_erase_of_mem ha] at this
    have := List.length_pos_of_mem ha
    simp only [List.length_cons]
    omega

theorem sparse_of {B : Nat → Prop} {L : List (Nat × List Rec)} (hs : Sorted L) {f : Nat → List Rec}
    (hf : ∀ x ∈ L, f x.1 ≠ []) (h : SparseF B f) : Sparse B L := by
  intro b hb
  refine Nat.le_trans ?_ (h b hb)
  have e : (L.filter fun x => decide (x.1 / 256 = b)).length = ((L.filter fun x => decide (x.1 / 256 = b)).map fun x => x.1 % 256).length := by simp
  rw [e]
  apply nodup_length_le
  · rw [List.Nodup, List.pairwise_map]
    refine List.Pairwise.imp_of_mem ?_ (hs.filter _)
    intro x y hx hy hxy
    have h1 := (List.mem_filter.1 hx).2
    have h2 := (List.mem_filter.1 hy).2
    simp at h1 h2
    omega
  · intro i hi
    obtain ⟨x, hx, rfl⟩ := List.mem_map.1 hi
    obtain ⟨hx1, hx2⟩ := List.mem_filter.1 hx
    simp at hx2
    refine List.mem_filter.2 ⟨List.mem_range.2 (Nat.mod_lt _ (by decide)), ?_⟩
    have : 256 * b + x.1 % 256 = x.1 := by omega
    rw [this]
    exact decide_eq_true (hf x hx1)

theorem push_tab {a : AMap} {f : Nat → List Rec} {n : Nat} (h : AInv a f n) (p : Nat) (r : Rec) (q : Nat) :
    look q (lo p a.map.ents ++ (p, r :: f p) :: hi p a.map.ents) = if push f p r q = [] then none else some (push f p r q) := by
  rw [look_put]
  unfold push
  by_cases hq : q = p
  · rw [if_pos hq, if_pos hq, if_neg (by simp)]
  · rw [if_neg hq, if_neg hq]; exact h.tab q

theorem ainv_insert {a : AMap} {f : Nat → List Rec} {n : Nat} (h : AInv a f n) {p : Nat} (hp : p < 2 ^ 64) (r : Rec) :
    AInv (a.insert p r) (push f p r) (n + 1) ∧
    (∀ B, NoLeafRadix B 8 a.map.root → SparseF B (push f p r) → NoLeafRadix B 8 (a.insert p r).map.root) := by
  by_cases hf : f p = []
  · have hl := h.absent hf
    obtain ⟨i1, i2, i3, _, i5⟩ := doInsert_new h.ok hp hl [r]
    have hi : a.insert p r = { map := (a.map.doInsert p [r]).1, size := a.size + 1 } := by
      unfold AMap.insert Map.insert
      dsimp only
      rw [if_pos i1]
    have htab : ∀ q, look q (a.map.doInsert p [r]).1.ents = if push f p r q = [] then none else some (push f p r q) := by
      intro q
      rw [i3]
      have := push_tab h p r q
      rw [hf] at this; exact this
    rw [hi]
    refine ⟨⟨i2, htab, congrArg (· + 1) h.size, ?_⟩, ?_⟩
    · show ((a.map.doInsert p [r]).1.ents.map (·.2.length)).sum = n + 1
      rw [i3, sum_put h.ok.sorted _ ((look_none h.ok.sorted).1 hl), h.sum]
      rfl
    · intro B hn hsp
      refine i5 B hn ?_
      rw [← i3]
      refine sparse_of i2.sorted ?_ hsp
      intro x hx hx0
      have := (look_mem i2.sorted).2 hx
      rw [htab, if_pos hx0] at this
      cases this
  · have hl := h.present hf
    have hm := (look_some h.ok.sorted).1 hl
    have hd := doInsert_old h.ok hp hl [r]
    obtain ⟨w1, w2, _, _, w5⟩ := write_present 8 a.map.root h.ok.wf p hp (f p) hm (r :: f p)
    have hr := (slot_found 8 a.map.root h.ok.wf p hp (f p) hm).2
    have hi : a.insert p r = { map := { a.map with stack := cur 8 a.map.root p, last := some (cur 8 a.map.root p), oper := self, root := writeAt 8 a.map.root (cur 8 a.map.root p) (some (r :: f p)) }, size := a.size + 1 } := by
      unfold AMap.insert Map.insert
      rw [hd]
      dsimp only
      rw [if_neg (by decide), hr]
      rfl
    rw [hi]
    refine ⟨⟨⟨w1, ?_⟩, ?_, congrArg (· + 1) h.size, ?_⟩, fun B hn _ => w5 B hn⟩
    · show a.map.size = (Judy.ents 8 _).length
      rw [w2, h.ok.size]
      exact (len_same h.ok.sorted hm _).symm
    · intro q
      show look q (Judy.ents 8 _) = _
      rw [w2]
      exact push_tab h p r q
    · show ((Judy.ents 8 _).map (fun x : Nat × List Rec => x.2.length)).sum = n + 1
      rw [w2]
      have := sum_same h.ok.sorted (fun x : Nat × List Rec => x.2.length) hm (r :: f p)
      have hs := h.sum
      unfold Map.ents at this hs
      simp only [List.length_cons] at this
      omega

theorem ainv_remove {a : AMap} {f : Nat → List Rec} {n : Nat} (h : AInv a f n) {p : Nat} {r : Rec} {rest : List Rec}
    (hf : f p = r :: rest) :
    ∃ a', a.remove p = .ok a' r ∧ AInv a' (pop f p) (n - 1) ∧ 1 ≤ n ∧ (∀ B, NoLeafRadix B 8 a.map.root → NoLeafRadix B 8 a'.map.root) := by
  have hl : look p a.map.ents = some (r :: rest) := by rw [h.present (by rw [hf]; simp), hf]
  have hp : p < 2 ^ 64 := h.bound (by rw [hf]; simp)
  have hm := (look_some h.ok.sorted).1 hl
  have hfd := find_found h.ok hp hl 2
  obtain ⟨w1, w2, _, w4, w5⟩ := write_present 8 a.map.root h.ok.wf p hp (r :: rest) hm rest
  have hsorted : Sorted (Judy.ents 8 (writeAt 8 a.map.root (cur 8 a.map.root p) (some rest))) := sorted_ents _ _ w1
  have hlen := len_same h.ok.sorted hm rest
  have hsum := sum_same h.ok.sorted (fun x : Nat × List Rec => x.2.length) hm rest
  have hsum0 := h.sum
  have hsize0 := h.ok.size
  unfold Map.ents at hsum hsum0 hlen
  simp only [List.length_cons] at hsum
  by_cases hr : rest = []
  · subst hr
    have hm2 : mid p (Judy.ents 8 (writeAt 8 a.map.root (cur 8 a.map.root p) (some []))) = [(p, [])] := by
      rw [← look_some hsorted, w2, look_put, if_pos rfl]
    obtain ⟨s1, s2⟩ := slot_found 8 _ w1 p hp [] hm2
    obtain ⟨d1, d2, d3⟩ := del_spec 8 _ w1 p hp [] hm2
    rw [w4] at s2 d1 d2 d3
    rw [← w2] at hsum hlen
    have hsum2 := sum_del hsorted (fun x : Nat × List Rec => x.2.length) hm2
    have hlen2 := len_del hsorted hm2
    simp only [List.length_nil] at hsum2 hsum
    refine ⟨{ map := { a.map with stack := cur 8 a.map.root p, last := some (cur 8 a.map.root p), oper := self, root := delF 8 (writeAt 8 a.map.root (cur 8 a.map.root p) (some [])) (cur 8 a.map.root p), size := a.map.size - 1 }, size := a.size - 1 }, ?_, ⟨⟨d1, ?_⟩, ?_, ?_, ?_⟩, by omega, fun B hn => d3 B (w5 B hn)⟩
    · unfold AMap.remove
      rw [hfd]
      dsimp only
      rw [if_pos rfl]
      dsimp only [Map.removeLast, Map.value]
      rw [Option.bind_some, s2]
    · show a.map.size - 1 = (Judy.ents 8 _).length
      rw [d2]
      omega
    · intro q
      show look q (Judy.ents 8 _) = _
      rw [d2, look_del, w2, look_put]
      unfold pop
      by_cases hq : q = p
      · rw [if_pos hq, if_pos hq, hf]; rfl
      · rw [if_neg hq, if_neg hq, if_neg hq]; exact h.tab q
    · show a.size - 1 = n - 1
      rw [h.size]
    · show ((Judy.ents 8 _).map (fun x : Nat × List Rec => x.2.length)).sum = n - 1
      rw [d2]
      omega
  · refine ⟨{ map := { a.map with stack := cur 8 a.map.root p, last := some (cur 8 a.map.root p), oper := self, root := writeAt 8 a.map.root (cur 8 a.map.root p) (some rest) }, size := a.size - 1 }, ?_, ⟨⟨w1, ?_⟩, ?_, ?_, ?_⟩, by omega, w5⟩
    · unfold AMap.remove
      rw [hfd]
      dsimp only
      rw [if_neg hr]
    · show a.map.size = (Judy.ents 8 _).length
      rw [w2]
      omega
    · intro q
      show look q (Judy.ents 8 _) = _
      rw [w2, look_put]
      unfold pop
      by_cases hq : q = p
      · rw [if_pos hq, if_pos hq, hf, List.tail_cons, if_neg hr]
      · rw [if_neg hq, if_neg hq]; exact h.tab q
    · show a.size - 1 = n - 1
      rw [h.size]
    · show ((Judy.ents 8 _).map (fun x : Nat × List Rec => x.2.length)).sum = n - 1
      rw [w2]
      omega

theorem ainv_throws {a : AMap} {f : Nat → List Rec} {n : Nat} (h : AInv a f n) {p : Nat} (hp : p < 2 ^ 64) (hf : f p = []) :
    ∃ a', a.remove p = .throws a' ∧ a'.map.root = a.map.root ∧ a'.map.size = a.map.size ∧ a'.size = a.size := by
  have hl := h.absent hf
  have hs := (find_absent h.ok hp hl 2).1
  refine ⟨{ a with map := (a.map.find 2 p).1 }, ?_, rfl, rfl, rfl⟩
  unfold AMap.remove
  dsimp only
  rw [hs]

/-- Operations that only move the cursor. -/
theorem ainv_same {a a' : AMap} {f : Nat → List Rec} {n : Nat} (h : AInv a f n) (h1 : a'.map.root = a.map.root)
    (h2 : a'.map.size = a.map.size) (h3 : a'.size = a.size) : AInv a' f n := by
  have e : a'.map.ents = a.map.ents := by unfold Map.ents; rw [h1]
  exact ⟨⟨by rw [h1]; exact h.ok.wf, by rw [h2, h.ok.size, h1]⟩, by rw [e]; exact h.tab, by rw [h3]; exact h.size, by rw [e]; exact h.sum⟩

theorem find_same (a : AMap) (p : Nat) : (a.findRecord p).1.map.root = a.map.root ∧ (a.findRecord p).1.map.size = a.map.size ∧
    (a.findRecord p).1.size = a.size := ⟨(fob_state a.map p).1, (fob_state a.map p).2.1, rfl⟩

theorem ainv_clear {a : AMap} {f : Nat → List Rec} {n : Nat} (h : AInv a f n) {fuel : Nat} (hf : a.map.ents.length < fuel) :
    ∃ a', a.clear fuel = some a' ∧ AInv a' (fun _ => []) 0 ∧ (∀ B, NoLeafRadix B 8 a.map.root → NoLeafRadix B 8 a'.map.root) := by
  obtain ⟨m', c1, c2, c3, _, _, c6⟩ := clear_spec fuel a.map h.ok hf
  refine ⟨{ map := m', size := 0 }, by unfold AMap.clear; rw [c1]; rfl, ⟨c2, ?_, rfl, ?_⟩, c6⟩
  · intro p; rw [c3]; rfl
  · rw [c3]; rfl

/-- With any fuel, `clear` either runs out or empties the map. -/
theorem clear_any : ∀ (fuel : Nat) (m m' : Map V), m.Ok → m.clearLoop fuel = some m' → m.ents.length < fuel
  | 0, _, _, _, h => by cases h
  | fuel + 1, m, m', hok, h => by
    have hf := first_spec 8 m.root hok.wf
    unfold Map.clearLoop at h
    cases he : Judy.ents 8 m.root with
    | nil => show (Judy.ents 8 m.root).length < _; rw [he]; simp
    | cons x L =>
      rw [he] at hf
      have hf' : firstF 8 m.root = some (cur 8 m.root x.1) := hf
      have hx : x ∈ m.ents := by show x ∈ Judy.ents 8 m.root; rw [he]; exact List.mem_cons_self
      have hm := (look_some hok.sorted).1 ((look_mem hok.sorted).2 hx)
      have hk := hok.lt x hx
      obtain ⟨h1, h2⟩ := slot_found 8 m.root hok.wf x.1 hk x.2 hm
      obtain ⟨d1, d2, d3⟩ := del_spec 8 m.root hok.wf x.1 hk x.2 hm
      have hlen : (lo x.1 (Judy.ents 8 m.root) ++ hi x.1 (Judy.ents 8 m.root)).length + 1 = m.ents.length := len_del hok.sorted hm
      rw [hf'] at h
      dsimp only [Map.removeLast, Map.value] at h
      rw [Option.bind_some, h2] at h
      dsimp only at h
      have := clear_any fuel _ _ ⟨d1, by
          show m.size - 1 = (Judy.ents 8 _).length
          rw [d2, hok.size]
          show m.ents.length - 1 = _
          omega⟩ h
      have hlt : (Judy.ents 8 (delF 8 m.root (cur 8 m.root x.1))).length < fuel := this
      rw [d2] at hlt
      omega

end Umpire.Judy
