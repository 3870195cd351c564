import Verif.Judy.AMapInv
import Verif.Base.Lists
/-!
# Properties of `MemoryMap` and `AllocationMap` (C20, C21, C22, C55)
-/
set_option autoImplicit false
set_option linter.unusedSimpArgs false
namespace Umpire.Judy
variable {V : Type}

/-! ## C22: the address tree is an ordered map

The specification is a partial function from addresses to values.  As for
`std::map::insert`, inserting a key that is present leaves its value. -/

/-- What a user can bring about; `f` is what the map should hold.  Only keys that are
present are erased. -/
inductive MReach : Map V → (Nat → Option V) → Prop where
  | new : MReach Map.new fun _ => none
  | insert {m : Map V} {f key v} : MReach m f → key < 2 ^ 64 →
      MReach (m.insert key v).1 fun k => if k = key then some ((f key).getD v) else f k
  | erase {m m' : Map V} {f key v} : MReach m f → f key = some v → m.erase key = .ok m' →
      MReach m' fun k => if k = key then none else f k
  | eraseErr {m m' : Map V} {f key} : MReach m f → key < 2 ^ 64 → m.erase key = .throws m' → MReach m' f
  | find {m : Map V} {f key a} : MReach m f → MReach (m.find a key).1 f
  | before {m : Map V} {f key} : MReach m f → MReach (m.findOrBefore key).1 f
  | clear {m m' : Map V} {f fuel} : MReach m f → m.clearLoop fuel = some m' → MReach m' fun _ => none
  | begin {m : Map V} {f a} : MReach m f → MReach (m.begin a).1 f
  | next {m : Map V} {f it} : MReach m f → MReach (m.next it).1 f

structure MInv (m : Map V) (f : Nat → Option V) : Prop where
  ok : m.Ok
  tab : ∀ k, look k m.ents = f k

theorem minv_same {m m' : Map V} {f : Nat → Option V} (h : MInv m f) (h1 : m'.root = m.root) (h2 : m'.size = m.size) : MInv m' f := by
  have e : m'.ents = m.ents := by unfold Map.ents; rw [h1]
  exact ⟨⟨by rw [h1]; exact h.ok.wf, by rw [h2, h.ok.size, h1]⟩, by rw [e]; exact h.tab⟩

theorem MInv.lt {m : Map V} {f : Nat → Option V} (h : MInv m f) {k : Nat} {v : V} (hk : f k = some v) : k < 2 ^ 64 :=
  h.ok.lt (k, v) ((look_mem h.ok.sorted).1 ((h.tab k).trans hk))

theorem next_state (m : Map V) (it : Iter V) : (m.next it).1.root = m.root ∧ (m.next it).1.size = m.size ∧
    (m.next it).1.oper = it.addr ∧ (m.next it).2.addr = it.addr := by
  unfold Map.next
  dsimp only
  split <;> exact ⟨rfl, rfl, rfl, rfl⟩

theorem mreach_inv {m : Map V} {f : Nat → Option V} (h : MReach m f) : MInv m f := by
  induction h with
  | new => exact ⟨Map.new_ok, fun _ => rfl⟩
  | @insert m f key v _ hk ih =>
    cases hf : f key with
    | none =>
      have hl : look key m.ents = none := (ih.tab key).trans hf
      obtain ⟨_, i2, i3, _, _⟩ := doInsert_new ih.ok hk hl v
      refine ⟨i2, fun k => ?_⟩
      show look k (m.doInsert key v).1.ents = _
      rw [i3, look_put, ih.tab k]; rfl
    | some y =>
      have hl : look key m.ents = some y := (ih.tab key).trans hf
      have hd := doInsert_old ih.ok hk hl v
      have := minv_same ih (m' := (m.insert key v).1) (by unfold Map.insert; rw [hd]) (by unfold Map.insert; rw [hd])
      refine ⟨this.ok, fun k => ?_⟩
      rw [this.tab k]
      by_cases hkk : k = key
      · rw [if_pos hkk, hkk, hf]; rfl
      · rw [if_neg hkk]
  | @erase m m' f key v _ hf he ih =>
    obtain ⟨m'', e1, e2, e3, _, _⟩ := erase_found ih.ok (ih.lt hf) ((ih.tab key).trans hf)
    rw [he] at e1; injection e1 with e1; subst e1
    refine ⟨e2, fun k => ?_⟩
    rw [e3, look_del, ih.tab k]
  | @eraseErr m m' f key _ hk he ih =>
    cases hf : f key with
    | some y =>
      obtain ⟨m'', e1, _⟩ := erase_found ih.ok hk ((ih.tab key).trans hf)
      rw [he] at e1; cases e1
    | none =>
      rcases erase_absent ih.ok hk ((ih.tab key).trans hf) with h | ⟨m'', e1, e2, e3, _⟩
      · rw [he] at h; cases h
      · rw [he] at e1; injection e1 with e1; subst e1
        exact minv_same ih e2 e3
  | @find m f key a _ ih => exact minv_same ih rfl rfl
  | @before m f key _ ih => exact minv_same ih (fob_state m key).1 (fob_state m key).2.1
  | @clear m m' f fuel _ hc ih =>
    obtain ⟨m'', c1, c2, c3, _⟩ := clear_spec fuel m ih.ok (clear_any fuel m m' ih.ok hc)
    rw [hc] at c1; injection c1 with c1; subst c1
    exact ⟨c2, fun k => by rw [c3]; rfl⟩
  | @begin m f a _ ih => exact minv_same ih rfl rfl
  | @next m f it _ ih => exact minv_same ih (next_state m it).1 (next_state m it).2.1

/-- **C22**, lookup and update: the value found is the one stored, insertion reports
whether the key was new, erasing a present key succeeds, `clear` ends after at most
one round per key, and the size is right.  Not proved, because false: `find` of an absent key gives
the end iterator, and erasing an absent key throws; see the counterexamples below. -/
theorem memorymap_lookup_partial {m : Map V} {f : Nat → Option V} (h : MReach m f) {key : Nat} (hk : key < 2 ^ 64) :
    (∀ a, (m.find a key).2.second = f key) ∧
    (∀ v, (m.insert key v).2 = (f key).isNone) ∧
    (∀ v, f key = some v → ∃ m', m.erase key = .ok m') ∧
    (f key = none → ∀ m', m.erase key ≠ .ok m') ∧
    (∀ fuel, m.size < fuel → ∃ m', m.clearLoop fuel = some m') := by
  have hi := mreach_inv h
  refine ⟨?_, ?_, ?_, ?_, ?_⟩
  · intro a
    cases hf : f key with
    | none => exact (find_absent hi.ok hk ((hi.tab key).trans hf) a).1
    | some v => rw [find_found hi.ok hk ((hi.tab key).trans hf) a]
  · intro v
    cases hf : f key with
    | none => exact (doInsert_new hi.ok hk ((hi.tab key).trans hf) v).1
    | some y => unfold Map.insert; rw [doInsert_old hi.ok hk ((hi.tab key).trans hf) v]; rfl
  · intro v hf
    obtain ⟨m', e, _⟩ := erase_found hi.ok hk ((hi.tab key).trans hf)
    exact ⟨m', e⟩
  · intro hf m' he
    rcases erase_absent hi.ok hk ((hi.tab key).trans hf) with h | ⟨m'', e1, _⟩
    · rw [he] at h; cases h
    · rw [he] at e1; cases e1
  · intro fuel hl
    obtain ⟨m', c, _⟩ := clear_spec fuel m hi.ok (by rw [hi.ok.size] at hl; exact hl)
    exact ⟨m', c⟩

/-- **C22**, neighbours: among the stored keys `findOrBefore` never returns one above
the address, and a key that is present is found exactly. -/
theorem memorymap_before_sound {m : Map V} {f : Nat → Option V} (h : MReach m f) {key : Nat} (hk : key < 2 ^ 64) :
    (∀ y, (m.findOrBefore key).1.value = some y → ∃ k, k ≤ key ∧ f k = some y) ∧
    (∀ y, f key = some y → (m.findOrBefore key).1.value = some y ∧ (m.findOrBefore key).2 = key) := by
  have hi := mreach_inv h
  refine ⟨fun y hy => ?_, fun y hf => ?_⟩
  · obtain ⟨x, hx, h1, h2⟩ := fob_sound hi.ok hk hy
    refine ⟨x.1, h1, ?_⟩
    rw [← hi.tab, ← h2]; exact (look_mem hi.ok.sorted).2 hx
  · have := fob_found hi.ok hk ((hi.tab key).trans hf)
    exact ⟨this.2, by rw [this.1]⟩

/-- A range loop over the map: `body` is what the loop body does to the map.  The
visited pairs, at most `fuel` of them. -/
def visit (body : Map V → Map V) : Nat → Map V → Iter V → List (Nat × Option V)
  | 0, _, _ => []
  | fuel + 1, m, it =>
    if it.isEnd then []
    else (it.first, it.second) :: (let r := (body m).next it; visit body fuel r.1 r.2)

/-- The body leaves the contents, and does not move the cursor in the name of the
iterator at `a`. -/
def Quiet (a : Nat) (body : Map V → Map V) : Prop :=
  ∀ m, (body m).root = m.root ∧ (body m).size = m.size ∧ ((body m).oper = a → m.oper = a ∧ (body m).stack = m.stack)

theorem visit_spec {body : Map V → Map V} {a : Nat} (hb : Quiet a body) : ∀ (S P : List (Nat × V)) (m : Map V) (it : Iter V) (x : Nat × V) (fuel : Nat),
    m.Ok → m.ents = P ++ x :: S → (∀ y ∈ m.ents, y.1 ≠ 0) → it.addr = a → it.first = x.1 → it.second = some x.2 → Sync m it →
    S.length + 1 < fuel → visit body fuel m it = (x :: S).map fun y => (y.1, some y.2)
  | S, P, m, it, x, 0, _, _, _, _, _, _, _, hf => absurd hf (by omega)
  | S, P, m, it, x, fuel + 1, hok, he, h0, ha, h1, h2, hs, hf => by
    have hx0 : x.1 ≠ 0 := h0 x (by rw [he]; simp)
    have hend : it.isEnd = false := by unfold Iter.isEnd; rw [h1]; simpa using hx0
    have hok' : (body m).Ok := ⟨by rw [(hb m).1]; exact hok.wf, by rw [(hb m).2.1, hok.size, (hb m).1]⟩
    have he' : (body m).ents = m.ents := by unfold Map.ents; rw [(hb m).1]
    have hs' : Sync (body m) it := by
      intro ho
      obtain ⟨b1, b2⟩ := (hb m).2.2 (ho.trans ha)
      rw [b2, (hb m).1]
      exact hs (b1.trans ha.symm)
    have hn := next_spec hok' hs' (by rw [h1]; exact hx0) (by rw [h1]; exact hok.lt x (by rw [he]; simp))
    obtain ⟨n1, n2, n3, n4, n5⟩ := hn
    have hso := hok.sorted
    rw [he] at hso
    have hc := cut_at (P := P) (M := [x]) (S := S) (v := x.1) (fun z hz => (sorted_append.1 hso).2.2 z hz x (by simp)) (by simp)
      (fun z hz => (List.pairwise_cons.1 (sorted_append.1 hso).2.1).1 z hz)
    rw [List.append_assoc] at hc
    simp only [List.singleton_append] at hc
    rw [he', he, h1, hc.2.2] at n5
    unfold visit
    rw [hend]
    simp only [Bool.false_eq_true, if_false, List.map_cons, h1, h2]
    congr 1
    have hok2 : ((body m).next it).1.Ok := ⟨by rw [n1]; exact hok'.wf, by rw [n2, hok'.size, n1]⟩
    have he2 : ((body m).next it).1.ents = m.ents := by unfold Map.ents; rw [n1, (hb m).1]
    cases S with
    | nil =>
      have n5' : ((body m).next it).2.first = 0 := n5
      cases fuel with
      | zero => simp at hf
      | succ fuel =>
        unfold visit
        have : ((body m).next it).2.isEnd = true := by unfold Iter.isEnd; rw [n5']; rfl
        rw [this]; rfl
    | cons z S =>
      have n5' : ((body m).next it).2.first = z.1 ∧ ((body m).next it).2.second = some z.2 ∧ Sync ((body m).next it).1 ((body m).next it).2 := n5
      refine visit_spec hb S (P ++ [x]) _ _ z fuel hok2 (by rw [he2, he]; simp) (by rw [he2]; exact h0) (n4.trans ha)
        n5'.1 n5'.2.1 n5'.2.2 (by simp only [List.length_cons] at hf; omega)

/-- **C22**, iteration: a range loop visits every stored key exactly once in
increasing order with its value, whatever lookups the body makes.  Null keys are
excluded: see `memorymap_null_key_counterexample`. -/
theorem memorymap_iterate_partial {m : Map V} {f : Nat → Option V} (h : MReach m f) (h0 : f 0 = none)
    {a : Nat} {body : Map V → Map V} (hb : Quiet a body) :
    ∃ L : List (Nat × V), L.Pairwise (fun x y => x.1 < y.1) ∧ (∀ k v, (k, v) ∈ L ↔ f k = some v) ∧ L.length = m.size ∧
      ∀ fuel, m.size + 1 < fuel → visit body fuel (m.begin a).1 (m.begin a).2 = L.map fun x => (x.1, some x.2) := by
  have hi := mreach_inv h
  refine ⟨m.ents, hi.ok.sorted, fun k v => ?_, hi.ok.size.symm, fun fuel hf => ?_⟩
  · rw [← hi.tab]; exact (look_mem hi.ok.sorted).symm
  · have hz : ∀ y ∈ m.ents, y.1 ≠ 0 := by
      intro y hy hy0
      have := (look_mem hi.ok.sorted).2 hy
      rw [hy0, hi.tab, h0] at this; cases this
    obtain ⟨b1, b2, b3, b4, b5⟩ := begin_spec hi.ok a
    have hsz := hi.ok.size
    cases he : m.ents with
    | nil =>
      rw [he] at b5
      have b5' : (m.begin a).2.first = 0 ∧ _ := b5
      cases fuel with
      | zero => omega
      | succ fuel =>
        unfold visit
        have : (m.begin a).2.isEnd = true := by unfold Iter.isEnd; rw [b5'.1]; rfl
        rw [this]; rfl
    | cons x S =>
      rw [he] at b5
      have b5' : (m.begin a).2.first = x.1 ∧ (m.begin a).2.second = some x.2 ∧ Sync (m.begin a).1 (m.begin a).2 := b5
      have he2 : (m.begin a).1.ents = m.ents := rfl
      refine visit_spec hb S [] _ _ x fuel ⟨hi.ok.wf, hi.ok.size⟩ (by rw [he2, he]; rfl) (by rw [he2]; exact hz) b4 b5'.1 b5'.2.1 b5'.2.2 ?_
      have hl : m.size = (x :: S).length := by rw [hsz]; exact congrArg List.length he
      simp only [List.length_cons] at hl
      omega

/-- A history: two insertions, a lookup, an erasure. -/
example : MReach ((((((Map.new : Map Nat).insert 4096 1).1.insert 8192 2).1).insert 4096 3).1) 
    (fun k => if k = 4096 then some 1 else if k = 8192 then some 2 else none) := by
  have h := ((MReach.new (V := Nat)).insert (key := 4096) (v := 1) (by decide)).insert (key := 8192) (v := 2) (by decide)
    |>.insert (key := 4096) (v := 3) (by decide)
  have e : (fun k : Nat => if k = 4096 then some 1 else if k = 8192 then some 2 else none) = _ := rfl
  refine cast ?_ h
  congr 1
  funext k
  by_cases h1 : k = 4096 <;> by_cases h2 : k = 8192 <;> simp [h1, h2]

/-- A loop body that looks something up is quiet for iterators elsewhere. -/
example : Quiet 2 fun m : Map Nat => (m.find 9 4096).1 := fun m => ⟨rfl, rfl, fun h => absurd h (show self ≠ 2 by decide)⟩

example : visit (fun m : Map Nat => (m.find 9 4096).1) 10 ((((Map.new : Map Nat).insert 8192 2).1.insert 4096 1).1.begin 2).1
    ((((Map.new : Map Nat).insert 8192 2).1.insert 4096 1).1.begin 2).2 = [(4096, some 1), (8192, some 2)] := by decide +kernel

/-! ### What is false -/

/-- The keys `base + step * i` for `i < n`. -/
def many (n base step : Nat) : Map Nat := (List.range n).foldl (fun m i => (m.insert (base + step * i) i).1) Map.new

theorem many_reach (n base step : Nat) (h : base + step * n ≤ 2 ^ 64) (hs : 0 < step) :
    ∃ f : Nat → Option Nat, MReach (many n base step) f ∧ ∀ k v, f k = some v → ∃ i, i < n ∧ k = base + step * i := by
  induction n with
  | zero => exact ⟨_, MReach.new, fun k v h => by cases h⟩
  | succ n ih =>
    obtain ⟨f, h1, h2⟩ := ih (Nat.le_trans (Nat.add_le_add_left (Nat.mul_le_mul_left _ (Nat.le_succ n)) _) h)
    have e : many (n + 1) base step = ((many n base step).insert (base + step * n) n).1 := by
      unfold many; rw [List.range_succ, List.foldl_append]; rfl
    rw [e]
    refine ⟨_, h1.insert (by rw [Nat.mul_succ] at h; omega), fun k v hk => ?_⟩
    split at hk
    · exact ⟨n, by omega, by assumption⟩
    · obtain ⟨i, hi, hk⟩ := h2 k v hk; exact ⟨i, by omega, hk⟩

/-- `find` of an absent key need not give the end iterator, and erasing it need not
throw: it can destroy a value that does not exist.  Here 64 objects of 16 bytes are
stored from address `0x7f0000001010` on and `0x7f0000001100` is erased twice. -/
theorem memorymap_find_absent_counterexample : ∃ (m : Map Nat) (f : Nat → Option Nat) (key : Nat), MReach m f ∧ f key = none ∧
    (m.find 2 key).2.isEnd = false ∧ m.erase key = .ub := by
  obtain ⟨f, hr, hf⟩ := many_reach 64 0x7f0000001010 16 (by decide) (by decide)
  have hi := mreach_inv hr
  have hl := memorymap_lookup_partial hr (key := 0x7f0000001100) (by decide)
  have h15 : ((many 64 0x7f0000001010 16).find 2 0x7f0000001100).2.second = some 15 := by decide +kernel
  have hf15 : f 0x7f0000001100 = some 15 := by rw [← hl.1 2]; exact h15
  obtain ⟨m', he⟩ := hl.2.2.1 15 hf15
  refine ⟨m', _, 0x7f0000001100, hr.erase hf15 he, if_pos rfl, ?_, ?_⟩
  · have : (match (many 64 0x7f0000001010 16).erase 0x7f0000001100 with
      | .ok m => (m.find 2 0x7f0000001100).2.isEnd | _ => true) = false := by decide +kernel
    rw [he] at this; exact this
  · have : (match (many 64 0x7f0000001010 16).erase 0x7f0000001100 with
      | .ok m => (match m.erase 0x7f0000001100 with | .ub => true | _ => false) | _ => false) = true := by decide +kernel
    rw [he] at this
    dsimp only at this
    split at this
    · assumption
    · cases this

/-- The overload of `insert` taking a value reports the opposite of what happened. -/
theorem memorymap_insert_flag_counterexample {m : Map V} {f : Nat → Option V} (h : MReach m f) {key : Nat} (hk : key < 2 ^ 64) (v : V) :
    (m.insertValue key v).2 = (f key).isSome := by
  have := (memorymap_lookup_partial h hk).2.1 v
  unfold Map.insert at this
  unfold Map.insertValue
  dsimp only
  rw [this]
  cases f key <;> rfl

/-- A stored null key looks like the end: the loop visits nothing. -/
theorem memorymap_null_key_counterexample : ∃ (m : Map Nat) (f : Nat → Option Nat), MReach m f ∧ f 0 = some 7 ∧ f 4096 = some 8 ∧
    ∀ fuel, visit id fuel (m.begin 2).1 (m.begin 2).2 = [] := by
  refine ⟨_, _, (MReach.new.insert (key := 0) (v := 7) (by decide)).insert (key := 4096) (v := 8) (by decide), rfl, rfl, fun fuel => ?_⟩
  cases fuel with
  | zero => rfl
  | succ fuel =>
    unfold visit
    have : ((((Map.new : Map Nat).insert 0 7).1.insert 4096 8).1.begin 2).2.isEnd = true := by decide +kernel
    rw [this]; rfl

/-- An iterator made by copying where another one was before does not go to the next
key: the map takes the cursor for its own.  `b` is at the first key; a copy of it at
address 2 is advanced, goes out of scope, and a second copy at address 2 is advanced. -/
theorem memorymap_iterator_copy_counterexample : ∃ (m : Map Nat) (f : Nat → Option Nat), MReach m f ∧
    (let b := (m.begin 3).2
     let m1 := (m.begin 3).1
     b.first = 16 ∧ (m1.next (b.copy 2)).2.first = 32 ∧ ((m1.next (b.copy 2)).1.next (b.copy 2)).2.first = 48) :=
  ⟨_, _, ((MReach.new.insert (key := 16) (v := 1) (by decide)).insert (key := 32) (v := 2) (by decide)).insert (key := 48) (v := 3) (by decide),
    by decide +kernel⟩

/-- When no key is at or before the one asked for, the iterator returned by
`findOrBefore` is not `end()`: it carries no value, but a key that may lie after the
one asked for. -/
theorem memorymap_before_none_counterexample : ∃ (m : Map Nat) (f : Nat → Option Nat) (key : Nat), MReach m f ∧
    (∀ k, k ≤ key → f k = none) ∧ (m.findOrBefore key).1.value = none ∧ key < (m.findOrBefore key).2 := by
  refine ⟨_, _, 4096, MReach.new.insert (key := 8200) (v := 7) (by decide), fun k hk => ?_, by decide +kernel, by decide +kernel⟩
  have : k ≠ 8200 := by omega
  simp [this]

/-- Incrementing an iterator that has reached the end starts again at the first key. -/
theorem memorymap_past_end_counterexample : ∃ (m : Map Nat) (f : Nat → Option Nat), MReach m f ∧
    (let b := m.begin 2
     let e := b.1.next b.2
     let e2 := e.1.next e.2
     b.2.first = 16 ∧ e.2.first = 32 ∧ e2.2.isEnd = true ∧ (e2.1.next e2.2).2.first = 16) :=
  ⟨_, _, (MReach.new.insert (key := 16) (v := 1) (by decide)).insert (key := 32) (v := 2) (by decide), by decide +kernel⟩

/-! ## C21: records of one pointer form a stack

The specification is a table of stacks (`push`, `pop`) and a count. -/

/-- What a user can bring about with an allocation map; `f` is the table it should
hold, `n` the number of registrations minus the number of removals.  `P` is demanded
of the table after every registration. -/
inductive AReach (P : (Nat → List Rec) → Prop) : AMap → (Nat → List Rec) → Nat → Prop where
  | new : AReach P AMap.new (fun _ => []) 0
  | insert {a : AMap} {f n p r} : AReach P a f n → p < 2 ^ 64 → P (push f p r) → AReach P (a.insert p r) (push f p r) (n + 1)
  | remove {a a' : AMap} {f n p r} : AReach P a f n → p < 2 ^ 64 → a.remove p = .ok a' r → AReach P a' (pop f p) (n - 1)
  | removeErr {a a' : AMap} {f n p} : AReach P a f n → p < 2 ^ 64 → a.remove p = .throws a' → AReach P a' f n
  | find {a : AMap} {f n p} : AReach P a f n → AReach P (a.findRecord p).1 f n
  | clear {a a' : AMap} {f n fuel} : AReach P a f n → a.clear fuel = some a' → AReach P a' (fun _ => []) 0
  | begin {a : AMap} {f n b} : AReach P a f n → AReach P { a with map := (a.map.begin b).1 } f n
  | next {a : AMap} {f n it} : AReach P a f n → AReach P { a with map := (a.map.next it).1 } f n

theorem AReach.mono {P Q : (Nat → List Rec) → Prop} (hPQ : ∀ f, P f → Q f) {a : AMap} {f : Nat → List Rec} {n : Nat} (h : AReach P a f n) :
    AReach Q a f n := by
  induction h with
  | new => exact .new
  | insert _ h1 h2 ih => exact .insert ih h1 (hPQ _ h2)
  | remove _ h1 h2 ih => exact .remove ih h1 h2
  | removeErr _ h1 h2 ih => exact .removeErr ih h1 h2
  | find _ ih => exact .find ih
  | clear _ h1 ih => exact .clear ih h1
  | begin _ ih => exact .begin ih
  | next _ ih => exact .next ih

theorem remove_cases {a : AMap} {f : Nat → List Rec} {n : Nat} (h : AInv a f n) {p : Nat} (hp : p < 2 ^ 64) :
    (∃ a' r rest, f p = r :: rest ∧ a.remove p = .ok a' r ∧ AInv a' (pop f p) (n - 1) ∧ 1 ≤ n ∧ (∀ B, NoLeafRadix B 8 a.map.root → NoLeafRadix B 8 a'.map.root)) ∨
    (f p = [] ∧ ∃ a', a.remove p = .throws a' ∧ a'.map.root = a.map.root ∧ a'.map.size = a.map.size ∧ a'.size = a.size) := by
  cases hf : f p with
  | nil => exact .inr ⟨rfl, ainv_throws h hp hf⟩
  | cons r rest =>
    obtain ⟨a', h1, h2, h3, h4⟩ := ainv_remove h hf
    exact .inl ⟨a', r, rest, rfl, h1, h2, h3, h4⟩

theorem areach_inv {P : (Nat → List Rec) → Prop} {a : AMap} {f : Nat → List Rec} {n : Nat} (h : AReach P a f n) : AInv a f n := by
  induction h with
  | new => exact ainv_new
  | insert _ hp _ ih => exact (ainv_insert ih hp _).1
  | remove _ hp hr ih =>
    rcases remove_cases ih hp with ⟨a'', r', rest, h1, h2, h3, _⟩ | ⟨_, a'', h2, _⟩
    · rw [hr] at h2; injection h2 with h2 h2'; subst h2; exact h3
    · rw [hr] at h2; cases h2
  | removeErr _ hp hr ih =>
    rcases remove_cases ih hp with ⟨a'', r', rest, h1, h2, h3, _⟩ | ⟨_, a'', h2, h3, h4, h5⟩
    · rw [hr] at h2; cases h2
    · rw [hr] at h2; injection h2 with h2; subst h2; exact ainv_same ih h3 h4 h5
  | @find a f n p _ ih => exact ainv_same ih (find_same a p).1 (find_same a p).2.1 (find_same a p).2.2
  | @clear a a' f n fuel _ hc ih =>
    have hlt : a.map.ents.length < fuel := by
      unfold AMap.clear at hc
      obtain ⟨m', hm, _⟩ := Option.map_eq_some_iff.1 hc
      exact clear_any fuel _ _ ih.ok hm
    obtain ⟨a'', c1, c2, _⟩ := ainv_clear ih hlt
    rw [hc] at c1; injection c1 with c1; subst c1; exact c2
  | begin _ ih => exact ainv_same ih rfl rfl rfl
  | @next a f n it _ ih => exact ainv_same ih (next_state a.map it).1 (next_state a.map it).2.1 rfl

/-- The tree has no radix node for the last key byte in a block that stays sparse. -/
theorem areach_sparse {B : Nat → Prop} {a : AMap} {f : Nat → List Rec} {n : Nat} (h : AReach (SparseF B) a f n) : NoLeafRadix B 8 a.map.root := by
  induction h with
  | new => exact trivial
  | insert hr hp hs ih => exact (ainv_insert (areach_inv hr) hp _).2 B ih hs
  | remove hr' hp hr ih =>
    rcases remove_cases (areach_inv hr') hp with ⟨a'', r', rest, h1, h2, _, _, h5⟩ | ⟨_, a'', h2, _⟩
    · rw [hr] at h2; injection h2 with h2 h2'; subst h2; exact h5 B ih
    · rw [hr] at h2; cases h2
  | removeErr hr' hp hr ih =>
    rcases remove_cases (areach_inv hr') hp with ⟨a'', r', rest, h1, h2, h3, _⟩ | ⟨_, a'', h2, h3, h4, h5⟩
    · rw [hr] at h2; cases h2
    · rw [hr] at h2; injection h2 with h2; subst h2; rw [h3]; exact ih
  | @find a f n p _ ih => rw [(find_same a p).1]; exact ih
  | @clear a a' f n fuel hr hc ih =>
    have hlt : a.map.ents.length < fuel := by
      unfold AMap.clear at hc
      obtain ⟨m', hm, _⟩ := Option.map_eq_some_iff.1 hc
      exact clear_any fuel _ _ (areach_inv hr).ok hm
    obtain ⟨a'', c1, _, c2⟩ := ainv_clear (areach_inv hr) hlt
    rw [hc] at c1; injection c1 with c1; subst c1; exact c2 B ih
  | begin _ ih => exact ih
  | @next a f n it _ ih => rw [(next_state a.map it).1]; exact ih

/-- Any history. -/
abbrev Any : (Nat → List Rec) → Prop := fun _ => True

theorem findRecord_congr {a b : AMap} (h : a.map.root = b.map.root) (q : Nat) : (a.findRecord q).2 = (b.findRecord q).2 := by
  have : (a.map.findOrBefore q).1.value = (b.map.findOrBefore q).1.value := by
    unfold Map.findOrBefore Map.value
    rw [h]
    dsimp only
    split <;> simp only [h]
  unfold AMap.findRecord
  dsimp only
  rw [this]

/-- **C21**: removal gives back the newest record of the pointer; a pointer without
records makes it throw and then neither the size nor any lookup changes; the size is
the number of registrations minus removals; there is no undefined behaviour. -/
theorem allocmap_stack {a : AMap} {f : Nat → List Rec} {n : Nat} (h : AReach Any a f n) {p : Nat} (hp : p < 2 ^ 64) :
    (∀ r rest, f p = r :: rest → ∃ a', a.remove p = .ok a' r ∧ AReach Any a' (pop f p) (n - 1) ∧ a'.size + 1 = a.size) ∧
    (f p = [] → ∃ a', a.remove p = .throws a' ∧ a'.size = a.size ∧ ∀ q, (a'.findRecord q).2 = (a.findRecord q).2) ∧
    a.size = n := by
  have hi := areach_inv h
  refine ⟨fun r rest hf => ?_, fun hf => ?_, hi.size⟩
  · obtain ⟨a', h1, h2, h3, _⟩ := ainv_remove hi hf
    refine ⟨a', h1, h.remove hp h1, ?_⟩
    rw [h2.size, hi.size]; omega
  · obtain ⟨a', h1, h2, h3, h4⟩ := ainv_throws hi hp hf
    exact ⟨a', h1, h4, findRecord_congr h2⟩

/-- **C21**, `clear`: it comes to an end and leaves no record behind. -/
theorem allocmap_clear {a : AMap} {f : Nat → List Rec} {n : Nat} (h : AReach Any a f n) :
    ∃ fuel a', (∀ more, a.clear (fuel + more) = some a') ∧ a'.size = 0 ∧ ∀ q, q < 2 ^ 64 → (a'.findRecord q).2 = none := by
  have hi := areach_inv h
  obtain ⟨a', c1, c2, _⟩ := ainv_clear hi (fuel := a.map.ents.length + 1) (by omega)
  have mono : ∀ (m : Map (List Rec)) (fu : Nat) m', m.clearLoop fu = some m' → ∀ more, m.clearLoop (fu + more) = some m' := by
    intro m fu
    induction fu generalizing m with
    | zero => intro m' h; cases h
    | succ fu ih =>
      intro m' h more
      rw [Nat.add_right_comm]
      unfold Map.clearLoop at h ⊢
      split at h
      · exact h
      · split at h
        · cases h
        · exact ih _ _ h more
  refine ⟨a.map.ents.length + 1, a', fun more => ?_, c2.size, fun q hq => ?_⟩
  · unfold AMap.clear at c1 ⊢
    obtain ⟨m', h1, h2⟩ := Option.map_eq_some_iff.1 c1
    rw [mono _ _ _ h1 more, ← h2]; rfl
  · cases hv : (a'.map.findOrBefore q).1.value with
    | none => unfold AMap.findRecord; dsimp only; rw [hv]
    | some y =>
      obtain ⟨x, hx, _⟩ := fob_sound c2.ok hq hv
      have := (look_mem c2.ok.sorted).2 hx
      rw [c2.tab] at this; cases this

/-- The same pointer registered twice, another one once. -/
example : AReach Any (((AMap.new.insert 4096 ⟨4096, 8, 1⟩).insert 8192 ⟨8192, 16, 2⟩).insert 4096 ⟨4096, 32, 3⟩)
    (push (push (push (fun _ => []) 4096 ⟨4096, 8, 1⟩) 8192 ⟨8192, 16, 2⟩) 4096 ⟨4096, 32, 3⟩) 3 :=
  ((AReach.new.insert (by decide) trivial).insert (by decide) trivial).insert (by decide) trivial

/-! ## C55: iteration over the records -/

theorem iterate_of {a : AMap} {f : Nat → List Rec} {n : Nat} (hi : AInv a f n) (h0 : f 0 = []) :
    ∃ ks : List Nat, ks.Pairwise (· < ·) ∧ (∀ k, k ∈ ks ↔ f k ≠ []) ∧ (ks.map fun k => (f k).length).sum = n ∧
      ∃ fuel, ∀ more, a.records (fuel + more) = ks.flatMap f := by
  have hval : ∀ x ∈ a.map.ents, x.2 = f x.1 ∧ f x.1 ≠ [] := by
    intro x hx
    have := (look_mem hi.ok.sorted).2 hx
    rw [hi.tab] at this
    by_cases hc : f x.1 = []
    · rw [if_pos hc] at this; cases this
    · rw [if_neg hc] at this; injection this with this; exact ⟨this.symm, hc⟩
  refine ⟨a.map.ents.map (·.1), ?_, ?_, ?_, a.map.ents.length + 2, ?_⟩
  · rw [List.pairwise_map]; exact hi.ok.sorted
  · intro k
    constructor
    · intro hk
      obtain ⟨x, hx, rfl⟩ := List.mem_map.1 hk
      exact (hval x hx).2
    · intro hk
      exact List.mem_map.2 ⟨(k, f k), (look_mem hi.ok.sorted).1 (hi.present hk), rfl⟩
  · rw [List.map_map, ← hi.sum]
    congr 1
    apply List.map_congr_left
    intro x hx
    show (f x.1).length = x.2.length
    rw [(hval x hx).1]
  · intro more
    have hz : ∀ y ∈ a.map.ents, y.1 ≠ 0 := fun y hy hy0 => (hval y hy).2 (by rw [hy0]; exact h0)
    have hflat : (a.map.ents.map (·.1)).flatMap f = a.map.ents.flatMap (·.2) := by
      rw [List.flatMap_map]
      have : ∀ L : List (Nat × List Rec), (∀ x ∈ L, x.2 = f x.1) → L.flatMap (fun x => f x.1) = L.flatMap (·.2) := by
        intro L hL
        induction L with
        | nil => rfl
        | cons x L ih =>
          rw [List.flatMap_cons, List.flatMap_cons, ih (fun y hy => hL y (List.mem_cons_of_mem _ hy)), hL x List.mem_cons_self]
      exact this _ fun x hx => (hval x hx).1
    rw [hflat]
    have walk : ∀ (fuel : Nat) (a : AMap) (it : Iter (List Rec)),
        AMap.walk fuel a it = (visit id fuel a.map it).flatMap fun x => x.2.getD [] := by
      intro fuel
      induction fuel with
      | zero => intro a it; rfl
      | succ fuel ih =>
        intro a it
        unfold AMap.walk visit
        split
        · rfl
        · rw [List.flatMap_cons]
          congr 1
          exact ih _ _
    unfold AMap.records
    dsimp only
    rw [walk]
    have hq : Quiet 2 (id : Map (List Rec) → Map (List Rec)) := fun m => ⟨rfl, rfl, fun h => ⟨h, rfl⟩⟩
    obtain ⟨b1, b2, b3, b4, b5⟩ := begin_spec hi.ok 2
    have hfin : visit id (a.map.ents.length + 2 + more) (a.map.begin 2).1 (a.map.begin 2).2 = a.map.ents.map fun y => (y.1, some y.2) := by
      cases he : a.map.ents with
      | nil =>
        rw [he] at b5
        have b5' : (a.map.begin 2).2.first = 0 ∧ _ := b5
        have e : ([] : List (Nat × List Rec)).length + 2 + more = (1 + more) + 1 := by simp; omega
        rw [e]
        unfold visit
        have : (a.map.begin 2).2.isEnd = true := by unfold Iter.isEnd; rw [b5'.1]; rfl
        rw [this]; rfl
      | cons x S =>
        rw [he] at b5
        have b5' : (a.map.begin 2).2.first = x.1 ∧ (a.map.begin 2).2.second = some x.2 ∧ Sync (a.map.begin 2).1 (a.map.begin 2).2 := b5
        have he2 : (a.map.begin 2).1.ents = a.map.ents := rfl
        exact visit_spec hq S [] _ _ x _ ⟨hi.ok.wf, hi.ok.size⟩ (by rw [he2, he]; rfl) (by rw [he2]; exact hz) b4 b5'.1 b5'.2.1 b5'.2.2
          (by simp only [List.length_cons]; omega)
    show (visit id _ (a.map.begin 2).1 (a.map.begin 2).2).flatMap _ = _
    rw [hfin, List.flatMap_map]
    rfl

/-- **C55**: iterating visits, for the addresses in increasing order, all records of
each, newest first.  (No record may be registered for the null pointer.) -/
theorem allocmap_iterate {a : AMap} {f : Nat → List Rec} {n : Nat} (h : AReach Any a f n) (h0 : f 0 = []) :
    ∃ ks : List Nat, ks.Pairwise (· < ·) ∧ (∀ k, k ∈ ks ↔ f k ≠ []) ∧ (ks.map fun k => (f k).length).sum = n ∧
      ∃ fuel, ∀ more, a.records (fuel + more) = ks.flatMap f :=
  iterate_of (areach_inv h) h0

/-! ## C20: lookup finds the allocation that contains the pointer -/

/-- The addresses that belong to a record: its range, or its base when it is empty. -/
def Contains (r : Rec) (q : Nat) : Prop := r.ptr ≤ q ∧ (q < r.ptr + r.size ∨ q = r.ptr)

instance (r : Rec) (q : Nat) : Decidable (Contains r q) := inferInstanceAs (Decidable (_ ∧ _))

/-- No address belongs to two records. -/
def Apart (live : List Rec) : Prop := live.Pairwise fun a b => ∀ q, ¬(Contains a q ∧ Contains b q)

/-- The table of a list of registered records: each under its own address. -/
def byPtr (live : List Rec) : Nat → List Rec := fun p => live.filter fun r => decide (r.ptr = p)

theorem apart_eq {live : List Rec} (h : Apart live) {a b : Rec} (ha : a ∈ live) (hb : b ∈ live) {q : Nat} (h1 : Contains a q) (h2 : Contains b q) :
    a = b := by
  apply Classical.byContradiction
  intro hne
  exact pairwise_mem h (fun x y h q hq => h q ⟨hq.2, hq.1⟩) ha hb hne q ⟨h1, h2⟩

theorem contains_base (r : Rec) : Contains r r.ptr := ⟨Nat.le_refl _, .inr rfl⟩

theorem find_some {a : AMap} {q : Nat} {c : Rec} : (a.findRecord q).2 = some c ↔
    ∃ rest, (a.map.findOrBefore q).1.value = some (c :: rest) ∧ (c.ptr + c.size > q ∨ c.ptr = q) := by
  unfold AMap.findRecord
  dsimp only
  cases hv : (a.map.findOrBefore q).1.value with
  | none => simp
  | some l =>
    cases l with
    | nil => simp
    | cons d rest =>
      dsimp only
      by_cases hc : d.ptr + d.size > q ∨ d.ptr = q
      · rw [if_pos hc]
        constructor
        · intro h; injection h with h; subst h; exact ⟨rest, rfl, hc⟩
        · intro ⟨r', h, _⟩; injection h with h; injection h with h _; rw [h]
      · rw [if_neg hc]
        constructor
        · intro h; cases h
        · intro ⟨r', h, h2⟩; injection h with h; injection h with h _; rw [h] at hc; exact absurd h2 hc

theorem find_sound_of {a : AMap} {live : List Rec} {n : Nat} (hi : AInv a (byPtr live) n) (hd : Apart live) {q : Nat} (hq : q < 2 ^ 64) :
    (∀ c, (a.findRecord q).2 = some c → c ∈ live ∧ Contains c q) ∧
    (∀ r ∈ live, r.ptr = q → (a.findRecord q).2 = some r) := by
  refine ⟨fun c hc => ?_, fun r hr hrq => ?_⟩
  · obtain ⟨rest, h1, h2⟩ := find_some.1 hc
    obtain ⟨x, hx, x1, x2⟩ := fob_sound hi.ok hq h1
    have hlk := (look_mem hi.ok.sorted).2 hx
    rw [hi.tab] at hlk
    by_cases he : byPtr live x.1 = []
    · rw [if_pos he] at hlk; cases hlk
    · rw [if_neg he] at hlk
      injection hlk with hlk
      have : c ∈ byPtr live x.1 := by rw [hlk, x2]; exact List.mem_cons_self
      obtain ⟨m1, m2⟩ := List.mem_filter.1 this
      have m2' := of_decide_eq_true m2
      refine ⟨m1, by omega, by omega⟩
  · have hmem : r ∈ byPtr live q := List.mem_filter.2 ⟨hr, decide_eq_true hrq⟩
    cases hb : byPtr live q with
    | nil => rw [hb] at hmem; cases hmem
    | cons c rest =>
      have hl := hi.present (p := q) (by rw [hb]; simp)
      have hv := (fob_found hi.ok hq hl).2
      rw [hb] at hv
      have hc : c ∈ byPtr live q := by rw [hb]; exact List.mem_cons_self
      obtain ⟨c1, c2⟩ := List.mem_filter.1 hc
      have c2' := of_decide_eq_true c2
      have : c = r := apart_eq hd c1 hr (q := q) (by rw [← c2']; exact contains_base c) (by rw [← hrq]; exact contains_base r)
      rw [find_some]
      exact ⟨rest, by rw [← this]; exact hv, .inr hrq⟩

/-- **C20**, without any restriction on the history: a record that is found contains the
address and is registered, and every registered record is found at its base. -/
theorem allocmap_find_sound {a : AMap} {live : List Rec} {n : Nat} (h : AReach Any a (byPtr live) n) (hd : Apart live) {q : Nat} (hq : q < 2 ^ 64) :
    (∀ c, (a.findRecord q).2 = some c → c ∈ live ∧ Contains c q) ∧
    (∀ r ∈ live, r.ptr = q → (a.findRecord q).2 = some r) :=
  find_sound_of (areach_inv h) hd hq

/-- The lookup itself, from the invariants of the tree. -/
theorem find_of {B : Nat → Prop} {a : AMap} {live : List Rec} {n : Nat} (hi : AInv a (byPtr live) n) (hn : NoLeafRadix B 8 a.map.root)
    (hd : Apart live) {q : Nat} (hq : q < 2 ^ 64) :
    ∀ r ∈ live, B (r.ptr / 256) → Contains r q → (a.findRecord q).2 = some r := by
  intro r hr hB hc
  have hent : ∀ p, byPtr live p ≠ [] → (p, byPtr live p) ∈ a.map.ents := fun p hp => (look_mem hi.ok.sorted).1 (hi.present hp)
  have hrp : byPtr live r.ptr ≠ [] := List.ne_nil_of_mem (List.mem_filter.2 ⟨hr, decide_eq_true rfl⟩)
  have hmem : (r.ptr, byPtr live r.ptr) ∈ lo q a.map.ents ++ mid q a.map.ents := by
    have := hc.1
    rcases Nat.lt_or_eq_of_le this with h1 | h1
    · exact List.mem_append_left _ (mem_lo.2 ⟨hent _ hrp, h1⟩)
    · exact List.mem_append_right _ (mem_mid.2 ⟨hent _ hrp, h1⟩)
  obtain ⟨x, hx⟩ : ∃ x, (lo q a.map.ents ++ mid q a.map.ents).getLast? = some x := by
    cases hg : (lo q a.map.ents ++ mid q a.map.ents).getLast? with
    | none => rw [List.getLast?_eq_none_iff] at hg; rw [hg] at hmem; cases hmem
    | some x => exact ⟨x, rfl⟩
  have hxm := getLast_mem hx
  have hxe : x ∈ a.map.ents ∧ x.1 ≤ q := by
    rcases List.mem_append.1 hxm with h | h
    · exact ⟨(mem_lo.1 h).1, Nat.le_of_lt (mem_lo.1 h).2⟩
    · exact ⟨(mem_mid.1 h).1, Nat.le_of_eq (mem_mid.1 h).2⟩
  have hmax : r.ptr ≤ x.1 := by
    have hso : Sorted (lo q a.map.ents ++ mid q a.map.ents) := by
      have := hi.ok.sorted
      rw [split3 this q] at this
      exact (sorted_append.1 this).1
    obtain ⟨l, hl⟩ := List.getLast?_eq_some_iff.1 hx
    rw [hl] at hmem hso
    rcases List.mem_append.1 hmem with h | h
    · exact Nat.le_of_lt ((sorted_append.1 hso).2.2 _ h x (by simp))
    · rw [List.mem_singleton] at h; rw [← h]; exact Nat.le_refl _
  have hlk := (look_mem hi.ok.sorted).2 (show (x.1, x.2) ∈ a.map.ents from hxe.1)
  rw [hi.tab] at hlk
  by_cases he : byPtr live x.1 = []
  · rw [if_pos he] at hlk; cases hlk
  · rw [if_neg he] at hlk
    injection hlk with hlk
    cases hb : byPtr live x.1 with
    | nil => exact absurd hb he
    | cons c rest =>
      have hcm : c ∈ byPtr live x.1 := by rw [hb]; exact List.mem_cons_self
      obtain ⟨c1, c2⟩ := List.mem_filter.1 hcm
      have c2' := of_decide_eq_true c2
      have hcr : c = r := by
        refine apart_eq hd c1 hr (q := x.1) (by rw [← c2']; exact contains_base c) ⟨hmax, ?_⟩
        have := hc.2
        have := hxe.2
        omega
      have hfs := (fob_spec hi.ok hn hq (fun hmid y hy => by
        rw [hmid, List.append_nil] at hx
        rw [hx] at hy
        injection hy with hy
        rw [← hy, ← c2', hcr]; exact hB)).1
      rw [find_some]
      refine ⟨rest, ?_, ?_⟩
      · rw [hfs, hx, ← hcr, ← hb, hlk]; rfl
      · have := hc.1; have := hc.2; omega

/-- **C20**, record by record: if the aligned block of 256 bytes in which a record begins
has never held more than 56 registered addresses, every address that belongs to the
record leads to it, however crowded other blocks are.  Missing: records that begin in
crowded blocks, for which the claim is false (`allocmap_find_counterexample`). -/
theorem allocmap_find_block_partial {B : Nat → Prop} {a : AMap} {live : List Rec} {n : Nat} (h : AReach (SparseF B) a (byPtr live) n)
    (hd : Apart live) {q : Nat} (hq : q < 2 ^ 64) :
    ∀ r ∈ live, B (r.ptr / 256) → Contains r q → (a.findRecord q).2 = some r := by
  have hi := areach_inv h
  have hn := areach_sparse h
  intro r hr hB hc
  exact find_of hi hn hd hq r hr hB hc

/-- **C20**: as long as no aligned block of 256 bytes ever holds more than 56
registered addresses, looking up an address gives the record that contains it, or
nothing when there is none.  Missing: histories with more records per block, where
the claim is false (`allocmap_find_counterexample`). -/
theorem allocmap_find_partial {a : AMap} {live : List Rec} {n : Nat} (h : AReach (SparseF fun _ => True) a (byPtr live) n) (hd : Apart live)
    {q : Nat} (hq : q < 2 ^ 64) :
    (∀ r ∈ live, Contains r q → (a.findRecord q).2 = some r) ∧
    ((∀ r ∈ live, ¬Contains r q) → (a.findRecord q).2 = none) := by
  have hsound := allocmap_find_sound (h.mono fun _ _ => trivial) hd hq
  refine ⟨fun r hr hc => allocmap_find_block_partial h hd hq r hr trivial hc, fun hnone => ?_⟩
  cases hf : (a.findRecord q).2 with
  | none => rfl
  | some c => exact absurd (hsound.1 c hf).2 (hnone c (hsound.1 c hf).1)

theorem gap_length : ∀ (L : List Nat) (lo : Nat), L.Pairwise (fun a b => a + 5 ≤ b) → (∀ x ∈ L, lo ≤ x ∧ x < 256) → lo ≤ 260 →
    5 * L.length + lo ≤ 260
  | [], _, _, _, h => by simpa using h
  | x :: L, lo, hp, hb, _ => by
    have hx := hb x List.mem_cons_self
    have hp' := List.pairwise_cons.1 hp
    have := gap_length L (x + 5) hp'.2 (fun y hy => ⟨hp'.1 y hy, (hb y (List.mem_cons_of_mem _ hy)).2⟩) (by omega)
    simp only [List.length_cons]
    omega

/-- Disjoint records of at least five bytes are sparse. -/
theorem sparse_of_sizes {live : List Rec} (hd : Apart live) (h5 : ∀ r ∈ live, 5 ≤ r.size) : SparseF (fun _ => True) (byPtr live) := by
  intro b _
  have := gap_length ((List.range 256).filter fun i => decide (byPtr live (256 * b + i) ≠ [])) 0 ?_ ?_ (by omega)
  · omega
  · rw [List.pairwise_filter]
    refine List.Pairwise.imp_of_mem ?_ (List.pairwise_lt_range (n := 256))
    intro i j _ _ hij hi hj
    obtain ⟨r, hr⟩ := List.exists_mem_of_ne_nil _ (of_decide_eq_true hi)
    obtain ⟨s, hs⟩ := List.exists_mem_of_ne_nil _ (of_decide_eq_true hj)
    obtain ⟨r1, r2⟩ := List.mem_filter.1 hr
    obtain ⟨s1, s2⟩ := List.mem_filter.1 hs
    have r2' := of_decide_eq_true r2
    have s2' := of_decide_eq_true s2
    apply Classical.byContradiction
    intro hc
    have := h5 r r1
    have heq := apart_eq hd r1 s1 (q := s.ptr) ⟨by omega, .inl (by omega)⟩ (contains_base s)
    rw [heq] at r2'
    omega
  · intro x hx
    have := List.mem_range.1 (List.mem_filter.1 hx).1
    omega

/-- **C20** for allocations of at least five bytes each: then nothing else is assumed
about the history. -/
theorem allocmap_find_large_partial {a : AMap} {live : List Rec} {n : Nat}
    (h : AReach (fun f => ∃ l, f = byPtr l ∧ Apart l ∧ ∀ r ∈ l, 5 ≤ r.size) a (byPtr live) n) (hd : Apart live) {q : Nat} (hq : q < 2 ^ 64) :
    (∀ r ∈ live, Contains r q → (a.findRecord q).2 = some r) ∧
    ((∀ r ∈ live, ¬Contains r q) → (a.findRecord q).2 = none) :=
  allocmap_find_partial (h.mono fun _ ⟨_, he, ha, hl⟩ => he ▸ sparse_of_sizes ha hl) hd hq

theorem push_byPtr (live : List Rec) (r : Rec) : push (byPtr live) r.ptr r = byPtr (r :: live) := by
  funext q
  unfold push byPtr
  by_cases h : q = r.ptr
  · rw [if_pos h, List.filter_cons, if_pos (by simp [h]), h]
  · rw [if_neg h, List.filter_cons, if_neg (by simp; omega)]

/-- Objects of four bytes side by side from `0x7f0000001000` on. -/
def packedLive (n : Nat) : List Rec := (List.range n).foldl (fun l i => ⟨0x7f0000001000 + 4 * i, 4, i⟩ :: l) []
def packed (n : Nat) : AMap := (List.range n).foldl (fun a i => a.insert (0x7f0000001000 + 4 * i) ⟨0x7f0000001000 + 4 * i, 4, i⟩) AMap.new

theorem packed_reach (n : Nat) (hn : n ≤ 1000) : AReach Any (packed n) (byPtr (packedLive n)) n := by
  induction n with
  | zero => exact .new
  | succ n ih =>
    have e1 : packed (n + 1) = (packed n).insert (0x7f0000001000 + 4 * n) ⟨0x7f0000001000 + 4 * n, 4, n⟩ := by
      unfold packed; rw [List.range_succ, List.foldl_append]; rfl
    have e2 : packedLive (n + 1) = ⟨0x7f0000001000 + 4 * n, 4, n⟩ :: packedLive n := by
      unfold packedLive; rw [List.range_succ, List.foldl_append]; rfl
    rw [e1, e2, ← push_byPtr]
    exact (ih (by omega)).insert (by omega) trivial

theorem packed_apart (n : Nat) : Apart (packedLive n) ∧ ∀ r ∈ packedLive n, r.ptr + 4 ≤ 0x7f0000001000 + 4 * n ∧ r.size = 4 := by
  induction n with
  | zero => exact ⟨List.Pairwise.nil, fun r h => by cases h⟩
  | succ n ih =>
    have e2 : packedLive (n + 1) = ⟨0x7f0000001000 + 4 * n, 4, n⟩ :: packedLive n := by
      unfold packedLive; rw [List.range_succ, List.foldl_append]; rfl
    rw [e2]
    refine ⟨List.pairwise_cons.2 ⟨fun r hr q hq => ?_, ih.1⟩, fun r hr => ?_⟩
    · have := ih.2 r hr
      obtain ⟨⟨h1, _⟩, h2, h3⟩ := hq
      dsimp only at h1
      omega
    · rcases List.mem_cons.1 hr with rfl | hr
      · exact ⟨by dsimp only; omega, rfl⟩
      · have := ih.2 r hr; omega

/-- With 64 registered objects of four bytes in one 256-byte block, the address two bytes
into the object at offset 40 is reported as not found. -/
theorem allocmap_find_counterexample : ∃ (a : AMap) (live : List Rec) (n q : Nat) (r : Rec), AReach Any a (byPtr live) n ∧ Apart live ∧
    r ∈ live ∧ Contains r q ∧ (a.findRecord q).2 = none :=
  ⟨packed 64, packedLive 64, 64, 0x7f000000102a, ⟨0x7f0000001028, 4, 10⟩, packed_reach 64 (by decide), (packed_apart 64).1,
    by decide +kernel, by decide, by decide +kernel⟩

/-- With 50 of them every address is found, by the theorem. -/
example : ((packed 50).findRecord 0x7f000000102a).2 = some ⟨0x7f0000001028, 4, 10⟩ := by decide +kernel

/-- A sparse history: two records, one interior lookup in between. -/
example : AReach (SparseF fun _ => True) (((AMap.new.insert 4096 ⟨4096, 64, 1⟩).findRecord 4100).1.insert 8192 ⟨8192, 16, 2⟩)
    (byPtr [⟨8192, 16, 2⟩, ⟨4096, 64, 1⟩]) 2 ∧ Apart [⟨8192, 16, 2⟩, ⟨4096, 64, 1⟩] := by
  have a2 : Apart [(⟨8192, 16, 2⟩ : Rec), ⟨4096, 64, 1⟩] := by
    refine List.pairwise_cons.2 ⟨fun r hr q hq => ?_, List.pairwise_singleton _ _⟩
    rw [List.mem_singleton] at hr; subst hr
    obtain ⟨⟨h1, _⟩, h2, h3⟩ := hq
    dsimp only at *
    omega
  have a1 : Apart [(⟨4096, 64, 1⟩ : Rec)] := List.pairwise_singleton _ _
  have h1 := (AReach.new (P := SparseF fun _ => True)).insert (p := 4096) (r := ⟨4096, 64, 1⟩) (by decide)
    (by rw [show (fun _ => []) = byPtr [] from rfl, push_byPtr [] ⟨4096, 64, 1⟩]; exact sparse_of_sizes a1 (by simp))
  rw [show (fun _ => []) = byPtr [] from rfl, push_byPtr [] ⟨4096, 64, 1⟩] at h1
  have h2 := (h1.find (p := 4100)).insert (p := 8192) (r := ⟨8192, 16, 2⟩) (by decide)
    (by rw [push_byPtr [⟨4096, 64, 1⟩] ⟨8192, 16, 2⟩]; exact sparse_of_sizes a2 (by simp))
  rw [push_byPtr [⟨4096, 64, 1⟩] ⟨8192, 16, 2⟩] at h2
  exact ⟨h2, a2⟩

end Umpire.Judy
