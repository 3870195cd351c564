/-!
# Model of the table of device allocators

src/umpire/device_allocator_helper.cpp, with the constructor and copy of
`DeviceAllocator` (DeviceAllocator.cpp:19-53).

Names are C strings: lists of non-zero characters, the terminating 0 left out.  Names
given as `std::string` that contain a 0 character are cut off there by the copy, and are
not modelled.  A table is the memory of 64 entries obtained from "UM"; its initial
contents are whatever that memory contains (`junk`).  Tables are never given back
(`destroy_device_allocator` only forgets the pointer).
-/
set_option autoImplicit false
set_option linter.unusedSimpArgs false
namespace Umpire.Device

/-- The members of a `DeviceAllocator` that identify it (DeviceAllocator.hpp:106-115). -/
structure Entry where
  name : List Nat
  size : Nat
  id : Int
deriving DecidableEq, Repr

/-- UMPIRE_TOTAL_DEV_ALLOCS (device_allocator_helper.hpp:30). -/
def total : Nat := 64

/-- The global state: all tables ever allocated, `UMPIRE_DEV_ALLOCS_h`, `UMPIRE_DEV_ALLOCS`
(as indices into them), the static `index` of `make_device_allocator` and
`macro_tracking`. -/
structure World where
  tables : List (List Entry)
  host : Option Nat
  dev : Option Nat
  index : Nat
  tracked : Bool
deriving DecidableEq, Repr

def World.start : World := ⟨[], none, none, 0, false⟩

/-- Outcome of a call. -/
inductive Res (α : Type) where
  | ok (a : α)
  | error
  | ub
deriving DecidableEq, Repr

/-- convert_to_array_index (36-40). -/
def toIndex (id : Int) : Int := id * (-1) - 1

def World.table (w : World) (t : Nat) : List Entry := (w.tables[t]?).getD []

/-- Host part of `get_index` (50-59): the last entry with the name. -/
def lastNamed (q : List Nat) (t : List Entry) (i : Nat) (found : Option Nat) : Option Nat :=
  match t with
  | [] => found
  | e :: es => lastNamed q es (i + 1) (if e.name = q then some i else found)

/-- Device part, the inner loop (67-76): `tally` is 0 when the entry's name `t` is a prefix of
the queried name `q`. -/
def tally : List Nat → List Nat → Nat
  | [], _ => 0
  | _ :: _, [] => 1
  | a :: t, b :: q => (if a ≠ b then 1 else 0) + tally t q

/-- Device part of `get_index` (65-81): the first entry with `tally` 0. -/
def firstTally (q : List Nat) (t : List Entry) (i : Nat) : Option Nat :=
  match t with
  | [] => none
  | e :: es => if tally e.name q = 0 then some i else firstTally q es (i + 1)

/-- get_index (46-85); `none` is -1. -/
def World.getIndex (w : World) (dev : Bool) (q : List Nat) : Option Nat :=
  if dev = true then
    match w.dev with
    | none => none
    | some t => firstTally q (w.table t) 0
  else
    match w.host with
    | none => none
    | some t => lastNamed q (w.table t) 0 none

/-- An entry of the table of the host or of the device; the null pointer is dereferenced
without a check. -/
def World.entry (w : World) (dev : Bool) (i : Nat) : Res Entry :=
  match (if dev = true then w.dev else w.host) with
  | none => .ub
  | some t =>
    match (w.table t)[i]? with
    | none => .ub
    | some e => .ok e

/-- get_device_allocator(const char*) (104-117). -/
def World.getByName (w : World) (dev : Bool) (q : List Nat) : Res Entry :=
  match w.getIndex dev q with
  | none => .error
  | some i => w.entry dev i

/-- is_device_allocator(int) (157-175); on the device an invalid id is an error. -/
def World.isById (w : World) (dev : Bool) (id : Int) : Res Bool :=
  if toIndex id < 0 ∨ toIndex id > (total : Int) - 1 then (if dev = true then .error else .ok false)
  else
    match w.entry dev (toIndex id).toNat with
    | .ok e => .ok (decide (0 < e.size))
    | .error => .error
    | .ub => .ub

/-- get_device_allocator(int) (119-135). -/
def World.getById (w : World) (dev : Bool) (id : Int) : Res Entry :=
  if toIndex id < 0 ∨ toIndex id > (total : Int) - 1 then .error
  else
    match w.isById dev id with
    | .ok true => w.entry dev (toIndex id).toNat
    | .ok false => .error
    | .error => .error
    | .ub => .ub

/-- is_device_allocator(const char*) (137-155). -/
def World.isByName (w : World) (dev : Bool) (q : List Nat) : Res Bool :=
  match w.getIndex dev q with
  | none => if dev = true then .error else .ok false
  | some i =>
    match w.entry dev i with
    | .ok e => .ok (decide (0 < e.size))
    | .error => .error
    | .ub => .ub

/-- Lines 188-204: allocate the table if there is none. -/
def World.ready (junk : List Entry) (w : World) : World :=
  match w.host with
  | some _ => w
  | none => { w with index := 0, tables := w.tables ++ [junk], host := some w.tables.length }

/-- Lines 208-217 once there is a table `t`: no check that the table has room, nor that the
name fits into `m_name[64]` (DeviceAllocator.cpp:33-38). -/
def World.put (w : World) (t : Nat) (size : Nat) (name : List Nat) : Res (World × Entry) :=
  if 64 ≤ name.length then .ub
  else
    let e : Entry := ⟨name, size, toIndex w.index⟩
    if total ≤ w.index then .ub
    else
      .ok ({ w with
        tables := w.tables.set t ((w.table t).set w.index e)
        index := w.index + 1
        dev := if w.tracked = true then w.dev else some t
        tracked := true }, e)

/-- make_device_allocator (180-218). -/
def World.make (junk : List Entry) (w : World) (size : Nat) (name : List Nat) : Res (World × Entry) :=
  if size = 0 then .error
  else
    match (w.ready junk).host with
    | none => .ub
    | some t => (w.ready junk).put t size name

/-- destroy_device_allocator (220-228): gives back the memory of the initialised entries,
the table stays as it is. -/
def World.destroy (w : World) : Res World :=
  match w.host with
  | none => .ub
  | some _ => .ok { w with host := none }

/-! ## Specification: what was created -/

/-- The table memory comes zero-filled. -/
def blank : List Entry := List.replicate total ⟨[], 0, 0⟩

/-- Histories: `made` are the allocators created since the last destroy, in order; `old` says
whether there was one. -/
inductive Hist : World → List Entry → Bool → Prop where
  | start : Hist .start [] false
  | make {w w' : World} {m : List Entry} {o : Bool} {size : Nat} {name : List Nat} {e : Entry} (h : Hist w m o)
      (hm : w.make blank size name = .ok (w', e)) : Hist w' (m ++ [e]) o
  | destroy {w w' : World} {m : List Entry} {o : Bool} (h : Hist w m o) (hd : w.destroy = .ok w') : Hist w' [] true

/-! ## Invariant -/

/-- The table holds what was made, then blank entries. -/
structure TInv (w : World) (m : List Entry) (o : Bool) : Prop where
  none_ : w.host = none → m = []
  some_ : ∀ t, w.host = some t → t < w.tables.length ∧ w.index = m.length ∧ m.length ≤ total ∧
    w.table t = m ++ List.replicate (total - m.length) ⟨[], 0, 0⟩ ∧ (o = false → w.dev = some t)
  fresh : w.tracked = false → w.tables = [] ∧ w.host = none
  first : o = false → w.host = none → w.tracked = false
  ids : ∀ (i : Nat) (e : Entry), m[i]? = some e → e.id = -(i : Int) - 1 ∧ 0 < e.size

theorem TInv.ready {w : World} {m : List Entry} {o : Bool} (h : TInv w m o) :
    ∃ t, (w.ready blank).host = some t ∧ t < (w.ready blank).tables.length ∧ (w.ready blank).index = m.length ∧ m.length ≤ total ∧
      (w.ready blank).table t = m ++ List.replicate (total - m.length) ⟨[], 0, 0⟩ ∧ (o = false → w.tracked = true → (w.ready blank).dev = some t) ∧
      (w.ready blank).tracked = w.tracked := by
  unfold World.ready
  cases hh : w.host with
  | some t =>
    obtain ⟨h1, h2, h3, h4, h5⟩ := h.some_ t hh
    exact ⟨t, hh, h1, h2, h3, h4, fun ho _ => h5 ho, rfl⟩
  | none =>
    have hm := h.none_ hh
    subst hm
    refine ⟨w.tables.length, rfl, ?_, rfl, Nat.zero_le _, ?_, fun ho ht => ?_, rfl⟩
    · show w.tables.length < (w.tables ++ [blank]).length
      rw [List.length_append]; exact Nat.lt_succ_self _
    · show ((w.tables ++ [blank])[w.tables.length]?).getD [] = _
      rw [List.getElem?_append_right (Nat.le_refl _), Nat.sub_self]
      rfl
    · rw [h.first ho hh] at ht; cases ht

theorem toIndex_nat (i : Nat) : toIndex (i : Int) = -(i : Int) - 1 := by
  unfold toIndex; omega

theorem Hist.inv {w : World} {m : List Entry} {o : Bool} (h : Hist w m o) : TInv w m o := by
  induction h with
  | start => exact ⟨fun _ => rfl, fun t ht => (by cases ht), fun _ => ⟨rfl, rfl⟩, fun _ _ => rfl, fun i e he => by cases he⟩
  | @make w w' m o size name e _ hm ih =>
    obtain ⟨t, r1, r2, r3, r4, r5, r6, r7⟩ := ih.ready
    unfold World.make at hm
    split at hm
    · cases hm
    rename_i hs
    rw [r1] at hm
    simp only at hm
    unfold World.put at hm
    split at hm
    · cases hm
    simp only at hm
    split at hm
    · cases hm
    rename_i hi
    injection hm with hm
    injection hm with hw he
    subst hw
    rw [r3] at he hi
    have hlen : m.length < total := Nat.lt_of_not_le hi
    refine ⟨fun hn => ?_, fun t' ht => ?_, fun ht => (by cases ht), fun _ hn => ?_, fun i x hx => ?_⟩
    · have hn : (w.ready blank).host = none := hn
      rw [r1] at hn; cases hn
    · have ht : (w.ready blank).host = some t' := ht
      rw [r1] at ht
      injection ht with ht
      subst ht
      refine ⟨?_, ?_, ?_, ?_, fun ho => ?_⟩
      · show t < ((w.ready blank).tables.set t _).length
        rw [List.length_set]; exact r2
      · show (w.ready blank).index + 1 = _
        rw [r3, List.length_append]; rfl
      · rw [List.length_append]; exact hlen
      · show (((w.ready blank).tables.set t (((w.ready blank).table t).set (w.ready blank).index _))[t]?).getD [] = _
        rw [List.getElem?_set_self r2]
        show ((w.ready blank).table t).set (w.ready blank).index _ = _
        rw [r5, r3, List.set_append_right _ _ (Nat.le_refl _), Nat.sub_self, he]
        have : total - m.length = (total - (m ++ [e]).length) + 1 := by rw [List.length_append]; show _ = _ - (_ + 1) + 1; omega
        rw [this, List.replicate_succ, List.set_cons_zero, List.append_assoc]
        rfl
      · show (if (w.ready blank).tracked = true then (w.ready blank).dev else some t) = some t
        rw [r7]
        split
        · rename_i htr; exact r6 ho htr
        · rfl
    · have hn : (w.ready blank).host = none := hn
      rw [r1] at hn; cases hn
    · by_cases hix : i < m.length
      · rw [List.getElem?_append_left hix] at hx
        exact ih.ids i x hx
      · have hle : m.length ≤ i := Nat.le_of_not_lt hix
        rw [List.getElem?_append_right hle] at hx
        have : i - m.length = 0 := by
          cases hk : i - m.length with
          | zero => rfl
          | succ k => rw [hk] at hx; cases hx
        rw [this] at hx
        have hi : i = m.length := by omega
        cases hx
        rw [← he, hi]
        exact ⟨toIndex_nat _, Nat.pos_of_ne_zero hs⟩
  | @destroy w w' m o _ hd ih =>
    unfold World.destroy at hd
    split at hd
    · cases hd
    · injection hd with hd
      rename_i t ht
      subst hd
      refine ⟨fun _ => rfl, fun t ht => (by cases ht), fun htr => ?_, fun ho => (by cases ho), fun i e he => by cases he⟩
      have := (ih.fresh htr).2
      rw [ht] at this; cases this

/-! ## Lookups -/

theorem lastNamed_none {q : List Nat} {t : List Entry} {i : Nat} {f : Option Nat} (h : ∀ e ∈ t, e.name ≠ q) : lastNamed q t i f = f := by
  induction t generalizing i f with
  | nil => rfl
  | cons e es ih =>
    unfold lastNamed
    rw [if_neg (h e (.head _))]
    exact ih fun x hx => h x (.tail _ hx)

theorem lastNamed_at {q : List Nat} {t t' : List Entry} {e : Entry} {i : Nat} {f : Option Nat} (he : e.name = q)
    (h : ∀ x ∈ t', x.name ≠ q) : lastNamed q (t ++ e :: t') i f = some (i + t.length) := by
  induction t generalizing i f with
  | nil =>
    show lastNamed q (e :: t') i f = _
    unfold lastNamed
    rw [if_pos he, lastNamed_none h]; rfl
  | cons x t ih =>
    show lastNamed q (x :: (t ++ e :: t')) i f = _
    unfold lastNamed
    rw [ih, List.length_cons]
    congr 1; omega

theorem tally_zero {t q : List Nat} : tally t q = 0 ↔ t <+: q := by
  induction t generalizing q with
  | nil => exact ⟨fun _ => List.nil_prefix, fun _ => rfl⟩
  | cons a t ih =>
    cases q with
    | nil =>
      refine ⟨fun h => (by cases h), fun h => ?_⟩
      have := List.prefix_nil.mp h; cases this
    | cons b q =>
      unfold tally
      rw [List.cons_prefix_cons, ← ih]
      split
      · rename_i hab
        exact ⟨fun h => by omega, fun h => absurd h.1 hab⟩
      · rename_i hab
        have : a = b := Classical.byContradiction hab
        exact ⟨fun h => ⟨this, by omega⟩, fun h => by omega⟩

theorem firstTally_at {q : List Nat} {t t' : List Entry} {e : Entry} {i : Nat} (he : e.name <+: q) (h : ∀ x ∈ t, ¬ x.name <+: q) :
    firstTally q (t ++ e :: t') i = some (i + t.length) := by
  induction t generalizing i with
  | nil =>
    show firstTally q (e :: t') i = _
    unfold firstTally
    rw [if_pos (tally_zero.mpr he)]; rfl
  | cons x t ih =>
    show firstTally q (x :: (t ++ e :: t')) i = _
    unfold firstTally
    rw [if_neg (fun hx => h x (.head _) (tally_zero.mp hx)), ih (fun y hy => h y (.tail _ hy)), List.length_cons]
    congr 1; omega

theorem firstTally_none {q : List Nat} {t : List Entry} {i : Nat} (h : ∀ x ∈ t, ¬ x.name <+: q) : firstTally q t i = none := by
  induction t generalizing i with
  | nil => rfl
  | cons x t ih =>
    unfold firstTally
    rw [if_neg (fun hx => h x (.head _) (tally_zero.mp hx))]
    exact ih fun y hy => h y (.tail _ hy)

theorem getElem?_mid {t t' : List Entry} {e : Entry} : (t ++ e :: t')[t.length]? = some e := by
  rw [List.getElem?_append_right (Nat.le_refl _), Nat.sub_self]; rfl

/-! ## Properties (C42) -/

/-- C42, host, existing names.  With zero-filled table memory: `get_device_allocator(name)`
returns the allocator created with that name, if the name is not empty and no later one
has the same name. -/
theorem host_name_found_partial {w : World} {m1 m2 : List Entry} {e : Entry} {o : Bool} (h : Hist w (m1 ++ e :: m2) o) (hn : e.name ≠ [])
    (hu : ∀ x ∈ m2, x.name ≠ e.name) : w.getByName false e.name = .ok e ∧ w.isByName false e.name = .ok true := by
  have hi := h.inv
  cases hh : w.host with
  | none => have := hi.none_ hh; simp at this
  | some t =>
    obtain ⟨h1, h2, h3, h4, _⟩ := hi.some_ t hh
    have hix : w.getIndex false e.name = some m1.length := by
      unfold World.getIndex
      rw [if_neg (by decide), hh]
      simp only
      rw [h4, List.append_assoc, List.cons_append, lastNamed_at rfl, Nat.zero_add]
      intro x hx
      rcases List.mem_append.mp hx with hx | hx
      · exact hu x hx
      · rw [(List.mem_replicate.mp hx).2]; exact Ne.symm hn
    have hent : w.entry false m1.length = .ok e := by
      unfold World.entry
      rw [if_neg (by decide), hh]
      simp only
      rw [h4, List.append_assoc, List.cons_append, getElem?_mid]
    refine ⟨?_, ?_⟩
    · unfold World.getByName; rw [hix]; exact hent
    · unfold World.isByName
      rw [hix]
      simp only [hent]
      have := (hi.ids m1.length e getElem?_mid).2
      rw [decide_eq_true this]

/-- C42, host, unknown names: an error, if the name is not empty. -/
theorem host_name_unknown_partial {w : World} {m : List Entry} {o : Bool} (h : Hist w m o) {q : List Nat} (hq : q ≠ []) (hu : ∀ x ∈ m, x.name ≠ q) :
    w.getByName false q = .error ∧ w.isByName false q = .ok false := by
  have hi := h.inv
  have hix : w.getIndex false q = none := by
    unfold World.getIndex
    rw [if_neg (by decide)]
    cases hh : w.host with
    | none => rfl
    | some t =>
      obtain ⟨h1, h2, h3, h4, _⟩ := hi.some_ t hh
      simp only
      rw [h4]
      refine lastNamed_none fun x hx => ?_
      rcases List.mem_append.mp hx with hx | hx
      · exact hu x hx
      · rw [(List.mem_replicate.mp hx).2]; exact Ne.symm hq
  refine ⟨?_, ?_⟩
  · unfold World.getByName; rw [hix]
  · unfold World.isByName; rw [hix]; rfl

/-- C42, host, ids.  While there is a table, the lookup by id returns exactly the allocators
that were created, under the ids they report. -/
theorem host_id_partial {w : World} {m : List Entry} {o : Bool} (h : Hist w m o) (hm : m ≠ []) (id : Int) :
    (∀ e ∈ m, e.id = id → w.getById false id = .ok e ∧ w.isById false id = .ok true) ∧
    ((∀ e ∈ m, e.id ≠ id) → w.getById false id = .error ∧ w.isById false id = .ok false) := by
  have hi := h.inv
  cases hh : w.host with
  | none => exact absurd (hi.none_ hh) hm
  | some t =>
    obtain ⟨h1, h2, h3, h4, _⟩ := hi.some_ t hh
    have htot : total = 64 := rfl
    refine ⟨fun e he hid => ?_, fun hno => ?_⟩
    · obtain ⟨i, hlt, hie⟩ := List.mem_iff_getElem.mp he
      have hie' : m[i]? = some e := by rw [List.getElem?_eq_getElem hlt, hie]
      obtain ⟨hid', hpos⟩ := hi.ids i e hie'
      have hti : toIndex id = i := by unfold toIndex; omega
      have hnot : ¬ (toIndex id < 0 ∨ toIndex id > (total : Int) - 1) := by rw [hti]; omega
      have hent : w.entry false (toIndex id).toNat = .ok e := by
        rw [hti]
        unfold World.entry
        rw [if_neg (by decide), hh]
        simp only [Int.toNat_natCast]
        rw [h4, List.getElem?_append_left hlt, hie']
      have his : w.isById false id = .ok true := by
        unfold World.isById
        rw [if_neg hnot, hent]
        simp only [decide_eq_true hpos]
      refine ⟨?_, his⟩
      unfold World.getById
      rw [if_neg hnot, his]; exact hent
    · by_cases hr : toIndex id < 0 ∨ toIndex id > (total : Int) - 1
      · refine ⟨?_, ?_⟩
        · unfold World.getById; rw [if_pos hr]
        · unfold World.isById; rw [if_pos hr]; rfl
      · have hge : m.length ≤ (toIndex id).toNat := by
          refine Classical.byContradiction fun hlt => ?_
          have hlt : (toIndex id).toNat < m.length := by omega
          have he := List.getElem?_eq_getElem hlt
          obtain ⟨hid, _⟩ := hi.ids _ _ he
          refine hno _ (List.getElem_mem hlt) ?_
          rw [hid]; unfold toIndex at hr ⊢; omega
        have hent : w.entry false (toIndex id).toNat = .ok ⟨[], 0, 0⟩ := by
          unfold World.entry
          rw [if_neg (by decide), hh]
          simp only
          rw [h4, List.getElem?_append_right hge, List.getElem?_replicate, if_pos (by omega)]
        have his : w.isById false id = .ok false := by
          unfold World.isById
          rw [if_neg hr, hent]
          rfl
        refine ⟨?_, his⟩
        unfold World.getById
        rw [if_neg hr, his]

/-- C42, device, existing names.  Before the first destroy: the lookup by name in device code
returns the allocator created with that name if no earlier one has a name that is a
prefix of it. -/
theorem dev_name_found_partial {w : World} {m1 m2 : List Entry} {e : Entry} (h : Hist w (m1 ++ e :: m2) false)
    (hu : ∀ x ∈ m1, ¬ x.name <+: e.name) : w.getByName true e.name = .ok e ∧ w.isByName true e.name = .ok true := by
  have hi := h.inv
  cases hh : w.host with
  | none => have := hi.none_ hh; simp at this
  | some t =>
    obtain ⟨h1, h2, h3, h4, h5⟩ := hi.some_ t hh
    have hd := h5 rfl
    have hix : w.getIndex true e.name = some m1.length := by
      unfold World.getIndex
      rw [if_pos rfl, hd]
      simp only
      rw [h4, List.append_assoc, List.cons_append, firstTally_at List.prefix_rfl hu, Nat.zero_add]
    have hent : w.entry true m1.length = .ok e := by
      unfold World.entry
      rw [if_pos rfl, hd]
      simp only
      rw [h4, List.append_assoc, List.cons_append, getElem?_mid]
    refine ⟨?_, ?_⟩
    · unfold World.getByName; rw [hix]; exact hent
    · unfold World.isByName
      rw [hix]
      simp only [hent]
      rw [decide_eq_true (hi.ids m1.length e getElem?_mid).2]

/-- C42, device, unknown names: an error only when the table is full. -/
theorem dev_name_unknown_partial {w : World} {m : List Entry} (h : Hist w m false) (hf : m.length = total) {q : List Nat} (hu : ∀ x ∈ m, ¬ x.name <+: q) :
    w.getByName true q = .error := by
  have hi := h.inv
  cases hh : w.host with
  | none => have := hi.none_ hh; rw [this] at hf; cases hf
  | some t =>
    obtain ⟨h1, h2, h3, h4, h5⟩ := hi.some_ t hh
    unfold World.getByName World.getIndex
    rw [if_pos rfl, h5 rfl]
    simp only
    rw [h4, hf, Nat.sub_self, List.replicate_zero, List.append_nil, firstTally_none hu]

/-- C42, ids are unique: different allocators in use have different ids. -/
theorem device_ids_unique {w : World} {m : List Entry} {o : Bool} (h : Hist w m o) : (m.map (·.id)).Nodup := by
  have hi := h.inv
  rw [List.nodup_iff_pairwise_ne, List.pairwise_iff_getElem]
  intro i j hi' hj' hij
  rw [List.length_map] at hi' hj'
  rw [List.getElem_map, List.getElem_map]
  have h1 := (hi.ids i _ (List.getElem?_eq_getElem hi')).1
  have h2 := (hi.ids j _ (List.getElem?_eq_getElem hj')).1
  omega

end Umpire.Device
