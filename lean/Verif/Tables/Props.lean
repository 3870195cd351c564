import Verif.Tables.Logic
/-!
# Which calls may run at the same time (C75)

`Clash` says, in terms of what calls do, which two calls are not safe in two threads.
`race_iff`: threads that make any calls can get to a data race exactly if two of them have
calls that clash.
-/
set_option autoImplicit false
set_option linter.unusedSimpArgs false
namespace Umpire.Tables
open Conc (Arr upd)

/-! ## Specification -/

/-- The tables a search for a name changes: it may create a resource. -/
def Found.changes (strict : Bool) : Found → List Table
  | .hit => if strict then [.names] else []
  | .resource (.made typed) => [.names, .ids, .owned, .counter] ++ if typed then [.types] else []
  | .resource .broken => [.counter]
  | _ => []

/-- The search ends with an allocator: it was there, or it is a resource that could be created. -/
inductive Found.Got : Found → Prop
  | there : Found.Got .hit
  | created (typed : Bool) : Found.Got (.resource (.made typed))

theorem got_iff (f : Found) : f.Got ↔ f.ok = true := by
  constructor
  · intro h; cases h <;> rfl
  · intro h
    unfold Found.ok at h
    split at h
    · exact .there
    · exact .created _
    · cases h

instance (f : Found) : Decidable f.Got := decidable_of_iff _ (got_iff f).symm

/-- The tables a call changes. -/
def changes (strict : Bool) : Call → List Table
  | .make _ .made => [.names, .ids, .owned, .counter]
  | .make _ .broken => [.counter]
  | .makeResource m => Found.changes strict (.resource m)
  | .byName f => f.changes strict
  | .byType (some f) => f.changes strict
  | .byType none => if strict then [.types] else []
  | .byId true => if strict then [.ids] else []
  | .getDefault (some f) => (if f.Got then [.default] else []) ++ f.changes strict
  | .setDefault => [.default]
  | .addAlias none => [.names]
  | .addAlias (some f) => f.changes strict
  | .removeAlias true => [.names]
  | _ => []

/-- The tables a call looks into. -/
def looks : Call → List Table
  | .make _ .full => [.counter]
  | .make _ _ => [.counter, .names]
  | .makeResource _ => [.names]
  | .byName _ => [.names]
  | .byType none => [.types]
  | .byType (some _) => [.types, .names]
  | .byId true => [.ids]
  | .byId false => [.ids, .names]
  | .getDefault none => [.default]
  | .getDefault (some _) => [.default, .names]
  | .addAlias _ => [.names]
  | .removeAlias _ => [.names]
  | .names => [.names]
  | .ids => [.ids]
  | _ => []

/-- Calls that create an allocator. -/
def Makes : Call → Prop
  | .make _ _ => True
  | _ => False

/-- Calls that go through all allocations. -/
def Lists : Call → Prop
  | .list _ => True
  | _ => False

/-- Calls that use the map of allocations. -/
def Maps : Call → Prop
  | .find _ _ | .list _ | .allocate _ _ (some _) | .deallocate _ _ _ | .deallocateWrong _ _ _ | .deallocateUnknown _ | .register _ | .deregister _ => True
  | _ => False

/-- Calls that find record `r` and then read it. -/
def Reads (r : Nat) : Call → Prop
  | .find seen true => seen = some r
  | _ => False

/-- Calls that make or remove record `r`. -/
def Ends (r : Nat) : Call → Prop
  | .allocate _ _ (some r') | .deallocate _ _ r' | .register r' | .deregister (some r') => r = r'
  | .deallocateWrong _ r' r'' => r = r' ∨ r = r''
  | _ => False

/-- What a call does to strategies. -/
def inner : Call → List Conc.Acc
  | .make ctor .made | .make ctor .broken => ctor
  | .allocate _ acc _ | .deallocate _ acc _ | .deallocateUntracked _ acc | .getter _ acc => acc
  | _ => []

/-- The strategy through whose handle a call goes that may lock. -/
def handle : Call → Option Nat
  | .allocate h _ _ | .deallocate h _ _ | .deallocateWrong h _ _ | .deallocateUnknown h | .deallocateUntracked h _ => some h
  | _ => none

/-- Calls that wait for each other: both create allocators, or they are through handles of one
thread-safe allocator. -/
def Exclude (arr : Arr) (a b : Call) : Prop :=
  (Makes a ∧ Makes b) ∨ ∃ h p, handle a = some h ∧ handle b = some h ∧ arr h = .tsa p

/-- Two calls that must not be made by two threads at the same time. -/
inductive Clash (arr : Arr) (strict : Bool) (a b : Call) : Prop where
  /-- one changes a table of allocators the other uses -/
  | table (t : Table) (hx : ¬ Exclude arr a b) (ha : t ∈ looks a ∨ t ∈ changes strict a) (hb : t ∈ looks b ∨ t ∈ changes strict b)
      (hc : t ∈ changes strict a ∨ t ∈ changes strict b)
  /-- one goes through the allocations, the other uses the map of allocations -/
  | listing (h : (Lists a ∧ Maps b) ∨ (Maps a ∧ Lists b))
  /-- one reads a record the other makes or removes -/
  | record (r : Nat) (h : (Reads r a ∧ Ends r b) ∨ (Ends r a ∧ Reads r b))
  /-- they come to the same strategy -/
  | inside (x y : Conc.Acc) (hx : ¬ Exclude arr a b) (ha : x ∈ inner a) (hb : y ∈ inner b) (ho : x.obj = y.obj) (hw : x.write = true ∨ y.write = true)

/-! ## Calls and the specification -/

/-- The call makes this access, `l`: under the lock of the map. -/
def At (arr : Arr) (strict : Bool) (c : Call) (l : Bool) (a : Acc) : Prop := ∃ g ∈ (shape arr strict c).segs, g.locked = l ∧ a ∈ g.accs

theorem mem_inside {l : List Conc.Acc} {a : Acc} : a ∈ insideOf l ↔ ∃ x ∈ l, a = ⟨.inside x.obj, x.write⟩ := by
  unfold insideOf
  rw [List.mem_map]
  exact ⟨fun ⟨x, h, e⟩ => ⟨x, h, e.symm⟩, fun ⟨x, h, e⟩ => ⟨x, h, e.symm⟩⟩

theorem byName_write {strict : Bool} {f : Found} {t : Table} : (⟨.table t, true⟩ : Acc) ∈ byName strict f ↔ t ∈ f.changes strict := by
  cases strict <;> rcases f with _ | (_ | _ | typed) | _ <;> (try cases typed) <;> cases t <;>
    simp [byName, makeResource, index, rd, wr, Found.changes]

theorem byName_read {strict : Bool} {f : Found} {t : Table} :
    (⟨.table t, false⟩ : Acc) ∈ byName strict f ↔ t = .names ∨ (t = .counter ∧ .counter ∈ f.changes strict) := by
  cases strict <;> rcases f with _ | (_ | _ | typed) | _ <;> (try cases typed) <;> cases t <;>
    simp [byName, makeResource, index, rd, wr, Found.changes]

theorem byName_table {strict : Bool} {f : Found} {a : Acc} (h : a ∈ byName strict f) : ∃ t, a.obj = .table t := by
  cases strict <;> rcases f with _ | (_ | _ | typed) | _ <;> (try cases typed) <;>
    simp [byName, makeResource, index, rd, wr] at h <;> (obtain ⟨o, w⟩ := a; simp at h ⊢; grind)

theorem makeResource_write {strict : Bool} {m : Made} {t : Table} :
    (⟨.table t, true⟩ : Acc) ∈ makeResource strict m ↔ t ∈ Found.changes strict (.resource m) := by
  cases strict <;> rcases m with _ | _ | typed <;> (try cases typed) <;> cases t <;>
    simp [makeResource, index, rd, wr, Found.changes]

theorem makeResource_read {strict : Bool} {m : Made} {t : Table} :
    (⟨.table t, false⟩ : Acc) ∈ makeResource strict m ↔ t = .names ∨ (t = .counter ∧ .counter ∈ Found.changes strict (.resource m)) := by
  cases strict <;> rcases m with _ | _ | typed <;> (try cases typed) <;> cases t <;>
    simp [makeResource, index, rd, wr, Found.changes]

theorem makeResource_table {strict : Bool} {m : Made} {a : Acc} (h : a ∈ makeResource strict m) : ∃ t, a.obj = .table t := by
  cases strict <;> rcases m with _ | _ | typed <;> (try cases typed) <;>
    simp [makeResource, index, rd, wr] at h <;> (obtain ⟨o, w⟩ := a; simp at h ⊢; grind)

theorem table_not_inside {l : List Conc.Acc} {t : Table} {w : Bool} : ¬ (⟨.table t, w⟩ : Acc) ∈ insideOf l := by
  rw [mem_inside]
  rintro ⟨x, -, e⟩
  cases e

/-- Writes to tables. -/
theorem at_write {arr : Arr} {strict : Bool} {c : Call} {l : Bool} {t : Table} :
    At arr strict c l ⟨.table t, true⟩ ↔ l = false ∧ t ∈ changes strict c := by
  unfold At
  cases c with
  | make ctor m => cases m <;> cases strict <;> cases t <;> cases l <;> simp [shape, makeAllocator, changes, rd, wr, index]
  | makeResource m => cases l <;> simp [shape, free, changes, makeResource_write]
  | byName f => cases l <;> simp [shape, free, changes, byName_write]
  | byType f => rcases f with _ | f <;> cases l <;> cases strict <;> simp [shape, free, changes, byName_write, rd, index]
  | byId b => cases b <;> cases l <;> cases strict <;> simp [shape, free, changes, rd, index]
  | getDefault f =>
    rcases f with _ | f
    · cases l <;> simp [shape, free, changes, rd]
    · cases e : f.ok <;> cases l <;> simp [shape, free, changes, byName_write, rd, wr, e, got_iff] <;> exact Or.comm
  | setDefault => cases l <;> simp [shape, free, changes, wr]
  | addAlias f => rcases f with _ | f <;> cases l <;> simp [shape, free, changes, byName_write, rd, wr]
  | removeAlias b => cases b <;> cases l <;> simp [shape, free, changes, rd, wr]
  | names => cases l <;> simp [shape, free, changes, rd]
  | ids => cases l <;> simp [shape, free, changes, rd]
  | find seen b => rcases seen with _ | r <;> cases b <;> simp [shape, find, changes]
  | list rs => simp [shape, list, changes]
  | allocate h acc r => rcases r with _ | r <;> simp [shape, changes, insert, table_not_inside]
  | deallocate h acc r => simp [shape, changes, remove, table_not_inside]
  | deallocateWrong h r r' => simp [shape, changes, insert, remove]
  | deallocateUnknown h => simp [shape, changes, remove]
  | deallocateUntracked h acc => simp [shape, changes, table_not_inside]
  | getter h acc => simp [shape, free, changes, table_not_inside]
  | register r => simp [shape, changes, insert]
  | deregister r => rcases r with _ | r <;> simp [shape, changes, remove]

/-- Accesses to tables. -/
theorem at_use {arr : Arr} {strict : Bool} {c : Call} {l : Bool} {t : Table} :
    (∃ w, At arr strict c l ⟨.table t, w⟩) ↔ l = false ∧ (t ∈ looks c ∨ t ∈ changes strict c) := by
  rw [Bool.exists_bool, at_write]
  unfold At
  cases c with
  | make ctor m => cases m <;> cases strict <;> cases t <;> cases l <;> simp [shape, makeAllocator, looks, changes, rd, wr, index]
  | makeResource m => cases l <;> simp [shape, free, looks, changes, makeResource_read] <;> grind
  | byName f => cases l <;> simp [shape, free, looks, changes, byName_read] <;> grind
  | byType f => rcases f with _ | f <;> cases l <;> cases strict <;> simp [shape, free, looks, changes, byName_read, rd, index] <;> grind
  | byId b => cases b <;> cases l <;> cases strict <;> simp [shape, free, looks, changes, rd, index]
  | getDefault f =>
    rcases f with _ | f
    · cases l <;> simp [shape, free, looks, changes, rd]
    · cases e : f.ok <;> cases l <;> simp [shape, free, looks, changes, byName_read, rd, wr, e, got_iff] <;> grind
  | setDefault => cases l <;> simp [shape, free, looks, changes, wr]
  | addAlias f => rcases f with _ | f <;> cases l <;> simp [shape, free, looks, changes, byName_read, rd, wr] <;> grind
  | removeAlias b => cases b <;> cases l <;> simp [shape, free, looks, changes, rd, wr]
  | names => cases l <;> simp [shape, free, looks, changes, rd]
  | ids => cases l <;> simp [shape, free, looks, changes, rd]
  | find seen b => rcases seen with _ | r <;> cases b <;> simp [shape, find, looks, changes]
  | list rs => simp [shape, list, looks, changes]
  | allocate h acc r => rcases r with _ | r <;> simp [shape, looks, changes, insert, table_not_inside]
  | deallocate h acc r => simp [shape, looks, changes, remove, table_not_inside]
  | deallocateWrong h r r' => simp [shape, looks, changes, insert, remove]
  | deallocateUnknown h => simp [shape, looks, changes, remove]
  | deallocateUntracked h acc => simp [shape, looks, changes, table_not_inside]
  | getter h acc => simp [shape, free, looks, changes, table_not_inside]
  | register r => simp [shape, looks, changes, insert]
  | deregister r => rcases r with _ | r <;> simp [shape, looks, changes, remove]

theorem judy_not_inside {l : List Conc.Acc} {w : Bool} : ¬ (⟨.judy, w⟩ : Acc) ∈ insideOf l := by
  rw [mem_inside]
  rintro ⟨x, -, e⟩
  cases e

theorem judy_not_byName {strict : Bool} {f : Found} {w : Bool} : ¬ (⟨.judy, w⟩ : Acc) ∈ byName strict f := by
  intro h
  obtain ⟨t, e⟩ := byName_table h
  cases e

theorem judy_not_makeResource {strict : Bool} {m : Made} {w : Bool} : ¬ (⟨.judy, w⟩ : Acc) ∈ makeResource strict m := by
  intro h
  obtain ⟨t, e⟩ := makeResource_table h
  cases e

/-- Uses of the Judy array: all are writes, under the lock except when going through the allocations. -/
theorem at_judy {arr : Arr} {strict : Bool} {c : Call} {l w : Bool} :
    At arr strict c l ⟨.judy, w⟩ ↔ w = true ∧ Maps c ∧ (l = false ↔ Lists c) := by
  unfold At
  cases c with
  | make ctor m => cases m <;> cases w <;> cases l <;> cases strict <;> simp [shape, makeAllocator, Maps, rd, wr, index]
  | makeResource m => simp [shape, free, Maps, judy_not_makeResource]
  | byName f => simp [shape, free, Maps, judy_not_byName]
  | byType f => rcases f with _ | f <;> simp [shape, free, Maps, judy_not_byName, rd, index]
  | byId b => cases b <;> simp [shape, free, Maps, rd, index]
  | getDefault f =>
    rcases f with _ | f
    · simp [shape, free, Maps, rd]
    · cases e : f.ok <;> simp [shape, free, Maps, judy_not_byName, rd, wr, e]
  | setDefault => simp [shape, free, Maps, wr]
  | addAlias f => rcases f with _ | f <;> simp [shape, free, Maps, judy_not_byName, rd, wr]
  | removeAlias b => cases b <;> simp [shape, free, Maps, rd, wr]
  | names => simp [shape, free, Maps, rd]
  | ids => simp [shape, free, Maps, rd]
  | find seen b => rcases seen with _ | r <;> cases b <;> cases l <;> cases w <;> simp [shape, find, Maps, Lists]
  | list rs => cases l <;> cases w <;> simp [shape, list, Maps, Lists]
  | allocate h acc r => rcases r with _ | r <;> cases l <;> cases w <;> simp [shape, Maps, Lists, insert, judy_not_inside]
  | deallocate h acc r => cases l <;> cases w <;> simp [shape, Maps, Lists, remove, judy_not_inside]
  | deallocateWrong h r r' => cases l <;> cases w <;> simp [shape, Maps, Lists, insert, remove]
  | deallocateUnknown h => cases l <;> cases w <;> simp [shape, Maps, Lists, remove]
  | deallocateUntracked h acc => simp [shape, Maps, judy_not_inside]
  | getter h acc => simp [shape, free, Maps, judy_not_inside]
  | register r => cases l <;> cases w <;> simp [shape, Maps, Lists, insert]
  | deregister r => rcases r with _ | r <;> cases l <;> cases w <;> simp [shape, Maps, Lists, remove]

theorem record_not_inside {l : List Conc.Acc} {r : Nat} {w : Bool} : ¬ (⟨.record r, w⟩ : Acc) ∈ insideOf l := by
  rw [mem_inside]
  rintro ⟨x, -, e⟩
  cases e

theorem record_not_byName {strict : Bool} {f : Found} {r : Nat} {w : Bool} : ¬ (⟨.record r, w⟩ : Acc) ∈ byName strict f := by
  intro h
  obtain ⟨t, e⟩ := byName_table h
  cases e

theorem record_not_makeResource {strict : Bool} {m : Made} {r : Nat} {w : Bool} : ¬ (⟨.record r, w⟩ : Acc) ∈ makeResource strict m := by
  intro h
  obtain ⟨t, e⟩ := makeResource_table h
  cases e

/-- Records are written under the lock only, by calls that make or remove them. -/
theorem at_record_write {arr : Arr} {strict : Bool} {c : Call} {l : Bool} {r : Nat} :
    At arr strict c l ⟨.record r, true⟩ ↔ l = true ∧ Ends r c := by
  unfold At
  cases c with
  | make ctor m => cases m <;> cases l <;> cases strict <;> simp [shape, makeAllocator, Ends, rd, wr, index]
  | makeResource m => simp [shape, free, Ends, record_not_makeResource]
  | byName f => simp [shape, free, Ends, record_not_byName]
  | byType f => rcases f with _ | f <;> simp [shape, free, Ends, record_not_byName, rd, index]
  | byId b => cases b <;> simp [shape, free, Ends, rd, index]
  | getDefault f =>
    rcases f with _ | f
    · simp [shape, free, Ends, rd]
    · cases e : f.ok <;> simp [shape, free, Ends, record_not_byName, rd, wr, e]
  | setDefault => simp [shape, free, Ends, wr]
  | addAlias f => rcases f with _ | f <;> simp [shape, free, Ends, record_not_byName, rd, wr]
  | removeAlias b => cases b <;> simp [shape, free, Ends, rd, wr]
  | names => simp [shape, free, Ends, rd]
  | ids => simp [shape, free, Ends, rd]
  | find seen b => rcases seen with _ | r <;> cases b <;> cases l <;> simp [shape, find, Ends]
  | list rs => cases l <;> simp [shape, list, Ends]
  | allocate h acc r' => rcases r' with _ | r' <;> cases l <;> simp [shape, Ends, insert, record_not_inside]
  | deallocate h acc r' => cases l <;> simp [shape, Ends, remove, record_not_inside]
  | deallocateWrong h r' r'' => cases l <;> simp [shape, Ends, insert, remove]
  | deallocateUnknown h => cases l <;> simp [shape, Ends, remove]
  | deallocateUntracked h acc => simp [shape, Ends, record_not_inside]
  | getter h acc => simp [shape, free, Ends, record_not_inside]
  | register r' => cases l <;> simp [shape, Ends, insert]
  | deregister r' => rcases r' with _ | r' <;> cases l <;> simp [shape, Ends, remove]

/-- Without the lock they are read by calls that found them and by calls that go through all. -/
theorem at_record_free {arr : Arr} {strict : Bool} {c : Call} {r : Nat} (h : At arr strict c false ⟨.record r, false⟩) : Reads r c ∨ Lists c := by
  unfold At at h
  cases c with
  | make ctor m => cases m <;> cases strict <;> simp [shape, makeAllocator, rd, wr, index] at h
  | makeResource m => simp [shape, free, record_not_makeResource] at h
  | byName f => simp [shape, free, record_not_byName] at h
  | byType f => rcases f with _ | f <;> simp [shape, free, record_not_byName, rd, index] at h
  | byId b => cases b <;> simp [shape, free, rd, index] at h
  | getDefault f =>
    rcases f with _ | f
    · simp [shape, free, rd] at h
    · cases e : f.ok <;> simp [shape, free, record_not_byName, rd, wr, e] at h
  | setDefault => simp [shape, free, wr] at h
  | addAlias f => rcases f with _ | f <;> simp [shape, free, record_not_byName, rd, wr] at h
  | removeAlias b => cases b <;> simp [shape, free, rd, wr] at h
  | names => simp [shape, free, rd] at h
  | ids => simp [shape, free, rd] at h
  | find seen b => rcases seen with _ | r' <;> cases b <;> simp [shape, find, Reads] at h ⊢; exact .inl h.symm
  | list rs => exact .inr trivial
  | allocate h acc r' => rcases r' with _ | r' <;> simp [shape, insert, record_not_inside] at h
  | deallocate h acc r' => simp [shape, remove, record_not_inside] at h
  | deallocateWrong h r' r'' => simp [shape, insert, remove] at h
  | deallocateUnknown h => simp [shape, remove] at h
  | deallocateUntracked h acc => simp [shape, record_not_inside] at h
  | getter h acc => simp [shape, free, record_not_inside] at h
  | register r' => simp [shape, insert] at h
  | deregister r' => rcases r' with _ | r' <;> simp [shape, remove] at h

theorem at_record_reads {arr : Arr} {strict : Bool} {c : Call} {r : Nat} (h : Reads r c) : At arr strict c false ⟨.record r, false⟩ := by
  match c, h with
  | .find _ true, rfl => exact ⟨_, .tail _ (.head _), rfl, .head _⟩

theorem inside_not_byName {strict : Bool} {f : Found} {o : Conc.Obj} {w : Bool} : ¬ (⟨.inside o, w⟩ : Acc) ∈ byName strict f := by
  intro h
  obtain ⟨t, e⟩ := byName_table h
  cases e

theorem inside_not_makeResource {strict : Bool} {m : Made} {o : Conc.Obj} {w : Bool} : ¬ (⟨.inside o, w⟩ : Acc) ∈ makeResource strict m := by
  intro h
  obtain ⟨t, e⟩ := makeResource_table h
  cases e

theorem inside_inside {l : List Conc.Acc} {o : Conc.Obj} {w : Bool} : (⟨.inside o, w⟩ : Acc) ∈ insideOf l ↔ ⟨o, w⟩ ∈ l := by
  rw [mem_inside]
  constructor
  · rintro ⟨⟨o', w'⟩, h, e⟩
    cases e
    exact h
  · exact fun h => ⟨_, h, rfl⟩

/-- What happens to strategies is not under the lock of the map. -/
theorem at_inside {arr : Arr} {strict : Bool} {c : Call} {l : Bool} {o : Conc.Obj} {w : Bool} :
    At arr strict c l ⟨.inside o, w⟩ ↔ l = false ∧ ⟨o, w⟩ ∈ inner c := by
  unfold At
  cases c with
  | make ctor m =>
    have : ∀ m, makeAllocator strict ctor m = (match m with
      | .full => [rd .counter]
      | .taken => [rd .counter, rd .names]
      | .broken => [rd .counter, rd .names, rd .counter, wr .counter] ++ insideOf ctor
      | .made => [rd .counter, rd .names, rd .counter, wr .counter] ++ insideOf ctor ++ [wr .names, wr .ids, wr .owned, index strict .names]) := by
      intro m; cases m <;> rfl
    cases m <;> cases l <;> simp [shape, this, inner, rd, wr, index, inside_inside]
  | makeResource m => simp [shape, free, inner, inside_not_makeResource]
  | byName f => simp [shape, free, inner, inside_not_byName]
  | byType f => rcases f with _ | f <;> simp [shape, free, inner, inside_not_byName, rd, index]
  | byId b => cases b <;> simp [shape, free, inner, rd, index]
  | getDefault f =>
    rcases f with _ | f
    · simp [shape, free, inner, rd]
    · cases e : f.ok <;> simp [shape, free, inner, inside_not_byName, rd, wr, e]
  | setDefault => simp [shape, free, inner, wr]
  | addAlias f => rcases f with _ | f <;> simp [shape, free, inner, inside_not_byName, rd, wr]
  | removeAlias b => cases b <;> simp [shape, free, inner, rd, wr]
  | names => simp [shape, free, inner, rd]
  | ids => simp [shape, free, inner, rd]
  | find seen b => rcases seen with _ | r <;> cases b <;> simp [shape, find, inner]
  | list rs => simp [shape, list, inner]
  | allocate h acc r' => rcases r' with _ | r' <;> cases l <;> simp [shape, inner, insert, inside_inside]
  | deallocate h acc r' => cases l <;> simp [shape, inner, remove, inside_inside]
  | deallocateWrong h r' r'' => simp [shape, inner, insert, remove]
  | deallocateUnknown h => simp [shape, inner, remove]
  | deallocateUntracked h acc => cases l <;> simp [shape, inner, inside_inside]
  | getter h acc => cases l <;> simp [shape, free, inner, inside_inside]
  | register r' => simp [shape, inner, insert]
  | deregister r' => rcases r' with _ | r' <;> simp [shape, inner, remove]

/-- The mutex around a whole call. -/
theorem outer_iff {arr : Arr} {strict : Bool} {c : Call} {k : Lock} : (shape arr strict c).outer = some k ↔
    (k = .manager ∧ Makes c) ∨ ∃ h p, k = .strategy h ∧ handle c = some h ∧ arr h = .tsa p := by
  have hl : ∀ h, handleLock arr h = some k ↔ ∃ p, k = .strategy h ∧ arr h = .tsa p := by
    intro h
    unfold handleLock
    cases e : arr h <;> simp
    exact eq_comm
  cases c with
  | make ctor m => simp [shape, Makes, handle]; exact eq_comm
  | makeResource m => simp [shape, free, Makes, handle]
  | byName f => simp [shape, free, Makes, handle]
  | byType f => rcases f with _ | f <;> simp [shape, free, Makes, handle]
  | byId b => cases b <;> simp [shape, free, Makes, handle]
  | getDefault f => rcases f with _ | f <;> simp [shape, free, Makes, handle]
  | setDefault => simp [shape, free, Makes, handle]
  | addAlias f => rcases f with _ | f <;> simp [shape, free, Makes, handle]
  | removeAlias b => cases b <;> simp [shape, free, Makes, handle]
  | names => simp [shape, free, Makes, handle]
  | ids => simp [shape, free, Makes, handle]
  | find seen b => simp [shape, Makes, handle]
  | list rs => simp [shape, Makes, handle]
  | allocate h acc r' => rcases r' with _ | r' <;> simp [shape, Makes, handle, hl] <;> grind
  | deallocate h acc r' => simp [shape, Makes, handle, hl]; grind
  | deallocateWrong h r' r'' => simp [shape, Makes, handle, hl]; grind
  | deallocateUnknown h => simp [shape, Makes, handle, hl]; grind
  | deallocateUntracked h acc => simp [shape, Makes, handle, hl]; grind
  | getter h acc => simp [shape, free, Makes, handle]
  | register r' => simp [shape, Makes, handle]
  | deregister r' => simp [shape, Makes, handle]

theorem outer_map {arr : Arr} {strict : Bool} {c : Call} : (shape arr strict c).outer ≠ some .map := by
  intro h
  rcases outer_iff.mp h with ⟨h, -⟩ | ⟨_, _, h, -⟩ <;> cases h

theorem exclude_iff {arr : Arr} {strict : Bool} {a b : Call} :
    ((shape arr strict a).outer = none ∨ (shape arr strict a).outer ≠ (shape arr strict b).outer) ↔ ¬ Exclude arr a b := by
  constructor
  · rintro h (⟨h1, h2⟩ | ⟨n, p, h1, h2, h3⟩)
    · have e1 := (outer_iff (arr := arr) (strict := strict) (c := a) (k := .manager)).mpr (.inl ⟨rfl, h1⟩)
      have e2 := (outer_iff (arr := arr) (strict := strict) (c := b) (k := .manager)).mpr (.inl ⟨rfl, h2⟩)
      rcases h with h | h
      · rw [e1] at h; cases h
      · exact h (e1.trans e2.symm)
    · have e1 := (outer_iff (arr := arr) (strict := strict) (c := a) (k := .strategy n)).mpr (.inr ⟨n, p, rfl, h1, h3⟩)
      have e2 := (outer_iff (arr := arr) (strict := strict) (c := b) (k := .strategy n)).mpr (.inr ⟨n, p, rfl, h2, h3⟩)
      rcases h with h | h
      · rw [e1] at h; cases h
      · exact h (e1.trans e2.symm)
  · intro h
    cases e : (shape arr strict a).outer with
    | none => exact .inl rfl
    | some k =>
      refine .inr fun e' => h ?_
      have e' := e'.symm
      rcases outer_iff.mp e with ⟨rfl, h1⟩ | ⟨n, p, rfl, h1, h2⟩
      · rcases outer_iff.mp e' with ⟨-, h2⟩ | ⟨_, _, h, -⟩
        · exact .inl ⟨h1, h2⟩
        · cases h
      · rcases outer_iff.mp e' with ⟨h, -⟩ | ⟨m, q, h, h3, h4⟩
        · cases h
        · cases h
          exact .inr ⟨n, p, h1, h3, h2⟩

theorem Lists.not_exclude {arr : Arr} {a b : Call} (h : Lists a) : ¬ Exclude arr a b ∧ ¬ Exclude arr b a := by
  match a, h with
  | .list rs, _ => 
    refine ⟨?_, ?_⟩
    · rintro (⟨h, -⟩ | ⟨_, _, h, -⟩) <;> cases h
    · rintro (⟨-, h⟩ | ⟨_, _, -, h, -⟩) <;> cases h

theorem Reads.not_exclude {arr : Arr} {r : Nat} {a b : Call} (h : Reads r a) : ¬ Exclude arr a b ∧ ¬ Exclude arr b a := by
  match a, h with
  | .find _ true, _ => 
    refine ⟨?_, ?_⟩
    · rintro (⟨h, -⟩ | ⟨_, _, h, -⟩) <;> cases h
    · rintro (⟨-, h⟩ | ⟨_, _, -, h, -⟩) <;> cases h

theorem Lists.maps {a : Call} (h : Lists a) : Maps a := by
  match a, h with
  | .list _, _ => trivial

theorem Ends.maps {r : Nat} {a : Call} (h : Ends r a) : Maps a := by
  match a, h with
  | .allocate _ _ (some _), _ => trivial
  | .deallocate _ _ _, _ => trivial
  | .register _, _ => trivial
  | .deregister (some _), _ => trivial
  | .deallocateWrong _ _ _, _ => trivial

theorem meet_at {arr : Arr} {strict : Bool} {a b : Call} : Meet (shape arr strict a) (shape arr strict b) ↔
    ∃ o w w' l l', At arr strict a l ⟨o, w⟩ ∧ At arr strict b l' ⟨o, w'⟩ ∧ (w = true ∨ w' = true) ∧ (l = false ∨ l' = false) ∧ ¬ Exclude arr a b := by
  constructor
  · rintro ⟨g, hg, g', hg', ⟨o, w⟩, ha, ⟨o', w'⟩, ha', ho, hw, hl, hk⟩
    cases ho
    exact ⟨o, w, w', _, _, ⟨g, hg, rfl, ha⟩, ⟨g', hg', rfl, ha'⟩, hw, hl, exclude_iff.mp hk⟩
  · rintro ⟨o, w, w', l, l', ⟨g, hg, rfl, ha⟩, ⟨g', hg', rfl, ha'⟩, hw, hl, hk⟩
    exact ⟨g, hg, g', hg', _, ha, _, ha', rfl, hw, hl, exclude_iff.mpr hk⟩

theorem Maps.at {arr : Arr} {strict : Bool} {c : Call} (h : Maps c) : ∃ l, At arr strict c l ⟨.judy, true⟩ := by
  by_cases hl : Lists c
  · exact ⟨false, at_judy.mpr ⟨rfl, h, fun _ => hl, fun _ => rfl⟩⟩
  · exact ⟨true, at_judy.mpr ⟨rfl, h, fun e => by (cases e), fun e => (hl e).elim⟩⟩

theorem meet_iff {arr : Arr} {strict : Bool} {a b : Call} : Meet (shape arr strict a) (shape arr strict b) ↔ Clash arr strict a b := by
  rw [meet_at]
  constructor
  · rintro ⟨o, w, w', l, l', ha, hb, hw, hl, hx⟩
    cases o with
    | table t =>
      refine .table t hx (at_use.mp ⟨w, ha⟩).2 (at_use.mp ⟨w', hb⟩).2 ?_
      rcases hw with rfl | rfl
      · exact .inl (at_write.mp ha).2
      · exact .inr (at_write.mp hb).2
    | judy =>
      obtain ⟨-, m1, l1⟩ := at_judy.mp ha
      obtain ⟨-, m2, l2⟩ := at_judy.mp hb
      rcases hl with hl | hl
      · exact .listing (.inl ⟨l1.mp hl, m2⟩)
      · exact .listing (.inr ⟨m1, l2.mp hl⟩)
    | record r =>
      rcases hw with rfl | rfl
      · obtain ⟨e, h1⟩ := at_record_write.mp ha
        have hl := hl.resolve_left (by rw [e]; intro h; cases h)
        subst hl
        cases w' with
        | true => cases (at_record_write.mp hb).1
        | false =>
          rcases at_record_free hb with h2 | h2
          · exact .record r (.inr ⟨h1, h2⟩)
          · exact .listing (.inr ⟨h1.maps, h2⟩)
      · obtain ⟨e, h1⟩ := at_record_write.mp hb
        have hl := hl.resolve_right (by rw [e]; intro h; cases h)
        subst hl
        cases w with
        | true => cases (at_record_write.mp ha).1
        | false =>
          rcases at_record_free ha with h2 | h2
          · exact .record r (.inl ⟨h2, h1⟩)
          · exact .listing (.inl ⟨h2, h1.maps⟩)
    | inside o => exact .inside ⟨o, w⟩ ⟨o, w'⟩ hx (at_inside.mp ha).2 (at_inside.mp hb).2 rfl hw
  · rintro (⟨t, hx, ha, hb, hc⟩ | h | ⟨r, h⟩ | ⟨x, y, hx, ha, hb, ho, hw⟩)
    · obtain ⟨w, ha⟩ := (at_use (arr := arr)).mpr ⟨rfl, ha⟩
      obtain ⟨w', hb⟩ := (at_use (arr := arr)).mpr ⟨rfl, hb⟩
      rcases hc with hc | hc
      · exact ⟨_, _, _, _, _, at_write.mpr ⟨rfl, hc⟩, hb, .inl rfl, .inl rfl, hx⟩
      · exact ⟨_, _, _, _, _, ha, at_write.mpr ⟨rfl, hc⟩, .inr rfl, .inl rfl, hx⟩
    · rcases h with ⟨h1, h2⟩ | ⟨h1, h2⟩
      · obtain ⟨l, hb⟩ := h2.at (arr := arr) (strict := strict)
        exact ⟨_, _, _, _, _, at_judy.mpr ⟨rfl, h1.maps, fun _ => h1, fun _ => rfl⟩, hb, .inl rfl, .inl rfl, h1.not_exclude.1⟩
      · obtain ⟨l, ha⟩ := h1.at (arr := arr) (strict := strict)
        exact ⟨_, _, _, _, _, ha, at_judy.mpr ⟨rfl, h2.maps, fun _ => h2, fun _ => rfl⟩, .inl rfl, .inr rfl, h2.not_exclude.2⟩
    · rcases h with ⟨h1, h2⟩ | ⟨h1, h2⟩
      · exact ⟨_, _, _, _, _, at_record_reads h1, at_record_write.mpr ⟨rfl, h2⟩, .inr rfl, .inl rfl, h1.not_exclude.1⟩
      · exact ⟨_, _, _, _, _, at_record_write.mpr ⟨rfl, h1⟩, at_record_reads h2, .inl rfl, .inr rfl, h2.not_exclude.2⟩
    · obtain ⟨o, w⟩ := x
      obtain ⟨o', w'⟩ := y
      cases ho
      exact ⟨_, _, _, _, _, at_inside.mpr ⟨rfl, ha⟩, at_inside.mpr ⟨rfl, hb⟩, hw, .inl rfl, hx⟩

/-! ## Properties -/

variable {T : Type} [DecidableEq T]

/-- All threads before their first call. -/
def start (arr : Arr) (strict : Bool) (P : T → List Call) : Conf T := begin' fun t => (P t).map (shape arr strict)

/-- C75.  Any number of threads, each making any calls: there is a schedule with a data race
exactly if two threads have calls that clash. -/
theorem race_iff {arr : Arr} {strict : Bool} {P : T → List Call} :
    (∃ c, Steps (start arr strict P) c ∧ Race c) ↔ ∃ t t', t ≠ t' ∧ ∃ a ∈ P t, ∃ b ∈ P t', Clash arr strict a b := by
  unfold start
  rw [race_shapes (by
    intro t s hs
    obtain ⟨a, -, rfl⟩ := List.mem_map.mp hs
    exact outer_map)]
  constructor
  · rintro ⟨t, t', hne, s, hs, s', hs', hm⟩
    obtain ⟨a, ha, rfl⟩ := List.mem_map.mp hs
    obtain ⟨b, hb, rfl⟩ := List.mem_map.mp hs'
    exact ⟨t, t', hne, a, ha, b, hb, meet_iff.mp hm⟩
  · rintro ⟨t, t', hne, a, ha, b, hb, hc⟩
    exact ⟨t, t', hne, _, List.mem_map_of_mem ha, _, List.mem_map_of_mem hb, meet_iff.mpr hc⟩

/-- The library does not block: as long as a thread has something to do, some thread can go
on, in every schedule. -/
theorem never_blocked {arr : Arr} {strict : Bool} {P : T → List Call} {c : Conf T} (h : Steps (start arr strict P) c) {t : T}
    (ht : c.thr t ≠ .idle []) : ∃ c', Step c c' :=
  progress (by
    intro t s hs
    obtain ⟨a, -, rfl⟩ := List.mem_map.mp hs
    exact outer_map) h ht

/-- What users can rely on.  There is no race if, while several threads run, no thread changes
the tables of allocators or goes through all allocations; no thread reads a record that
another makes or removes; and calls that come to the same strategy go through one
thread-safe allocator. -/
theorem safe {arr : Arr} {strict : Bool} {P : T → List Call} (hc : ∀ t, ∀ a ∈ P t, changes strict a = [] ∧ ¬ Lists a)
    (hr : ∀ t t' a b r, t ≠ t' → a ∈ P t → b ∈ P t' → Reads r a → ¬ Ends r b)
    (hi : ∀ t t' a b, t ≠ t' → a ∈ P t → b ∈ P t' → (∃ h p, handle a = some h ∧ handle b = some h ∧ arr h = .tsa p) ∨
      ∀ x ∈ inner a, ∀ y ∈ inner b, x.obj = y.obj → x.write = false ∧ y.write = false)
    {c : Conf T} (h : Steps (start arr strict P) c) : ¬ Race c := by
  intro hrace
  obtain ⟨t, t', hne, a, ha, b, hb, hcl⟩ := race_iff.mp ⟨c, h, hrace⟩
  cases hcl with
  | table x hx h1 h2 h3 =>
    rw [(hc t a ha).1, (hc t' b hb).1] at h3
    rcases h3 with h3 | h3 <;> cases h3
  | listing h =>
    rcases h with ⟨h, -⟩ | ⟨-, h⟩
    · exact (hc t a ha).2 h
    · exact (hc t' b hb).2 h
  | record r h =>
    rcases h with ⟨h1, h2⟩ | ⟨h1, h2⟩
    · exact hr t t' a b r hne ha hb h1 h2
    · exact hr t' t b a r hne.symm hb ha h2 h1
  | inside x y hx h1 h2 ho hw =>
    rcases hi t t' a b hne ha hb with h | h
    · exact hx (.inr h)
    · obtain ⟨e1, e2⟩ := h x h1 y h2 ho
      rw [e1, e2] at hw
      rcases hw with hw | hw <;> cases hw

/-- Two threads. -/
def two (a b : Call) : Bool → List Call := fun t => if t then [a] else [b]

/-- Threads 1 and 2 making the calls `a` and `b` can race. -/
def Unsafe (arr : Arr) (strict : Bool) (a b : Call) : Prop := ∃ c, Steps (start arr strict (two a b)) c ∧ Race c

theorem unsafe_iff {arr : Arr} {strict : Bool} {a b : Call} : Unsafe arr strict a b ↔ Clash arr strict a b ∨ Clash arr strict b a := by
  unfold Unsafe
  rw [race_iff]
  constructor
  · rintro ⟨t, t', hne, x, hx, y, hy, h⟩
    cases t <;> cases t'
    · exact absurd rfl hne
    · cases List.mem_singleton.mp hx; cases List.mem_singleton.mp hy; exact .inr h
    · cases List.mem_singleton.mp hx; cases List.mem_singleton.mp hy; exact .inl h
    · exact absurd rfl hne
  · rintro (h | h)
    · exact ⟨true, false, by decide, a, .head _, b, .head _, h⟩
    · exact ⟨false, true, by decide, b, .head _, a, .head _, h⟩

/-- Two threads may create allocators at the same time, whatever the constructors do to the
strategies beneath. -/
theorem make_make {arr : Arr} {strict : Bool} {x y : List Conc.Acc} {m m' : Make} : ¬ Unsafe arr strict (.make x m) (.make y m') := by
  rw [unsafe_iff]
  have key : ∀ {x y : List Conc.Acc} {m m' : Make}, ¬ Clash arr strict (.make x m) (.make y m') := by
    intro x y m m' h
    have hx : Exclude arr (.make x m) (.make y m') := .inl ⟨trivial, trivial⟩
    cases h with
    | table t h => exact h hx
    | listing h => rcases h with ⟨h, -⟩ | ⟨-, h⟩ <;> cases h
    | record r h => rcases h with ⟨h, -⟩ | ⟨-, h⟩ <;> cases h
    | inside _ _ h => exact h hx
  rintro (h | h) <;> exact key h

/-- Lookups of allocators that are there do not disturb each other, on implementations where
`table[key]` does not write. -/
theorem lookups {arr : Arr} {a b : Call} (ha : a ∈ [.byName .hit, .byType none, .byId true, .getDefault none, .names, .ids])
    (hb : b ∈ [.byName .hit, .byType none, .byId true, .getDefault none, .names, .ids]) : ¬ Unsafe arr false a b := by
  intro ⟨c, h, hr⟩
  have key : ∀ {x : Call}, x ∈ [.byName .hit, .byType none, .byId true, .getDefault none, .names, .ids] →
      changes false x = [] ∧ ¬ Lists x ∧ inner x = [] ∧ ∀ r, ¬ Reads r x := by
    intro x hx
    simp only [List.mem_cons, List.not_mem_nil, or_false] at hx
    rcases hx with rfl | rfl | rfl | rfl | rfl | rfl <;> exact ⟨rfl, id, rfl, fun _ => id⟩
  have all : ∀ t, ∀ x ∈ two a b t, x ∈ [.byName .hit, .byType none, .byId true, .getDefault none, .names, .ids] := by
    intro t x hx
    cases t
    · cases List.mem_singleton.mp hx; exact hb
    · cases List.mem_singleton.mp hx; exact ha
  refine safe (fun t x hx => ⟨(key (all t x hx)).1, (key (all t x hx)).2.1⟩) (fun t t' x y r _ hx _ h => ((key (all t x hx)).2.2.2 r h).elim)
    (fun t t' x y _ hx _ => .inr ?_) h hr
  rw [(key (all t x hx)).2.2.1]
  exact fun _ h => nomatch h

/-- The same lookup by name in two threads is a race to the letter of the standard. -/
theorem lookup_counterexample : Unsafe (fun _ => .resource) true (.byName .hit) (.byName .hit) :=
  unsafe_iff.mpr (.inl (.table .names (by rintro (⟨h, -⟩ | ⟨_, _, h, -⟩) <;> cases h) (.inl (.head _)) (.inl (.head _)) (.inl (.head _))))

/-- The first `getAllocator("HOST")` in two threads: both may create it, there is no lock. -/
theorem first_use_counterexample : Unsafe (fun _ => .resource) false (.byName (.resource (.made true))) (.byName (.resource (.made true))) :=
  unsafe_iff.mpr (.inl (.table .names (by rintro (⟨h, -⟩ | ⟨_, _, h, -⟩) <;> cases h) (.inl (.head _)) (.inl (.head _)) (.inl (.head _))))

/-- The first use of the default allocator, when "HOST" is there already. -/
theorem default_counterexample : Unsafe (fun _ => .resource) false (.getDefault (some .hit)) (.getDefault (some .hit)) :=
  unsafe_iff.mpr (.inl (.table .default (by rintro (⟨h, -⟩ | ⟨_, _, h, -⟩) <;> cases h) (.inl (.head _)) (.inl (.head _)) (.inl (.head _))))

/-- One thread creates an allocator, another looks one up: `makeAllocator` locks, `getAllocator`
does not. -/
theorem make_lookup_counterexample : Unsafe (fun _ => .resource) false (.make [] .made) (.byName .hit) :=
  unsafe_iff.mpr (.inl (.table .names (by rintro (⟨-, h⟩ | ⟨_, _, h, -⟩) <;> cases h) (.inl (.tail _ (.head _))) (.inl (.head _)) (.inl (.head _))))

/-- An allocator and an alias are made. -/
theorem alias_counterexample : Unsafe (fun _ => .resource) false (.make [] .made) (.addAlias none) :=
  unsafe_iff.mpr (.inl (.table .names (by rintro (⟨-, h⟩ | ⟨_, _, h, -⟩) <;> cases h) (.inl (.tail _ (.head _))) (.inl (.head _)) (.inl (.head _))))

/-- One thread looks for leaks, another allocates through a thread-safe allocator. -/
theorem leaks_counterexample : Unsafe (fun n => if n = 1 then .tsa 0 else .resource) false (.list []) (.allocate 1 [] (some 0)) :=
  unsafe_iff.mpr (.inl (.listing (.inl ⟨trivial, trivial⟩)))

/-- Two threads look for leaks: both move the cursor of the Judy array. -/
theorem two_leaks_counterexample : Unsafe (fun _ => .resource) false (.list []) (.list []) :=
  unsafe_iff.mpr (.inl (.listing (.inl ⟨trivial, trivial⟩)))

/-- A record is read after the lock is given back: another thread may have removed it. -/
theorem stale_counterexample : Unsafe (fun n => if n = 1 then .tsa 0 else .resource) false (.find (some 7) true) (.deallocate 1 [] 7) :=
  unsafe_iff.mpr (.inl (.record 7 (.inl ⟨rfl, rfl⟩)))

/-! ## Larger calls -/

/-- `ResourceManager::deallocate` (ResourceManager.cpp:853-859). -/
def rmDeallocate (h : Nat) (acc : List Conc.Acc) (r : Nat) : List Call := [.find (some r) true, .deallocate h acc r]

/-- `ResourceManager::copy` (:375-416) of the allocations with records `r` and `r'`. -/
def rmCopy (r r' : Nat) : List Call := [.find (some r) true, .find (some r') true]

/-- `reallocate` of record `r` to `r'`, not of `HOST`, with allocation, copy and deallocation (:657-705,
GenericReallocateOperation.cpp:19-46). -/
def rmReallocate (h : Nat) (acc acc' : List Conc.Acc) (r r' : Nat) : List Call :=
  [.find (some r) true, .find (some r) true, .byName .hit, .allocate h acc (some r')] ++ rmCopy r r' ++ [.deallocate h acc' r]

/-- Threads that allocate, copy, reallocate and deallocate through one thread-safe allocator, each its
own allocations, do not race. -/
inductive Chore (h : Nat) (mine : Nat → Prop) : List Call → Prop where
  | allocate (acc : List Conc.Acc) (r : Nat) (hr : mine r) : Chore h mine [.allocate h acc (some r)]
  | deallocate (acc : List Conc.Acc) (r : Nat) (hr : mine r) : Chore h mine (rmDeallocate h acc r)
  | copy (r r' : Nat) (hr : mine r) (hr' : mine r') : Chore h mine (rmCopy r r')
  | reallocate (acc acc' : List Conc.Acc) (r r' : Nat) (hr : mine r) (hr' : mine r') : Chore h mine (rmReallocate h acc acc' r r')

theorem chore_call {h : Nat} {mine : Nat → Prop} {l : List Call} (hl : Chore h mine l) {a : Call} (ha : a ∈ l) :
    changes false a = [] ∧ ¬ Lists a ∧ (∀ r, Reads r a ∨ Ends r a → mine r) ∧ (handle a = some h ∨ inner a = []) := by
  have find : ∀ r, mine r → changes false (.find (some r) true) = [] ∧ ¬ Lists (.find (some r) true) ∧
      (∀ x, Reads x (.find (some r) true) ∨ Ends x (.find (some r) true) → mine x) ∧ (handle (.find (some r) true) = some h ∨ inner (.find (some r) true) = []) := by
    refine fun r hr => ⟨rfl, id, fun x hx => ?_, .inr rfl⟩
    rcases hx with hx | hx
    · cases hx; exact hr
    · cases hx
  have al : ∀ acc r, mine r → changes false (.allocate h acc (some r)) = [] ∧ ¬ Lists (.allocate h acc (some r)) ∧
      (∀ x, Reads x (.allocate h acc (some r)) ∨ Ends x (.allocate h acc (some r)) → mine x) ∧
      (handle (.allocate h acc (some r)) = some h ∨ inner (.allocate h acc (some r)) = []) := by
    refine fun acc r hr => ⟨rfl, id, fun x hx => ?_, .inl rfl⟩
    rcases hx with hx | hx
    · cases hx
    · cases hx; exact hr
  have de : ∀ acc r, mine r → changes false (.deallocate h acc r) = [] ∧ ¬ Lists (.deallocate h acc r) ∧
      (∀ x, Reads x (.deallocate h acc r) ∨ Ends x (.deallocate h acc r) → mine x) ∧
      (handle (.deallocate h acc r) = some h ∨ inner (.deallocate h acc r) = []) := by
    refine fun acc r hr => ⟨rfl, id, fun x hx => ?_, .inl rfl⟩
    rcases hx with hx | hx
    · cases hx
    · cases hx; exact hr
  cases hl with
  | allocate acc r hr => cases List.mem_singleton.mp ha; exact al acc r hr
  | deallocate acc r hr =>
    simp only [rmDeallocate, List.mem_cons, List.not_mem_nil, or_false] at ha
    rcases ha with rfl | rfl
    · exact find r hr
    · exact de acc r hr
  | copy r r' hr hr' =>
    simp only [rmCopy, List.mem_cons, List.not_mem_nil, or_false] at ha
    rcases ha with rfl | rfl
    · exact find r hr
    · exact find r' hr'
  | reallocate acc acc' r r' hr hr' =>
    simp only [rmReallocate, rmCopy, List.mem_cons, List.cons_append, List.nil_append, List.not_mem_nil, or_false] at ha
    rcases ha with rfl | rfl | rfl | rfl | rfl | rfl | rfl
    · exact find r hr
    · exact find r hr
    · refine ⟨rfl, id, fun x hx => ?_, .inr rfl⟩
      rcases hx with hx | hx <;> cases hx
    · exact al acc r' hr'
    · exact find r hr
    · exact find r' hr'
    · exact de acc' r hr

/-- C75.  Any number of threads that each allocate, copy, reallocate and deallocate their own memory,
all through one thread-safe allocator: no race in any schedule. -/
theorem own_memory {arr : Arr} {h p : Nat} (hh : arr h = .tsa p) {P : T → List (List Call)} {own : T → Nat → Prop}
    (hown : ∀ t t' r, own t r → own t' r → t = t') (hP : ∀ t, ∀ l ∈ P t, Chore h (own t) l) {c : Conf T}
    (hs : Steps (start arr false fun t => (P t).flatten) c) : ¬ Race c := by
  have get : ∀ {t a}, a ∈ (P t).flatten → changes false a = [] ∧ ¬ Lists a ∧ (∀ r, Reads r a ∨ Ends r a → own t r) ∧ (handle a = some h ∨ inner a = []) := by
    intro t a ha
    obtain ⟨l, hl, ha⟩ := List.mem_flatten.mp ha
    exact chore_call (hP t l hl) ha
  refine safe (fun t a ha => ⟨(get ha).1, (get ha).2.1⟩) (fun t t' a b r hne ha hb h1 h2 => ?_) (fun t t' a b hne ha hb => ?_) hs
  · exact hne (hown t t' r ((get ha).2.2.1 r (.inl h1)) ((get hb).2.2.1 r (.inr h2)))
  · rcases (get ha).2.2.2 with e | e
    · rcases (get hb).2.2.2 with e' | e'
      · exact .inl ⟨h, p, e, e', hh⟩
      · rw [e']; exact .inr fun _ _ _ h => nomatch h
    · rw [e]; exact .inr fun _ h => nomatch h

/-- Two threads that share a thread-safe allocator over strategy 0 and use its state. -/
example {c : Conf Bool} (hs : Steps (start (fun n => if n = 1 then .tsa 0 else .resource) false fun t =>
    ([rmReallocate 1 [⟨.own 0, true⟩] [⟨.own 0, true⟩] (if t then 0 else 1) (if t then 2 else 3), [.allocate 1 [⟨.own 0, true⟩] (some (if t then 4 else 5))]]).flatten) c) : ¬ Race c :=
  own_memory (h := 1) (p := 0) rfl (own := fun t r => r % 2 = if t then 0 else 1) (by intro t t' r h h'; cases t <;> cases t' <;> simp_all)
    (P := fun t => [rmReallocate 1 [⟨.own 0, true⟩] [⟨.own 0, true⟩] (if t then 0 else 1) (if t then 2 else 3), [.allocate 1 [⟨.own 0, true⟩] (some (if t then 4 else 5))]])
    (by
      intro t l hl
      cases t
      · rcases List.mem_cons.mp hl with rfl | hl
        · exact .reallocate _ _ _ _ rfl rfl
        · cases List.mem_singleton.mp hl; exact .allocate _ _ rfl
      · rcases List.mem_cons.mp hl with rfl | hl
        · exact .reallocate _ _ _ _ rfl rfl
        · cases List.mem_singleton.mp hl; exact .allocate _ _ rfl) hs

/-- Calls that clash and calls that do not. -/
example : Unsafe (fun _ => .resource) false (.allocate 0 [⟨.stat 0, true⟩] (some 1)) (.getter 0 [⟨.stat 0, false⟩]) :=
  unsafe_iff.mpr (.inl (.inside ⟨.stat 0, true⟩ ⟨.stat 0, false⟩ (by rintro (⟨h, -⟩ | ⟨_, _, -, h, -⟩) <;> cases h) (.head _) (.head _) rfl (.inl rfl)))

example : ¬ Unsafe (fun n => if n = 1 then .tsa 0 else .resource) true (.allocate 1 [⟨.stat 0, true⟩] (some 1)) (.allocate 1 [⟨.stat 0, true⟩] (some 2)) := by
  rintro ⟨c, h, hr⟩
  refine safe (fun t a ha => ?_) (fun t t' a b r hne ha hb h1 => ?_) (fun t t' a b hne ha hb => .inl ⟨1, 0, ?_, ?_, rfl⟩) h hr
  · cases t <;> cases List.mem_singleton.mp ha <;> exact ⟨rfl, id⟩
  · cases t <;> cases List.mem_singleton.mp ha <;> cases h1
  · cases t <;> cases List.mem_singleton.mp ha <;> rfl
  · cases t' <;> cases List.mem_singleton.mp hb <;> rfl

end Umpire.Tables
