import Verif.Conc.Races
/-!
# The tables of the library and their locks (C75)

`ResourceManager` keeps the allocators in tables, `AllocationMap` the allocations.  Each has
a mutex: `ResourceManager::m_mutex` is taken by `makeAllocator` only
(ResourceManager.inl:23), `AllocationMap::m_mutex` by `insert`, `find`, `findRecord`,
`remove` and `clear` (AllocationMap.cpp:157, 178, 228, 241, 271) but not by the iterators and
`print`.  A handle of a `ThreadSafeAllocator` takes the mutex of that strategy around the
whole call (Allocator.inl:50-66).

A call is the list of its accesses to shared memory in program order, with the locks around
them.  Left out: the event recorder, the logger, the registries of resources and operations,
which only the first use writes (MemoryResourceRegistry.cpp, MemoryOperationRegistry.cpp),
and the memory of the user.
-/
set_option autoImplicit false
namespace Umpire.Tables
open Conc (Arr upd)

/-- The mutexes. -/
inductive Lock where
  /-- `ResourceManager::m_mutex` -/
  | manager
  /-- `AllocationMap::m_mutex` -/
  | map
  /-- `ThreadSafeAllocator::m_mutex` of strategy `n` -/
  | strategy (n : Nat)
deriving DecidableEq, Repr

/-- The tables of `ResourceManager` (ResourceManager.hpp:330-341). -/
inductive Table where
  /-- `m_allocators_by_name` -/
  | names
  /-- `m_allocators_by_id` -/
  | ids
  /-- `m_memory_resources` -/
  | types
  /-- `m_default_allocator` -/
  | default
  /-- `m_id` -/
  | counter
  /-- `m_allocators` -/
  | owned
deriving DecidableEq, Repr

/-- Shared memory. -/
inductive Obj where
  | table (t : Table)
  /-- the Judy array with its cursor and pools (MemoryMap.hpp: `m_array`, `m_last`, `m_oper`, `m_pool`), `m_block_pool`, `m_size` -/
  | judy
  /-- one `AllocationRecord`; a record has its own number from insertion to removal -/
  | record (r : Nat)
  /-- state of strategies -/
  | inside (o : Conc.Obj)
deriving DecidableEq, Repr

structure Acc where
  obj : Obj
  write : Bool
deriving DecidableEq, Repr

/-- Accesses one after the other; `locked`: under `AllocationMap::m_mutex`. -/
structure Seg where
  locked : Bool
  accs : List Acc
deriving DecidableEq, Repr

/-- A whole call: `outer` is locked from beginning to end. -/
structure Shape where
  outer : Option Lock
  segs : List Seg
deriving DecidableEq, Repr

/-! ## The tables of the manager -/

def rd (t : Table) : Acc := ⟨.table t, false⟩
def wr (t : Table) : Acc := ⟨.table t, true⟩

/-- `table[key]` for a key that is there.  `strict`: to the C++ standard
([container.requirements.dataraces]) this is not a reading access in associative and
unordered containers; implementations do not write. -/
def index (strict : Bool) (t : Table) : Acc := ⟨.table t, strict⟩

/-- Outcomes of `makeResource` (ResourceManager.cpp:138-186). -/
inductive Made where
  /-- there is one of that name -/
  | taken
  /-- the factory throws -/
  | broken
  /-- `typed`: the name has no "::" -/
  | made (typed : Bool)
deriving DecidableEq, Repr

/-- ResourceManager.cpp:138-186; `broken` throws at :158. -/
def makeResource (strict : Bool) : Made → List Acc
  | .taken => [rd .names]
  | .broken => [rd .names, rd .counter, wr .counter]
  | .made typed => [rd .names, rd .counter, wr .counter, wr .names] ++ (if typed then [wr .types] else []) ++
      [wr .ids, wr .owned, index strict .names]

/-- Outcomes of a search for a name. -/
inductive Found where
  | hit
  /-- the name of a resource that is not there yet -/
  | resource (m : Made)
  | unknown
deriving DecidableEq, Repr

/-- ResourceManager.cpp:188-206.  The message of the exception lists all allocators (:918-927). -/
def byName (strict : Bool) : Found → List Acc
  | .hit => [rd .names, index strict .names]
  | .resource (.made typed) => [rd .names] ++ makeResource strict (.made typed) ++ [index strict .names]
  | .resource m => [rd .names] ++ makeResource strict m
  | .unknown => [rd .names, rd .names]

/-- The search gives an allocator. -/
def Found.ok : Found → Bool
  | .hit => true
  | .resource (.made _) => true
  | _ => false

/-- Outcomes of `makeAllocator` (ResourceManager.inl:20-56). -/
inductive Make where
  /-- no ids left (:27-29) -/
  | full
  /-- the name is taken (:32-34) -/
  | taken
  /-- the constructor throws -/
  | broken
  | made
deriving DecidableEq, Repr

/-- ResourceManager.inl:20-56; `ctor`: what the constructor of the strategy does to strategies
beneath. -/
def makeAllocator (strict : Bool) (ctor : List Conc.Acc) (m : Make) : List Acc :=
  let inside := ctor.map fun a => ⟨.inside a.obj, a.write⟩
  match m with
  | .full => [rd .counter]
  | .taken => [rd .counter, rd .names]
  | .broken => [rd .counter, rd .names, rd .counter, wr .counter] ++ inside
  | .made => [rd .counter, rd .names, rd .counter, wr .counter] ++ inside ++
      [wr .names, wr .ids, wr .owned, index strict .names]

/-! ## The map of allocations -/

/-- AllocationMap.cpp:155-174. -/
def insert (r : Nat) : Seg := ⟨true, [⟨.judy, true⟩, ⟨.record r, true⟩, ⟨.judy, true⟩]⟩

/-- AllocationMap.cpp:239-261; `none`: no such pointer. -/
def remove : Option Nat → Seg
  | some r => ⟨true, [⟨.judy, true⟩, ⟨.record r, false⟩, ⟨.record r, true⟩, ⟨.judy, true⟩]⟩
  | none => ⟨true, [⟨.judy, true⟩]⟩

/-- AllocationMap.cpp:176-224.  The search moves the cursor of the Judy array and compares with
the record `seen` before the pointer, if there is one.  (A debug build also prints the map,
under the lock, if there is no record.) -/
def find (seen : Option Nat) : Seg :=
  ⟨true, ⟨.judy, true⟩ :: (seen.map fun r => (⟨.record r, false⟩ : Acc)).toList⟩

/-- The iterators and `print` (AllocationMap.cpp:281-309, 322-375): the cursor moves from record
to record. -/
def list (rs : List Nat) : Seg := ⟨false, ⟨.judy, true⟩ :: rs.flatMap fun r => [⟨.record r, false⟩, ⟨.judy, true⟩]⟩

/-- Accesses to strategies. -/
def insideOf (l : List Conc.Acc) : List Acc := l.map fun a => ⟨.inside a.obj, a.write⟩

/-! ## Calls -/

inductive Call where
  /-- `makeAllocator` -/
  | make (ctor : List Conc.Acc) (m : Make)
  /-- `makeResource` -/
  | makeResource (m : Made)
  /-- `getAllocator(name)` -/
  | byName (f : Found)
  /-- `getAllocator(type)`; `none`: it is there (ResourceManager.cpp:219-229) -/
  | byType (f : Option Found)
  /-- `getAllocator(id)` (:231-250) -/
  | byId (found : Bool)
  /-- `getDefaultAllocator`; `none`: it is set (:252-262) -/
  | getDefault (f : Option Found)
  /-- `setDefaultAllocator` (:271-284) -/
  | setDefault
  /-- `addAlias`; `some`: the name is taken, and is looked up for the message (:286-294) -/
  | addAlias (f : Option Found)
  /-- `removeAlias` (:296-313) -/
  | removeAlias (done : Bool)
  /-- `isAllocator(name)`, `getAllocatorNames` (:321-328, 892-901) -/
  | names
  /-- `isAllocator(id)`, `getAllocatorIds` (:330-333, 903-911) -/
  | ids
  /-- `hasAllocator`, `getSize`, `getAllocator(ptr)`, `findAllocationRecord` (:315-319, 335-373,
  861-890): the record found is read after the lock is given back -/
  | find (seen : Option Nat) (found : Bool)
  /-- `get_allocator_records`, `get_leaked_allocations`, `print_allocator_records` (Umpire.cpp:36-60, 197-200) -/
  | list (rs : List Nat)
  /-- `Allocator::allocate` (Allocator.inl:21-48, 68-90) through a handle of strategy `h`;
  `none`: nothing is registered -/
  | allocate (h : Nat) (acc : List Conc.Acc) (r : Option Nat)
  /-- `Allocator::deallocate` (Allocator.inl:92-112): tracked, record removed -/
  | deallocate (h : Nat) (acc : List Conc.Acc) (r : Nat)
  /-- the record is of another allocator: it goes back as `r'` (Inspector.cpp:42-56) -/
  | deallocateWrong (h : Nat) (r r' : Nat)
  /-- no such record -/
  | deallocateUnknown (h : Nat)
  /-- through a handle without tracking -/
  | deallocateUntracked (h : Nat) (acc : List Conc.Acc)
  /-- `getCurrentSize` and the like (Allocator.cpp:46-66): no lock -/
  | getter (h : Nat) (acc : List Conc.Acc)
  /-- `register_external_allocation` (Umpire.cpp:256-269) -/
  | register (r : Nat)
  /-- `deregister_external_allocation` (Umpire.cpp:271-279) -/
  | deregister (r : Option Nat)
deriving DecidableEq, Repr

/-- Allocator.cpp:18-28: only a handle of a `ThreadSafeAllocator` locks. -/
def handleLock (arr : Arr) (h : Nat) : Option Lock :=
  match arr h with
  | .tsa _ => some (.strategy h)
  | _ => none

/-- A call without any lock. -/
def free (l : List Acc) : Shape := ⟨none, [⟨false, l⟩]⟩

/-- What a call does. -/
def shape (arr : Arr) (strict : Bool) : Call → Shape
  | .make ctor m => ⟨some .manager, [⟨false, makeAllocator strict ctor m⟩]⟩
  | .makeResource m => free (makeResource strict m)
  | .byName f => free (byName strict f)
  | .byType none => free [rd .types, index strict .types]
  | .byType (some f) => free (rd .types :: byName strict f)
  | .byId true => free [rd .ids, index strict .ids]
  | .byId false => free [rd .ids, rd .names]
  | .getDefault none => free [rd .default, rd .default]
  | .getDefault (some f) => free (rd .default :: (byName strict f ++ if f.ok then [wr .default, rd .default] else []))
  | .setDefault => free [wr .default]
  | .addAlias none => free [rd .names, wr .names]
  | .addAlias (some f) => free (rd .names :: byName strict f)
  | .removeAlias true => free [rd .names, rd .names, wr .names]
  | .removeAlias false => free [rd .names, rd .names]
  | .names => free [rd .names]
  | .ids => free [rd .ids]
  | .find seen found => ⟨none, [find seen, ⟨false, if found then (seen.map fun r => (⟨.record r, false⟩ : Acc)).toList else []⟩]⟩
  | .list rs => ⟨none, [list rs]⟩
  | .allocate h acc none => ⟨handleLock arr h, [⟨false, insideOf acc⟩]⟩
  | .allocate h acc (some r) => ⟨handleLock arr h, [⟨false, insideOf acc⟩, insert r]⟩
  | .deallocate h acc r => ⟨handleLock arr h, [remove (some r), ⟨false, insideOf acc⟩]⟩
  | .deallocateWrong h r r' => ⟨handleLock arr h, [remove (some r), insert r']⟩
  | .deallocateUnknown h => ⟨handleLock arr h, [remove none]⟩
  | .deallocateUntracked h acc => ⟨handleLock arr h, [⟨false, insideOf acc⟩]⟩
  | .getter _ acc => free (insideOf acc)
  | .register r => ⟨none, [insert r]⟩
  | .deregister r => ⟨none, [remove r]⟩

/-! ## Threads -/

inductive Thread where
  | idle (todo : List Shape)
  /-- in a call, outside `AllocationMap` -/
  | busy (s : Shape) (segs : List Seg) (todo : List Shape)
  /-- in a call, under `AllocationMap::m_mutex` -/
  | mapped (s : Shape) (accs : List Acc) (segs : List Seg) (todo : List Shape)

variable {T : Type} [DecidableEq T]

structure Conf (T : Type) where
  lock : Lock → Option T
  thr : T → Thread

/-- One step of one thread.  A mutex can be taken when nobody has it. -/
inductive Step : Conf T → Conf T → Prop where
  | enter {c : Conf T} {t : T} {s : Shape} {todo : List Shape} {k : Lock} (h : c.thr t = .idle (s :: todo)) (ho : s.outer = some k)
      (hf : c.lock k = none) : Step c ⟨upd c.lock k (some t), upd c.thr t (.busy s s.segs todo)⟩
  | start {c : Conf T} {t : T} {s : Shape} {todo : List Shape} (h : c.thr t = .idle (s :: todo)) (ho : s.outer = none) :
      Step c ⟨c.lock, upd c.thr t (.busy s s.segs todo)⟩
  | acc {c : Conf T} {t : T} {s : Shape} {a : Acc} {as : List Acc} {segs : List Seg} {todo : List Shape}
      (h : c.thr t = .busy s (⟨false, a :: as⟩ :: segs) todo) : Step c ⟨c.lock, upd c.thr t (.busy s (⟨false, as⟩ :: segs) todo)⟩
  | next {c : Conf T} {t : T} {s : Shape} {segs : List Seg} {todo : List Shape}
      (h : c.thr t = .busy s (⟨false, []⟩ :: segs) todo) : Step c ⟨c.lock, upd c.thr t (.busy s segs todo)⟩
  | lock {c : Conf T} {t : T} {s : Shape} {as : List Acc} {segs : List Seg} {todo : List Shape}
      (h : c.thr t = .busy s (⟨true, as⟩ :: segs) todo) (hf : c.lock .map = none) :
      Step c ⟨upd c.lock .map (some t), upd c.thr t (.mapped s as segs todo)⟩
  | accMapped {c : Conf T} {t : T} {s : Shape} {a : Acc} {as : List Acc} {segs : List Seg} {todo : List Shape}
      (h : c.thr t = .mapped s (a :: as) segs todo) : Step c ⟨c.lock, upd c.thr t (.mapped s as segs todo)⟩
  | unlock {c : Conf T} {t : T} {s : Shape} {segs : List Seg} {todo : List Shape} (h : c.thr t = .mapped s [] segs todo) :
      Step c ⟨upd c.lock .map none, upd c.thr t (.busy s segs todo)⟩
  | leave {c : Conf T} {t : T} {s : Shape} {todo : List Shape} {k : Lock} (h : c.thr t = .busy s [] todo) (ho : s.outer = some k) :
      Step c ⟨upd c.lock k none, upd c.thr t (.idle todo)⟩
  | finish {c : Conf T} {t : T} {s : Shape} {todo : List Shape} (h : c.thr t = .busy s [] todo) (ho : s.outer = none) :
      Step c ⟨c.lock, upd c.thr t (.idle todo)⟩

inductive Steps : Conf T → Conf T → Prop where
  | refl {c : Conf T} : Steps c c
  | step {c c' c'' : Conf T} (h : Steps c c') (hs : Step c' c'') : Steps c c''

/-- All threads before their first call. -/
def begin' (P : T → List Shape) : Conf T := ⟨fun _ => none, fun t => .idle (P t)⟩

/-- The access a thread is about to make. -/
def Thread.pending : Thread → Option Acc
  | .busy _ (⟨false, a :: _⟩ :: _) _ => some a
  | .mapped _ (a :: _) _ _ => some a
  | _ => none

/-- A data race: two threads are about to touch the same memory, one of them writing. -/
def Race (c : Conf T) : Prop := ∃ t t' a a', t ≠ t' ∧ (c.thr t).pending = some a ∧ (c.thr t').pending = some a' ∧
  a.obj = a'.obj ∧ (a.write = true ∨ a'.write = true)

end Umpire.Tables
