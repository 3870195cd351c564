import Verif.Judy.Model
/-!
# Model of `util::MemoryMap` (src/umpire/util/MemoryMap.{hpp,inl}) and
# `util::AllocationMap` (src/umpire/util/AllocationMap.{hpp,cpp})

The map owns a Judy tree over 8 key bytes.  The values are held in the cells
instead of being reached through a pointer kept there (each value belongs to
exactly one cell).  `last` is `m_last`, `oper` is `m_oper`: the address of the
object that last moved the cursor, the map itself (`self`) or an iterator.

Simplifications: the pools the values come from are not modelled here (see
`Verif.MallocPool`); logging and assertions are left out; `size_t` counters are
natural numbers.
-/
set_option autoImplicit false
namespace Umpire.Judy
variable {V : Type}

/-- `MemoryMap` (MemoryMap.hpp:182-186). -/
structure Map (V : Type) where
  root : T V 8
  stack : List Nat
  last : Option (List Nat)
  oper : Nat
  size : Nat

/-- The address of the map in `m_oper`; iterators have other addresses. -/
def self : Nat := 1

/-- The constructor (MemoryMap.inl:30-35). -/
def Map.new : Map V := { root := empty 8, stack := [], last := none, oper := 0, size := 0 }

/-- An iterator: its address and `m_pair` (MemoryMap.inl:224-245). -/
structure Iter (V : Type) where
  addr : Nat
  first : Nat
  second : Option V

/-- `end()` (MemoryMap.inl:242-245). -/
def Iter.isEnd (it : Iter V) : Bool := it.first == 0

/-- `judy_nxt` from the root (judy.c:954-956, 1028). -/
def judyNxt (t : T V 8) (stack : List Nat) : Option (List Nat) :=
  if stack = [] then firstF 8 t else nxtF 8 t stack

/-- `judy_prv` from the root (judy.c:1041-1043, 1112): the cell and the cursor. -/
def judyPrv (t : T V 8) (stack : List Nat) : Option (List Nat) × List Nat :=
  if stack = [] then lastF 8 t else (prvF 8 t stack).getD (none, [])

/-- `judy_key` (judy.c:323-441) into a variable holding `old`: an empty cursor only
clears the first byte (439). -/
def judyKey (t : T V 8) (stack : List Nat) (old : Nat) : Nat :=
  if stack = [] then old - old % 256 else keyF 8 t stack

/-- `judy_strt` with a key (judy.c:1216, 1222-1227): the cell, which is also the
cursor when there is one. -/
def judyStrt (t : T V 8) (key : Nat) : Option (List Nat) × List Nat :=
  match slotF 8 t key with
  | (some l, st) => (some l, st)
  | (none, st) =>
    match judyNxt t st with
    | some l => (some l, l)
    | none => (none, [])

/-- `*m_last`, null when `m_last` is. -/
def Map.value (m : Map V) : Option V := m.last.bind (readAt 8 m.root)

/-- `doInsert` (MemoryMap.inl:47-66); the Boolean is `not_found`. -/
def Map.doInsert (m : Map V) (key : Nat) (v : V) : Map V × Bool :=
  let (t, l) := cellF 8 m.root key
  match readAt 8 t l with
  | none => ({ root := writeAt 8 t l (some v), stack := l, last := some l, oper := self, size := m.size + 1 }, true)
  | some _ => ({ m with root := t, stack := l, last := some l, oper := self }, false)

/-- `insert(Key, const Value&)` (MemoryMap.inl:68-77), which negates the Boolean. -/
def Map.insertValue (m : Map V) (key : Nat) (v : V) : Map V × Bool :=
  let r := m.doInsert key v
  (r.1, !r.2)

/-- `insert(Key, Args&&...)` (MemoryMap.inl:86-92). -/
def Map.insert (m : Map V) (key : Nat) (v : V) : Map V × Bool := m.doInsert key v

/-- `doFindOrBefore` (MemoryMap.inl:94-116): the map and the key; the value of the
iterator made from it (118-130) is `Map.value`. -/
def Map.findOrBefore (m : Map V) (key : Nat) : Map V × Nat :=
  let (l, st) := judyStrt m.root key
  let parent := judyKey m.root st 0
  if parent ≠ key ∨ (l.bind (readAt 8 m.root)).isNone then
    let (l', st') := judyPrv m.root st
    ({ m with last := l', stack := st', oper := self }, judyKey m.root st' parent)
  else ({ m with last := l, stack := st, oper := self }, parent)

/-- `find` (MemoryMap.inl:132-152): the map and the iterator (at address `a`). -/
def Map.find (m : Map V) (a key : Nat) : Map V × Iter V :=
  let (l, st) := slotF 8 m.root key
  let m' := { m with last := l, stack := st, oper := self }
  (m', if l.isSome then ⟨a, key, m'.value⟩ else ⟨a, 0, none⟩)

/-- `removeLast` (MemoryMap.inl:201-220); `none`: the destructor is called on a null
pointer. -/
def Map.removeLast (m : Map V) : Option (Map V) :=
  match m.value with
  | none => none
  | some _ => some { m with root := delF 8 m.root m.stack, size := m.size - 1 }

inductive Erase (V : Type) where
  | ok (m : Map V)
  | throws (m : Map V)
  | ub

/-- `erase(Key)` (MemoryMap.inl:154-169). -/
def Map.erase (m : Map V) (key : Nat) : Erase V :=
  let (l, st) := slotF 8 m.root key
  let m' := { m with last := l, stack := st, oper := self }
  if l.isSome then
    match m'.removeLast with
    | some m'' => .ok m''
    | none => .ub
  else .throws m'

/-- `clear` (MemoryMap.inl:183-193); `fuel` bounds the iterations, `none` when it
does not suffice or the destructor is called on a null pointer. -/
def Map.clearLoop : Nat → Map V → Option (Map V)
  | 0, _ => none
  | fuel + 1, m =>
    match firstF 8 m.root with
    | none => some { m with last := none, stack := [], size := 0 }
    | some l =>
      match ({ m with last := some l, stack := l } : Map V).removeLast with
      | none => none
      | some m' => Map.clearLoop fuel m'

/-- `begin()` (MemoryMap.inl:229-238) constructing an iterator at address `a`. -/
def Map.begin (m : Map V) (a : Nat) : Map V × Iter V :=
  let l := firstF 8 m.root
  let st := l.getD []
  let m' := { m with last := l, stack := st, oper := a }
  (m', ⟨a, judyKey m.root st 0, m'.value⟩)

/-- `operator++` (MemoryMap.inl:268-290). -/
def Map.next (m : Map V) (it : Iter V) : Map V × Iter V :=
  let st := if it.first ≠ 0 ∧ m.oper ≠ it.addr then (slotF 8 m.root it.first).2 else m.stack      -- 273-276
  match judyNxt m.root st with
  | none => ({ m with last := none, stack := [], oper := it.addr }, { it with first := 0 })
  | some l =>
    ({ m with last := some l, stack := l, oper := it.addr },
      { it with first := judyKey m.root l it.first, second := readAt 8 m.root l })

/-- Copy construction at address `a` (MemoryMap.inl:247-252). -/
def Iter.copy (it : Iter V) (a : Nat) : Iter V := { it with addr := a }

/-! ## `AllocationMap` -/

/-- `AllocationRecord` (src/umpire/util/AllocationRecord.hpp:24-46); `tag` stands for the
strategy, the name and the backtrace. -/
structure Rec where
  ptr : Nat
  size : Nat
  tag : Nat
deriving DecidableEq, Repr

/-- `AllocationMap` (AllocationMap.hpp); a `RecordList` is the list of its records,
newest first. -/
structure AMap where
  map : Map (List Rec)
  size : Nat

/-- AllocationMap.cpp:151-153. -/
def AMap.new : AMap := { map := Map.new, size := 0 }

/-- `insert` (AllocationMap.cpp:155-174).  `it->second` is the value in the cell. -/
def AMap.insert (a : AMap) (ptr : Nat) (r : Rec) : AMap :=
  let (m, inserted) := a.map.insert ptr [r]
  if inserted then { map := m, size := a.size + 1 }
  else
    match m.last with
    | some l => { map := { m with root := writeAt 8 m.root l ((readAt 8 m.root l).map (r :: ·)) }, size := a.size + 1 }
    | none => { map := m, size := a.size + 1 }

/-- `doFindRecord` (AllocationMap.cpp:200-224), also `findRecord`; `find` throws when
the result is `none` (176-198) and `contains` tells whether it is not (263-267). -/
def AMap.findRecord (a : AMap) (ptr : Nat) : AMap × Option Rec :=
  let (m, _) := a.map.findOrBefore ptr
  ({ a with map := m },
    match m.value with
    | some (c :: _) => if c.ptr + c.size > ptr ∨ c.ptr = ptr then some c else none
    | _ => none)

/-- What `remove` comes to. -/
inductive Removed where
  | ok (a : AMap) (r : Rec)
  | throws (a : AMap)
  | ub

/-- `remove` (AllocationMap.cpp:239-261). -/
def AMap.remove (a : AMap) (ptr : Nat) : Removed :=
  let (m, it) := a.map.find 2 ptr
  match it.second, m.last with
  | some (r :: rest), some l =>
    let m' := { m with root := writeAt 8 m.root l (some rest) }                                    -- pop_back, 49-67
    if rest = [] then
      match m'.removeLast with
      | some m'' => .ok { map := m'', size := a.size - 1 } r
      | none => .ub
    else .ok { map := m', size := a.size - 1 } r
  | some [], _ => .throws { a with map := m }                                                      -- 51-53
  | _, _ => .throws { a with map := m }                                                            -- 254-256

/-- `clear` (AllocationMap.cpp:269-277). -/
def AMap.clear (a : AMap) (fuel : Nat) : Option AMap :=
  (a.map.clearLoop fuel).map fun m => { map := m, size := 0 }

/-- The rest of an iteration (AllocationMap.cpp:344-367): all records of the current
list, then the next key.  `it` is the outer iterator. -/
def AMap.walk : Nat → AMap → Iter (List Rec) → List Rec
  | 0, _, _ => []
  | fuel + 1, a, it =>
    if it.isEnd then []
    else it.second.getD [] ++ (let r := a.map.next it; AMap.walk fuel { a with map := r.1 } r.2)

/-- All records in the order in which `for (auto& rec : map)` visits them
(AllocationMap.cpp:321-342), the outer iterator being at address 2. -/
def AMap.records (a : AMap) (fuel : Nat) : List Rec :=
  let r := a.map.begin 2
  AMap.walk fuel { a with map := r.1 } r.2

end Umpire.Judy
