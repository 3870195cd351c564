import Verif.Manager.Play
/-!
# The facade called by several threads

Sources: src/umpire/util/AllocationMap.cpp, src/umpire/strategy/mixins/Inspector.cpp,
src/umpire/Allocator.inl, src/umpire/ResourceManager.cpp,
src/umpire/op/{HostReallocate,GenericReallocate}Operation.cpp.

`Verif.Manager` models a call of `Allocator` or `ResourceManager` as one uninterrupted
computation.  Here the same functions are written as sequences of actions, and the
actions of several threads interleave.  An action is what the code does without
another thread getting in between:

* an operation of `AllocationMap` that holds `m_mutex` (`insert`, `remove`, `find`,
  `findRecord`: AllocationMap.cpp:155-275): `put`, `pull`, `seek`;
* reading the record that `find` gave a pointer to, which happens after the mutex has
  been released: `look`, and `peek` for the one place that reads a record after it has
  been removed from the map (HostReallocateOperation.cpp:44);
* a request to a strategy (that strategies may be treated as answering one request after
  the other is what C37 and C38 are about);
* a change of the bytes, a change of the statistics.

The records live in blocks of `m_block_pool`; `cell` is the content of those blocks,
`top` the blocks that belong to an address, newest first (`RecordList`,
AllocationMap.cpp:25-67).  A block that goes back to the pool keeps its content until it
is used again.

Simplifications: those of `Verif.Manager`; a change of the statistics of a strategy is
one action (it is not in the code, see C38, and nothing is claimed about the statistics
here); `m_block_pool` may use any free block for a new record, while the code takes
the one that was freed last.
-/
set_option autoImplicit false
namespace Umpire.Thr
open Umpire.Judy Umpire.Mgr

/-- What a thread does in one step.

* `ask s n`: `allocate(n)` of strategy `s`; `hand s p n`: its `deallocate(p, n)`;
* `regrow s p n`: `::realloc(p, n)`; `zeroQ p`: is `p` from the zero-byte pool;
* `cpy`, `fill`: `std::memcpy`, `std::memset`;
* `stat s f`: the statistics of `s`;
* `put p r`: `AllocationMap::insert` (AllocationMap.cpp:155-174); `pull p`: `remove`
  (239-261); `seek p`: `findRecord` (176-237), which gives a pointer to the record;
* `look h`: the record is read through that pointer; `peek h`: the same without asking
  whether the record still exists. -/
inductive Act where
  | ask (s n : Nat)
  | hand (s p : Nat) (n : Option Nat)
  | regrow (s p n : Nat)
  | zeroQ (p : Nat)
  | cpy (d s n : Nat)
  | fill (p v n : Nat)
  | stat (s : Nat) (f : Stat → Stat)
  | put (p : Nat) (r : Rec)
  | pull (p : Nat)
  | seek (p : Nat)
  | look (h : Rec × Nat)
  | peek (h : Rec × Nat)

/-- What comes back.  A pointer to a record is the record it points to when `find`
returns, and the number of its block. -/
def Act.Ans : Act → Type
  | .ask _ _ => Option Nat
  | .hand _ _ _ => Unit
  | .regrow _ _ _ => Option Nat
  | .zeroQ _ => Bool
  | .cpy _ _ _ => Unit
  | .fill _ _ _ => Unit
  | .stat _ _ => Unit
  | .put _ _ => Unit
  | .pull _ => Option Rec
  | .seek _ => Option (Rec × Nat)
  | .look _ => Rec
  | .peek _ => Rec

/-- A function of the facade: `ret none` when it throws. -/
inductive CP (β : Type) : Type where
  | ret (o : Option β)
  | act (a : Act) (k : a.Ans → CP β)

namespace CP

def bind {β γ : Type} : CP β → (β → CP γ) → CP γ
  | ret none, _ => ret none
  | ret (some b), f => f b
  | act a k, f => act a fun x => (k x).bind f

def throw {β : Type} : CP β := ret none

instance : Monad CP where
  pure b := ret (some b)
  bind := bind

end CP

/-! Single actions as functions. -/
def doStat (s : Nat) (f : Stat → Stat) : CP Unit := .act (.stat s f) fun _ => .ret (some ())
def doPut (p : Nat) (r : Rec) : CP Unit := .act (.put p r) fun _ => .ret (some ())
def doHand (s p : Nat) (n : Option Nat) : CP Unit := .act (.hand s p n) fun _ => .ret (some ())
def doCpy (d s n : Nat) : CP Unit := .act (.cpy d s n) fun _ => .ret (some ())
def doFill (p v n : Nat) : CP Unit := .act (.fill p v n) fun _ => .ret (some ())
def doZeroQ (p : Nat) : CP Bool := .act (.zeroQ p) fun x => .ret (some x)
def doRegrow (s p n : Nat) : CP (Option Nat) := .act (.regrow s p n) fun x => .ret (some x)
def doPeek (h : Rec × Nat) : CP Rec := .act (.peek h) fun x => .ret (some x)

/-- `ResourceManager::registerAllocation` (ResourceManager.cpp:342-354). -/
def register (p : Nat) (r : Rec) : CP Unit := if p = 0 then .throw else doPut p r

/-- `ResourceManager::deregisterAllocation` (ResourceManager.cpp:356-360,
AllocationMap.cpp:239-261): the record is returned by value. -/
def deregister (p : Nat) : CP Rec := .act (.pull p) fun x => .ret x

/-- `m_allocations.find(ptr)`, which throws when there is no record
(AllocationMap.cpp:176-198). -/
def find (p : Nat) : CP (Rec × Nat) := .act (.seek p) fun x => .ret x

/-- `record->…` after `find` has returned. -/
def look (h : Rec × Nat) : CP Rec := .act (.look h) fun x => .ret (some x)

/-- `Inspector::registerAllocation` (Inspector.cpp:17-39). -/
def inspReg (p n s : Nat) : CP Unit := do
  doStat s (·.add n)
  register p ⟨p, n, s⟩

/-- `Inspector::deregisterAllocation` (Inspector.cpp:41-56): the record is removed, and put
back when it belongs to another strategy. -/
def inspDereg (p s : Nat) : CP Rec := do
  let r ← deregister p
  if r.tag = s then
    doStat s (·.sub r.size)
    return r
  else
    register p ⟨p, r.size, r.tag⟩
    .throw

/-- `AllocateNull::allocateNull` or the strategy itself (AllocateNull.cpp:22-31,
Allocator.inl:27-36). -/
def getBlock (s n : Nat) : CP Nat :=
  if n = 0 then .act (.ask zero 1) fun x => .ret x else .act (.ask s n) fun x => .ret x

/-- `Allocator::do_allocate` (Allocator.inl:20-50). -/
def allocate (c : Cfg) (s n : Nat) : CP Nat := do
  let p ← getBlock s n
  if c.tracked s then
    inspReg p n s
    return p
  else
    return p

/-- `AllocateNull::deallocateNull` and what `do_deallocate` does otherwise
(AllocateNull.cpp:33-46, Allocator.inl:105-114). -/
def giveBack (s p : Nat) (n : Option Nat) : CP Unit := do
  let z ← doZeroQ p
  if z then doHand zero p (some 1) else doHand s p n

/-- `Allocator::do_deallocate` (Allocator.inl:93-115). -/
def deallocate (c : Cfg) (s p : Nat) : CP Unit :=
  if p = 0 then return ()
  else if c.tracked s then do
    let r ← inspDereg p s
    giveBack s p (some r.size)
  else giveBack s p none

/-- `ResourceManager::getSize` (ResourceManager.cpp:861-866). -/
def getSize (p : Nat) : CP Nat := do
  let h ← find p
  let r ← look h
  return r.size

/-- `ResourceManager::getAllocator(void*)`, `findAllocatorForPointer`
(ResourceManager.cpp:315-319, 880-890). -/
def getOwner (p : Nat) : CP Nat := do
  let h ← find p
  let r ← look h
  return r.tag

/-- `ResourceManager::hasAllocator` (ResourceManager.cpp:335-340): the pointer is only
compared to null (AllocationMap.cpp:263-267). -/
def hasAllocator (p : Nat) : CP Bool := .act (.seek p) fun x => .ret (some (Option.isSome (α := Rec × Nat) x))

/-- `ResourceManager::copy` (ResourceManager.cpp:375-416) and `HostCopyOperation`: both
records are found before either is read. -/
def copy (dst src size : Nat) : CP Unit := do
  let hs ← find src
  let hd ← find dst
  let rs ← look hs
  let rd ← look hd
  let size := if size = 0 then rs.size - (src - rs.ptr) else size
  if size > rd.size - (dst - rd.ptr) then .throw
  else doCpy dst src size

/-- `ResourceManager::memset` (ResourceManager.cpp:463-496) and `HostMemsetOperation`. -/
def memset (p : Nat) (v : Int) (length : Nat) : CP Unit := do
  let h ← find p
  let r ← look h
  let size := r.size - (p - r.ptr)
  let length := if length = 0 then size else length
  if length > size then .throw
  else doFill p (byteOf v) length

/-- `GenericReallocateOperation::transform` (GenericReallocateOperation.cpp:18-31): the
record is read before the old allocation is given up. -/
def genericRealloc (c : Cfg) (p : Nat) (h : Rec × Nat) (n : Nat) : CP Nat := do
  let r ← look h
  let q ← allocate c r.tag n
  copy q p (if r.size > n then n else r.size)
  deallocate c r.tag p
  return q

/-- `HostReallocateOperation::transform` (HostReallocateOperation.cpp:18-46): the strategy
of the new record is read from the old record, which line 35 has removed. -/
def hostRealloc (c : Cfg) (p : Nat) (h : Rec × Nat) (n : Nat) : CP Nat := do
  let r ← look h
  if r.size = 0 then
    let q ← allocate c r.tag n
    copy q p (if r.size > n then n else r.size)
    deallocate c r.tag p
    return q
  else
    let _ ← deregister p
    match ← doRegrow r.tag p n with
    | none => .throw
    | some q =>
      let r' ← doPeek h
      register q ⟨q, n, r'.tag⟩
      return q

/-- `ResourceManager::reallocate_impl` (ResourceManager.cpp:657-705). -/
def reallocImpl (c : Cfg) (p n s : Nat) : CP Nat :=
  if p = 0 then allocate c s n
  else do
    let h ← find p
    let r ← look h
    if r.tag ≠ s then .throw
    else if n = 0 then do
      deallocate c r.tag p
      allocate c r.tag n
    else if p ≠ r.ptr then .throw
    else if r.tag = c.host then hostRealloc c p h n
    else genericRealloc c p h n

/-- `ResourceManager::reallocate(void*, size_t)` (ResourceManager.cpp:536-568). -/
def reallocate (c : Cfg) (dflt p n : Nat) : CP Nat :=
  if p = 0 then reallocImpl c p n dflt
  else do
    let s ← getOwner p
    reallocImpl c p n s

/-- `ResourceManager::deallocate` (ResourceManager.cpp:853-859). -/
def deallocateAny (c : Cfg) (p : Nat) : CP Unit := do
  let s ← getOwner p
  deallocate c s p

/-- `ResourceManager::move` (ResourceManager.cpp:758-832): the record is read again for the
size after `allocate` has been prepared; nothing happens to it in between. -/
def move (c : Cfg) (p s : Nat) : CP Nat := do
  let h ← find p
  let r ← look h
  if r.tag = s then return p
  else if p ≠ r.ptr then .throw
  else do
    let q ← allocate c s r.size
    copy q p 0
    deallocateAny c p
    return q

/-! ## Calls -/

/-- The calls a client makes. -/
inductive Call where
  | alloc (s n : Nat)
  | free (s p : Nat)
  | freeAny (p : Nat)
  | size (p : Nat)
  | owner (p : Nat)
  | has (p : Nat)
  | copy (d s n : Nat)
  | memset (p : Nat) (v : Int) (n : Nat)
  | realloc (dflt p n : Nat)
  | move (p s : Nat)
deriving DecidableEq, Repr

/-- The function called; the results are numbers (`true` is 1, no result is 0). -/
def code (c : Cfg) : Call → CP Nat
  | .alloc s n => allocate c s n
  | .free s p => do deallocate c s p; return 0
  | .freeAny p => do deallocateAny c p; return 0
  | .size p => getSize p
  | .owner p => getOwner p
  | .has p => do let b ← hasAllocator p; return (if b then 1 else 0)
  | .copy d s n => do copy d s n; return 0
  | .memset p v n => do memset p v n; return 0
  | .realloc dflt p n => reallocate c dflt p n
  | .move p s => move c p s

/-! ## The machine -/

/-- What the threads share. -/
structure Sh where
  am : AMap
  w : World
  st : Nat → Stat
  cell : Nat → Rec
  top : Nat → List Nat

/-- What an action may answer and do. -/
inductive Does : (a : Act) → a.Ans → Sh → Sh → Prop where
  | askOk {s n p m S} : Fresh p n (ranges S.w.held) → Agree S.w.held S.w.mem m →
      Does (.ask s n) (some p) S { S with w := ⟨⟨s, p, n⟩ :: S.w.held, m⟩ }
  | askFail {s n m S} : Agree S.w.held S.w.mem m → Does (.ask s n) none S { S with w := ⟨S.w.held, m⟩ }
  | hand {s p n m S} : MP.Gives S.w.held s p n → Agree (dropB p S.w.held) S.w.mem m →
      Does (.hand s p n) () S { S with w := ⟨dropB p S.w.held, m⟩ }
  | regrowOk {s p n q m S} : MP.Gives S.w.held s p none → Fresh q n (ranges (dropB p S.w.held)) →
      Agree (dropB p S.w.held) S.w.mem m → MP.Moved S.w.held p q n S.w.mem m →
      Does (.regrow s p n) (some q) S { S with w := ⟨⟨s, q, n⟩ :: dropB p S.w.held, m⟩ }
  | regrowFail {s p n S} : MP.Gives S.w.held s p none → Does (.regrow s p n) none S S
  | zeroQ {p b S} : (InZero S.w.held p → b = true) → (InOther S.w.held p → b = false) → Does (.zeroQ p) b S S
  | cpy {d s n S} : Does (.cpy d s n) () S { S with w := ⟨S.w.held, copied S.w.mem d s n⟩ }
  | fill {p v n S} : Does (.fill p v n) () S { S with w := ⟨S.w.held, filled S.w.mem p v n⟩ }
  | stat {s f S} : Does (.stat s f) () S { S with st := fun t => if t = s then f (S.st t) else S.st t }
  | put {p r b S} : (∀ q, b ∉ S.top q) →
      Does (.put p r) () S { S with am := S.am.insert p r, cell := fun i => if i = b then r else S.cell i, top := fun q => if q = p then b :: S.top q else S.top q }
  | pullOk {p a r S} : S.am.remove p = .ok a r →
      Does (.pull p) (some r) S { S with am := a, top := fun q => if q = p then (S.top q).tail else S.top q }
  | pullNone {p a S} : S.am.remove p = .throws a → Does (.pull p) none S { S with am := a }
  | seekOk {p r S} : (S.am.findRecord p).2 = some r →
      Does (.seek p) (some (r, (S.top r.ptr).headD 0)) S { S with am := (S.am.findRecord p).1 }
  | seekNone {p S} : (S.am.findRecord p).2 = none → Does (.seek p) none S { S with am := (S.am.findRecord p).1 }
  | look {h S} : Does (.look h) (S.cell h.2) S S
  | peek {h S} : Does (.peek h) (S.cell h.2) S S

/-- An action that is undefined behaviour: asking a strategy for a size that it cannot handle
(`tk` says which sizes it can), handing back memory that is not held, touching memory that is
not held, overlapping `memcpy`, reading a record that has been removed. -/
def Bad (tk : Nat → Nat → Prop) (S : Sh) : Act → Prop
  | .ask s n => ¬tk s n
  | .hand s p n => ¬MP.Gives S.w.held s p n
  | .regrow s p _ => ¬MP.Gives S.w.held s p none
  | .cpy d s n => ¬(Usable S.w.held d n ∧ Usable S.w.held s n ∧ (n = 0 ∨ Disj d n s n))
  | .fill p _ n => ¬Usable S.w.held p n
  | .pull p => S.am.remove p = .ub
  | .look h => h.2 ∉ S.top h.1.ptr
  | _ => False

/-- The threads `T`: the call each is in, with what is left of it.  `own` is the ledger of
the clients: the allocations each thread owns; `box` are those handed over and not yet
taken. -/
structure MS (T : Type) where
  sh : Sh
  thr : T → Option (Call × CP Nat)
  own : T → List Rec
  box : List Rec

/-- The ledger after a call, from its result. -/
def after (own : List Rec) : Call → Option Nat → List Rec
  | .alloc s n, some p => ⟨p, n, s⟩ :: own
  | .free _ p, some _ => dropR p own
  | .freeAny p, some _ => dropR p own
  | .realloc dflt p n, some q =>
    if p = 0 then ⟨q, n, dflt⟩ :: own
    else match own.find? (fun r => decide (r.ptr = p)) with
      | some r => ⟨q, n, r.tag⟩ :: dropR p own
      | none => own
  | .realloc _ p n, none => if n = 0 then dropR p own else own
  | .move p s, some q =>
    match own.find? (fun r => decide (r.ptr = p)) with
    | some r => if r.tag = s then own else ⟨q, r.size, s⟩ :: dropR p own
    | none => own
  | _, _ => own

section
variable {T : Type} [DecidableEq T]

def set {α : Type} (f : T → α) (t : T) (a : α) : T → α := fun u => if u = t then a else f u

/-- A step: a thread that is not in a call may begin one that `Pre` allows, put an
allocation it owns into the box or take one from it, or write into an allocation it owns; a
thread in a call may do its next action or return. -/
inductive Step (c : Cfg) (Pre : List Rec → Call → Prop) : T → MS T → MS T → Prop where
  | start {t cl S} : S.thr t = none → Pre (S.own t) cl → Step c Pre t S { S with thr := set S.thr t (some (cl, code c cl)) }
  | act {t cl a k x S sh} : S.thr t = some (cl, .act a k) → Does a x S.sh sh →
      Step c Pre t S { S with sh := sh, thr := set S.thr t (some (cl, k x)) }
  | ret {t cl o S} : S.thr t = some (cl, .ret o) →
      Step c Pre t S { S with thr := set S.thr t none, own := set S.own t (after (S.own t) cl o) }
  | give {t r S} : S.thr t = none → r ∈ S.own t →
      Step c Pre t S { S with own := set S.own t ((S.own t).filter fun x => decide (x ≠ r)), box := r :: S.box }
  | take {t r S} : S.thr t = none → r ∈ S.box →
      Step c Pre t S { S with own := set S.own t (r :: S.own t), box := S.box.filter fun x => decide (x ≠ r) }
  | write {t r m S} : S.thr t = none → r ∈ S.own t → (∀ q, ¬(r.ptr ≤ q ∧ q < r.ptr + r.size) → m q = S.sh.w.mem q) →
      Step c Pre t S { S with sh := { S.sh with w := ⟨S.sh.w.held, m⟩ } }

/-- No allocations, no calls. -/
def MS.new (T : Type) : MS T :=
  { sh := { am := AMap.new, w := ⟨[], fun _ => 0⟩, st := fun _ => Stat.new, cell := fun _ => ⟨0, 0, 0⟩, top := fun _ => [] },
    thr := fun _ => none, own := fun _ => [], box := [] }

/-- Memory that strategies have not given out may change at any time (`drift`). -/
inductive Reach (c : Cfg) (Pre : List Rec → Call → Prop) : MS T → Prop where
  | init : Reach c Pre (MS.new T)
  | step {S S' t} : Reach c Pre S → Step c Pre t S S' → Reach c Pre S'
  | drift {S} {m : Nat → Nat} : Reach c Pre S → Agree S.sh.w.held S.sh.w.mem m → Reach c Pre { S with sh := { S.sh with w := ⟨S.sh.w.held, m⟩ } }
end

/-! ## Alone -/

/-- A single thread: the actions on the state of `Verif.Manager`. -/
def perform : (a : Act) → RM → MP (a.Ans × RM)
  | .ask s n, rm => .alloc s n fun x => .ret (x, rm)
  | .hand s p n, rm => .dealloc s p n (.ret ((), rm))
  | .regrow s p n, rm => .realloc s p n fun x => .ret (x, rm)
  | .zeroQ p, rm => .fromZero p fun b => .ret (b, rm)
  | .cpy d s n, rm => .memcpy d s n (.ret ((), rm))
  | .fill p v n, rm => .memset p v n (.ret ((), rm))
  | .stat s f, rm => .ret ((), { rm with st := fun t => if t = s then f (rm.st t) else rm.st t })
  | .put p r, rm => .ret ((), { rm with amap := rm.amap.insert p r })
  | .pull p, rm =>
    match rm.amap.remove p with
    | .ok a r => .ret (some r, { rm with amap := a })
    | .throws a => .ret (none, { rm with amap := a })
    | .ub => .fail
  | .seek p, rm => .ret ((rm.amap.findRecord p).2.map fun r => (r, 0), { rm with amap := (rm.amap.findRecord p).1 })
  | .look h, rm => .ret (h.1, rm)
  | .peek h, rm => .ret (h.1, rm)

def alone {β : Type} : CP β → M β
  | .ret o => fun rm => .ret (o, rm)
  | .act a k => fun rm => (perform a rm).bind fun x => alone (k x.1) x.2

end Umpire.Thr
