/-!
# NUMA placement: `NumaPolicy`, `numa::move_to_node` and `ResourceManager::move`

A build with `UMPIRE_ENABLE_NUMA`.  Memory is seen as pages; each page has a
binding, the node its memory has to be on.  Sizes are positive (allocations of
zero bytes never reach a strategy, C26).  Contents are not part of the state: the
kernel keeps them when it migrates a page, and a move to an allocator that is not
a `NumaPolicy` is allocate, copy, deallocate (C33).
-/
set_option autoImplicit false
namespace Umpire.Numa

/-- The device backend the library is built for (`UMPIRE_ENABLE_DEVICE`,
`UMPIRE_ENABLE_CUDA`, `UMPIRE_ENABLE_HIP` in NumaPolicy.cpp:32-44); `other` is a
device build that is neither CUDA nor HIP. -/
inductive Backend where
  | none | cuda | hip | other
deriving DecidableEq, Repr

/-- The part of `Platform` (util/Platform.hpp:21-29) that matters here. -/
inductive Plat where
  | host | cuda | hip
deriving DecidableEq, Repr

/-- The machine: page size (numa.cpp:18-22), the nodes `mbind` accepts, and the
nodes with CPUs (`get_host_nodes`, numa.cpp:62-87). -/
structure Machine where
  page : Nat
  usable : Nat → Bool
  cpus : Nat → Bool
  backend : Backend

/-- Allocators: the `HOST` resource, which is `PosixMemalignAllocator`
(HostResourceFactory.cpp:43-49), any other allocator of host memory such as a pool,
and a `NumaPolicy`.  The numbers identify the objects. -/
inductive Al where
  | host
  | other (id : Nat)
  | numa (id : Nat) (base : Al) (node : Nat)
deriving DecidableEq, Repr

/-- `getPlatform` (NumaPolicy.cpp:19,31-44,63-66).  In a device build a node without
CPUs is a device node. -/
def Al.plat (m : Machine) : Al → Plat
  | .host => .host
  | .other _ => .host
  | .numa _ _ k =>
    match m.backend with
    | .none => .host
    | .cuda => if m.cpus k then .host else .cuda
    | .hip => if m.cpus k then .host else .hip
    | .other => .host

/-- The constructor of `NumaPolicy` (NumaPolicy.cpp:16-45); `none` is an exception. -/
def Al.make (m : Machine) (id : Nat) (base : Al) (node : Int) : Option Al :=
  if node < 0 then none                                                         -- 22
  else if base.plat m ≠ .host then none                                         -- 25
  else if m.backend = .other ∧ m.cpus node.toNat = false then none              -- 41
  else some (.numa id base node.toNat)

/-- The node of a `NumaPolicy` (`getNode`, NumaPolicy.cpp:73-76). -/
def Al.node : Al → Option Nat
  | .numa _ _ k => some k
  | _ => none

/-- A page of the range of `n` bytes at `p`; `mbind` rounds the end up. -/
def onPage (m : Machine) (p n i : Nat) : Prop := p / m.page ≤ i ∧ i * m.page < p + n

/-- The bindings of pages: `some k` is `MPOL_BIND` to node `k`. -/
abbrev Binding := Nat → Option Nat

/-- `numa::move_to_node` (numa.cpp:33-51), that is `mbind` with `MPOL_BIND`,
`MPOL_MF_MOVE` and `MPOL_MF_STRICT`.  The kernel refuses addresses that do not start
a page and nodes it does not know (`numa_bitmask_setbit` drops a node out of range,
which leaves an empty set); otherwise it binds every page of the range, or fails
having bound any of them.  `true` is success, `false` an exception. -/
inductive Mbind (m : Machine) (p n k : Nat) (b : Binding) : Bool → Binding → Prop where
  | unaligned : p % m.page ≠ 0 → Mbind m p n k b false b
  | noNode : m.usable k = false → Mbind m p n k b false b
  | ok {b' : Binding} : p % m.page = 0 → m.usable k = true → (∀ i, onPage m p n i → b' i = some k) →
      (∀ i, ¬ onPage m p n i → b' i = b i) → Mbind m p n k b true b'
  | fail {b' : Binding} : p % m.page = 0 → m.usable k = true →
      (∀ i, ¬ onPage m p n i → b' i = b i) → Mbind m p n k b false b'

abbrev Rng := Nat × Nat

/-- The two ranges have no byte in common. -/
def Apart (p n q k : Nat) : Prop := p + n ≤ q ∨ q + k ≤ p

/-- New memory of `n` bytes at `p`: apart from all memory in use. -/
def Fresh (p n : Nat) (H : List Rng) : Prop := ∀ r ∈ H, Apart p n r.1 r.2

/-- Memory that becomes free may be given back to the system and taken again, so
the binding of a page on which no byte is in use may change. -/
def Kept (m : Machine) (H : List Rng) (b b' : Binding) : Prop :=
  ∀ i, (∃ r ∈ H, onPage m r.1 r.2 i) → b' i = b i

/-- `allocate_internal` with memory `H` in use: the pointer or an exception, the
bindings, and the memory that was obtained and is recorded nowhere. -/
inductive Raw (m : Machine) (H : List Rng) (n : Nat) (b : Binding) : Al → Option Nat → Binding → List Rng → Prop where
  /-- `posix_memalign` with the page size (PosixMemalignAllocator.hpp:33-53) -/
  | host {p : Nat} {b' : Binding} : p % m.page = 0 → Fresh p n H → Kept m H b b' → Raw m H n b .host (some p) b' []
  | hostNo : Raw m H n b .host none b []
  /-- pools give any address -/
  | other {i p : Nat} {b' : Binding} : Fresh p n H → Kept m H b b' → Raw m H n b (.other i) (some p) b' []
  | otherNo {i : Nat} : Raw m H n b (.other i) none b []
  /-- `NumaPolicy::allocate` (NumaPolicy.cpp:47-56): the base first, … -/
  | numaNo {i k : Nat} {base : Al} {b' : Binding} {L : List Rng} :
      Raw m H n b base none b' L → Raw m H n b (.numa i base k) none b' L
  /-- … then `move_to_node`, … -/
  | numa {i k p : Nat} {base : Al} {b1 b2 : Binding} {L : List Rng} :
      Raw m H n b base (some p) b1 L → Mbind m p n k b1 true b2 → Raw m H n b (.numa i base k) (some p) b2 L
  /-- … whose exception leaves the memory allocated -/
  | numaFail {i k p : Nat} {base : Al} {b1 b2 : Binding} {L : List Rng} :
      Raw m H n b base (some p) b1 L → Mbind m p n k b1 false b2 → Raw m H n b (.numa i base k) none b2 ((p, n) :: L)

/-- An allocation record (AllocationRecord.hpp). -/
structure Rec where
  ptr : Nat
  size : Nat
  owner : Al
deriving DecidableEq, Repr

/-- The records, the memory obtained and recorded nowhere, and the bindings. -/
structure St where
  recs : List Rec
  lost : List Rng
  bind : Binding

/-- All memory in use. -/
def St.used (S : St) : List Rng := S.recs.map (fun r => (r.ptr, r.size)) ++ S.lost

/-- `m_allocations.find` (C20): the record whose range has the pointer. -/
def St.find (S : St) (p : Nat) : Option Rec := S.recs.find? fun r => decide (r.ptr ≤ p ∧ p < r.ptr + r.size)

/-- `MemoryOperationRegistry::find("MOVE", …)` (MemoryOperationRegistry.cpp:70-77,217-238). -/
def hasMove : Plat → Plat → Bool
  | .host, .host => true
  | .host, .cuda => true
  | .cuda, .host => true
  | _, _ => false

/-- The calls of a user. -/
inductive Call where
  | allocate (a : Al) (n : Nat)
  | move (p : Nat) (a : Al)
  | deallocate (a : Al) (p : Nat)
deriving DecidableEq, Repr

/-- What a call does; the result is the pointer, or `none` for an exception.
`deallocate` gives back its argument. -/
inductive Step (m : Machine) (S : St) : Call → Option Nat → St → Prop where
  /-- `Allocator::allocate` -/
  | allocate {a : Al} {n p : Nat} {b : Binding} {L : List Rng} : 0 < n → Raw m S.used n S.bind a (some p) b L →
      Step m S (.allocate a n) (some p) ⟨⟨p, n, a⟩ :: S.recs, L ++ S.lost, b⟩
  | allocateNo {a : Al} {n : Nat} {b : Binding} {L : List Rng} : 0 < n → Raw m S.used n S.bind a none b L →
      Step m S (.allocate a n) none ⟨S.recs, L ++ S.lost, b⟩
  /-- `ResourceManager::move` (ResourceManager.cpp:758-832): a pointer without record -/
  | unknown {a : Al} {p : Nat} : S.find p = none → Step m S (.move p a) none S
  /-- the owner is the destination: nothing to do (765-775) -/
  | same {p : Nat} {r : Rec} : S.find p = some r → Step m S (.move p r.owner) (some p) S
  /-- the destination is a `NumaPolicy` but there is no operation for the platforms (792) -/
  | noOp {p : Nat} {r : Rec} {a : Al} : S.find p = some r → r.owner ≠ a → a.node ≠ none →
      hasMove (r.owner.plat m) (a.plat m) = false → Step m S (.move p a) none S
  /-- the memory is moved in place (783-808, NumaMoveOperation.cpp:20-28): from the pointer
  given, for the size of the record -/
  | moved {p k : Nat} {r : Rec} {a : Al} {b : Binding} : S.find p = some r → r.owner ≠ a → a.node = some k →
      hasMove (r.owner.plat m) (a.plat m) = true → Mbind m p r.size k S.bind true b →
      Step m S (.move p a) (some p) ⟨S.recs, S.lost, b⟩
  | movedNo {p k : Nat} {r : Rec} {a : Al} {b : Binding} : S.find p = some r → r.owner ≠ a → a.node = some k →
      hasMove (r.owner.plat m) (a.plat m) = true → Mbind m p r.size k S.bind false b →
      Step m S (.move p a) none ⟨S.recs, S.lost, b⟩
  /-- `Allocator::deallocate`: the record of this very pointer, with this owner -/
  | deallocate {a : Al} {p : Nat} {r : Rec} : r ∈ S.recs → r.ptr = p → r.owner = a →
      Step m S (.deallocate a p) (some p) ⟨S.recs.filter (fun r => r.ptr ≠ p), S.lost, S.bind⟩
  | deallocateNo {a : Al} {p : Nat} : (∀ r ∈ S.recs, ¬ (r.ptr = p ∧ r.owner = a)) →
      Step m S (.deallocate a p) none S

/-- What happened, newest first. -/
abbrev History := List (Call × Option Nat)

inductive Reach (m : Machine) : History → St → Prop where
  | init (b : Binding) : Reach m [] ⟨[], [], b⟩
  | step {h : History} {S T : St} {c : Call} {r : Option Nat} : Reach m h S → Step m S c r T → Reach m ((c, r) :: h) T

end Umpire.Numa
