import Verif.Nest.Place
import Verif.Manager.Hist
/-!
# The library as a whole

The facade layer (`Verif.Manager`) on top of the strategies themselves (`Verif.Nest`).
In `Verif.Manager` a strategy is anything that answers requests with memory nobody has;
here every request of the facade is carried out by the model of the strategy, which
in turn asks its parent, down to the memory resources.

Resource 0 is the one without access permissions on which the zero-byte pool is built
(src/umpire/ResourceManager.cpp:109-130); on the others any forest of strategies may be
built.  An allocator of a memory resource itself, such as `HOST`, is a strategy that
passes requests on.

Left out: the statistics that `AllocationStrategy::allocate_internal` keeps for requests
between strategies (C24 has them), allocators with `tracked == false`.
-/
set_option autoImplicit false
namespace Umpire.Whole
open Umpire.Prog Umpire.Nest Umpire.Mgr

/-- The zero-byte pool: objects of one byte, 64 * sizeof(int) * 8 in a block
(ResourceManager.cpp:122-123, FixedPool.hpp:42). -/
def zeroCfg : FixedPool.Cfg := ⟨1, 2048⟩
def zeroArr : Arr := .node (.fixed zeroCfg) 1 .none

/-- Which strategies there are: what is built on the resources `1`, `2`, … and where in it the
strategy with a given id is. -/
structure Lay where
  forest : Nat → Arr
  spot : Nat → Option (Σ r, (forest r).Pos)

namespace Lay

def arr (L : Lay) : Nat → Arr
  | 0 => zeroArr
  | r + 1 => L.forest r

def up (L : Lay) (x : Σ r, (L.forest r).Pos) : Σ r, (L.arr r).Pos := ⟨x.1 + 1, x.2⟩

/-- The strategy with id `s`. -/
def place (L : Lay) (s : Nat) : Option (Σ r, (L.arr r).Pos) :=
  if s = zero then some ⟨0, (none : Option Empty)⟩ else (L.spot s).map L.up

/-- The sizes fit together; an id belongs to one strategy only; strategies reached through the
facade do not answer null. -/
structure Ok (L : Lay) : Prop where
  fits : ∀ r, (L.forest r).Fits (W - 1)
  inj : ∀ {s s' x}, L.spot s = some x → L.spot s' = some x → s = s'
  solid : ∀ {s r q}, L.spot s = some ⟨r, q⟩ → ((L.forest r).kindAt q).Solid

end Lay

/-- The states of all strategies, the memory they have from the resources, the bytes. -/
structure St (L : Lay) where
  f : ∀ r, (L.arr r).sys.σ
  H : Nat → Held
  mem : Nat → Nat

variable {L : Lay}

namespace St

def init (L : Lay) (m : Nat → Nat) : St L := ⟨fun r => (L.arr r).sys.init, fun _ => [], m⟩

/-- After a command on resource `r`. -/
def set (S : St L) (r : Nat) (t : (L.arr r).sys.σ) (H : Nat → Held) (m : Nat → Nat) : St L :=
  ⟨upd (T := fun r => (L.arr r).sys) S.f r t, H, m⟩

/-- The allocations of the users of a strategy. -/
def user (S : St L) (x : Σ r, (L.arr r).Pos) : Held := (L.arr x.1).user x.2 (S.f x.1)

def built (S : St L) (x : Σ r, (L.arr r).Pos) : Bool := (L.arr x.1).built x.2 (S.f x.1)

/-- The strategy may do this. -/
def can (S : St L) (x : Σ r, (L.arr r).Pos) (u : Use) : Prop := (L.arr x.1).sys.can ((L.arr x.1).cmd x.2 u) (S.f x.1)

/-- What it does. -/
def run (S : St L) (x : Σ r, (L.arr r).Pos) (u : Use) : Prog (Option Nat × (L.arr x.1).sys.σ) :=
  (L.arr x.1).sys.run ((L.arr x.1).cmd x.2 u) (S.f x.1)

/-- The bytes of the allocations that are live in `S` and stay live are the same in `m`. -/
def Kept (S S' : St L) : Prop :=
  ∀ x, ∀ u ∈ S.user x, u ∈ S'.user x → ∀ a, u.1 ≤ a → a < u.1 + u.2 → S'.mem a = S.mem a

/-- One command of a user of strategy `x`: the answer is `v`.  Strategies write nothing into
the allocations of users. -/
def Does (S : St L) (x : Σ r, (L.arr r).Pos) (u : Use) (v : Option Nat) (S' : St L) : Prop :=
  S.can x u ∧ ∃ t, S' = S.set x.1 t S'.H S'.mem ∧ SRun x.1 (S.run x u) S.H (v, t) S'.H ∧ S.Kept S'

/-- It has undefined behaviour. -/
def Bad (S : St L) (x : Σ r, (L.arr r).Pos) (u : Use) : Prop := S.can x u ∧ SGoes x.1 (S.run x u) S.H .ub

/-- `FixedPool::pointerIsFromPool` of the zero-byte pool. -/
def fromZero (S : St L) (p : Nat) : Bool :=
  match (S.f 0 : NodeSt FixedPool.State Unit).own with
  | some s => FixedPool.pointerIsFromPool zeroCfg s p
  | none => false

/-- `[p, p+n)` is in an allocation of a user of some strategy other than the zero-byte
pool. -/
def Usable (S : St L) (p n : Nat) : Prop :=
  n = 0 ∨ ∃ s x, s ≠ zero ∧ L.place s = some x ∧ ∃ u ∈ S.user x, Within p n u.1 u.2

end St

/-- `FRun prog S a S'`: the facade program ends with `a`.

* A strategy that does not exist cannot be asked; in C++ there is no `Allocator` for it.
* `::realloc` that succeeds is, as far as the ownership of memory goes, handing back the block
  and obtaining another one; the bytes move along.  When it fails nothing changes. -/
inductive FRun {α : Type} : MP α → St L → α → St L → Prop where
  | ret {a S} : FRun (.ret a) S a S
  | idle {s n k S a S'} : (∀ x, L.place s = some x → S.built x = false) → FRun (k none) S a S' → FRun (.alloc s n k) S a S'
  | alloc {s n k S x v S1 a S'} : L.place s = some x → S.Does x (.alloc n) v S1 → FRun (k v) S1 a S' → FRun (.alloc s n k) S a S'
  | dealloc {s p n k S x v S1 a S'} : L.place s = some x → (p, n) ∈ S.user x → S.Does x (.dealloc p) v S1 → FRun k S1 a S' →
      FRun (.dealloc s p (some n) k) S a S'
  | reallocOk {s p n k S x v S1 q S2 m a S'} : L.place s = some x → S.Does x (.dealloc p) v S1 → S1.Does x (.alloc n) (some q) S2 →
      (∀ x, ∀ u ∈ S1.user x, ∀ a, u.1 ≤ a → a < u.1 + u.2 → m a = S.mem a) →
      (∀ l, (p, l) ∈ S.user x → ∀ i, i < n → i < l → m (q + i) = S.mem (p + i)) →
      FRun (k (some q)) ⟨S2.f, S2.H, m⟩ a S' → FRun (.realloc s p n k) S a S'
  | reallocFail {s p n k S x a S'} : L.place s = some x → S.can x (.dealloc p) → FRun (k none) S a S' → FRun (.realloc s p n k) S a S'
  | fromZero {p k S a S'} : FRun (k (S.fromZero p)) S a S' → FRun (.fromZero p k) S a S'
  | memcpy {d s n k S a S'} : FRun k ⟨S.f, S.H, copied S.mem d s n⟩ a S' → FRun (.memcpy d s n k) S a S'
  | memset {p v n k S a S'} : FRun k ⟨S.f, S.H, filled S.mem p v n⟩ a S' → FRun (.memset p v n k) S a S'

/-- `FGoes prog S`: undefined behaviour somewhere: inside a strategy, or a strategy is asked
for a size it cannot handle, or handed memory it did not give to its users, or with another
size, or memory is touched that is no user's. -/
inductive FGoes {α : Type} : MP α → St L → Prop where
  | fail {S} : FGoes .fail S
  | idle {s n k S} : (∀ x, L.place s = some x → S.built x = false) → FGoes (k none) S → FGoes (.alloc s n k) S
  | allocSize {s n k S x} : L.place s = some x → S.built x = true → ¬S.can x (.alloc n) → FGoes (.alloc s n k) S
  | allocBad {s n k S x} : L.place s = some x → S.Bad x (.alloc n) → FGoes (.alloc s n k) S
  | alloc {s n k S x v S1} : L.place s = some x → S.Does x (.alloc n) v S1 → FGoes (k v) S1 → FGoes (.alloc s n k) S
  | badFree {s p n k S} : (∀ x m, L.place s = some x → n = some m → (p, m) ∈ S.user x → ¬S.can x (.dealloc p)) → FGoes (.dealloc s p n k) S
  | deallocBad {s p n k S x} : L.place s = some x → S.Bad x (.dealloc p) → FGoes (.dealloc s p n k) S
  | dealloc {s p n k S x v S1} : L.place s = some x → (p, n) ∈ S.user x → S.Does x (.dealloc p) v S1 → FGoes k S1 →
      FGoes (.dealloc s p (some n) k) S
  | badRealloc {s p n k S} : (∀ x, L.place s = some x → ¬S.can x (.dealloc p)) → FGoes (.realloc s p n k) S
  | reallocBad {s p n k S x} : L.place s = some x → S.Bad x (.dealloc p) → FGoes (.realloc s p n k) S
  | reallocSize {s p n k S x v S1} : L.place s = some x → S.Does x (.dealloc p) v S1 → ¬S1.can x (.alloc n) → FGoes (.realloc s p n k) S
  | reallocBad' {s p n k S x v S1} : L.place s = some x → S.Does x (.dealloc p) v S1 → S1.Bad x (.alloc n) → FGoes (.realloc s p n k) S
  | reallocOk {s p n k S x v S1 q S2 m} : L.place s = some x → S.Does x (.dealloc p) v S1 → S1.Does x (.alloc n) (some q) S2 →
      (∀ x, ∀ u ∈ S1.user x, ∀ a, u.1 ≤ a → a < u.1 + u.2 → m a = S.mem a) →
      (∀ l, (p, l) ∈ S.user x → ∀ i, i < n → i < l → m (q + i) = S.mem (p + i)) →
      FGoes (k (some q)) ⟨S2.f, S2.H, m⟩ → FGoes (.realloc s p n k) S
  | reallocFail {s p n k S x} : L.place s = some x → S.can x (.dealloc p) → FGoes (k none) S → FGoes (.realloc s p n k) S
  | fromZero {p k S} : FGoes (k (S.fromZero p)) S → FGoes (.fromZero p k) S
  | badCopy {d s n k S} : ¬(S.Usable d n ∧ S.Usable s n ∧ (n = 0 ∨ Disj d n s n)) → FGoes (.memcpy d s n k) S
  | memcpy {d s n k S} : FGoes k ⟨S.f, S.H, copied S.mem d s n⟩ → FGoes (.memcpy d s n k) S
  | badSet {p v n k S} : ¬S.Usable p n → FGoes (.memset p v n k) S
  | memset {p v n k S} : FGoes k ⟨S.f, S.H, filled S.mem p v n⟩ → FGoes (.memset p v n k) S

/-- Strategy `s` can handle a request of `n` bytes. -/
def Lay.Takes (L : Lay) (s n : Nat) : Prop := ∀ x, L.place s = some x → n ≤ (L.arr x.1).capAt x.2

/-- `CHist c t rm S`: the calls `t` (newest first, with their outcomes), with anything that
may happen between them, can lead to `rm` and `S`.  Between calls strategies are constructed,
pools released and coalesced (`other`), and users write into memory (`bytes`).

Sizes are such that the strategies can handle them: for `reallocate` and `move` that is the
strategy the memory is in, or the one it is moved to. -/
inductive CHist (c : Mgr.Cfg) : List Mgr.Ev → RM → St L → Prop where
  | new (m : Nat → Nat) : CHist c [] RM.new (St.init L m)
  | other {t rm} {S S' : St L} {r : Nat} {o : (L.arr r).sys.Cmd} {v u} : CHist c t rm S → (L.arr r).req o = .other → (L.arr r).sys.can o (S.f r) →
      SRun r ((L.arr r).sys.run o (S.f r)) S.H (v, u) S'.H → S' = S.set r u S'.H S'.mem → S.Kept S' → CHist c t rm S'
  | bytes {t rm} {S : St L} (m : Nat → Nat) : CHist c t rm S → CHist c t rm ⟨S.f, S.H, m⟩
  | alloc {t rm} {S S' : St L} {s n o rm'} : CHist c t rm S → s ≠ zero → L.Takes s n → FRun (allocate c s n rm) S (o, rm') S' →
      CHist c (.alloc s n o :: t) rm' S'
  | free {t rm} {S S' : St L} {s p} {o : Option Unit} {rm'} : CHist c t rm S → s ≠ zero → p < 2 ^ 64 →
      FRun (deallocate c s p rm) S (o, rm') S' → CHist c (.free s p o.isSome :: t) rm' S'
  | freeAny {t rm} {S S' : St L} {p} {o : Option Unit} {rm'} : CHist c t rm S → p < 2 ^ 64 →
      FRun (deallocateAny c p rm) S (o, rm') S' → CHist c (.freeAny p o.isSome :: t) rm' S'
  | realloc {t rm} {S S' : St L} {s p n o rm'} : CHist c t rm S → s ≠ zero → p < 2 ^ 64 → L.Takes s n →
      FRun (reallocImpl c p n s rm) S (o, rm') S' → CHist c (.realloc s p n o :: t) rm' S'
  | reallocAny {t rm} {S S' : St L} {d p n o rm'} : CHist c t rm S → d ≠ zero → p < 2 ^ 64 → L.Takes d n →
      (∀ r ∈ (ghost c t).live, Judy.Contains r p → L.Takes r.tag n) →
      FRun (reallocate c d p n rm) S (o, rm') S' → CHist c (.reallocAny d p n o :: t) rm' S'
  | move {t rm} {S S' : St L} {p s o rm'} : CHist c t rm S → s ≠ zero → p < 2 ^ 64 →
      (∀ r ∈ (ghost c t).live, Judy.Contains r p → L.Takes s r.size) →
      FRun (Mgr.move c p s rm) S (o, rm') S' → CHist c (.move p s o :: t) rm' S'
  | copy {t rm} {S S' : St L} {d s n} {o : Option Unit} {rm'} : CHist c t rm S → d < 2 ^ 64 → s < 2 ^ 64 →
      FRun (Mgr.copy d s n rm) S (o, rm') S' → CHist c (.copy d s n o.isSome :: t) rm' S'
  | memset {t rm} {S S' : St L} {p v n} {o : Option Unit} {rm'} : CHist c t rm S → p < 2 ^ 64 →
      FRun (Mgr.memset p v n rm) S (o, rm') S' → CHist c (.memset p v n o.isSome :: t) rm' S'
  | query {t rm} {S S' : St L} {p o rm'} : CHist c t rm S → p < 2 ^ 64 → FRun (find p rm) S (o, rm') S' → CHist c (.query p :: t) rm' S'

end Umpire.Whole
