/-!
# Operations on streams: `copy`, `memset` and `reallocate` with a `camp` resource

A CUDA or HIP build.  A stream is a queue of operations on memory; the device
executes the first one of a queue at any time.  Sizes are given and positive (the
meaning of 0 is C30 to C32), a pointer to `reallocate` is not null.
-/
set_option autoImplicit false
namespace Umpire.Async

abbrev Mem := Nat → Nat

/-- A range of memory: first byte and length. -/
abbrev Rng := Nat × Nat

/-- The byte is in the range. -/
def inside (r : Rng) (x : Nat) : Prop := r.1 ≤ x ∧ x < r.1 + r.2

instance (r : Rng) (x : Nat) : Decidable (inside r x) := inferInstanceAs (Decidable (_ ∧ _))

/-- An operation on memory: `memcpy` or `memset`. -/
inductive Op where
  | copy (src dst n : Nat)
  | set (p n v : Nat)
deriving DecidableEq, Repr

/-- What it does.  (A copy between overlapping ranges is as with `memmove`.) -/
def Op.run : Op → Mem → Mem
  | .copy s d n, m => fun x => if inside (d, n) x then m (s + (x - d)) else m x
  | .set p n v, m => fun x => if inside (p, n) x then v else m x

/-- Operations one after the other. -/
def runs : List Op → Mem → Mem
  | [], m => m
  | o :: l, m => runs l (o.run m)

/-- An allocator: of host or device memory, a pool or a resource.  The host resource
is `HOST`. -/
structure Al where
  id : Nat
  device : Bool
  pool : Bool
deriving DecidableEq, Repr

structure Rec where
  ptr : Nat
  size : Nat
  al : Al
deriving DecidableEq, Repr

/-- The resource an operation is given: the host, or a stream of the device. -/
inductive Ctx where
  | host
  | stream (s : Nat)
deriving DecidableEq, Repr

structure St where
  mem : Mem
  recs : List Rec
  queue : Nat → List Op

/-- The device executes the first operation of a stream. -/
inductive Exec (S : St) : St → Prop where
  | op {t : Nat} {o : Op} {l : List Op} : S.queue t = o :: l →
      Exec S ⟨o.run S.mem, S.recs, fun s => if s = t then l else S.queue s⟩

inductive Execs : St → St → Prop where
  | refl (S : St) : Execs S S
  | step {S T U : St} : Execs S T → Exec T U → Execs S U

/-- Append an operation to a stream: `cudaMemcpyAsync` (CudaCopyOperation.cpp:48),
`cudaMemsetAsync` (CudaMemsetOperation.cpp:40); HIP likewise. -/
def St.enqueue (S : St) (t : Nat) (o : Op) : St :=
  { S with queue := fun s => if s = t then S.queue s ++ [o] else S.queue s }

/-- `m_allocations.find` (C20). -/
def St.find (S : St) (p : Nat) : Option Rec := S.recs.find? fun r => decide (inside (r.ptr, r.size) p)

/-- New memory is apart from all memory in use. -/
def Fresh (p n : Nat) (l : List Rec) : Prop := ∀ r ∈ l, p + n ≤ r.ptr ∨ r.ptr + r.size ≤ p

/-- Without the allocation at `p`. -/
def without (p : Nat) (l : List Rec) : List Rec := l.filter fun r => r.ptr ≠ p

/-- An operation is started.  Host memory only: there is no asynchronous version, so
`MemoryOperation::transform_async` and `apply_async` wait for the resource and act at
once (MemoryOperation.cpp:23-31,39-46).  Device memory: the resource has to be a
stream (CudaCopyOperation.cpp:41-45), which gets the operation. -/
inductive Start (S : St) (o : Op) : Bool → Ctx → Option St → Prop where
  | host : Start S o false .host (some { S with mem := o.run S.mem })
  | waited {s : Nat} {T : St} : Execs S T → T.queue s = [] →
      Start S o false (.stream s) (some { T with mem := o.run T.mem })
  | device {s : Nat} : Start S o true (.stream s) (some (S.enqueue s o))
  | wrong : Start S o true .host none

/-- `deallocate` of the record `r`: `cudaFree` waits for all streams
(CudaMallocAllocator.hpp:59); `free` and the pools do not wait. -/
inductive Release (S : St) (r : Rec) : St → Prop where
  | now : (r.al.device = false ∨ r.al.pool = true) → Release S r { S with recs := without r.ptr S.recs }
  | sync {T : St} : r.al.device = true → r.al.pool = false → Execs S T → (∀ s, T.queue s = []) →
      Release S r { T with recs := without r.ptr T.recs }

/-- The calls of a program. -/
inductive Call where
  | allocate (a : Al) (n : Nat)
  | deallocate (p : Nat)
  /-- code of the program that writes memory and is not on a stream -/
  | write (p n v : Nat)
  | copy (dst src n : Nat) (c : Ctx)
  | memset (p n v : Nat) (c : Ctx)
  | reallocate (p n : Nat) (c : Ctx)
  /-- wait for a stream -/
  | wait (s : Nat)
deriving DecidableEq, Repr

/-- What a call does; `none` is an exception. -/
inductive Step (S : St) : Call → Option Nat → St → Prop where
  | allocate {a : Al} {n p : Nat} : 0 < n → Fresh p n S.recs →
      Step S (.allocate a n) (some p) { S with recs := ⟨p, n, a⟩ :: S.recs }
  | allocateNo {a : Al} {n : Nat} : Step S (.allocate a n) none S
  | deallocate {r : Rec} {T : St} : r ∈ S.recs → Release S r T → Step S (.deallocate r.ptr) (some r.ptr) T
  | deallocateNo {p : Nat} : (∀ r ∈ S.recs, r.ptr ≠ p) → Step S (.deallocate p) none S
  | write {p n v : Nat} {r : Rec} : r ∈ S.recs → r.ptr ≤ p → p + n ≤ r.ptr + r.size →
      Step S (.write p n v) (some p) { S with mem := (Op.set p n v).run S.mem }
  /-- `copy` (ResourceManager.cpp:418-461) -/
  | copy {d s n : Nat} {c : Ctx} {rs rd : Rec} {T : St} : 0 < n → S.find s = some rs → S.find d = some rd →
      n ≤ rd.size - (d - rd.ptr) → Start S (.copy s d n) (rs.al.device || rd.al.device) c (some T) →
      Step S (.copy d s n c) (some d) T
  | copyUnknown {d s n : Nat} {c : Ctx} : (S.find s = none ∨ S.find d = none) → Step S (.copy d s n c) none S
  | copyLong {d s n : Nat} {c : Ctx} {rd : Rec} : S.find d = some rd → rd.size - (d - rd.ptr) < n →
      Step S (.copy d s n c) none S
  | copyWrong {d s n : Nat} {c : Ctx} {rs rd : Rec} : S.find s = some rs → S.find d = some rd →
      Start S (.copy s d n) (rs.al.device || rd.al.device) c none → Step S (.copy d s n c) none S
  /-- `memset` (498-532) -/
  | memset {p n v : Nat} {c : Ctx} {r : Rec} {T : St} : 0 < n → S.find p = some r → n ≤ r.size - (p - r.ptr) →
      Start S (.set p n v) r.al.device c (some T) → Step S (.memset p n v c) (some p) T
  | memsetUnknown {p n v : Nat} {c : Ctx} : S.find p = none → Step S (.memset p n v c) none S
  | memsetLong {p n v : Nat} {c : Ctx} {r : Rec} : S.find p = some r → r.size - (p - r.ptr) < n →
      Step S (.memset p n v c) none S
  | memsetWrong {p n v : Nat} {c : Ctx} {r : Rec} : S.find p = some r →
      Start S (.set p n v) r.al.device c none → Step S (.memset p n v c) none S
  /-- `reallocate` (630-655,707-756) of an unknown pointer, or one into an allocation (738) -/
  | reallocateNo {p n : Nat} {c : Ctx} : (∀ r ∈ S.recs, r.ptr ≠ p) → Step S (.reallocate p n c) none S
  /-- the allocation of the new memory fails -/
  | reallocateFull {r : Rec} {n : Nat} {c : Ctx} : r ∈ S.recs → Step S (.reallocate r.ptr n c) none S
  /-- host memory of a pool: the synchronous operation (744-747, GenericReallocateOperation.cpp:19-32) -/
  | hostPool {r : Rec} {n q : Nat} {c : Ctx} : 0 < n → r ∈ S.recs → r.al.device = false → r.al.pool = true →
      Fresh q n S.recs →
      Step S (.reallocate r.ptr n c) (some q)
        { S with mem := (Op.copy r.ptr q (min r.size n)).run S.mem, recs := without r.ptr (⟨q, n, r.al⟩ :: S.recs) }
  /-- `HOST` (749-750, MemoryOperation.cpp:23-31, HostReallocateOperation.cpp:18-45): wait, then `realloc` -/
  | host {r : Rec} {n q : Nat} {c : Ctx} {T : St} : 0 < n → r ∈ S.recs → r.al.device = false → r.al.pool = false →
      Fresh q n (without r.ptr S.recs) → Execs S T → (∀ s, c = .stream s → T.queue s = []) →
      Step S (.reallocate r.ptr n c) (some q)
        { T with mem := (Op.copy r.ptr q (min r.size n)).run T.mem, recs := ⟨q, n, r.al⟩ :: without r.ptr T.recs }
  /-- device memory (749-750, GenericReallocateOperation.cpp:34-49): allocate, start the copy, deallocate -/
  | device {r : Rec} {n q : Nat} {s : Nat} {T : St} : 0 < n → r ∈ S.recs → r.al.device = true →
      Fresh q n S.recs →
      Release (St.enqueue { S with recs := ⟨q, n, r.al⟩ :: S.recs } s (.copy r.ptr q (min r.size n))) r T →
      Step S (.reallocate r.ptr n (.stream s)) (some q) T
  /-- … and the exception of the copy, which leaves the new memory allocated -/
  | deviceWrong {r : Rec} {n q : Nat} : 0 < n → r ∈ S.recs → r.al.device = true → Fresh q n S.recs →
      Step S (.reallocate r.ptr n .host) none { S with recs := ⟨q, n, r.al⟩ :: S.recs }
  | wait {s : Nat} {T : St} : Execs S T → T.queue s = [] → Step S (.wait s) (some s) T

/-- What happened, newest first. -/
abbrev History := List (Call × Option Nat)

/-- Executions from memory `m`. -/
inductive Reach (m : Mem) : History → St → Prop where
  | init : Reach m [] ⟨m, [], fun _ => []⟩
  | exec {h : History} {S T : St} : Reach m h S → Exec S T → Reach m h T
  | step {h : History} {S T : St} {c : Call} {r : Option Nat} : Reach m h S → Step S c r T → Reach m ((c, r) :: h) T

end Umpire.Async
