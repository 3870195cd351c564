/-!
# The replay tools (tools/replay)

Three pieces of the replay tool chain: the histogram bucket function, the
compiler from recorded events to replay operations together with the executor
that runs them, and the comparison done by `replaydiff`.

Not modelled: JSON parsing, the decoding of constructor arguments in
`compile_make_allocator` (an allocator-creating event is its address and its
name here), the on-disk operation table and its caching, statistics output.
-/
set_option autoImplicit false
set_option linter.unusedSimpArgs false
namespace Umpire.Replay

/-! ## The histogram bucket (ReplayOperationManager.cpp:72-99) -/

/-- `tab64` (ReplayOperationManager.cpp:75-83). -/
def tab64 : List Nat :=
  [63,  0, 58,  1, 59, 47, 53,  2,
   60, 39, 48, 27, 54, 33, 42,  3,
   61, 51, 37, 40, 49, 18, 28, 20,
   55, 30, 34, 11, 43, 14, 22,  4,
   62, 57, 46, 52, 38, 26, 32, 41,
   50, 36, 17, 19, 29, 10, 13, 21,
   56, 45, 25, 31, 35, 16,  9, 12,
   44, 24, 15,  8, 23,  7,  6,  5]

/-- `value |= value >> s` (ReplayOperationManager.cpp:88-93). -/
def orShift (s v : Nat) : Nat := v ||| (v >>> s)

/-- The six smearing steps (ReplayOperationManager.cpp:88-93). -/
def smear (v : Nat) : Nat :=
  orShift 32 (orShift 16 (orShift 8 (orShift 4 (orShift 2 (orShift 1 v)))))

/-- The multiplier (ReplayOperationManager.cpp:94). -/
def multiplier : Nat := 0x07EDD5E59A4E28C2

/-- The hash of the isolated top bit: 64-bit product, top six bits
(ReplayOperationManager.cpp:96-97). -/
def hashIndex (b : Nat) : Nat := (b * multiplier % 2 ^ 64) >>> 58

/-- `log2_64` (ReplayOperationManager.cpp:85-99).  The subtraction is between
64-bit values; it never wraps since half of a number is at most the number. -/
def log2_64 (size : Nat) : Nat :=
  let value := smear size
  let value := value - (value >>> 1)
  tab64.getD (hashIndex value) 0

/-- `TrackedCounter` (ReplayOperationManager.cpp:56-70). -/
structure Counter where
  cur : Nat
  hwm : Nat
deriving DecidableEq, Repr

/-- `TrackedCounter::increment` (ReplayOperationManager.cpp:58-62); `size_t`
arithmetic. -/
def Counter.inc (c : Counter) : Counter :=
  let n := (c.cur + 1) % 2 ^ 64
  ⟨n, if n > c.hwm then n else c.hwm⟩

/-- `TrackedCounter::decrement` (ReplayOperationManager.cpp:64-66); on
`size_t`, so it wraps at zero. -/
def Counter.dec (c : Counter) : Counter := { c with cur := (c.cur + (2 ^ 64 - 1)) % 2 ^ 64 }

/-- `TrackedHistogram` (ReplayOperationManager.cpp:101-141): buckets, largest,
allocations, deallocations, live count. -/
structure Hist where
  bucket : Nat → Counter
  largest : Nat
  allocs : Nat
  frees : Nat

/-- A fresh histogram (ReplayOperationManager.cpp:136-140). -/
def Hist.new : Hist := ⟨fun _ => ⟨0, 0⟩, 0, 0, 0⟩

/-- `TrackedHistogram::increment` (ReplayOperationManager.cpp:102-111). -/
def Hist.inc (h : Hist) (size : Nat) : Hist :=
  { bucket := fun i => if i = log2_64 size then (h.bucket i).inc else h.bucket i
    largest := if size > h.largest then size else h.largest
    allocs := h.allocs + 1
    frees := h.frees }

/-- `TrackedHistogram::decrement` (ReplayOperationManager.cpp:113-118). -/
def Hist.dec (h : Hist) (size : Nat) : Hist :=
  { bucket := fun i => if i = log2_64 size then (h.bucket i).dec else h.bucket i
    largest := h.largest
    allocs := h.allocs
    frees := h.frees + 1 }

/-! ## Operations (ReplayFile.hpp:84-106) -/

/-- `otype` (ReplayFile.hpp); `blank` is the value 0 of a slot that was never
written, which is no enumerator. -/
inductive Kind
  | blank | creation | allocate | coalesce | deallocate | reallocateEx | release | setDefault
deriving DecidableEq, Repr

/-- `Operation` (ReplayFile.hpp).  `op_allocated_ptr` is filled in by the
executor and is kept there. -/
structure Op where
  kind : Kind
  line : Nat
  alloc : Nat
  size : Nat
  off0 : Nat
  off1 : Nat
  src0 : Nat
  src1 : Nat
deriving DecidableEq, Repr

/-- A zeroed slot (`memset(op, 0, …)`). -/
def Op.zero : Op := ⟨.blank, 0, 0, 0, 0, 0, 0, 0⟩

/-! ## Recorded events -/

/-- The recorded events as far as the interpreter distinguishes them
(ReplayInterpreter.cpp:109-166).  Allocator addresses and pointers are
numbers. -/
inductive Ev
  /-- `make_memory_resource` / `make_allocator` (ResourceManager.cpp:162,
  ResourceManager.inl:40). -/
  | make (ref : Nat) (name : List Char)
  /-- `allocate` (Allocator.inl do_allocate). -/
  | alloc (ref ptr size : Nat)
  /-- `deallocate` (Allocator.inl do_deallocate). -/
  | dealloc (ref ptr : Nat)
  /-- The first `reallocate` event, with `current_ptr` (ResourceManager.cpp:547). -/
  | realloc1 (ref cur size : Nat)
  /-- The second `reallocate` event, with `new_ptr` (ResourceManager.cpp:559). -/
  | realloc2 (ref new : Nat)
  | setDefault (ref : Nat)
  | coalesce (name : List Char)
  | release (ref : Nat)
  /-- Events that are counted or skipped only: `copy`, `move`, external
  registrations, anything not of category operation. -/
  | quiet
  /-- Operation events whose name the interpreter does not know: `memset`
  (ResourceManager.cpp:479), `named_allocate` (json_file_store.cpp:52). -/
  | other
deriving DecidableEq, Repr

/-! ## Keys -/

/-- One hexadecimal digit. -/
def hexDigit (d : Nat) : Char := ("0123456789abcdef".toList).getD d '0'

/-- Hexadecimal digits, least significant first. -/
def hexRev (n : Nat) : List Char :=
  if h : n < 16 then [hexDigit n] else hexDigit (n % 16) :: hexRev (n / 16)
termination_by n
decreasing_by omega

/-- How glibc prints a non-null pointer for `%p` and `operator<<`: `0x` and the
digits.  (A null pointer prints differently in the two; it is never entered in
the table.) -/
def hex (n : Nat) : List Char := '0' :: 'x' :: (hexRev n).reverse

/-- The key of an allocation: allocator address and pointer, concatenated as
text (ReplayInterpreter.cpp:703, 734, 754, 769). -/
def key (ref ptr : Nat) : List Char := hex ref ++ hex ptr

/-! ## The compiler -/

/-- Lookup in an association list; the first entry wins. -/
def find {α β : Type} [DecidableEq α] (k : α) : List (α × β) → Option β
  | [] => none
  | (k', v) :: t => if k' = k then some v else find k t

/-- Erase a key. -/
def erase {α β : Type} [DecidableEq α] (k : α) (l : List (α × β)) : List (α × β) :=
  l.filter (fun e => decide (e.1 ≠ k))

/-- Conversion of `num_operations` to the mapped type `int` and back to
`size_t` (ReplayInterpreter.hpp:35-39, .cpp:716, 796). -/
def viaInt (n : Nat) : Nat :=
  if n % 2 ^ 32 < 2 ^ 31 then n % 2 ^ 32 else 2 ^ 64 - (2 ^ 32 - n % 2 ^ 32)

/-- Interpreter state (ReplayInterpreter.hpp:41-50) and the operation table:
`ops` are the counted operations, `slot` is the content of
`ops[num_operations]`. -/
structure C where
  ops : List Op
  slot : Op
  ids : List (List Char × Nat)
  refs : List (Nat × Nat)
  names : List (List Char × Nat)
  nAlloc : Nat
  line : Nat
  flag : Bool
deriving DecidableEq, Repr

/-- State before the first event (ReplayInterpreter.cpp:61-67): operation 0 is a
zeroed ALLOCATE. -/
def C.init : C := ⟨[{ Op.zero with kind := .allocate }], .zero, [], [], [], 0, 0, false⟩

/-- Write a slot and count it (`num_operations++`). -/
def C.push (c : C) (o : Op) : C := { c with ops := c.ops ++ [o], slot := .zero }

/-- `max_allocators` (ReplayFile.hpp). -/
def maxAllocators : Nat := 256 * 1024

/-- The tail common to `compile_make_memory_resource` and
`compile_make_allocator` (ReplayInterpreter.cpp:381-403, 639-659). -/
def compileMake (c : C) (ref : Nat) (name : List Char) : Option C :=
  if c.nAlloc + 1 ≥ maxAllocators then none
  else
    let c' := c.push { Op.zero with kind := .creation, line := c.line, alloc := c.nAlloc }
    some { c' with refs := (ref, c.nAlloc) :: c.refs, names := (name, c.nAlloc) :: c.names, nAlloc := c.nAlloc + 1 }

/-- `compile_allocate` (ReplayInterpreter.cpp:693-719). -/
def compileAllocate (c : C) (ref ptr size : Nat) : Option C :=
  if c.flag then some c
  else
    match find ref c.refs with
    | none => none
    | some a =>
      match find (key ref ptr) c.ids with
      | some _ => none
      | none =>
        let c' := c.push { Op.zero with kind := .allocate, line := c.line, alloc := a, size := size }
        some { c' with ids := (key ref ptr, viaInt c.ops.length) :: c.ids }

/-- `compile_reallocate`, first event (ReplayInterpreter.cpp:727-751).  The
operation is written to the slot but not counted. -/
def compileRealloc1 (c : C) (ref cur size : Nat) : Option C :=
  let src := if cur = 0 then some 0 else find (key ref cur) c.ids
  match src, find ref c.refs with
  | some j, some a =>
    some { c with
      flag := true
      slot := { Op.zero with kind := .reallocateEx, line := c.line, alloc := a, size := size, src1 := j }
      ids := if cur = 0 then c.ids else erase (key ref cur) c.ids }
  | _, _ => none

/-- `compile_reallocate`, second event (ReplayInterpreter.cpp:752-762). -/
def compileRealloc2 (c : C) (ref new : Nat) : Option C :=
  match find (key ref new) c.ids with
  | some _ => none
  | none =>
    let c' := c.push c.slot
    some { c' with ids := (key ref new, viaInt c.ops.length) :: c.ids, flag := false }

/-- `compile_deallocate` (ReplayInterpreter.cpp:765-802). -/
def compileDeallocate (c : C) (ref ptr : Nat) : Option C :=
  if c.flag then some c
  else
    match find (key ref ptr) c.ids, find ref c.refs with
    | _, none => none
    | none, some _ => some c
    | some j, some a =>
      let c' := c.push { Op.zero with kind := .deallocate, line := c.line, alloc := a, src0 := j }
      some { c' with ids := erase (key ref ptr) c.ids }

/-- `strip_off_base` (ReplayInterpreter.cpp:364-373). -/
def stripBase (s : List Char) : List Char :=
  if s.length > 5 ∧ s.drop (s.length - 5) = "_base".toList then s.take (s.length - 5) else s

/-- `compile_coalesce` (ReplayInterpreter.cpp:804-817).  `operator[]` on an
unknown name inserts and returns 0. -/
def compileCoalesce (c : C) (name : List Char) : Option C :=
  let nm := stripBase name
  let a := (find nm c.names).getD 0
  let names' := match find nm c.names with
    | none => (nm, 0) :: c.names
    | some _ => c.names
  some { (c.push { Op.zero with kind := .coalesce, line := c.line, alloc := a }) with names := names' }

/-- `compile_release` / `compile_set_default_allocator`
(ReplayInterpreter.cpp:662-673, 819-830). -/
def compileOn (k : Kind) (c : C) (ref : Nat) : Option C :=
  match find ref c.refs with
  | none => none
  | some a => some (c.push { Op.zero with kind := k, line := c.line, alloc := a })

/-- One event (ReplayInterpreter.cpp:78-167): the line is counted, then the
event is dispatched on its name; an unknown operation ends the tool. -/
def compileEv (c0 : C) (e : Ev) : Option C :=
  let c := { c0 with line := c0.line + 1 }
  match e with
  | .make r nm => compileMake c r nm
  | .alloc r p n => compileAllocate c r p n
  | .dealloc r p => compileDeallocate c r p
  | .realloc1 r p n => compileRealloc1 c r p n
  | .realloc2 r p => compileRealloc2 c r p
  | .setDefault r => compileOn .setDefault c r
  | .coalesce nm => compileCoalesce c nm
  | .release r => compileOn .release c r
  | .quiet => some c
  | .other => none

/-- The event loop of `buildOperations` (ReplayInterpreter.cpp:77-167). -/
def compileAll (c : C) : List Ev → Option C
  | [] => some c
  | e :: es =>
    match compileEv c e with
    | none => none
    | some c' => compileAll c' es

/-- `buildOperations` (ReplayInterpreter.cpp:52-169); `none` is an exit with
`REPLAY_ERROR`. -/
def build (es : List Ev) : Option C := compileAll .init es

/-! ## The executor (ReplayOperationManager.cpp:144-260, 1063-1152) -/

/-- A call made on Umpire.  Allocators are numbered in order of creation; a
pointer argument is the pointer passed. -/
inductive Call
  | create (a : Nat)
  | allocate (a size : Nat)
  | deallocate (a ptr : Nat)
  | reallocate (a ptr size : Nat)
  | setDefault (a : Nat)
  | coalesce (a : Nat)
  | release (a : Nat)
deriving DecidableEq, Repr

/-- One operation: the call it makes, given the pointers stored by earlier
operations (`makeAllocate`, `makeReallocate_ex`, `makeDeallocate`, …,
ReplayOperationManager.cpp:1063-1152).  `none`: unknown operation type. -/
def Op.call (tab : List Nat) (o : Op) : Option Call :=
  match o.kind with
  | .blank => none
  | .creation => some (.create o.alloc)
  | .allocate => some (.allocate o.alloc o.size)
  | .deallocate => some (.deallocate o.alloc (tab.getD o.src0 0))
  | .reallocateEx => some (.reallocate o.alloc (tab.getD o.src1 0) o.size)
  | .setDefault => some (.setDefault o.alloc)
  | .coalesce => some (.coalesce o.alloc)
  | .release => some (.release o.alloc)

/-- What is stored in `op_allocated_ptr`: the returned pointer for allocations
and reallocations, the initial null otherwise. -/
def Op.stored (o : Op) (ret : Nat) : Nat :=
  match o.kind with
  | .allocate => ret
  | .reallocateEx => ret
  | _ => 0

/-- Run operations; `ret i` is the pointer the allocator returns to operation
`i`.  `tab` holds the `op_allocated_ptr` of the operations already run. -/
def exec (ret : Nat → Nat) (tab : List Nat) : List Op → Option (List Call)
  | [] => some []
  | o :: os =>
    match o.call tab with
    | none => none
    | some x =>
      match exec ret (tab ++ [o.stored (ret tab.length)]) os with
      | none => none
      | some xs => some (x :: xs)

/-- `runOperations` (ReplayOperationManager.cpp:162-216): operations from index
1 on; operation 0 holds a null pointer. -/
def replay (ret : Nat → Nat) (ops : List Op) : Option (List Call) := exec ret [0] (ops.drop 1)

/-! ## Comparison (ReplayInterpreter.cpp:244-356) -/

/-- `AllocatorTableEntry` (ReplayFile.hpp:40-82); `argv` is the union's bytes. -/
structure Entry where
  type : Nat
  intro : Bool
  name : List Char
  base : List Char
  argc : Nat
  argv : List Nat
deriving DecidableEq, Repr

/-- An operation table: version, allocators, counted operations and the content
of the slot after them; further slots are zero. -/
structure Table where
  version : Nat
  allocs : List Entry
  ops : List Op
  slot : Op
deriving DecidableEq, Repr

/-- `ops[i]`, also for `i` not below `num_operations`. -/
def Table.opAt (t : Table) (i : Nat) : Op :=
  if i < t.ops.length then t.ops.getD i .zero else if i = t.ops.length then t.slot else .zero

/-- The allocator comparison (ReplayInterpreter.cpp:276-318). -/
def entryEq (x y : Entry) : Bool :=
  decide (x.type = y.type) && decide (x.intro = y.intro) && decide (x.name = y.name) &&
  decide (x.base = y.base) && decide (x.argc = y.argc) && decide (x.argv = y.argv)

/-- The operation comparison (ReplayInterpreter.cpp:322-349). -/
def opEq (x y : Op) : Bool :=
  decide (x.kind = y.kind) && decide (x.alloc = y.alloc) && decide (x.size = y.size) &&
  decide (x.off0 = y.off0) && decide (x.off1 = y.off1) && decide (x.src0 = y.src0) && decide (x.src1 = y.src1)

/-- `compareOperations` (ReplayInterpreter.cpp:244-356), called as
`left.compareOperations(right)` (replaydiff.cpp:56).  A difference in the number
of operations is only printed (268-273). -/
def compare (l r : Table) : Bool :=
  decide (l.version = r.version) && decide (l.allocs.length = r.allocs.length) &&
  (List.range r.allocs.length).all (fun i =>
    entryEq (l.allocs.getD i ⟨0, false, [], [], 0, []⟩) (r.allocs.getD i ⟨0, false, [], [], 0, []⟩)) &&
  (List.range r.ops.length).all (fun i => opEq (l.opAt i) (r.opAt i))

end Umpire.Replay
