import Verif.Base.Mem
import Verif.Small.SizeArith
/-!
# Model of `HostSharedMemoryResource::impl` (src/umpire/resource/HostSharedMemoryResourceImpl.hpp)

The state is the contents of the segment, byte by byte, including the two linked
lists of block headers.  Addresses are offsets from the start of the segment, as in
the code; offset 0 is the null pointer (`offset_to_pointer`, `pointer_to_offset`,
lines 330-351).  A process that has mapped the segment at `base` sees offset `o` at
`base + o`.

Every function runs under the mutex in the segment (lines 192, 252, 288, 309), so
calls of different processes are executed one after the other.  The only access
outside is the load of `memory_offset` in line 235, of a block on which the caller
holds a reference.

Layout (x86-64): `segment_size`, `actual_size`, `free_blocks_off`, `used_blocks_off`
of the segment header at 48, 56, 64, 72, its size is 80; `next_block_off`,
`name_offset`, `memory_offset`, `block_size`, `reference_count` of a block header at
0, 8, 16, 24, 32, its size is 40.

`lim` is the length of the mapping, the size of the segment rounded up to pages;
accesses beyond are undefined behaviour, as are accesses through null.

Not modelled here: opening the segment and waiting for it (lines 50-100, 134-158; C90), the
mutex, failures of the operating system.
-/
set_option autoImplicit false
namespace Umpire.Shm
open Umpire.Prog
open Umpire.SizeArith (shmBytes)

/-- How a function may end other than by returning. -/
inductive Err where
  | ub
  /-- a loop that does not end -/
  | diverge
deriving DecidableEq, Repr

/-- A computation on the segment. -/
def M (α : Type) := Mem → Except Err (α × Mem)

instance : Monad M where
  pure a := fun m => .ok (a, m)
  bind x f := fun m =>
    match x m with
    | .ok (a, m') => f a m'
    | .error e => .error e

def fail {α : Type} (e : Err) : M α := fun _ => .error e

/-- Load and store of a `std::size_t`. -/
def ld (lim a : Nat) : M Nat := fun m => if a + 8 ≤ lim then .ok (m.rd a 8, m) else .error .ub

def st (lim a v : Nat) : M Unit := fun m => if a + 8 ≤ lim then .ok ((), m.wr a 8 v) else .error .ub

/-- The field at `f` of the block header at `o`. -/
def get (lim o f : Nat) : M Nat := if o = 0 then fail .ub else ld lim (o + f)

def set (lim o f v : Nat) : M Unit := if o = 0 then fail .ub else st lim (o + f) v

/-- The C string at `a`; `fuel` bounds its length. -/
def readStr (lim : Nat) : Nat → Nat → M (List Nat)
  | 0, _ => fail .diverge
  | fuel + 1, a => fun m =>
    if a + 1 ≤ lim then
      if m.rd a 1 = 0 then .ok ([], m)
      else
        match readStr lim fuel (a + 1) m with
        | .ok (s, m) => .ok (m.rd a 1 :: s, m)
        | .error e => .error e
    else .error .ub

/-- `name.copy` and the terminating null (lines 225-226). -/
def writeStr (lim : Nat) : Nat → List Nat → M Unit
  | a, [] => fun m => if a + 1 ≤ lim then .ok ((), m.wr a 1 0) else .error .ub
  | a, c :: s => fun m => if a + 1 ≤ lim then writeStr lim (a + 1) s (m.wr a 1 c) else .error .ub

/-- `find_existing_allocation` (lines 353-367). -/
def findExisting (lim : Nat) (name : List Nat) : Nat → Nat → M Nat
  | 0, _ => fail .diverge
  | fuel + 1, blk =>
    if blk = 0 then pure 0
    else do
      let no ← get lim blk 8
      if no = 0 then do
        let nx ← get lim blk 0
        findExisting lim name fuel nx
      else do
        let s ← readStr lim (lim + 1) no
        if name = s then pure blk
        else do
          let nx ← get lim blk 0
          findExisting lim name fuel nx

/-- The condition of `findUsableBlock` (line 378). -/
def better (lim bs best size : Nat) : M Bool :=
  if bs ≥ size then
    if best = 0 then pure true
    else do
      let x ← get lim best 24
      pure (decide (bs < x))
  else pure false

/-- `findUsableBlock` (lines 369-387), the result is `(best, prev)`. -/
def findUsable (lim size : Nat) : Nat → Nat → Nat → Nat → Nat → M (Nat × Nat)
  | 0, _, _, _, _ => fail .diverge
  | fuel + 1, iter, iterPrev, best, prev =>
    if iter = 0 then pure (best, prev)
    else do
      let bs ← get lim iter 24
      let b ← better lim bs best size
      if b then
        if bs = size then pure (iter, iterPrev)
        else do
          let nx ← get lim iter 0
          findUsable lim size fuel nx iter iter iterPrev
      else do
        let nx ← get lim iter 0
        findUsable lim size fuel nx iter best prev

/-- Store `next` as the successor of `prev` in the list whose head is at `hd`: lines
391-394 for the used blocks (72) and 460-468 for the free blocks (64). -/
def putNext (lim hd prev next : Nat) : M Unit :=
  if prev ≠ 0 then set lim prev 0 next else st lim hd next

/-- `splitBlock` (lines 434-469). -/
def splitBlock (lim curr prev size : Nat) : M Unit := do
  let bs ← get lim curr 24
  if bs = size ∨ w64 (bs + (W - size)) < 40 then do
    let nx ← get lim curr 0
    putNext lim 64 prev nx
  else do
    let nb := w64 (curr + size)
    set lim nb 16 0
    set lim nb 8 0
    let nx ← get lim curr 0
    set lim nb 0 nx
    set lim nb 32 0
    set lim nb 24 (w64 (bs + (W - size)))
    set lim curr 24 size
    putNext lim 64 prev nb

/-- The sizes (lines 185-188). -/
def adjusted (name : List Nat) (req : Nat) : Nat := w64 (48 + shmBytes req + shmBytes (name.length + 1))

/-- The part of `allocate_named` that enters a block among those in use (lines
210-227); the result is `memory_offset` (235). -/
def take (lim best : Nat) (name : List Nat) (req : Nat) : M Nat := do
  let bs ← get lim best 24
  let act ← ld lim 56
  st lim 56 (w64 (act + bs))
  let u ← ld lim 72
  set lim best 0 u
  st lim 72 best
  set lim best 16 (w64 (best + 48))
  set lim best 8 (w64 (best + 48 + shmBytes req))
  set lim best 32 1
  writeStr lim (w64 (best + 48 + shmBytes req)) name
  get lim best 16

/-- `allocate_named` (lines 181-239); `none` is `out_of_memory_error`, otherwise the
offset of the memory. -/
def allocate (lim : Nat) (name : List Nat) (req : Nat) : M (Option Nat) := do
  let u ← ld lim 72
  let e ← findExisting lim name (lim + 1) u
  if e ≠ 0 then do
    let r ← get lim e 32
    set lim e 32 (w64 (r + 1))
    let p ← get lim e 16
    pure (some p)
  else do
    let f ← ld lim 64
    let b ← findUsable lim (adjusted name req) (lim + 1) f 0 0 0
    if b.1 = 0 then pure none
    else do
      splitBlock lim b.1 b.2 (adjusted name req)
      let p ← take lim b.1 name req
      pure (some p)

/-- The loop in `deallocate` (lines 272-275), the result is `prev`. -/
def findPrev (lim blk : Nat) : Nat → Nat → Nat → M Nat
  | 0, _, _ => fail .diverge
  | fuel + 1, curr, prev =>
    if curr = 0 ∨ curr = blk then pure prev
    else do
      let nx ← get lim curr 0
      findPrev lim blk fuel nx curr

/-- The loop in `releaseBlock` (lines 401-404), the result is `prev`. -/
def findPlace (lim blk : Nat) : Nat → Nat → Nat → M Nat
  | 0, _, _ => fail .diverge
  | fuel + 1, iter, prev =>
    if iter = 0 ∨ blk ≤ iter then pure prev
    else do
      let nx ← get lim iter 0
      findPlace lim blk fuel nx iter

/-- Lines 425-431: the block is merged with its successor in the free list if that
is adjacent. -/
def mergeNext (lim curr next : Nat) : M Unit := do
  let bs ← get lim curr 24
  if next ≠ 0 ∧ w64 (curr + bs) = next then do
    let ns ← get lim next 24
    set lim curr 24 (w64 (bs + ns))
    let nn ← get lim next 0
    set lim curr 0 nn
  else set lim curr 0 next

/-- Lines 414-422: the block is merged with its predecessor in the free list if that
is adjacent, otherwise linked behind it.  The result is the block that contains it
now. -/
def mergePrev (lim curr prev : Nat) : M Nat :=
  if prev ≠ 0 then do
    let ps ← get lim prev 24
    if w64 (prev + ps) = curr then do
      let bs ← get lim curr 24
      set lim prev 24 (w64 (ps + bs))
      pure prev
    else do
      putNext lim 64 prev curr
      pure curr
  else do
    putNext lim 64 prev curr
    pure curr

/-- Line 406. -/
def successor (lim prev : Nat) : M Nat := if prev ≠ 0 then get lim prev 0 else ld lim 64

/-- The part of `releaseBlock` that puts a block among the free ones (lines 396-431). -/
def insertFree (lim curr : Nat) : M Unit := do
  let f ← ld lim 64
  let prev ← findPlace lim curr (lim + 1) f 0
  let next ← successor lim prev
  let curr ← mergePrev lim curr prev
  mergeNext lim curr next

/-- `releaseBlock` (lines 389-432). -/
def releaseBlock (lim curr prev : Nat) : M Unit := do
  let nx ← get lim curr 0
  putNext lim 72 prev nx
  insertFree lim curr

/-- The part of `deallocate` after the block has been found from the pointer (lines 253-276). -/
def dropBlock (lim blk : Nat) : M Unit := do
  let r ← get lim blk 32
  set lim blk 32 (w64 (r + (W - 1)))
  if w64 (r + (W - 1)) = 0 then do
    let act ← ld lim 56
    let bs ← get lim blk 24
    st lim 56 (w64 (act + (W - bs)))
    set lim blk 16 0
    set lim blk 8 0
    let u ← ld lim 72
    let prev ← findPrev lim blk (lim + 1) u 0
    releaseBlock lim blk prev
  else pure ()

/-- `deallocate` (lines 241-281) of the memory at offset `p`. -/
def deallocate (lim p : Nat) : M Unit := dropBlock lim (w64 (p + (W - 48)))

/-- `find_pointer_from_name` (lines 283-302); `none` is the null pointer. -/
def findPointer (lim : Nat) (name : List Nat) : M (Option Nat) := do
  let u ← ld lim 72
  let e ← findExisting lim name (lim + 1) u
  if e ≠ 0 then do
    let p ← get lim e 16
    pure (some p)
  else pure none

/-- `getActualSize` (lines 304-319). -/
def getActualSize (lim : Nat) : M Nat := ld lim 56

/-- The constructor in the process that creates the segment (lines 119-130). -/
def create (lim size : Nat) : M Unit := do
  st lim 48 size
  st lim 64 80
  st lim 56 80
  st lim 72 0
  set lim 80 0 0
  set lim 80 8 0
  set lim 80 24 (w64 (size + (W - 80)))
  set lim 80 32 0

end Umpire.Shm
