import Verif.Replay.Model
/-!
# What the recorded program did

The specification side of replay: a program makes calls on Umpire; a call that
allocates is identified by its number, and a later free names the call whose
block it frees.  Nothing here mentions keys, tables or operations.  `perform`
gives the calls an action stands for and the events Umpire records for it; the
pointers returned are arbitrary except that a live block is never handed out
again by the same allocator.
-/
set_option autoImplicit false
set_option linter.unusedSimpArgs false
namespace Umpire.Replay

/-- A live block: number of the call that produced it, allocator, address. -/
structure Blk where
  id : Nat
  a : Nat
  p : Nat
deriving DecidableEq, Repr

/-- The recorded program's state: number of the next call (from 1), live blocks,
allocators in order of creation with address and name. -/
structure P where
  n : Nat
  live : List Blk
  as : List (Nat × List Char)
deriving DecidableEq, Repr

/-- No call made yet. -/
def P.init : P := ⟨1, [], []⟩

/-- What a program does. -/
inductive Act
  /-- Create an allocator or a resource. -/
  | make (ref : Nat) (name : List Char)
  /-- `a.allocate(n)`, returning `p`. -/
  | alloc (a n p : Nat)
  /-- `deallocate` of the block produced by call `id`. -/
  | free (id : Nat)
  /-- `a.deallocate(p)` for an address that is no live block of `a` (null, or a
  wrong pointer, which Umpire rejects after recording the event). -/
  | stray (a p : Nat)
  /-- `reallocate` of the block of call `id` (0: null) to `n` bytes, returning
  `p`; `inner` are the events recorded while it runs. -/
  | realloc (a id n p : Nat) (inner : List Ev)
  /-- A `reallocate` that throws: the block stays. -/
  | reallocFail (a id n : Nat) (inner : List Ev)
  /-- Another thread makes the call `a.allocate(m)`, returning `q`, while
  `reallocate` of a null pointer runs. -/
  | reallocRace (a n p m q : Nat)
  | setDefault (a : Nat)
  | coalesce (a : Nat)
  | release (a : Nat)
  /-- `copy`, `move`, external registration, metadata. -/
  | quiet
  /-- `memset`. -/
  | memset
deriving DecidableEq, Repr

/-- Events that a `reallocate` records between its own two: allocations,
deallocations and copies. -/
def innerOk : Ev → Bool
  | .alloc _ _ _ => true
  | .dealloc _ _ => true
  | .quiet => true
  | _ => false

/-- Result of an action: next state, recorded events, calls made.  In a call the
pointer argument is the number of the call that produced it, 0 for null. -/
structure Done where
  next : P
  evs : List Ev
  calls : List Call
deriving DecidableEq, Repr

/-- The live block of call `id`. -/
def P.blk (s : P) (id : Nat) : Option Blk := s.live.find? (fun b => decide (b.id = id))

/-- `p` may be returned by allocator `a`: not null and not live there. -/
def P.fresh (s : P) (a p : Nat) : Bool := decide (p ≠ 0) && s.live.all (fun b => decide (¬(b.a = a ∧ b.p = p)))

/-- Without a block. -/
def P.without (s : P) (id : Nat) : P := { s with live := s.live.filter (fun b => decide (b.id ≠ id)) }

/-- A new block from the call numbered `s.n`. -/
def P.born (s : P) (a p : Nat) : P := { s with n := s.n + 1, live := ⟨s.n, a, p⟩ :: s.live }

/-- A call that produces no block. -/
def P.tick (s : P) : P := { s with n := s.n + 1 }

/-- The name survives the `_base` suffix rule of the coalesce event. -/
def plainName (nm : List Char) : Bool := decide (stripBase nm = nm)

/-- Perform an action; `none` if it is not possible. -/
def perform (s : P) : Act → Option Done
  | .make ref nm =>
    if s.as.all (fun e => decide (e.1 ≠ ref) && decide (e.2 ≠ nm)) ∧ s.as.length + 1 < maxAllocators then
      some ⟨{ s.tick with as := s.as ++ [(ref, nm)] }, [.make ref nm], [.create s.as.length]⟩
    else none
  | .alloc a n p =>
    match s.as[a]? with
    | none => none
    | some (r, _) =>
      if s.n < 2 ^ 31 ∧ s.fresh a p then some ⟨s.born a p, [.alloc r p n], [.allocate a n]⟩ else none
  | .free id =>
    match s.blk id with
    | none => none
    | some b =>
      match s.as[b.a]? with
      | none => none
      | some (r, _) => some ⟨(s.without id).tick, [.dealloc r b.p], [.deallocate b.a id]⟩
  | .stray a p =>
    match s.as[a]? with
    | none => none
    | some (r, _) =>
      if s.live.all (fun b => decide (¬(b.a = a ∧ b.p = p))) then some ⟨s, [.dealloc r p], []⟩ else none
  | .realloc a id n p inner =>
    match s.as[a]? with
    | none => none
    | some (r, _) =>
      if s.n < 2 ^ 31 ∧ inner.all innerOk then
        if id = 0 then
          if s.fresh a p then
            some ⟨s.born a p, .realloc1 r 0 n :: (inner ++ [.realloc2 r p]), [.reallocate a 0 n]⟩
          else none
        else
          match s.blk id with
          | none => none
          | some b =>
            if b.a = a ∧ (s.without id).fresh a p then
              some ⟨(s.without id).born a p, .realloc1 r b.p n :: (inner ++ [.realloc2 r p]), [.reallocate a id n]⟩
            else none
      else none
  | .reallocFail a id n inner =>
    match s.as[a]? with
    | none => none
    | some (r, _) =>
      if inner.all innerOk then
        if id = 0 then some ⟨s, .realloc1 r 0 n :: inner, []⟩
        else
          match s.blk id with
          | none => none
          | some b => if b.a = a then some ⟨s, .realloc1 r b.p n :: inner, []⟩ else none
      else none
  | .reallocRace a n p m q =>
    match s.as[a]? with
    | none => none
    | some (r, _) =>
      if s.n + 1 < 2 ^ 31 ∧ s.fresh a q ∧ (s.born a q).fresh a p then
        some ⟨(s.born a q).born a p, [.realloc1 r 0 n, .alloc r q m, .realloc2 r p],
          [.allocate a m, .reallocate a 0 n]⟩
      else none
  | .setDefault a =>
    match s.as[a]? with
    | none => none
    | some (r, _) => some ⟨s.tick, [.setDefault r], [.setDefault a]⟩
  | .coalesce a =>
    match s.as[a]? with
    | none => none
    | some (_, nm) => some ⟨s.tick, [.coalesce nm], [.coalesce a]⟩
  | .release a =>
    match s.as[a]? with
    | none => none
    | some (r, _) => some ⟨s.tick, [.release r], [.release a]⟩
  | .quiet => some ⟨s, [.quiet], []⟩
  | .memset => some ⟨s, [.other], []⟩

/-- A whole program. -/
def program (s : P) : List Act → Option Done
  | [] => some ⟨s, [], []⟩
  | x :: xs =>
    match perform s x with
    | none => none
    | some d =>
      match program d.next xs with
      | none => none
      | some d' => some ⟨d'.next, d.evs ++ d'.evs, d.calls ++ d'.calls⟩

/-- Programs whose traces replay faithfully: no `reallocate` that throws or that
overlaps another thread's call, no `memset`, and `coalesce` only on allocators
whose name does not end in `_base`. -/
def clean (s : P) : Act → Bool
  | .reallocFail _ _ _ _ => false
  | .reallocRace _ _ _ _ _ => false
  | .memset => false
  | .coalesce a => match s.as[a]? with | none => true | some (_, nm) => plainName nm
  | _ => true

/-- Every action of the program is clean in the state it runs in. -/
def cleanRun (s : P) : List Act → Bool
  | [] => true
  | x :: xs =>
    clean s x && (match perform s x with | none => true | some d => cleanRun d.next xs)

/-- A call of the recorded program, with block numbers replaced by the pointers
the replay got for those calls. -/
def Call.withPtrs (ret : Nat → Nat) : Call → Call
  | .deallocate a id => .deallocate a (if id = 0 then 0 else ret id)
  | .reallocate a id n => .reallocate a (if id = 0 then 0 else ret id) n
  | c => c

end Umpire.Replay
