import Verif.Replay.Program
/-!
# Threads that record events

Source: `src/umpire/Allocator.inl` lines 20–112 (where `do_allocate` and `do_deallocate` record), `src/umpire/ResourceManager.cpp`
lines 535–656 (`reallocate`), 658–705 (`reallocate_impl`), 757–832 (`move`), `src/umpire/op/HostReallocateOperation.cpp`,
`src/umpire/op/GenericReallocateOperation.cpp`, `src/umpire/event/json_file_store.cpp` lines 30–88.

A call is a sequence of small steps: taking a block from the strategy, giving one back, writing one record to the log.
The small steps of the calls of any number of threads interleave arbitrarily.  A block can be taken while another thread
is between giving it back and whatever it does next; what a strategy gives is any address not held at that moment (for
that allocator).

Simplified: a record is one step (one `fprintf`, which POSIX makes atomic); the address a call will get is fixed when the
call begins, and the step that takes it is possible only when the address is free then; `registerAllocation` and
`deregisterAllocation` leave no trace here.  Users deallocate, reallocate and move only blocks whose allocating call has
returned, and not the same one in two threads; deallocating anything else is `stray`.
-/
set_option autoImplicit false
namespace Umpire.Multi
open Umpire.Replay (Ev Blk Call)

/-- The small steps.  `a` is the number of an allocator, `p` an address. -/
inductive Micro
  /-- `m_allocator->allocate` (Allocator.inl:31-37) -/
  | take (a p : Nat)
  /-- `m_allocator->deallocate` (Allocator.inl:103, 107) -/
  | give (a p : Nat)
  /-- the record of `do_allocate` (Allocator.inl:44) -/
  | logA (a n p : Nat)
  /-- the record of `do_deallocate` (Allocator.inl:93) for a block of the user -/
  | logD (a p : Nat)
  /-- the same for a null or wrong pointer -/
  | stray (a p : Nat)
  /-- the two inside a reallocation -/
  | inA (a n p : Nat)
  | inD (a p : Nat)
  /-- the first record of `reallocate` (ResourceManager.cpp:547); 0 is the null pointer -/
  | re1 (a p n : Nat)
  /-- the second (559) -/
  | re2 (a n p : Nat)
  /-- `copy`, `move` (393, 821) -/
  | quiet
  /-- makeAllocator, makeResource (ResourceManager.inl:39, ResourceManager.cpp:161) -/
  | make (ref : Nat) (name : List Char)
  | setDefault (a : Nat)
  | coalesce (a : Nat)
  | release (a : Nat)
deriving DecidableEq, Repr

/-- The calls of users. -/
inductive Cmd
  | alloc (a n p : Nat)
  | free (a p : Nat)
  | stray (a p : Nat)
  /-- `reallocate` of the block at `p`, that is at `p'` afterwards -/
  | realloc (a p n p' : Nat)
  /-- in HOST: `::realloc` frees the old block before it has the new one, or after -/
  | reallocHost (a p n p' : Nat) (early : Bool)
  | reallocZero (a p p' : Nat)
  | reallocNull (a n p' : Nat)
  | move (a p b n p' : Nat)
  | copy
  | make (ref : Nat) (name : List Char)
  | setDefault (a : Nat)
  | coalesce (a : Nat)
  | release (a : Nat)
deriving DecidableEq, Repr

def micros : Cmd → List Micro
  | .alloc a n p => [.take a p, .logA a n p]                                     -- Allocator.inl:31-45
  | .free a p => [.logD a p, .give a p]                                          -- 93-110
  | .stray a p => [.stray a p]
  | .realloc a p n p' =>                                                         -- GenericReallocateOperation.cpp:20-32
    [.re1 a p n, .take a p', .inA a n p', .quiet, .inD a p, .give a p, .re2 a n p']
  | .reallocHost a p n p' true => [.re1 a p n, .give a p, .take a p', .re2 a n p']   -- HostReallocateOperation.cpp:35-43
  | .reallocHost a p n p' false => [.re1 a p n, .take a p', .give a p, .re2 a n p']
  | .reallocZero a p p' =>                                                       -- ResourceManager.cpp:682-684
    [.re1 a p 0, .inD a p, .give a p, .take a p', .inA a 0 p', .re2 a 0 p']
  | .reallocNull a n p' => [.re1 a 0 n, .take a p', .inA a n p', .re2 a n p']    -- 668-669
  | .move a p b n p' =>                                                          -- 816-829
    [.take b p', .logA b n p', .quiet, .logD a p, .give a p, .quiet]
  | .copy => [.quiet]
  | .make ref nm => [.make ref nm]
  | .setDefault a => [.setDefault a]
  | .coalesce a => [.coalesce a]
  | .release a => [.release a]

/-- `reallocate` of null is a case of its own (ResourceManager.cpp:668). -/
def Cmd.sane : Cmd → Prop
  | .realloc _ p _ _ => p ≠ 0
  | .reallocHost _ p _ _ _ => p ≠ 0
  | .reallocZero _ p _ => p ≠ 0
  | _ => True

/-- The state.  `has` are the blocks that users have got and not begun to hand back, each with the number of the call that
produced it; `held` those not in the hands of the strategies; `calls` the calls recorded so far, with their threads (a
pointer argument is the number of the call that produced it); `open_` the thread between the two records of `reallocate`,
with the number of the old block (the last to enter, should two threads be there; then `calls` names the wrong old block). -/
structure S where
  as : List (Nat × List Char)
  held : List (Nat × Nat)
  has : List Blk
  log : List Ev
  calls : List (Nat × Call)
  open_ : Option (Nat × Nat)
  todo : Nat → List Micro

def S.init : S := ⟨[], [], [], [], [], none, fun _ => []⟩

/-- The block of a user at `p`. -/
def S.find (s : S) (a p : Nat) : Option Blk := s.has.find? fun b => decide (b.a = a ∧ b.p = p)

def S.lose (s : S) (id : Nat) : S := { s with has := s.has.filter fun b => decide (b.id ≠ id) }

/-- The block of the call recorded next. -/
def S.gain (s : S) (a p : Nat) : S := { s with has := ⟨s.calls.length + 1, a, p⟩ :: s.has }

def S.write (s : S) (e : Ev) : S := { s with log := s.log ++ [e] }

def S.made (s : S) (t : Nat) (c : Call) : S := { s with calls := s.calls ++ [(t, c)] }

/-- One small step of thread `t`; `none`: not possible. -/
def exec (t : Nat) (s : S) : Micro → Option S
  | .take a p => if p ≠ 0 ∧ (a, p) ∉ s.held then some { s with held := (a, p) :: s.held } else none
  | .give a p => some { s with held := s.held.filter fun x => decide (x ≠ (a, p)) }
  | .logA a n p =>
    match s.as[a]? with
    | none => none
    | some (r, _) => some (((s.gain a p).write (.alloc r p n)).made t (.allocate a n))
  | .logD a p =>
    match s.as[a]?, s.find a p with
    | some (r, _), some b => some (((s.lose b.id).write (.dealloc r p)).made t (.deallocate a b.id))
    | _, _ => none
  | .stray a p =>
    match s.as[a]?, s.find a p with
    | some (r, _), none => some (s.write (.dealloc r p))
    | _, _ => none
  | .inA a n p =>
    match s.as[a]? with
    | none => none
    | some (r, _) => some (s.write (.alloc r p n))
  | .inD a p =>
    match s.as[a]? with
    | none => none
    | some (r, _) => some (s.write (.dealloc r p))
  | .re1 a p n =>
    match s.as[a]? with
    | none => none
    | some (r, _) =>
      if p = 0 then some { s.write (.realloc1 r p n) with open_ := some (t, 0) }
      else
        match s.find a p with
        | none => none
        | some b => some { (s.lose b.id).write (.realloc1 r p n) with open_ := some (t, b.id) }
  | .re2 a n p =>
    match s.as[a]?, s.open_ with
    | some (r, _), some (_, id) =>
      some { ((s.gain a p).write (.realloc2 r p)).made t (.reallocate a id n) with open_ := none }
    | _, _ => none
  | .quiet => some (s.write .quiet)
  | .make ref nm =>                     -- names are unique (C28), strategies are not destroyed before the end
    if s.as.all (fun e => decide (e.1 ≠ ref) && decide (e.2 ≠ nm)) ∧ s.as.length + 1 < Replay.maxAllocators then
      some { (s.write (.make ref nm)).made t (.create s.as.length) with as := s.as ++ [(ref, nm)] }
    else none
  | .setDefault a =>
    match s.as[a]? with
    | none => none
    | some (r, _) => some ((s.write (.setDefault r)).made t (.setDefault a))
  | .coalesce a =>
    match s.as[a]? with
    | none => none
    | some (_, nm) => some ((s.write (.coalesce nm)).made t (.coalesce a))
  | .release a =>
    match s.as[a]? with
    | none => none
    | some (r, _) => some ((s.write (.release r)).made t (.release a))

def S.then_ (s : S) (t : Nat) (l : List Micro) : S := { s with todo := fun u => if u = t then l else s.todo u }

/-- The steps of thread `t`.  A call that throws for lack of memory before it has recorded anything is no step; a
`reallocate` that throws is excluded (C46). -/
inductive Step (t : Nat) : S → S → Prop
  /-- a call begins -/
  | call (c : Cmd) (m : Micro) (l : List Micro) (s s' : S) (h0 : s.todo t = []) (hs : c.sane) (hc : micros c = m :: l)
      (he : exec t s m = some s') : Step t s (s'.then_ t l)
  /-- a call goes on -/
  | next (m : Micro) (l : List Micro) (s s' : S) (h0 : s.todo t = m :: l) (he : exec t s m = some s') :
      Step t s (s'.then_ t l)

/-- The states that can be reached. -/
inductive Reach : S → Prop
  | init : Reach .init
  | step {s s' : S} (h : Reach s) (t : Nat) (st : Step t s s') : Reach s'

end Umpire.Multi
