import Verif.Rebuild.Log
import Verif.Replay.Props
/-!
# Replay: from the log file to the calls (tools/replay)

The interpreter on events as `get_events` returns them: texts for addresses, texts for keys, the
entries of `Rebuild`, the operations of `Replay`.  Then the tool as a whole: the file with the
compiled operations beside the log, the option to compile again, and what is left in that file
when compiling fails.

Simplifications: an exit in the middle of an event leaves the table as it was before the event
(the count of allocators may already be one higher).  A file of an earlier run that is compiled again
is written over without being cleared; slots beyond the counted operations count as zero here.
-/
set_option autoImplicit false
namespace Umpire.Trace
open Umpire.Events (Event Str get Rec getEvents hexVal)
open Umpire.Replay (Op Call viaInt maxAllocators)
open Umpire.Rebuild (Entry Opts Did Made strArg numArg toInt makeEvent resourceEvent osPtr compileResource)

/-! ## `std::stoul(s, nullptr, 0)` -/

/-- `isspace`. -/
def isSpace (b : Nat) : Bool := decide (9 ≤ b ∧ b ≤ 13) || decide (b = 32)

/-- Digits of a base, from the left, up to the first byte that is none. -/
def digits (base : Nat) : Nat → Str → Nat
  | n, b :: s =>
    match hexVal b with
    | some d => if d < base then digits base (base * n + d) s else n
    | none => n
  | n, [] => n

/-- `b` is a digit of the base. -/
def isDigit (base b : Nat) : Bool := match hexVal b with | some d => decide (d < base) | none => false

/-- The number without sign; the base is 16 after `0x`, 8 after `0`, otherwise 10.  `none`: no digit. -/
def magnitude : Str → Option Nat
  | 48 :: 120 :: b :: s => if isDigit 16 b then some (digits 16 0 (b :: s)) else some 0
  | 48 :: 88 :: b :: s => if isDigit 16 b then some (digits 16 0 (b :: s)) else some 0
  | 48 :: s => some (digits 8 0 s)
  | b :: s => if isDigit 10 b then some (digits 10 0 (b :: s)) else none
  | [] => none

/-- The sign. -/
def sign : Str → Bool × Str
  | 43 :: s => (false, s)
  | 45 :: s => (true, s)
  | s => (false, s)

/-- `std::stoul(s, nullptr, 0)` (ReplayInterpreter.cpp:677, 688).  `none`: it throws, no number or too
large. -/
def stoul (s : Str) : Option Nat :=
  let x := sign (s.dropWhile isSpace)
  match magnitude x.2 with
  | some n => if n < 2 ^ 64 then some (if x.1 then (2 ^ 64 - n) % 2 ^ 64 else n) else none
  | none => none

/-! ## The interpreter -/

/-- The interpreter (ReplayInterpreter.hpp:41-54) and the tables; `slot` is `ops[num_operations]`,
`major` is not initialised before a version event. -/
structure T where
  ops : List Op
  slot : Op
  ids : List (Str × Nat)
  refs : List (Nat × Nat)
  names : List (Str × Nat)
  entries : List Entry
  line : Nat
  flag : Bool
  major : Option Nat
deriving DecidableEq, Repr

/-- Before the first event (ReplayInterpreter.cpp:61-67). -/
def T.init : T := ⟨[{ Op.zero with kind := .allocate }], .zero, [], [], [], [], 0, false, none⟩

/-- Write a slot and count it. -/
def T.push (t : T) (o : Op) : T := { t with ops := t.ops ++ [o], slot := .zero }

/-- `getAllocatorIndex` (ReplayInterpreter.cpp:675-684).  `none`: exception or exit. -/
def T.index (t : T) (ref : Str) : Option Nat := (stoul ref).bind fun r => Replay.find r t.refs

/-- `compile_make_memory_resource` and the end of `compile_make_allocator`
(ReplayInterpreter.cpp:375-404, 642-660). -/
def T.make (t : T) (e : Event) (x : Entry) : Option T :=
  match stoul (strArg e b!"allocator_ref") with
  | none => none
  | some r =>
    if t.entries.length + 1 ≥ maxAllocators then none
    else
      let a := t.entries.length
      let t' := t.push { Op.zero with kind := .creation, line := t.line, alloc := a }
      some { t' with refs := (r, a) :: t.refs, names := ((get b!"allocator_name" e.tags).getD [], a) :: t.names, entries := t.entries ++ [x] }

/-- `allocator_ref + pointer` (ReplayInterpreter.cpp:703, 734, 754, 769). -/
def keyOf (e : Event) (k : Str) : Str := strArg e b!"allocator_ref" ++ strArg e k

/-- `compile_allocate` (ReplayInterpreter.cpp:693-719). -/
def T.allocate (t : T) (e : Event) : Option T :=
  if t.flag then some t
  else
    match t.index (strArg e b!"allocator_ref") with
    | none => none
    | some a =>
      match Replay.find (keyOf e b!"pointer") t.ids with
      | some _ => none
      | none =>
        let t' := t.push { Op.zero with kind := .allocate, line := t.line, alloc := a, size := numArg e b!"size" }
        some { t' with ids := (keyOf e b!"pointer", viaInt t.ops.length) :: t.ids }

/-- `compile_reallocate`, first event (ReplayInterpreter.cpp:727-751). -/
def T.realloc1 (t : T) (e : Event) : Option T :=
  match stoul (strArg e b!"current_ptr") with
  | none => none
  | some cur =>
    match (if cur = 0 then some 0 else Replay.find (keyOf e b!"current_ptr") t.ids), t.index (strArg e b!"allocator_ref") with
    | some j, some a =>
      some { t with
        flag := true
        slot := { Op.zero with kind := .reallocateEx, line := t.line, alloc := a, size := numArg e b!"size", src1 := j }
        ids := if cur = 0 then t.ids else Replay.erase (keyOf e b!"current_ptr") t.ids }
    | _, _ => none

/-- `compile_reallocate`, second event (ReplayInterpreter.cpp:752-762). -/
def T.realloc2 (t : T) (e : Event) : Option T :=
  match Replay.find (keyOf e b!"new_ptr") t.ids with
  | some _ => none
  | none =>
    let t' := t.push t.slot
    some { t' with ids := (keyOf e b!"new_ptr", viaInt t.ops.length) :: t.ids, flag := false }

/-- `compile_deallocate` (ReplayInterpreter.cpp:765-802). -/
def T.deallocate (t : T) (e : Event) : Option T :=
  if t.flag then some t
  else
    match Replay.find (keyOf e b!"pointer") t.ids, t.index (strArg e b!"allocator_ref") with
    | _, none => none
    | none, some _ => some t
    | some j, some a =>
      let t' := t.push { Op.zero with kind := .deallocate, line := t.line, alloc := a, src0 := j }
      some { t' with ids := Replay.erase (keyOf e b!"pointer") t.ids }

/-- `strip_off_base` (ReplayInterpreter.cpp:364-373). -/
def stripBase (s : Str) : Str :=
  if s.length > 5 ∧ s.drop (s.length - 5) = b!"_base" then s.take (s.length - 5) else s

/-- `compile_coalesce` (ReplayInterpreter.cpp:804-817). -/
def T.coalesce (t : T) (e : Event) : Option T :=
  let nm := stripBase ((get b!"allocator_name" e.tags).getD [])
  let a := (Replay.find nm t.names).getD 0
  let names' := match Replay.find nm t.names with
    | none => (nm, 0) :: t.names
    | some _ => t.names
  some { (t.push { Op.zero with kind := .coalesce, line := t.line, alloc := a }) with names := names' }

/-- `compile_release`, `compile_set_default_allocator` (ReplayInterpreter.cpp:662-673, 819-830). -/
def T.on (k : Replay.Kind) (t : T) (e : Event) : Option T :=
  match t.index (strArg e b!"allocator_ref") with
  | none => none
  | some a => some (t.push { Op.zero with kind := k, line := t.line, alloc := a })

/-- Operations that are only counted (ReplayInterpreter.cpp:128-133, 147-152). -/
def counted : List Str := [b!"copy", b!"move", b!"register_external_allocation", b!"deregister_external_allocation"]

/-- One event (ReplayInterpreter.cpp:77-166).  `none`: the tool ends with an error; it is also used for a
creation before any version event, where an uninitialised value is read. -/
def step (noDemangle : Bool) (t0 : T) (e : Event) : Option T :=
  let t := { t0 with line := t0.line + 1 }
  if e.cat ≠ .operation ∧ e.name = b!"version" then some { t with major := some (toInt (numArg e b!"major")).toNat }
  else if e.cat ≠ .operation then some t
  else if e.name = b!"allocate" then t.allocate e
  else if e.name = b!"deallocate" then t.deallocate e
  else if e.name = b!"make_allocator" then
    match t.major with
    | none => none
    | some v =>
      match Rebuild.compileMake noDemangle v e with
      | none => none
      | some x => t.make e x
  else if e.name = b!"make_memory_resource" then
    match compileResource e with
    | none => none
    | some x => t.make e x
  else if e.name = b!"reallocate" then
    match get b!"new_ptr" e.strs with
    | none => t.realloc1 e
    | some _ => t.realloc2 e
  else if e.name = b!"set_default_allocator" then t.on .setDefault e
  else if e.name = b!"coalesce" then t.coalesce e
  else if e.name = b!"release" then t.on .release e
  else if e.name ∈ counted then some t
  else none

/-- The loop (ReplayInterpreter.cpp:77-167): the table when it ends, and whether it got through. -/
def interpret (noDemangle : Bool) (t : T) : List Event → Bool × T
  | [] => (true, t)
  | e :: es =>
    match step noDemangle t e with
    | none => (false, t)
    | some t' => interpret noDemangle t' es

/-! ## The tool -/

/-- `buildOperations` with the constructor of `ReplayFile` (ReplayInterpreter.cpp:52-173, ReplayFile.cpp:24-56,
105-133): `bin` is the table in the file beside the log, if there is one with the right magic number and
version.  The log is looked at only if there is none or if compiling is forced. -/
def buildOps (force noDemangle : Bool) (bin : Option T) (log : Str) : Bool × T :=
  match force, bin with
  | false, some t => (true, t)
  | _, _ =>
    match getEvents log with
    | none => (false, .init)
    | some es => interpret noDemangle .init es

/-- What an operation does when it is run. -/
inductive Do
  | create (d : Option Did)
  | call (c : Call)
deriving DecidableEq, Repr

/-- The entry an `ALLOCATOR_CREATION` is for. -/
def toDo (o : Opts) (es : List Entry) : Call → Do
  | .create a => .create (es[a]?.map (Rebuild.make o))
  | c => .call c

/-- `runOperations` (ReplayOperationManager.cpp:146-260). -/
def T.run (o : Opts) (ret : Nat → Nat) (t : T) : Option (List Do) :=
  (Replay.replay ret t.ops).map fun l => l.map (toDo o t.entries)

/-- One run of `replay` (replay.cpp:29-80): what it does, and the file it leaves.  The magic number is
written first (ReplayFile.cpp:54-55) and the table is a shared mapping, so a run that ends with an error
leaves a valid file (ReplayMacros.hpp:32-37). -/
def tool (o : Opts) (force noDemangle : Bool) (bin : Option T) (log : Str) (ret : Nat → Nat) : Option (List Do) × Option T :=
  let x := buildOps force noDemangle bin log
  (if x.1 then x.2.run o ret else none, some x.2)

/-! ## What is recorded -/

/-- What is created. -/
inductive What
  | resource (n : Str)
  | made (m : Made)
deriving DecidableEq, Repr

/-- What the library tells the recorder, with the names and times that the texts have in addition. -/
inductive Note
  | make (ref : Nat) (w : What) (tracked : Bool) (t : Int)
  | alloc (ref ptr size : Nat) (t : Int)
  | dealloc (ref ptr : Nat) (t : Int)
  | realloc1 (ref cur size : Nat) (nm : Str) (async : Bool) (t : Int)
  | realloc2 (ref new : Nat) (nm : Str) (t : Int)
  | setDefault (ref : Nat) (nm : Str) (t : Int)
  | coalesce (nm : Str) (t : Int)
  | release (ref : Nat) (nm : Str) (t : Int)
  | quiet (e : Event)
  | memset (e : Event)
deriving Repr

/-- The tags that most events have. -/
def tagsOf (nm : Str) : List (Str × Str) := Events.set b!"replay" b!"true" (Events.set b!"allocator_name" nm [])

/-- The first event of `reallocate` (ResourceManager.cpp:547-555, 581-590, 607-615, 633-642). -/
def realloc1Event (ref cur size : Nat) (nm : Str) (async : Bool) (t : Int) : Event :=
  { name := b!"reallocate", cat := .operation,
    strs := Events.set b!"allocator_ref" (osPtr ref) (Events.set b!"current_ptr" (osPtr cur) []), nums := [(b!"size", size)],
    tags := if async then Events.set b!"async" b!"true" (tagsOf nm) else tagsOf nm, time := t }

/-- The second event of `reallocate` (ResourceManager.cpp:559-565, 594-600, 619-625, 646-652). -/
def realloc2Event (ref new : Nat) (nm : Str) (t : Int) : Event :=
  { name := b!"reallocate", cat := .operation,
    strs := Events.set b!"new_ptr" (osPtr new) (Events.set b!"allocator_ref" (osPtr ref) []), nums := [],
    tags := [(b!"allocator_name", nm)], time := t }

/-- `set_default_allocator`, `release` (ResourceManager.cpp:275-281, Allocator.cpp:30-36). -/
def onEvent (name : Str) (ref : Nat) (nm : Str) (t : Int) : Event :=
  { name := name, cat := .operation, strs := [(b!"allocator_ref", osPtr ref)], nums := [], tags := tagsOf nm, time := t }

/-- `coalesce` (QuickPool.cpp:320-322, DynamicPoolList.cpp:128-130). -/
def coalesceEvent (nm : Str) (t : Int) : Event :=
  { name := b!"coalesce", cat := .operation, strs := [], nums := [], tags := tagsOf nm, time := t }

/-- The record. -/
def Note.record : Note → Rec
  | .make ref (.resource n) tr t => .event (resourceEvent ref n tr t)
  | .make ref (.made m) _ t => .event (makeEvent ref m t)
  | .alloc ref ptr size t => .allocate size ref ptr t
  | .dealloc ref ptr t => .deallocate ref ptr t
  | .realloc1 ref cur size nm async t => .event (realloc1Event ref cur size nm async t)
  | .realloc2 ref new nm t => .event (realloc2Event ref new nm t)
  | .setDefault ref nm t => .event (onEvent b!"set_default_allocator" ref nm t)
  | .coalesce nm t => .event (coalesceEvent nm t)
  | .release ref nm t => .event (onEvent b!"release" ref nm t)
  | .quiet e => .event e
  | .memset e => .event e

end Umpire.Trace
