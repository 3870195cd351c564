import Verif.Events.Json
/-!
# The event log (src/umpire/event)

Events, their JSON form, the file they are appended to and the function that reads
them back.  `fprintf` and `getline` are modelled on the text of the file: writing
appends, reading splits at newlines.  Not modelled: buffering and input/output errors
other than a failing `fopen`.
-/
set_option autoImplicit false
namespace Umpire.Events

/-- `category` (event.hpp:33). -/
inductive Cat
  | operation | statistic | metadata
deriving DecidableEq, Repr

/-- `event` (event.hpp:35-42).  The three maps are `std::map`s.  The time stamp is
its count of nanoseconds. -/
structure Event where
  name : Str
  cat : Cat
  strs : List (Str × Str)
  nums : List (Str × Nat)
  tags : List (Str × Str)
  time : Int
deriving DecidableEq, Repr

/-- What can be recorded: a generic event, or one of the three frequent events with
fixed layout (event.hpp:35-63). -/
inductive Rec
  | event (e : Event)
  | allocate (size ref ptr : Nat) (time : Int)
  | namedAllocate (size ref ptr : Nat) (name : Str) (time : Int)
  | deallocate (ref ptr : Nat) (time : Int)
deriving DecidableEq, Repr

/-! ## Writing -/

/-- Names of the categories (event_json.hpp:16-20). -/
def Cat.text : Cat → Str
  | .operation => b!"operation"
  | .statistic => b!"statistic"
  | .metadata => b!"metadata"

/-- `to_json` (event_json.hpp:22-33) and `operator<<` (json.hpp:24305-24318) of an
event: an object with sorted keys. -/
def dumpEvent (e : Event) : Option Str := do
  let cat ← dumpStr e.cat.text
  let name ← dumpStr e.name
  let nums ← dumpObj (fun n => some (dec n)) e.nums
  let strs ← dumpObj dumpStr e.strs
  let tags ← dumpObj dumpStr e.tags
  return b!"{\"category\":" ++ cat ++ b!",\"name\":" ++ name ++ b!",\"numeric_args\":" ++ nums ++
    b!",\"string_args\":" ++ strs ++ b!",\"tags\":" ++ tags ++ b!",\"timestamp\":" ++ decI e.time ++ b!"}"

/-- Hexadecimal digits; `fuel` bounds their number. -/
def hexF : Nat → Nat → Str
  | 0, _ => []
  | f + 1, n => if n < 16 then [hexDigit n] else hexF f (n / 16) ++ [hexDigit (n % 16)]

/-- `%p` as glibc prints it. -/
def ptrText (p : Nat) : Str := if p = 0 then b!"(nil)" else b!"0x" ++ hexF 16 p

/-- A `size_t` passed where `%ld` is expected: printed as the signed number with the
same bits. -/
def asLong (n : Nat) : Int := if n < 2 ^ 63 then n else (n : Int) - 2 ^ 64

/-- `insert(const allocate&)` (json_file_store.cpp:38-50). -/
def allocateLine (size ref ptr : Nat) (time : Int) : Str :=
  b!"{\"category\":\"operation\",\"name\":\"allocate\",\"numeric_args\":{\"size\":" ++ decI (asLong size) ++
  b!"},\"string_args\":{\"allocator_ref\":\"" ++ ptrText ref ++ b!"\",\"pointer\":\"" ++ ptrText ptr ++
  b!"\"},\"tags\":{\"replay\":\"true\"},\"timestamp\":" ++ decI time ++ b!"}"

/-- `insert(const named_allocate&)` (json_file_store.cpp:52-64).  The name goes
through `%s`: up to the first zero byte, nothing escaped. -/
def namedAllocateLine (size ref ptr : Nat) (name : Str) (time : Int) : Str :=
  b!"{\"category\":\"operation\",\"name\":\"named_allocate\",\"numeric_args\":{\"size\":" ++ decI (asLong size) ++
  b!"},\"string_args\":{\"allocator_ref\":\"" ++ ptrText ref ++ b!"\",\"pointer\":\"" ++ ptrText ptr ++
  b!"\",\"allocation_name\":\"" ++ name.takeWhile (· != 0) ++
  b!"\"},\"tags\":{\"replay\":\"true\"},\"timestamp\":" ++ decI time ++ b!"}"

/-- `insert(const deallocate&)` (json_file_store.cpp:66-77). -/
def deallocateLine (ref ptr : Nat) (time : Int) : Str :=
  b!"{\"category\":\"operation\",\"name\":\"deallocate\",\"string_args\":{\"allocator_ref\":\"" ++ ptrText ref ++
  b!"\",\"pointer\":\"" ++ ptrText ptr ++ b!"\"},\"tags\":{\"replay\":\"true\"},\"timestamp\":" ++ decI time ++ b!"}"

/-- `json_file_store` opened for writing: whether `m_fstream` is set, and the text
of the file. -/
structure Store where
  isOpen : Bool
  text : Str
deriving DecidableEq, Repr

/-- A store that has not been used (json_file_store.cpp:25-28). -/
def Store.new : Store := ⟨false, []⟩

/-- Outcome of a call. -/
inductive Out
  | ok (st : Store)
  /-- an exception leaves the call -/
  | throws (st : Store)
  /-- `fprintf` on a null `FILE*` -/
  | ub
deriving DecidableEq, Repr

/-- `insert` (json_file_store.cpp:30-77) with `open_store` (json_file_store.cpp:
142-151); `can` says whether `fopen` succeeds.  Only the generic one opens the
file. -/
def insert (can : Bool) (st : Store) : Rec → Out
  | .event e =>
    if st.isOpen || can then
      let st := { st with isOpen := true }
      match dumpEvent e with
      | some t => .ok { st with text := st.text ++ t ++ [10] }
      | none => .throws st
    else .throws st
  | .allocate size ref ptr time =>
    if st.isOpen then .ok { st with text := st.text ++ allocateLine size ref ptr time ++ [10] } else .ub
  | .namedAllocate size ref ptr name time =>
    if st.isOpen then .ok { st with text := st.text ++ namedAllocateLine size ref ptr name time ++ [10] } else .ub
  | .deallocate ref ptr time =>
    if st.isOpen then .ok { st with text := st.text ++ deallocateLine ref ptr time ++ [10] } else .ub

/-! ## Reading -/

/-- `get_to` a string (json.hpp:4017-4025). -/
def J.toStr : J → Option Str
  | .str s => some s
  | _ => none

/-- `get_to` a `uintmax_t` (json.hpp:3976-4004): a negative number is converted
modulo 2^64.  The conversion from a float is not modelled. -/
def J.toNat : J → Option Nat
  | .uint n => some n
  | .int i => some (i % 2 ^ 64).toNat
  | _ => none

/-- `get_to` a `long` (json.hpp:3976-4004). -/
def J.toLong : J → Option Int
  | .uint n => some (asLong n)
  | .int i => some i
  | _ => none

/-- Insert the converted members one after the other. -/
def toMapAux {α : Type} (f : J → Option α) : List (Str × J) → List (Str × α) → Option (List (Str × α))
  | [], acc => some acc
  | (k, v) :: m, acc =>
    match f v with
    | some x => toMapAux f m (set k x acc)
    | none => none

/-- `get_to` a `std::map`. -/
def J.toMap {α : Type} (f : J → Option α) : J → Option (List (Str × α))
  | .obj m => toMapAux f m []
  | _ => none

/-- `from_json` of the category (json.hpp:2400-2411): anything unknown is the first
one. -/
def J.toCat : J → Cat
  | .str s => if s = b!"operation" then .operation else if s = b!"statistic" then .statistic
    else if s = b!"metadata" then .metadata else .operation
  | _ => .operation

/-- An optional map (event_json.hpp:38-43). -/
def optMap {α : Type} (f : J → Option α) (k : Str) (m : List (Str × J)) : Option (List (Str × α)) :=
  match get k m with
  | none => some []
  | some v => v.toMap f

/-- `from_json` (event_json.hpp:34-54). -/
def fromJson : J → Option Event
  | .obj m => do
    let name ← (← get b!"name" m).toStr
    let cat ← get b!"category" m
    let strs ← optMap J.toStr b!"string_args" m
    let nums ← optMap J.toNat b!"numeric_args" m
    let tags ← (← get b!"tags" m).toMap J.toStr
    let time ← (← get b!"timestamp" m).toLong
    return { name, cat := cat.toCat, strs, nums, tags, time }
  | _ => none

/-- The lines of a text as `getline` returns them, without the newlines. -/
def lines : Str → List Str
  | [] => []
  | b :: s =>
    if b = 10 then [] :: lines s
    else
      match lines s with
      | [] => [[b]]
      | l :: ls => (b :: l) :: ls

/-- Decode one line. -/
def readLine (l : Str) : Option Event :=
  match parse l with
  | some j => fromJson j
  | none => none

/-- Decode all lines. -/
def readLines : List Str → Option (List Event)
  | [] => some []
  | l :: ls => do
    let e ← readLine l
    let es ← readLines ls
    return e :: es

/-- `get_events` (json_file_store.cpp:79-108) on the text of the file; `none` is the
exception. -/
def getEvents (s : Str) : Option (List Event) := readLines (lines s)

end Umpire.Events
