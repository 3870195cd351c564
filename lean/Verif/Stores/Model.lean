import Verif.Events.Store
/-!
# The event stores that are databases (src/umpire/event/sqlite_database.cpp, quest_database.cpp)

`sqlite_database` builds SQL text and has SQLite execute it; the model has the text byte
for byte and the part of SQLite that such text can reach: string literals, statements one
after the other, comments, `INSERT` of one `json('…')` and `DELETE`.  Every other statement
is the outcome `other` (outside the model).  The SQL function `json` is a parameter.

`quest_database` builds a line and sends it; the model has the bytes that are handed to
`send`.

Not modelled: how a connection is made (quest_database.cpp:18-29), what is printed, the
limit of SQLite on the length of a statement, transactions of other processes on the same
file.
-/
set_option autoImplicit false
namespace Umpire.Stores
open Umpire.Events

/-! ## SQLite -/

/-- A string literal after its opening apostrophe: two apostrophes are one, a single one
ends it (tokenize.c of SQLite, `CC_QUOTE`). -/
def sqlLit : Str → Option (Str × Str)
  | [] => none
  | b :: s =>
    if b = 39 then
      match s with
      | 39 :: s' => front [39] (sqlLit s')
      | s => some ([], s)
    else front [b] (sqlLit s)

/-- White space, empty statements and `--` comments before a statement. -/
def skipSql (comment : Bool) : Str → Str
  | [] => []
  | b :: s =>
    if comment then skipSql (b != 10) s
    else if b = 45 ∧ s.head? = some 45 then skipSql true s
    else if b = 32 ∨ b = 59 ∨ b = 10 ∨ b = 9 ∨ b = 12 ∨ b = 13 then skipSql false s
    else b :: s

/-- The rest of a text after a prefix. -/
def strip (p s : Str) : Option Str := if p.isPrefixOf s then some (s.drop p.length) else none

/-- A letter. -/
def isLetter (b : Nat) : Bool := decide (97 ≤ b ∧ b ≤ 122 ∨ 65 ≤ b ∧ b ≤ 90)

/-- A byte that may continue an identifier. -/
def isIdent (b : Nat) : Bool := isLetter b || decide (48 ≤ b ∧ b ≤ 57 ∨ b = 95 ∨ b = 36 ∨ 128 ≤ b)

/-- An identifier of one letter.  After a literal it is a syntax error: no keyword has one
letter. -/
def oneLetter : Str → Bool
  | [] => false
  | [b] => isLetter b
  | b :: c :: _ => isLetter b && !isIdent c

/-- What `sqlite3_exec` did; `rows` is the table `EVENTS`. -/
inductive SqlOut
  | done (rows : List Str)
  | error (rows : List Str)
  /-- a statement that is not modelled -/
  | other
deriving DecidableEq, Repr

/-- Text before the literal (sqlite_database.cpp:61, 69). -/
def insertHead : Str := b!"INSERT INTO EVENTS VALUES(json('"

/-- `sqlite3_exec`: statements one by one; an error ends the call and what earlier
statements did remains.  `fuel` bounds the number of statements. -/
def exec (json : Str → Option Str) : Nat → List Str → Str → SqlOut
  | 0, _, _ => .other
  | f + 1, rows, s =>
    match skipSql false s with
    | [] => .done rows
    | b :: s =>
      match strip insertHead (b :: s) with
      | some r =>
        match sqlLit r with
        | none => .error rows
        | some (x, r) =>
          match strip b!"));" r with
          | some r =>
            match json x with
            | some y => exec json f (rows ++ [y]) r
            | none => .error rows
          | none => if oneLetter r then .error rows else .other
      | none =>
        match strip b!"DELETE FROM EVENTS;" (b :: s) with
        | some r => exec json f [] r
        | none => .other

/-- Outcome of a call of the store. -/
inductive Out
  | ok (rows : List Str)
  /-- `exit(1)` -/
  | exit (rows : List Str)
  /-- an exception leaves the call -/
  | throws (rows : List Str)
  /-- the statement does not fit the buffer -/
  | ub
  | other
deriving DecidableEq, Repr

/-- `UMP_SQ3_EXE` (sqlite_database.cpp:32-41) on text given by `c_str()`; `works` is false
if the database cannot be written. -/
def run (works : Bool) (json : Str → Option Str) (rows : List Str) (sql : Str) : Out :=
  if works then
    match exec json (sql.length + 1) rows (sql.takeWhile (· != 0)) with
    | .done rows => .ok rows
    | .error rows => .exit rows
    | .other => .other
  else .exit rows

/-- The statement around the text of an event (sqlite_database.cpp:61, 69-75). -/
def statement (t : Str) : Str := insertHead ++ t ++ b!"'));"

/-- `sprintf` into `char buffer[512]`, and the statement (sqlite_database.cpp:67-80). -/
def print (works : Bool) (json : Str → Option Str) (rows : List Str) (t : Str) : Out :=
  if (statement t).length + 1 ≤ 512 then run works json rows (statement t) else .ub

/-- `insert` (sqlite_database.cpp:58-118).  The texts of the events are those of the JSON
store. -/
def insert (works : Bool) (json : Str → Option Str) (rows : List Str) : Rec → Out
  | .event e =>
    match dumpEvent e with
    | some t => run works json rows (statement t)
    | none => .throws rows
  | .allocate size ref ptr time => print works json rows (allocateLine size ref ptr time)
  | .namedAllocate size ref ptr name time => print works json rows (namedAllocateLine size ref ptr name time)
  | .deallocate ref ptr time => print works json rows (deallocateLine ref ptr time)

/-- `get_events` (sqlite_database.cpp:120-138); `none` is the exception. -/
def getEvents (rows : List Str) : Option (List Event) := readLines rows

/-! ## QuestDB -/

/-- `,key=value` for each entry (quest_database.cpp:37-49). -/
def pairs : List (Str × Str) → Str
  | [] => []
  | (k, v) :: m => 44 :: k ++ 61 :: v ++ pairs m

/-- A `uintmax_t` assigned to an `int` (quest_database.cpp:56-57). -/
def asInt (n : Nat) : Int :=
  if n % 2 ^ 32 < 2 ^ 31 then ((n % 2 ^ 32 : Nat) : Int) else ((n % 2 ^ 32 : Nat) : Int) - 2 ^ 32

/-- `key=value` and the separator, for each entry (quest_database.cpp:54-59). -/
def fields (sep : Str) : List (Str × Nat) → Str
  | [] => []
  | (k, v) :: m => k ++ 61 :: decI (asInt v) ++ sep ++ fields sep m

/-- The text of an event (quest_database.cpp:33-65). -/
def packet (e : Event) : Str :=
  e.name ++ pairs e.strs ++ pairs e.tags ++ 32 :: fields (if e.nums.length > 1 then [44] else []) e.nums ++
    32 :: decI e.time ++ [10]

/-- What `insert` hands to `send` (quest_database.cpp:31-85): the text up to the first zero
byte, nothing for the frequent records. -/
def sent : Rec → Str
  | .event e => (packet e).takeWhile (· != 0)
  | _ => []

/-- `get_events` (quest_database.cpp:87-91), whatever was recorded before. -/
def questEvents (_ : List Rec) : List Event := []

end Umpire.Stores
