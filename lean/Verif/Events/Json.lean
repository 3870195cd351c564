/-!
# Reading and writing JSON text (src/tpl/umpire/json/json.hpp)

The part of the bundled JSON library that the event log uses: the lexer and the
parser behind `json::parse`, and the string and integer writers behind
`operator<<`.

A byte is a number below 256.  The functions take any number and treat the larger
ones as ill-formed, so no theorem needs to assume that strings consist of bytes.

Simplified: the value of a floating point number is not kept (`Tok.float`,
`J.float`), a byte order mark at the start of a line is not skipped, comments are
off as in `json::parse`, and all errors are one value `none`, as in
`get_events`, which turns every exception into the same error
(json_file_store.cpp:92-98).
-/
set_option autoImplicit false
namespace Umpire.Events

/-- Text is a list of bytes. -/
abbrev Str := List Nat

/-- `b!"…"`: the bytes of an ASCII literal. -/
macro:max "b!" s:str : term => do
  let l := (s.getString.toList.map fun c => Lean.Syntax.mkNumLit (toString c.toNat)).toArray
  `(([$l,*] : List Nat))

/-! ## Strings -/

/-- Value of a hexadecimal digit (json.hpp:6802-6813). -/
def hexVal (b : Nat) : Option Nat :=
  if 48 ≤ b ∧ b ≤ 57 then some (b - 48)
  else if 65 ≤ b ∧ b ≤ 70 then some (b - 55)
  else if 97 ≤ b ∧ b ≤ 102 then some (b - 87)
  else none

/-- A code point as UTF-8 (json.hpp:7002-7029). -/
def utf8 (c : Nat) : Str :=
  if c < 0x80 then [c]
  else if c ≤ 0x7FF then [0xC0 + c / 64, 0x80 + c % 64]
  else if c ≤ 0xFFFF then [0xE0 + c / 4096, 0x80 + c / 64 % 64, 0x80 + c % 64]
  else [0xF0 + c / 262144, 0x80 + c / 4096 % 64, 0x80 + c / 64 % 64, 0x80 + c % 64]

/-- The character after a backslash, other than `u` (json.hpp:6904-6935). -/
def unescape (b : Nat) : Option Nat :=
  if b = 34 then some 34 else if b = 92 then some 92 else if b = 47 then some 47
  else if b = 98 then some 8 else if b = 102 then some 12 else if b = 110 then some 10
  else if b = 114 then some 13 else if b = 116 then some 9 else none

/-- The ranges of the bytes that must follow a first byte of at least 128
(json.hpp:7365-7449). -/
def tails (b : Nat) : Option (List (Nat × Nat)) :=
  if 0xC2 ≤ b ∧ b ≤ 0xDF then some [(0x80, 0xBF)]
  else if b = 0xE0 then some [(0xA0, 0xBF), (0x80, 0xBF)]
  else if (0xE1 ≤ b ∧ b ≤ 0xEC) ∨ b = 0xEE ∨ b = 0xEF then some [(0x80, 0xBF), (0x80, 0xBF)]
  else if b = 0xED then some [(0x80, 0x9F), (0x80, 0xBF)]
  else if b = 0xF0 then some [(0x90, 0xBF), (0x80, 0xBF), (0x80, 0xBF)]
  else if 0xF1 ≤ b ∧ b ≤ 0xF3 then some [(0x80, 0xBF), (0x80, 0xBF), (0x80, 0xBF)]
  else if b = 0xF4 then some [(0x80, 0x8F), (0x80, 0xBF), (0x80, 0xBF)]
  else none

/-- Put bytes in front of what was scanned. -/
def front (a : Str) : Option (Str × Str) → Option (Str × Str)
  | some (x, r) => some (a ++ x, r)
  | none => none

/-- Where `scan_string` is between two bytes. -/
inductive Scan
  /-- the ranges of the bytes that must come next to complete a multi-byte sequence -/
  | text (rs : List (Nat × Nat))
  /-- after a backslash -/
  | esc
  /-- reading a `\u` escape: digits still to come, value so far, the high surrogate
  read before -/
  | hex (k : Nat) (acc : Nat) (high : Option Nat)
  /-- after a high surrogate: a backslash must come next -/
  | low1 (high : Nat)
  /-- … then `u` -/
  | low2 (high : Nat)
deriving DecidableEq, Repr

/-- The end of a `\u` escape (json.hpp:6944-7030). -/
def unicode (high : Option Nat) (c : Nat) : Option (Str × Scan) :=
  match high with
  | some h => if 0xDC00 ≤ c ∧ c ≤ 0xDFFF then some (utf8 (h * 1024 + c - 0x35FDC00), .text []) else none
  | none =>
    if 0xD800 ≤ c ∧ c ≤ 0xDBFF then some ([], .low1 c)
    else if 0xDC00 ≤ c ∧ c ≤ 0xDFFF then none
    else some (utf8 c, .text [])

/-- One byte of `scan_string` (json.hpp:6882-7456) that is not the closing quote: the
bytes added to the result and where the scanner is afterwards.  `get_codepoint` is
json.hpp:6789-6822, `next_byte_in_range` is json.hpp:6837-6857. -/
def scanByte (q : Scan) (b : Nat) : Option (Str × Scan) :=
  match q with
  | .text ((lo, hi) :: rs) => if lo ≤ b ∧ b ≤ hi then some ([b], .text rs) else none
  | .text [] =>
    if b = 92 then some ([], .esc)
    else if b < 32 then none
    else if b < 128 then some ([b], .text [])
    else (tails b).map fun rs => ([b], .text rs)
  | .esc => if b = 117 then some ([], .hex 4 0 none) else (unescape b).map fun c => ([c], .text [])
  | .hex k acc high =>
    match hexVal b with
    | none => none
    | some d => if k ≤ 1 then unicode high (acc * 16 + d) else some ([], .hex (k - 1) (acc * 16 + d) high)
  | .low1 h => if b = 92 then some ([], .low2 h) else none
  | .low2 h => if b = 117 then some ([], .hex 4 0 (some h)) else none

/-- `scan_string` (json.hpp:6874-7458), after the opening quote: the bytes denoted
and what follows the closing quote. -/
def scanStr (q : Scan) : Str → Option (Str × Str)
  | [] => none
  | b :: s =>
    if q = .text [] ∧ b = 34 then some ([], s)
    else
      match scanByte q b with
      | some (o, q) => front o (scanStr q s)
      | none => none

/-! ## Numbers -/

/-- A decimal digit. -/
def isDigit (b : Nat) : Bool := decide (48 ≤ b ∧ b ≤ 57)

/-- The digits at the front, and the rest. -/
def digits : Str → Str × Str
  | [] => ([], [])
  | b :: s => if isDigit b then (b :: (digits s).1, (digits s).2) else ([], b :: s)

/-- Value of a digit sequence (`strtoull`, base 10). -/
def value (acc : Nat) : Str → Nat
  | [] => acc
  | b :: s => value (acc * 10 + (b - 48)) s

/-- Tokens (json.hpp:8129-8219). -/
inductive Tok
  | lbrack | rbrack | lbrace | rbrace | colon | comma
  | str (s : Str)
  /-- `value_unsigned` -/
  | uint (n : Nat)
  /-- `value_integer`, only after a minus sign -/
  | int (i : Int)
  | float
  | tru | fls | nul
deriving DecidableEq, Repr

/-- At least one digit; what follows the digits. -/
def digits1 (s : Str) : Option Str :=
  match digits s with
  | ([], _) => none
  | (_ :: _, r) => some r

/-- After `e` or `E` (json.hpp:7769-7845). -/
def scanExp : Str → Option Str
  | [] => none
  | b :: s => if b = 43 ∨ b = 45 then digits1 s else digits1 (b :: s)

/-- The end of a number: fraction and exponent (json.hpp:7665-7845). -/
def scanTail (t : Tok) : Str → Option (Tok × Str)
  | [] => some (t, [])
  | b :: s =>
    if b = 46 then
      match digits1 s with
      | none => none
      | some [] => some (.float, [])
      | some (c :: r) => if c = 101 ∨ c = 69 then (scanExp r).map fun r => (.float, r) else some (.float, c :: r)
    else if b = 101 ∨ b = 69 then (scanExp s).map fun r => (.float, r)
    else some (t, b :: s)

/-- Conversion of the digits (json.hpp:7853-7889): `strtoull` or `strtoll`, a float
when out of range. -/
def number (neg : Bool) (ds : Str) : Tok :=
  let n := value 0 ds
  if neg then if n ≤ 2 ^ 63 then .int (-(n : Int)) else .float
  else if n < 2 ^ 64 then .uint n else .float

/-- The integer part (json.hpp:7599-7723). -/
def scanInt (neg : Bool) : Str → Option (Tok × Str)
  | [] => none
  | b :: s =>
    if b = 48 then scanTail (number neg [48]) s
    else if isDigit b then scanTail (number neg (b :: (digits s).1)) (digits s).2
    else none

/-! ## Tokens -/

/-- White space (json.hpp:8125). -/
def isWs (b : Nat) : Bool := decide (b = 32 ∨ b = 9 ∨ b = 10 ∨ b = 13)

/-- `skip_whitespace` (json.hpp:8119-8126). -/
def skipWs : Str → Str
  | [] => []
  | b :: s => if isWs b then skipWs s else b :: s

/-- `scan_literal` (json.hpp:7906-7921). -/
def scanLit (w : Str) (t : Tok) (s : Str) : Option (Tok × Str) :=
  if s.take w.length = w then some (t, s.drop w.length) else none

/-- `scan` (json.hpp:8129-8219) on a non-empty text that starts with no white
space. -/
def scan (b : Nat) (s : Str) : Option (Tok × Str) :=
  if b = 91 then some (.lbrack, s)
  else if b = 93 then some (.rbrack, s)
  else if b = 123 then some (.lbrace, s)
  else if b = 125 then some (.rbrace, s)
  else if b = 58 then some (.colon, s)
  else if b = 44 then some (.comma, s)
  else if b = 116 then scanLit b!"rue" .tru s
  else if b = 102 then scanLit b!"alse" .fls s
  else if b = 110 then scanLit b!"ull" .nul s
  else if b = 34 then (scanStr (.text []) s).map fun x => (.str x.1, x.2)
  else if b = 45 then scanInt true s
  else if isDigit b then scanInt false (b :: s)
  else none

/-- All tokens of a text; the first argument bounds their number.  The code takes
one token at a time; an error after the point where the parser has already given up
changes nothing. -/
def lex : Nat → Str → Option (List Tok)
  | 0, _ => none
  | n + 1, s =>
    match skipWs s with
    | [] => some []
    | b :: s =>
      match scan b s with
      | none => none
      | some (t, r) => (lex n r).map (t :: ·)

/-! ## Values -/

/-- A JSON value.  Objects are `std::map`s: sorted by key, no key twice. -/
inductive J
  | obj (m : List (Str × J))
  | arr (l : List J)
  | str (s : Str)
  | uint (n : Nat)
  | int (i : Int)
  | float
  | bool (b : Bool)
  | null

/-- `std::string::operator<`. -/
def strLt : Str → Str → Bool
  | _, [] => false
  | [], _ :: _ => true
  | a :: s, b :: t => if a < b then true else if b < a then false else strLt s t

/-- `m[k] = v` on a `std::map`. -/
def set {α : Type} (k : Str) (v : α) : List (Str × α) → List (Str × α)
  | [] => [(k, v)]
  | (k', v') :: m => if strLt k k' then (k, v) :: (k', v') :: m else if strLt k' k then (k', v') :: set k v m else (k, v) :: m

/-- `m.find(k)`. -/
def get {α : Type} (k : Str) : List (Str × α) → Option α
  | [] => none
  | (k', v) :: m => if k = k' then some v else get k m

/-- What the parser holds for an open array or object: its contents so far, and the
key whose value is being read. -/
inductive Frame
  | obj (m : List (Str × J)) (k : Str)
  | arr (l : List J)

/-- What the parser does next. -/
inductive Mode
  /-- read a value -/
  | want
  /-- after `[` -/
  | arr0
  /-- after `{` -/
  | obj0
  /-- after a comma in an object -/
  | key (m : List (Str × J))
  /-- after a key -/
  | colon (m : List (Str × J)) (k : Str)
  /-- a value has been read -/
  | done (v : J)

/-- A token where a value is expected (json.hpp:11112-11276). -/
def startVal (st : List Frame) : Tok → Option (Mode × List Frame)
  | .lbrace => some (.obj0, st)
  | .lbrack => some (.arr0, st)
  | .str s => some (.done (.str s), st)
  | .uint n => some (.done (.uint n), st)
  | .int i => some (.done (.int i), st)
  | .float => some (.done .float, st)
  | .tru => some (.done (.bool true), st)
  | .fls => some (.done (.bool false), st)
  | .nul => some (.done .null, st)
  | _ => none

/-- One token of `sax_parse_internal` (json.hpp:11097-11383) with the DOM builder
(json.hpp:6066-6330).  A key that occurs twice keeps its last value. -/
def step : Mode × List Frame → Tok → Option (Mode × List Frame)
  | (.want, st), t => startVal st t
  | (.arr0, st), t => if t = .rbrack then some (.done (.arr []), st) else startVal (.arr [] :: st) t
  | (.obj0, st), t =>
    match t with
    | .rbrace => some (.done (.obj []), st)
    | .str k => some (.colon [] k, st)
    | _ => none
  | (.key m, st), t =>
    match t with
    | .str k => some (.colon m k, st)
    | _ => none
  | (.colon m k, st), t => if t = .colon then some (.want, .obj m k :: st) else none
  | (.done _, []), _ => none
  | (.done v, .arr l :: st), t =>
    if t = .comma then some (.want, .arr (l ++ [v]) :: st)
    else if t = .rbrack then some (.done (.arr (l ++ [v])), st) else none
  | (.done v, .obj m k :: st), t =>
    if t = .comma then some (.key (set k v m), st)
    else if t = .rbrace then some (.done (.obj (set k v m)), st) else none

/-- All tokens. -/
def steps : Mode × List Frame → List Tok → Option (Mode × List Frame)
  | c, [] => some c
  | c, t :: ts =>
    match step c t with
    | some c => steps c ts
    | none => none

/-- `json::parse` of a C string: up to the first zero byte, one value and nothing
after it (json.hpp:11010-11062). -/
def parse (s : Str) : Option J :=
  let s := s.takeWhile (· != 0)
  match lex (s.length + 1) s with
  | none => none
  | some ts =>
    match steps (.want, []) ts with
    | some (.done v, []) => some v
    | _ => none

/-! ## Writing -/

/-- The table of `decode` (json.hpp:17295-17313). -/
def utf8d : List Nat :=
  List.replicate 128 0 ++ List.replicate 16 1 ++ List.replicate 16 9 ++ List.replicate 32 7 ++ [8, 8] ++ List.replicate 30 2 ++
  [0xA, 0x3, 0x3, 0x3, 0x3, 0x3, 0x3, 0x3, 0x3, 0x3, 0x3, 0x3, 0x3, 0x4, 0x3, 0x3] ++
  [0xB, 0x6, 0x6, 0x6, 0x5, 0x8, 0x8, 0x8, 0x8, 0x8, 0x8, 0x8, 0x8, 0x8, 0x8, 0x8] ++
  [0x0, 0x1, 0x2, 0x3, 0x5, 0x8, 0x7, 0x1, 0x1, 0x1, 0x4, 0x6, 0x1, 0x1, 0x1, 0x1] ++
  [1, 1, 1, 1, 1, 1, 1, 1, 1, 1, 1, 1, 1, 1, 1, 1, 1, 0, 1, 1, 1, 1, 1, 0, 1, 0, 1, 1, 1, 1, 1, 1] ++
  [1, 2, 1, 1, 1, 1, 1, 2, 1, 2, 1, 1, 1, 1, 1, 1, 1, 1, 1, 1, 1, 1, 1, 2, 1, 1, 1, 1, 1, 1, 1, 1] ++
  [1, 2, 1, 1, 1, 1, 1, 1, 1, 2, 1, 1, 1, 1, 1, 1, 1, 1, 1, 1, 1, 1, 1, 3, 1, 3, 1, 1, 1, 1, 1, 1] ++
  [1, 3, 1, 1, 1, 1, 1, 3, 1, 3, 1, 1, 1, 1, 1, 1, 1, 3, 1, 1, 1, 1, 1, 1, 1, 1, 1, 1, 1, 1, 1, 1]

/-- The class of a byte; a number that is no byte is in the class of bytes that are
always wrong. -/
def byteType (b : Nat) : Nat := if b < 256 then utf8d.getD b 8 else 8

/-- The state after a byte (json.hpp:17322-17325): 0 accept, 1 reject. -/
def nextState (state b : Nat) : Nat := utf8d.getD (256 + state * 16 + byteType b) 1

/-- The code point so far (json.hpp:17318-17320). -/
def nextCode (state codep b : Nat) : Nat :=
  if state ≠ 0 then (b &&& 0x3F) ||| (codep <<< 6) else (0xFF >>> byteType b) &&& b

/-- A hexadecimal digit, lower case. -/
def hexDigit (n : Nat) : Nat := if n < 10 then 48 + n else 87 + n

/-- What is written at the last byte `b` of code point `c` (json.hpp:16822-16897;
`ensure_ascii` is false). -/
def escape (c b : Nat) : Str :=
  if c = 8 then b!"\\b" else if c = 9 then b!"\\t" else if c = 10 then b!"\\n" else if c = 12 then b!"\\f"
  else if c = 13 then b!"\\r" else if c = 34 then [92, 34] else if c = 92 then [92, 92]
  else if c ≤ 0x1F then b!"\\u" ++ [hexDigit (c / 4096), hexDigit (c / 256 % 16), hexDigit (c / 16 % 16), hexDigit (c % 16)]
  else [b]

/-- `dump_escaped` (json.hpp:16806-17035), strict: `none` is the exception for a
byte that is no UTF-8, or for an incomplete sequence at the end. -/
def dumpEsc (state codep : Nat) : Str → Option Str
  | [] => if state = 0 then some [] else none
  | b :: s =>
    let st := nextState state b
    let c := nextCode state codep b
    if st = 1 then none
    else if st = 0 then (dumpEsc 0 c s).map (escape c b ++ ·)
    else (dumpEsc st c s).map (b :: ·)

/-- A string value. -/
def dumpStr (s : Str) : Option Str := (dumpEsc 0 0 s).map fun t => 34 :: t ++ [34]

/-- Decimal digits; `fuel` bounds their number. -/
def decF : Nat → Nat → Str
  | 0, _ => []
  | f + 1, n => if n < 10 then [48 + n] else decF f (n / 10) ++ [48 + n % 10]

/-- `dump_integer`, and `printf` of a decimal number (json.hpp:17106-17180); 64-bit
numbers have at most 20 digits. -/
def dec (n : Nat) : Str := decF 20 n

/-- A signed number (`%ld`, `%lld`). -/
def decI (i : Int) : Str := if i < 0 then 45 :: dec i.natAbs else dec i.natAbs

/-- The members of an object, written one after the other (json.hpp:16560-16585). -/
def dumpMembers {α : Type} (f : α → Option Str) : List (Str × α) → Option Str
  | [] => some []
  | [(k, v)] => do
    let k ← dumpStr k
    let v ← f v
    return k ++ 58 :: v
  | (k, v) :: m => do
    let k ← dumpStr k
    let v ← f v
    let m ← dumpMembers f m
    return k ++ 58 :: v ++ 44 :: m

/-- An object (json.hpp:16530-16588). -/
def dumpObj {α : Type} (f : α → Option Str) (m : List (Str × α)) : Option Str :=
  (dumpMembers f m).map fun t => 123 :: t ++ [125]

end Umpire.Events
