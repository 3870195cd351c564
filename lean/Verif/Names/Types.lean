/-!
Memory resource types and their names.

Source: `src/umpire/resource/MemoryResourceTypes.hpp` lines 37–142.

A `std::string` is a list of characters.  `std::string::find` is `findSub`,
`substr(0, n)` is `List.take n`.
-/
set_option autoImplicit false

namespace Umpire.Names

/-- A `std::string`. -/
abbrev Name := List Char

/-- `std::string::find(sub)`: the index of the first occurrence, `none` = `npos`. -/
def findSub (sub : Name) : Name → Option Nat
  | [] => if sub.isPrefixOf [] then some 0 else none
  | c :: cs => if sub.isPrefixOf (c :: cs) then some 0 else (findSub sub cs).map (· + 1)

/-- `s.find(sub) != std::string::npos`. -/
def has (sub s : Name) : Bool := (findSub sub s).isSome

def HOST : Name := "HOST".toList
def DEVICE : Name := "DEVICE".toList
def UM : Name := "UM".toList
def PINNED : Name := "PINNED".toList
def DEVICE_CONST : Name := "DEVICE_CONST".toList
def FILE : Name := "FILE".toList
def NO_OP : Name := "NO_OP".toList
def SHARED : Name := "SHARED".toList
def COLONS : Name := "::".toList
def COLONS0 : Name := "::0".toList
def DEVICE0 : Name := "DEVICE::0".toList

/-- `enum MemoryResourceType` (MemoryResourceTypes.hpp:37). -/
inductive RType
  | host | device | unified | pinned | constant | file | noOp | shared | unknown
  deriving DecidableEq, Repr

/-- `resource_to_string` (MemoryResourceTypes.hpp:39-61); `none` is the thrown
`runtime_error`. -/
def toName : RType → Option Name
  | .host => some HOST
  | .device => some DEVICE
  | .unified => some UM
  | .pinned => some PINNED
  | .constant => some DEVICE_CONST
  | .file => some FILE
  | .noOp => some NO_OP
  | .shared => some SHARED
  | .unknown => none

/-- `string_to_resource` (MemoryResourceTypes.hpp:75-95); `none` is the thrown
`runtime_error`. -/
def ofName (n : Name) : Option RType :=
  if n = HOST then some .host
  else if n = DEVICE then some .device
  else if n = UM then some .unified
  else if n = PINNED then some .pinned
  else if n = DEVICE_CONST then some .constant
  else if n = FILE then some .file
  else if n = NO_OP then some .noOp
  else if n = SHARED then some .shared
  else none

/-- The largest `int`. -/
def INT_MAX : Nat := 2147483647

def isDig (c : Char) : Bool := decide (48 ≤ c.toNat) && decide (c.toNat ≤ 57)

def digVal (c : Char) : Nat := c.toNat - 48

/-- The value of a string of decimal digits, as read by `std::stoi`. -/
def digits (l : Name) : Nat := l.foldl (fun a c => 10 * a + digVal c) 0

/-- Characters skipped by `std::stoi` in front of a number (`isspace`). -/
def isSpace (c : Char) : Bool := c.toNat == 32 || (decide (9 ≤ c.toNat) && decide (c.toNat ≤ 13))

/-- `std::stoi`: optional white space, optional sign, then as many digits as
there are; `none` is `std::invalid_argument` (no digits) or
`std::out_of_range`. -/
def stoi (s : Name) : Option Int :=
  let t := s.dropWhile isSpace
  let neg := t.head? == some '-'
  let u := if t.head? == some '-' || t.head? == some '+' then t.tail else t
  let ds := u.takeWhile isDig
  if ds.isEmpty then none
  else if neg then (if digits ds ≤ INT_MAX + 1 then some (-(digits ds : Int)) else none)
  else (if digits ds ≤ INT_MAX then some (digits ds : Int) else none)

/-- Characters `.` does not match in an ECMAScript regular expression over
`char` (the wide line separators cannot occur in a `char` string). -/
def isBreak (c : Char) : Bool := c == '\n' || c == '\r'

/-- `std::regex_match(s, m, ".*::(\d+)")`: the whole string is something without
line breaks, then `::`, then digits up to the end.  `none` = no match, `some d`
= the captured digits.  Digits are no colons, so there is only one way to match. -/
def matchId (s : Name) : Option Name :=
  let ds := (s.reverse.takeWhile isDig).reverse
  let pre := s.take (s.length - ds.length)
  if ds.isEmpty then none
  else if COLONS.isSuffixOf pre && !(pre.any isBreak) then some ds
  else none

/-- `resource_to_device_id` (MemoryResourceTypes.hpp:107-137).  `cuda` is
`UMPIRE_ENABLE_CUDA`, `cur` the device bound to the process (0 in a build without
GPUs); `none` is an exception from `std::stoi`. -/
def deviceId (cuda : Bool) (cur : Int) (s : Name) : Option Int :=
  if cuda then
    match findSub COLONS s with
    | some i => stoi (s.drop (i + 2))
    | none => some cur
  else
    match matchId s with
    | some d => stoi d
    | none => some cur

end Umpire.Names
