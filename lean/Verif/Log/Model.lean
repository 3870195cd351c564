/-!
# Logging: `util/Logger`, `util/OutputBuffer` and `util/io`

A build without SLIC and MPI.  A `Char` is a byte.
-/
set_option autoImplicit false
namespace Umpire.Log

abbrev Str := List Char

/-! ## Levels -/

/-- `message::Level` (Logger.hpp:16-24). -/
inductive Level where
  | error | warning | info | debug
deriving DecidableEq, Repr

def Level.num : Level → Nat
  | .error => 0
  | .warning => 1
  | .info => 2
  | .debug => 3

/-- `MessageLevelName` (Logger.cpp:22). -/
def Level.name : Level → Str
  | .error => "ERROR".toList
  | .warning => "WARNING".toList
  | .info => "INFO".toList
  | .debug => "DEBUG".toList

/-- The levels in order (the loop of Logger.cpp:39). -/
def levels : List Level := [.error, .warning, .info, .debug]

/-- `std::toupper` of this byte is undefined: as a `char` it is negative and not `EOF`. -/
def wild (c : Char) : Bool := 128 ≤ c.toNat && c.toNat ≠ 255

/-- `std::equal` with `toupper` (Logger.cpp:26-28); `none` is undefined behaviour. -/
def same : Str → Str → Option Bool
  | a :: l, b :: r => if wild a then none else if a.toUpper = b.toUpper then same l r else some false
  | _, _ => some true

/-- `case_insensitive_match` (Logger.cpp:24-29). -/
def matches' (s t : Str) : Option Bool := if s.length = t.length then same s t else some false

/-- The loop over the names (Logger.cpp:39-44), which leaves `info` if none matches. -/
def search (e : Str) : List Level → Option Level
  | [] => some .info
  | l :: rest =>
    match matches' e l.name with
    | none => none
    | some true => some l
    | some false => search e rest

/-- `Logger::Logger` (Logger.cpp:31-48) with the value of `UMPIRE_LOG_LEVEL`. -/
def levelOf : Option Str → Option Level
  | none => some .info
  | some e => search e levels

/-- `setLoggingMsgLevel` and `logLevelEnabled` (Logger.cpp:50-54, Logger.hpp:40-46). -/
def enabled (level l : Level) : Bool := l.num ≤ level.num

/-! ## Streams -/

/-- A stream buffer of the standard library, with the bytes it has taken and the number
of times it was asked. -/
structure Sink where
  data : Str
  tries : Nat
deriving DecidableEq, Repr

/-- `sputc`: `ok` says whether the `n`th request succeeds. -/
def Sink.put (ok : Nat → Bool) (s : Sink) (c : Char) : Sink × Bool :=
  if ok s.tries then (⟨s.data ++ [c], s.tries + 1⟩, true) else (⟨s.data, s.tries + 1⟩, false)

/-- `pubsync`. -/
def Sink.sync (ok : Nat → Bool) (s : Sink) : Sink × Bool := (⟨s.data, s.tries + 1⟩, ok s.tries)

/-- Where `umpire::log()` writes to: the standard output (io.cpp:41-45), or the buffer that
`initialize_io` gives it. -/
inductive Target where
  | stdout
  | buffer
deriving DecidableEq, Repr

/-- The static `std::ofstream` of `initialize_io` (io.cpp:128): not constructed yet,
not opened, or opened with this name. -/
inductive Static where
  | absent
  | failed
  | opened (name : Str)
deriving DecidableEq, Repr

/-- The output of a process. -/
structure Io where
  out : Sink
  file : Sink
  static : Static
  to : Target
  /-- the file stream of the log buffer is set -/
  attached : Bool
  /-- `badbit` of `umpire::log()` -/
  bad : Bool
deriving DecidableEq, Repr

def Io.start : Io := ⟨⟨[], 0⟩, ⟨[], 0⟩, .absent, .stdout, false, false⟩

/-- What the system answers: writes to the standard output and to the file. -/
structure Sys where
  out : Nat → Bool
  file : Nat → Bool

/-- One byte into `log()`: the buffer of the standard output, or `OutputBuffer::overflow`
(OutputBuffer.cpp:33-51) without console stream. -/
def Io.byte (y : Sys) (o : Io) (c : Char) : Io :=
  match o.to with
  | .stdout => { o with out := (o.out.put y.out c).1, bad := !(o.out.put y.out c).2 }
  | .buffer =>
    if o.attached then { o with file := (o.file.put y.file c).1, bad := !(o.file.put y.file c).2 } else o

/-- `operator<<`: byte by byte, until one fails; nothing if the stream is bad. -/
def Io.insert (y : Sys) : Io → Str → Io
  | o, [] => o
  | o, c :: l => if o.bad then o else (o.byte y c).insert y l

/-- `flush`: `OutputBuffer::sync` (OutputBuffer.cpp:53-66). -/
def Io.flush (y : Sys) (o : Io) : Io :=
  if o.bad then o else
    match o.to with
    | .stdout => { o with out := (o.out.sync y.out).1, bad := !(o.out.sync y.out).2 }
    | .buffer => if o.attached then { o with file := (o.file.sync y.file).1, bad := !(o.file.sync y.file).2 } else o

/-- A message: `UMPIRE_LOG(level, text)` in function `func`, at `file:line`. -/
structure Msg where
  level : Level
  func : Str
  text : Str
  file : Str
  line : Nat
deriving DecidableEq, Repr

/-- What `logMessage` inserts, one after the other (Logger.cpp:62-63, Macros.hpp:66). -/
def pieces (m : Msg) : List Str :=
  ["[".toList, m.level.name, "]".toList, "[".toList, m.file, ":".toList, Nat.toDigits 10 m.line, "]:".toList,
   " ".toList ++ m.func ++ " ".toList ++ m.text, "\n".toList]

/-- `UMPIRE_LOG` (Macros.hpp:62-70, Logger.cpp:56-64). -/
def Io.log (y : Sys) (level : Level) (o : Io) (m : Msg) : Io :=
  if enabled level m.level then ((pieces m).foldl (Io.insert y) o).flush y else o

/-! ## Files -/

structure Entry where
  readable : Bool
  writable : Bool
  data : Str
deriving DecidableEq, Repr

/-- The files of a directory tree. -/
abbrev Fs := List (Str × Entry)

def Fs.get (fs : Fs) (n : Str) : Option Entry := (fs.find? fun e => e.1 = n).map (·.2)

/-- `file_exists` (io.cpp:169-173): it can be read. -/
def Fs.exists' (fs : Fs) (n : Str) : Bool :=
  match fs.get n with
  | some e => e.readable
  | none => false

/-- The name of the file (io.cpp:163). -/
def fileName (dir base : Str) (pid id : Nat) (ext : Str) : Str :=
  dir ++ "/".toList ++ base ++ ".".toList ++ Nat.toDigits 10 pid ++ ".".toList ++ Nat.toDigits 10 id ++ ".".toList ++ ext

/-- `make_unique_filename` (io.cpp:156-167) from `id` on. -/
def pickFrom (fs : Fs) (dir base : Str) (pid : Nat) (ext : Str) : Nat → Nat → Option Str
  | 0, _ => none
  | fuel + 1, id =>
    if fs.exists' (fileName dir base pid id ext) then pickFrom fs dir base pid ext fuel (id + 1)
    else some (fileName dir base pid id ext)

/-- The loop ends when the files do (`pick_some`). -/
def pick (fs : Fs) (dir base : Str) (pid : Nat) (ext : Str) : Option Str :=
  pickFrom fs dir base pid ext (fs.length + 1) 0

/-- `std::ofstream{name}`: creates or truncates the file. -/
def Fs.open' (fs : Fs) (mayCreate : Bool) (n : Str) : Option Fs :=
  match fs.get n with
  | some e => if e.writable then some ((n, { e with data := [] }) :: fs.filter fun x => x.1 ≠ n) else none
  | none => if mayCreate then some ((n, ⟨true, true, []⟩) :: fs) else none

/-- What `initialize_io` sees. -/
structure Place where
  fs : Fs
  dir : Str
  base : Str
  pid : Nat
  /-- `directory_exists` -/
  present : Bool
  /-- files can be created there -/
  mayCreate : Bool

/-- `initialize_io(enable)` (io.cpp:71-138); the flag is false if it throws. -/
def Io.init (o : Io) (p : Place) (enable : Bool) : Io × Fs × Bool :=
  let o1 : Io := { o with to := .buffer, bad := false }
  if !p.present then (o1, p.fs, false)
  else if !enable then (o1, p.fs, true)
  else
    match o.static with
    | .opened _ => ({ o1 with attached := true }, p.fs, true)
    | .failed => (o1, p.fs, false)
    | .absent =>
      match pick p.fs p.dir p.base p.pid "log".toList with
      | none => (o1, p.fs, false)
      | some n =>
        match p.fs.open' p.mayCreate n with
        | some fs => ({ o1 with attached := true, static := .opened n }, fs, true)
        | none => ({ o1 with static := .failed }, p.fs, false)

end Umpire.Log
