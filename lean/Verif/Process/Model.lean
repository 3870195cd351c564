import Verif.Base.Prog
/-!
# The memory usage of the process and of its devices

`umpire::get_process_memory_usage_hwm`, `get_process_memory_usage` and `get_device_memory_usage` (Umpire.cpp:126-193).  The first two
read text of the kernel through `std::istream`; the parts of it they use are modelled: its state bits, the sentry of formatted
extraction, and extraction of a word, of a `size_t` and of a line, for the "C" locale.  A variable that was never written is `none`.
The third asks the CUDA runtime, which is modelled by what its calls promise; any of them may fail.
-/
set_option autoImplicit false
set_option linter.unusedSimpArgs false
namespace Umpire.Process

/-- `std::isspace` in the "C" locale. -/
def isSpace (c : Char) : Bool :=
  c = ' ' || c = '\t' || c = '\n' || c = '\x0b' || c = '\x0c' || c = '\r'

/-- A `std::istream`: what is left to read, `eofbit`, `failbit`. -/
structure IStream where
  rest : List Char
  eof : Bool := false
  fail : Bool := false
deriving DecidableEq, Repr

/-- `std::ifstream{path}`: opening a file that cannot be read sets `failbit`. -/
def openFile : Option (List Char) → IStream
  | some text => { rest := text }
  | none => { rest := [], fail := true }

/-- The sentry of formatted extraction (C++17 [istream.sentry]): `false` if nothing can be read. -/
def sentry (s : IStream) : Bool × IStream :=
  if s.eof || s.fail then (false, { s with fail := true })
  else
    match s.rest.dropWhile isSpace with
    | [] => (false, { rest := [], eof := true, fail := true })
    | r => (true, { s with rest := r })

/-- `s >> key` for a string: up to white space or the end. `v` is what the string held. -/
def readWord (s : IStream) (v : List Char) : List Char × IStream :=
  match sentry s with
  | (false, s) => (v, s)
  | (true, s) =>
    let r := s.rest.dropWhile fun c => !isSpace c
    (s.rest.takeWhile fun c => !isSpace c, { s with rest := r, eof := r.isEmpty })

/-- An optional sign: whether it is a minus, and what follows. -/
def sign : List Char → Bool × List Char
  | '-' :: t => (true, t)
  | '+' :: t => (false, t)
  | t => (false, t)

/-- `s >> n` for a `std::size_t` ([facet.num.get.virtuals]): an optional sign, then digits.  Without digits 0 is stored, for a number
out of range the greatest `size_t`, and both set `failbit`.  If the sentry fails the variable keeps what it held, which is `none`
for one that was never written. -/
def readSize (s : IStream) (v : Option Nat) : Option Nat × IStream :=
  match sentry s with
  | (false, s) => (v, s)
  | (true, s) =>
    let t := sign s.rest
    let ds := t.2.takeWhile Char.isDigit
    let r := t.2.dropWhile Char.isDigit
    let n := Nat.ofDigitChars 10 ds 0
    if ds.isEmpty then (some 0, { rest := r, eof := r.isEmpty, fail := true })
    else if n < W then (some (if t.1 then (W - n) % W else n), { rest := r, eof := r.isEmpty })
    else (some (W - 1), { rest := r, eof := r.isEmpty, fail := true })

/-- `std::getline(s, line)`: `none` if the stream converts to `false` afterwards. -/
def getline (s : IStream) : Option (List Char × IStream) :=
  if s.eof || s.fail then none
  else if s.rest.isEmpty then none
  else
    match s.rest.dropWhile (· ≠ '\n') with
    | [] => some (s.rest, { rest := [], eof := true })
    | _ :: r => some (s.rest.takeWhile (· ≠ '\n'), { rest := r })

theorem getline_lt {s s' : IStream} {l : List Char} (h : getline s = some (l, s')) : s'.rest.length < s.rest.length := by
  unfold getline at h
  split at h
  · exact nomatch h
  split at h
  · exact nomatch h
  next h0 =>
    have hl : 0 < s.rest.length := by
      cases hr : s.rest with
      | nil => simp [hr] at h0
      | cons => simp
    split at h
    · simp only [Option.some.injEq, Prod.mk.injEq] at h
      rw [← h.2]; exact hl
    next r hd =>
      simp only [Option.some.injEq, Prod.mk.injEq] at h
      have : (s.rest.dropWhile (· ≠ '\n')).length ≤ s.rest.length := (List.dropWhile_suffix _).length_le
      rw [hd] at this
      rw [← h.2]
      simp only [List.length_cons] at this
      exact this

/-- The loop of `get_process_memory_usage_hwm` (Umpire.cpp:135-148). -/
def hwmLoop (s : IStream) : Option Nat :=
  match h : getline s with
  | none => some 0                                              -- 133, 149
  | some (line, s') =>
    let r := readWord { rest := line } []                       -- 136-138
    if r.1 = "VmHWM:".toList then                               -- 140
      (readSize r.2 none).1.map fun n => w64 (n * 1024)         -- 141-147
    else hwmLoop s'
termination_by s.rest.length
decreasing_by exact getline_lt h

/-- `get_process_memory_usage_hwm` (Umpire.cpp:126-151), given what `/proc/self/status` holds (`none`: it cannot be opened). -/
def usageHwm (status : Option (List Char)) : Option Nat := hwmLoop (openFile status)

/-- `get_process_memory_usage` (Umpire.cpp:153-166), given what `/proc/self/statm` holds and `sysconf(_SC_PAGE_SIZE)`. -/
def usage (statm : Option (List Char)) (pageSize : Nat) : Option Nat :=
  let (ignore, s) := readSize (openFile statm) none
  let (resident, s) := readSize s none
  let _ := readSize s ignore
  resident.map fun r => w64 (r * pageSize)

/-- The CUDA runtime of one thread: the device it is on, and free and total memory of every device. -/
structure Cuda where
  current : Nat
  devices : List (Nat × Nat)
deriving DecidableEq, Repr

/-- The calls that fail for a reason outside the program. -/
structure Fails where
  getDevice : Bool := false
  setDevice : Bool := false
  memGetInfo : Bool := false
  setBack : Bool := false
deriving DecidableEq, Repr

/-- `cudaSetDevice(d)`: without effect if it fails, as it does for a device that does not exist. -/
def setDevice (c : Cuda) (bad : Bool) (d : Int) : Cuda :=
  if bad || d < 0 || c.devices.length ≤ d then c else { c with current := d.toNat }

/-- `cudaMemGetInfo(&free, &tot)`: free and total memory of the current device; a call that fails writes nothing. -/
def memGetInfo (c : Cuda) (bad : Bool) (v : Nat × Nat) : Nat × Nat :=
  if bad then v else c.devices.getD c.current v

/-- `get_device_memory_usage` (Umpire.cpp:174-192) with `UMPIRE_ENABLE_CUDA`.  `junk` is what `current_device` holds until it is
written.  No result of the runtime is looked at. -/
def deviceUsageCuda (c : Cuda) (f : Fails) (junk : Int) (id : Int) : Nat × Cuda :=
  let cur : Int := if f.getDevice then junk else c.current      -- 180-181
  let c1 := setDevice c f.setDevice id                          -- 183
  let m := memGetInfo c1 f.memGetInfo (0, 0)                    -- 185
  let c2 := setDevice c1 f.setBack cur                          -- 187
  (w64 (m.2 + W - m.1), c2)                                          -- 189

/-- `get_device_memory_usage` in other builds (190-191): HIP, SYCL and OpenMP too. -/
def deviceUsageOther (_id : Int) : Nat := 0

end Umpire.Process
