import Verif.Events.Store
/-!
# Replay: allocators (tools/replay)

The way of a call of `makeAllocator` through the tool: the event that Umpire records for it,
the entry that the interpreter makes of the event, the call that the executor makes for
the entry.

Simplifications: the strategies that may be made are those of the library; heuristics for
coalescing are functions, here they are tokens.  The members of the union in an entry are
kept apart; only the members of the type of an entry are read.  Of `__cxa_demangle` only
nested names are there.
-/
set_option autoImplicit false
namespace Umpire.Rebuild
open Umpire.Events (Event Str get set dec hexF)

/-! ## Calls -/

/-- `PoolCoalesceHeuristic`: the four of the pools with their parameter, or a function of the
program. -/
inductive Heur
  | percent (n : Int) | percentHwm (n : Int) | blocks (n : Int) | blocksHwm (n : Int) | custom (n : Nat)
deriving DecidableEq, Repr

/-- `QuickPool`, `DynamicPoolList`. -/
inductive Kind
  | quick | list
deriving DecidableEq, Repr

/-- The strategy and the arguments after the parent, as written in the call.  Arguments at the
end that have a default may be missing (`none`, shorter lists). -/
inductive Strat
  /-- AllocationAdvisor.hpp:35-39 -/
  | advisor (advice : Str) (acc : Option Str) (dev : Option Int)
  /-- AllocationPrefetcher.hpp:25 -/
  | prefetcher (dev : Option Int)
  /-- NumaPolicy.hpp:28 -/
  | numa (node : Int)
  /-- NamedAllocationStrategy.hpp:18 -/
  | named
  /-- ThreadSafeAllocator.hpp:27 -/
  | threadSafe
  /-- NamingShim.hpp:18 -/
  | shim
  /-- AlignedAllocator.hpp:18 -/
  | aligned (al : Option Nat)
  /-- QuickPool.hpp:58-62, DynamicPoolList.hpp:63-67 -/
  | pool (k : Kind) (sizes : List Nat) (h : Option Heur)
  /-- MonotonicAllocationStrategy.hpp:21 -/
  | monotonic (cap : Nat)
  /-- SlotPool.hpp:21 -/
  | slots (n : Nat)
  /-- SizeLimiter.hpp:28 -/
  | limiter (n : Nat)
  /-- FixedPool.hpp:41-42 -/
  | fixed (bytes : Nat) (per : Option Nat)
  /-- MixedPool.hpp:48-56 -/
  | mixed (sizes : List Nat) (h : Option Heur)
deriving DecidableEq, Repr

/-- A call of `makeAllocator` (ResourceManager.inl:20-62); `base` is the name of the
`Allocator` that is passed as parent. -/
structure Made where
  name : Str
  tracked : Bool
  base : Str
  strat : Strat
deriving DecidableEq, Repr

/-! ## Recording -/

/-- An argument as `builder::arg` stores it (event.hpp:84-144). -/
inductive Arg
  | str (s : Str)
  | num (n : Nat)
deriving DecidableEq, Repr

/-- `static_cast<std::uintmax_t>` of an `int` (event.hpp:125). -/
def wrap (i : Int) : Nat := (i % 2 ^ 64).toNat

/-- `to_string` of a heuristic (QuickPool.hpp:177, DynamicPoolList.hpp:127). -/
def heurText : Kind → Str
  | .quick => b!"PoolCoalesceHeuristic<QuickPool>"
  | .list => b!"PoolCoalesceHeuristic<DynamicPoolList>"

/-- The arguments after the parent. -/
def Strat.args : Strat → List Arg
  | .advisor a acc dev => .str a :: (acc.toList.map .str ++ dev.toList.map fun d => .num (wrap d))
  | .prefetcher dev => dev.toList.map fun d => .num (wrap d)
  | .numa n => [.num (wrap n)]
  | .named | .threadSafe | .shim => []
  | .aligned al => al.toList.map .num
  | .pool k l h => l.map .num ++ h.toList.map fun _ => .str (heurText k)
  | .monotonic n | .slots n | .limiter n => [.num n]
  | .fixed b p => .num b :: p.toList.map .num
  | .mixed l h => l.map .num ++ h.toList.map fun _ => .str (heurText .quick)

/-- The class. -/
def Strat.cls : Strat → Str
  | .advisor _ _ _ => b!"AllocationAdvisor"
  | .prefetcher _ => b!"AllocationPrefetcher"
  | .numa _ => b!"NumaPolicy"
  | .named => b!"NamedAllocationStrategy"
  | .threadSafe => b!"ThreadSafeAllocator"
  | .shim => b!"NamingShim"
  | .aligned _ => b!"AlignedAllocator"
  | .pool .quick _ _ => b!"QuickPool"
  | .pool .list _ _ => b!"DynamicPoolList"
  | .monotonic _ => b!"MonotonicAllocationStrategy"
  | .slots _ => b!"SlotPool"
  | .limiter _ => b!"SizeLimiter"
  | .fixed _ _ => b!"FixedPool"
  | .mixed _ _ => b!"MixedPool"

/-- `typeid(Strategy).name()` (Itanium C++ ABI: nested name). -/
def mangled (cls : Str) : Str := b!"N6umpire8strategy" ++ dec cls.length ++ cls ++ b!"E"

/-- `"arg" + std::to_string(N)` (event.hpp:149). -/
def argKey (i : Nat) : Str := b!"arg" ++ dec i

/-- `args_impl` (event.hpp:146-151). -/
def putArgs : Nat → List Arg → Event → Event
  | _, [], e => e
  | i, .str s :: l, e => putArgs (i + 1) l { e with strs := set (argKey i) s e.strs }
  | i, .num n :: l, e => putArgs (i + 1) l { e with nums := set (argKey i) n e.nums }

/-- `ss << p` (event.hpp:84-91). -/
def osPtr (p : Nat) : Str := if p = 0 then b!"0" else b!"0x" ++ hexF 16 p

/-- The event of a call of `makeAllocator` (ResourceManager.inl:40-49); `ref` is the address of
the strategy. -/
def makeEvent (ref : Nat) (m : Made) (time : Int) : Event :=
  putArgs 0 (.str m.base :: m.strat.args)
    { name := b!"make_allocator", cat := .operation,
      strs := set b!"type" (mangled m.strat.cls) (set b!"allocator_ref" (osPtr ref) []),
      nums := [(b!"introspection", if m.tracked then 1 else 0)],
      tags := set b!"replay" b!"true" (set b!"allocator_name" m.name []), time := time }

/-! ## Compiling -/

/-- Read a number. -/
def number : Nat → Str → Nat × Str
  | n, b :: s => if 48 ≤ b ∧ b ≤ 57 then number (10 * n + (b - 48)) s else (n, b :: s)
  | n, [] => (n, [])

/-- The components of a nested name, up to the `E` at the end. -/
def comps : Nat → Str → Option (List Str)
  | 0, _ => none
  | f + 1, s =>
    if s = b!"E" then some []
    else
      let x := number 0 s
      if x.1 = 0 ∨ x.2.length < x.1 then none
      else (comps f (x.2.drop x.1)).map (x.2.take x.1 :: ·)

/-- Join with `::`. -/
def join : List Str → Str
  | [] => []
  | [s] => s
  | s :: l => s ++ b!"::" ++ join l

/-- `__cxa_demangle` of a nested name. -/
def demangle (s : Str) : Option Str :=
  if s.take 3 = b!"_ZN" then (comps (s.length) (s.drop 3)).map join else none

/-- `max_name_length` (ReplayFile.hpp:37). -/
def maxName : Nat := 512

/-- `copyString` (ReplayFile.cpp:96-103), and what a reader of the field sees: the text up to
the first zero byte.  `none`: the tool ends. -/
def copyString (s : Str) : Option Str := if s.length ≥ maxName then none else some (s.takeWhile (· != 0))

/-- `rtype` (ReplayFile.hpp:20-35). -/
inductive RType
  | resource | advisor | list | monotonic | named | slots | limiter | threadSafe | fixed | mixed | prefetcher | numa | quick
deriving DecidableEq, Repr

/-- The members of the union (ReplayFile.hpp:46-80). -/
structure Argv where
  dev : Int := 0
  advice : Str := []
  acc : Str := []
  node : Int := 0
  initial : Nat := 0
  min : Nat := 0
  align : Int := 0
  capacity : Nat := 0
  slots : Nat := 0
  limit : Nat := 0
  bytes : Nat := 0
  per : Nat := 0
  smallest : Nat := 0
  largest : Nat := 0
  maxFixed : Nat := 0
  mult : Nat := 0
  dynInit : Nat := 0
  dynMin : Nat := 0
  dynAlign : Nat := 0
deriving DecidableEq, Repr

/-- `AllocatorTableEntry` (ReplayFile.hpp:40-82). -/
structure Entry where
  type : RType
  tracked : Bool
  name : Str
  base : Str
  argc : Nat
  argv : Argv
deriving DecidableEq, Repr

/-- Conversion of a `uintmax_t` to `int`. -/
def toInt (n : Nat) : Int := if n % 2 ^ 32 < 2 ^ 31 then ((n % 2 ^ 32 : Nat) : Int) else ((n % 2 ^ 32 : Nat) : Int) - 2 ^ 32

/-- `m_event.string_args[k]`. -/
def strArg (e : Event) (k : Str) : Str := (get k e.strs).getD []

/-- `m_event.numeric_args.find(k) != end()`. -/
def hasNum (e : Event) (k : Str) : Bool := (get k e.nums).isSome

/-- `m_event.numeric_args[k]`. -/
def numArg (e : Event) (k : Str) : Nat := (get k e.nums).getD 0

/-- The branch for `AllocationAdvisor` (ReplayInterpreter.cpp:441-488). -/
def compileAdvisor (e : Event) (x : Entry) : Option Entry := do
  let x := { x with type := .advisor, argc := 2 }
  let hasAcc := (get b!"arg2" e.strs).isSome
  let hasDev := if hasAcc then hasNum e b!"arg3" else hasNum e b!"arg2"
  let dev := if hasAcc then (if hasDev then toInt (numArg e b!"arg3") else -1) else (if hasDev then toInt (numArg e b!"arg2") else -1)
  let argc := 2 + (if hasAcc then 1 else 0) + (if hasDev then 1 else 0)
  let base ← copyString (strArg e b!"arg0")
  let advice ← copyString (strArg e b!"arg1")
  let x := { x with base := base, argc := argc, argv := { x.argv with dev := dev, advice := advice } }
  if dev ≥ 0 then
    match argc with
    | 3 => some x
    | 4 => do
      let acc ← copyString (strArg e b!"arg2")
      some { x with argv := { x.argv with acc := acc } }
    | _ => none
  else
    match argc with
    | 2 => some x
    | 3 => do
      let acc ← copyString (strArg e b!"arg2")
      some { x with argv := { x.argv with acc := acc } }
    | _ => none

/-- The branches for `QuickPool` and `DynamicPoolList` (ReplayInterpreter.cpp:505-547). -/
def compilePool (t : RType) (e : Event) (x : Entry) : Option Entry := do
  let base ← copyString (strArg e b!"arg0")
  let x := { x with type := t, base := base }
  if hasNum e b!"arg3" then
    some { x with argc := 4, argv := { x.argv with initial := numArg e b!"arg1", min := numArg e b!"arg2", align := toInt (numArg e b!"arg3") } }
  else if hasNum e b!"arg2" then
    some { x with argc := 3, argv := { x.argv with initial := numArg e b!"arg1", min := numArg e b!"arg2" } }
  else if hasNum e b!"arg1" then
    some { x with argc := 2, argv := { x.argv with initial := numArg e b!"arg1" } }
  else some x

/-- The branch for `MixedPool` (ReplayInterpreter.cpp:582-636). -/
def compileMixed (e : Event) (x : Entry) : Option Entry := do
  let base ← copyString (strArg e b!"arg0")
  let x := { x with type := .mixed, base := base }
  let a1 := { x.argv with smallest := numArg e b!"arg1" }
  let a2 := { a1 with largest := numArg e b!"arg2" }
  let a3 := { a2 with maxFixed := numArg e b!"arg3" }
  let a4 := { a3 with mult := numArg e b!"arg4" }
  let a5 := { a4 with dynInit := numArg e b!"arg5" }
  let a6 := { a5 with dynMin := numArg e b!"arg6" }
  let a7 := { a6 with dynAlign := numArg e b!"arg7" }
  if hasNum e b!"arg7" then some { x with argc := 8, argv := a7 }
  else if hasNum e b!"arg6" then some { x with argc := 7, argv := a6 }
  else if hasNum e b!"arg5" then some { x with argc := 6, argv := a5 }
  else if hasNum e b!"arg4" then some { x with argc := 5, argv := a4 }
  else if hasNum e b!"arg3" then some { x with argc := 4, argv := a3 }
  else if hasNum e b!"arg2" then some { x with argc := 3, argv := a2 }
  else if hasNum e b!"arg1" then some { x with argc := 2, argv := a1 }
  else some x

/-- `umpire::strategy::` and a class. -/
def full (cls : Str) : Str := b!"umpire::strategy::" ++ cls

/-- The dispatch on the class (ReplayInterpreter.cpp:441-640); `x` is the entry with name and
tracking filled in and one argument counted. -/
def compileClass (type : Str) (e : Event) (x : Entry) : Option Entry :=
  let base := copyString (strArg e b!"arg0")
  if type = full b!"AllocationAdvisor" then compileAdvisor e x
  else if type = full b!"AllocationPrefetcher" then do
    some { x with type := .prefetcher, base := ← base }
  else if type = full b!"NumaPolicy" then do
    some { x with type := .numa, base := ← base, argc := 2, argv := { x.argv with node := toInt (numArg e b!"arg1") } }
  else if type = full b!"NamedAllocationStrategy" then do
    some { x with type := .named, base := ← base }
  else if type = full b!"QuickPool" then compilePool .quick e x
  else if type = full b!"DynamicPoolList" then compilePool .list e x
  else if type = full b!"MonotonicAllocationStrategy" then do
    some { x with type := .monotonic, base := ← base, argc := 2, argv := { x.argv with capacity := numArg e b!"arg1" } }
  else if type = full b!"SlotPool" then do
    some { x with type := .slots, base := ← base, argc := 2, argv := { x.argv with slots := numArg e b!"arg1" } }
  else if type = full b!"SizeLimiter" then do
    some { x with type := .limiter, base := ← base, argc := 2, argv := { x.argv with limit := numArg e b!"arg1" } }
  else if type = full b!"ThreadSafeAllocator" then do
    some { x with type := .threadSafe, base := ← base }
  else if type = full b!"FixedPool" then do
    let x := { x with type := .fixed, base := ← base, argc := 2, argv := { x.argv with bytes := numArg e b!"arg1" } }
    if hasNum e b!"arg2" then some { x with argc := 3, argv := { x.argv with per := numArg e b!"arg2" } } else some x
  else if type = full b!"MixedPool" then compileMixed e x
  else none

/-- The type (ReplayInterpreter.cpp:419-435). -/
def typeOf (noDemangle : Bool) (major : Nat) (raw : Str) : Option Str :=
  if !noDemangle && decide (2 ≤ major) then demangle (if raw.take 2 = b!"_Z" then raw else b!"_Z" ++ raw) else some raw

/-- `compile_make_allocator` up to the entry (ReplayInterpreter.cpp:406-640).  `none`: the tool
ends with `REPLAY_ERROR`. -/
def compileMake (noDemangle : Bool) (major : Nat) (e : Event) : Option Entry := do
  let name ← copyString ((get b!"allocator_name" e.tags).getD [])
  let type ← typeOf noDemangle major (strArg e b!"type")
  compileClass type e ⟨.resource, decide (numArg e b!"introspection" = 1), name, [], 1, {}⟩

/-- The event of `makeResource` (ResourceManager.cpp:162-169). -/
def resourceEvent (ref : Nat) (name : Str) (tracked : Bool) (time : Int) : Event :=
  { name := b!"make_memory_resource", cat := .operation, strs := [(b!"allocator_ref", osPtr ref)],
    nums := [(b!"introspection", if tracked then 1 else 0)], tags := set b!"replay" b!"true" (set b!"allocator_name" name []), time := time }

/-- `compile_make_memory_resource` (ReplayInterpreter.cpp:375-388). -/
def compileResource (e : Event) : Option Entry := do
  let name ← copyString ((get b!"allocator_name" e.tags).getD [])
  some ⟨.resource, true, name, [], 0, {}⟩

/-! ## Making -/

/-- The options that change what is made (ReplayOptions.hpp:37-54), and whether the tool was
built with NUMA support. -/
structure Opts where
  pool : Option Kind := none
  heur : Option Heur := none
  numa : Bool := true
deriving DecidableEq, Repr

/-- What `makeAllocator` of the executor does. -/
inductive Did
  /-- `rm.getAllocator(name)` -/
  | got (name : Str)
  | made (m : Made)
  /-- a warning is printed, the entry has no allocator -/
  | skipped
  /-- `REPLAY_ERROR` -/
  | exits
deriving DecidableEq, Repr

/-- An `int` passed for a `size_t`. -/
def ofInt (i : Int) : Nat := wrap i

/-- The type after the choice of the user (ReplayOperationManager.cpp:319-331). -/
def Opts.type (o : Opts) (t : RType) : RType :=
  match o.pool, t with
  | some .list, .list | some .list, .quick => .list
  | some .quick, .list | some .quick, .quick => .quick
  | _, t => t

/-- A pool (ReplayOperationManager.cpp:461-595, 597-708). -/
def makePool (o : Opts) (k : Kind) (x : Entry) : Did :=
  let to := fun l h => Did.made ⟨x.name, x.tracked, x.base, .pool k l h⟩
  match o.heur with
  | some h =>
    let initial := if x.argc = 1 then 512 * 1024 * 1024 else x.argv.initial
    let min := if x.argc = 1 ∨ x.argc = 2 then 1024 * 1024 else x.argv.min
    let align := if x.argc = 1 ∨ x.argc = 2 ∨ x.argc = 3 then 16 else ofInt x.argv.align
    if x.tracked then to [initial, min, align] (some h) else to [initial, min, align] none
  | none =>
    if x.argc ≥ 4 then to [x.argv.initial, x.argv.min, ofInt x.argv.align] none
    else if x.argc = 3 then to [x.argv.initial, x.argv.min] none
    else if x.argc = 2 then to [x.argv.initial] none
    else to [] none

/-- A mixed pool (ReplayOperationManager.cpp:855-1056). -/
def makeMixed (x : Entry) : Strat :=
  let v := x.argv
  if x.argc ≥ 8 then .mixed [v.smallest, v.largest, v.maxFixed, v.mult, v.dynInit, v.dynMin, v.dynAlign] none
  else if x.argc ≥ 7 then .mixed [v.smallest, v.largest, v.maxFixed, v.mult, v.dynInit, v.dynMin] none
  else if x.argc ≥ 6 then .mixed [v.smallest, v.largest, v.maxFixed, v.mult, v.dynInit] none
  else if x.argc ≥ 5 then .mixed [v.smallest, v.largest, v.maxFixed, v.mult] none
  else if x.argc ≥ 4 then .mixed [v.smallest, v.largest, v.maxFixed] none
  else if x.argc ≥ 3 then .mixed [v.smallest, v.largest] none
  else if x.argc ≥ 2 then .mixed [v.smallest] none
  else .mixed [] none

/-- `ReplayOperationManager::makeAllocator` (ReplayOperationManager.cpp:313-1061). -/
def make (o : Opts) (x : Entry) : Did :=
  let to := fun s => Did.made ⟨x.name, x.tracked, x.base, s⟩
  match o.type x.type with
  | .resource => .got x.name
  | .advisor =>
    if x.argv.dev ≥ 0 then
      match x.argc with
      | 3 => to (.advisor x.argv.advice none (some x.argv.dev))
      | 4 => to (.advisor x.argv.advice (some x.argv.acc) (some x.argv.dev))
      | _ => .exits
    else
      match x.argc with
      | 2 => to (.advisor x.argv.advice none none)
      | 3 => to (.advisor x.argv.advice (some x.argv.acc) none)
      | _ => .exits
  | .prefetcher => to (.prefetcher none)
  | .numa => if o.numa then to (.numa x.argv.node) else .skipped
  | .quick => makePool o .quick x
  | .list => makePool o .list x
  | .monotonic => to (.monotonic x.argv.capacity)
  | .slots => to (.slots x.argv.slots)
  | .limiter => to (.limiter x.argv.limit)
  | .threadSafe => to .threadSafe
  | .fixed => if x.argc ≥ 3 then to (.fixed x.argv.bytes (some x.argv.per)) else to (.fixed x.argv.bytes none)
  | .named => to .named
  | .mixed => to (makeMixed x)

/-- What the tool does for a recorded call. -/
def rebuild (o : Opts) (noDemangle : Bool) (major ref : Nat) (m : Made) (time : Int) : Did :=
  match compileMake noDemangle major (makeEvent ref m time) with
  | some x => make o x
  | none => .exits

end Umpire.Rebuild
