import Verif.Judy.Map
/-!
# Backtraces of allocations

`UMPIRE_ENABLE_BACKTRACE` builds (src/umpire/util/backtrace.inl, ResourceManager.cpp:342-373, Umpire.cpp:113-123).  Characters are bytes, a
backtrace is the list of its return addresses; how they are written as text (backtrace.inl:72-114) is left out.
-/
set_option autoImplicit false
namespace Umpire.Backtrace
open Umpire.Judy (AMap)

/-- `::toupper` in the C locale (backtrace.inl:47). -/
def upper (b : Nat) : Nat := if 97 ≤ b ∧ b ≤ 122 then b - 32 else b

/-- `env_str.find("ON") != npos` (backtrace.inl:48). -/
def findOn : List Nat → Bool
  | a :: b :: r => (decide (a = 79) && decide (b = 78)) || findOn (b :: r)
  | _ => false

/-- What a value of `UMPIRE_BACKTRACE` comes to (backtrace.inl:44-51); `none`: it is not set. -/
def turnsOn : Option (List Nat) → Bool
  | none => false
  | some v => findOn (v.map upper)

/-- The state: the environment variable, the statics of every copy of `backtrace_enabled` (`none`: not initialized), the allocation map, and
the backtraces in the records, which have their number for a tag (AllocationRecord.hpp:44). -/
structure S where
  env : Option (List Nat)
  seen : Nat → Option Bool
  map : AMap
  traces : List (List Nat)

/-- At start. -/
def S.init (env : Option (List Nat)) : S := ⟨env, fun _ => none, .new, []⟩

/-- `backtrace_enabled` (backtrace.inl:37-57), copy `c`.  It is in an unnamed namespace of a header, so that every translation unit has one;
it is called from inline functions, so that which copy a call gets is for the compiler and the linker to choose. -/
def enabled (c : Nat) (s : S) : Bool × S :=
  match s.seen c with
  | some b => (b, s)
  | none => (turnsOn s.env, { s with seen := fun d => if d = c then some (turnsOn s.env) else s.seen d })

/-- The copies that ResourceManager.cpp and Umpire.cpp get. -/
structure Copies where
  rm : Nat
  um : Nat

/-- What a program does. -/
inductive Op
  /-- `setenv` or `unsetenv` of `UMPIRE_BACKTRACE`. -/
  | setenv (v : Option (List Nat))
  /-- `registerAllocation` of `n` bytes at `p`, called from `stack`. -/
  | register (p n : Nat) (stack : List Nat)
  | deregister (p : Nat)
  /-- `umpire::get_backtrace(q)`. -/
  | ask (q : Nat)
  /-- A use of copy `c` elsewhere: messages of the pools (QuickPool.cpp:63-66, 245-248; DynamicSizePool.hpp:92-95, 261-264). -/
  | other (c : Nat)

/-- What comes back. -/
inductive Out
  | done
  /-- The text `[UMPIRE_BACKTRACE=Off]`. -/
  | off
  | frames (l : List Nat)
  | throws
  /-- `&frames[0]` of an empty vector (backtrace.inl:77). -/
  | ub
deriving DecidableEq, Repr

/-- `build_backtrace` (backtrace.inl:59-70). -/
def build (stack : List Nat) : List Nat := stack.take 128

/-- `backtracer<trace_optional>::print` (backtrace.inl:125-132) with copy `c`. -/
def print (c : Nat) (fr : List Nat) (s : S) : Out × S :=
  match enabled c s with
  | (false, s') => (.off, s')
  | (true, s') => (if fr = [] then .ub else .frames fr, s')

/-- One operation and its answer. -/
def step (k : Copies) (s : S) : Op → Out × S
  | .setenv v => (.done, { s with env := v })
  | .register p n stack =>                                                     -- ResourceManager.cpp:342-354, backtrace.inl:119-123
    if p = 0 then (.throws, s)
    else
      match enabled k.rm s with
      | (b, s') => (.done, { s' with
          map := s'.map.insert p ⟨p, n, s'.traces.length⟩
          traces := s'.traces ++ [if b then build stack else []] })
  | .deregister p =>                                                           -- ResourceManager.cpp:356-360
    match s.map.remove p with
    | .ok a _ => (.done, { s with map := a })
    | .throws a => (.throws, { s with map := a })
    | .ub => (.ub, s)
  | .ask q =>                                                                  -- Umpire.cpp:113-118, ResourceManager.cpp:362-373
    match s.map.findRecord q with
    | (a, none) => (.throws, { s with map := a })
    | (a, some r) => print k.um (s.traces.getD r.tag []) { s with map := a }
  | .other c => (.done, (enabled c s).2)

/-- `get_allocator_records` (Umpire.cpp:50-60): the records with their backtraces.  Those of all strategies; which strategy a record is of is left
out.  `fuel` bounds the iteration. -/
def records (fuel : Nat) (s : S) : List (Nat × Nat × List Nat) := (s.map.records fuel).map fun r => (r.ptr, r.size, s.traces.getD r.tag [])

/-- The state after a history. -/
def run (k : Copies) (s : S) : List Op → S
  | [] => s
  | o :: os => run k (step k s o).2 os

end Umpire.Backtrace
