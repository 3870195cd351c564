import Verif.Base.Lists
/-!
# MPI: ranks, the output directory, communicators for shared memory

util/MPI.cpp, `umpire::initialize` (Umpire.hpp:22-41), the part of `initialize_io` that creates `UMPIRE_OUTPUT_DIR` (util/io.cpp:91-129),
and `get_communicator_for_allocator` (Umpire.cpp:237-262), for any number of processes.  Of MPI itself only this is used:
`MPI_Barrier` and `MPI_Comm_split_type` return once every process of the communicator has called them on it.
-/
set_option autoImplicit false
set_option linter.unusedSimpArgs false
namespace Umpire.Mpi

/-! ## Ranks (util/MPI.cpp) -/

/-- A communicator as one process sees it: its rank and the number of ranks. -/
structure View where
  rank : Int
  size : Int
deriving DecidableEq, Repr

/-- MPI.cpp:22-28 and the function-local `initialized` of `umpire::initialize` (Umpire.hpp:28). -/
structure M where
  rank : Int := -1
  size : Int := -1
  initialized : Bool := false
  comm : Option View := none
  once : Bool := false
deriving DecidableEq, Repr

/-- What a call does: it throws, or returns. -/
inductive R (α : Type) where
  | ok (a : α)
  | throws
deriving DecidableEq, Repr

/-- `MPI::initialize` (MPI.cpp:30-56).  `mpi`: the build has `UMPIRE_ENABLE_MPI`; `started`: what `MPI_Initialized` says. -/
def mpiInitialize (mpi started : Bool) (v : View) (m : M) : R M :=
  if !m.initialized then
    if !mpi then .ok { m with rank := 0, size := 1, initialized := true }
    else if started then .ok { m with comm := some v, rank := v.rank, size := v.size, initialized := true }
    else .ok m
  else .throws

/-- `umpire::initialize` (Umpire.hpp:22-41). -/
def setup (mpi started : Bool) (v : View) (m : M) : R M :=
  if !m.once then
    match mpiInitialize mpi started v m with
    | .ok m => .ok { m with once := true }
    | .throws => .throws
  else .ok m

/-- `MPI::finalize` (MPI.cpp:58-68). -/
def finalize (mpi : Bool) (m : M) : R M :=
  if m.initialized then (if !mpi then .ok { m with rank := -1, size := -1 } else .ok m) else .throws

/-- `MPI::sync` (MPI.cpp:88-97): whether there is a communicator to wait on. -/
def sync (mpi : Bool) (m : M) : R (Option View) :=
  if m.initialized then .ok (if mpi then m.comm else none) else .throws

/-- Calls of one process. -/
inductive Cmd where
  | setup (started : Bool) (v : View)
  | finalize
deriving DecidableEq, Repr

/-- One call; an exception leaves the state as it is. -/
def step (mpi : Bool) (m : M) : Cmd → M
  | .setup st v => match setup mpi st v m with | .ok m => m | .throws => m
  | .finalize => match finalize mpi m with | .ok m => m | .throws => m

def run (mpi : Bool) (m : M) (cs : List Cmd) : M := cs.foldl (step mpi) m

/-! ## The output directory (util/io.cpp:91-129) -/

/-- Where a process is: before the check of line 91, in the branch of rank 0 (93), in `MPI_Barrier` (124), behind it all, or it threw. -/
inductive At where
  | check
  | create
  | barrier
  | past
  | threw
deriving DecidableEq, Repr

/-- Processes `0 .. n-1` of the communicator of Umpire, by rank, and whether the directory exists, which all see. -/
structure Io where
  dir : Bool
  at_ : Nat → At

def Io.set (s : Io) (p : Nat) (a : At) : Io := { s with at_ := fun q => if q = p then a else s.at_ q }

/-- A step of a process, or of somebody else who creates the directory.  `log`: the log is enabled. -/
inductive IoStep (n : Nat) (log : Bool) : Io → Io → Prop
  /-- 91: `directory_exists`. -/
  | exists_ {s : Io} (p : Nat) (hp : p < n) (h : s.at_ p = .check) (hd : s.dir = true) : IoStep n log s (s.set p .past)
  /-- 91-93: it does not, and the process goes on by its rank. -/
  | missing {s : Io} (p : Nat) (hp : p < n) (h : s.at_ p = .check) (hd : s.dir = false) :
      IoStep n log s (s.set p (if p = 0 then .create else .barrier))
  /-- 97-98, 102-112: rank 0 creates the directory, if it still does not exist and the log is enabled. -/
  | create {s : Io} (h : s.at_ 0 = .create) : IoStep n log s { s.set 0 .barrier with dir := s.dir || log }
  /-- 98, 105-106: it cannot be created. -/
  | fail {s : Io} (h : s.at_ 0 = .create) (hd : s.dir = false) (hl : log = true) : IoStep n log s (s.set 0 .threw)
  /-- 124: `MPI_Barrier`. -/
  | barrier {s : Io} (h : ∀ p < n, s.at_ p = .barrier) : IoStep n log s { s with at_ := fun p => if p < n then .past else s.at_ p }
  | other {s : Io} : IoStep n log s { s with dir := true }

inductive IoSteps (n : Nat) (log : Bool) : Io → Io → Prop
  | refl {s : Io} : IoSteps n log s s
  | tail {s t u : Io} : IoSteps n log s t → IoStep n log t u → IoSteps n log s u

/-- Every process is before the check. -/
def Io.start (dir : Bool) : Io := { dir, at_ := fun _ => .check }

/-! ## Communicators for allocators (Umpire.cpp:237-262) -/

/-- A communicator is the processes in it. -/
abbrev Comm := List Nat

/-- A call of `get_communicator_for_allocator`: the id of the allocator, whether its scope is `node`, the communicator. -/
structure Call where
  id : Nat
  node : Bool
  comm : Comm
deriving DecidableEq, Repr

/-- A process: the calls it has still to make, `cached_communicators` (`none`: `MPI_COMM_NULL`), and what its calls returned. -/
structure PS where
  todo : List Call
  cache : List (Nat × Option Comm) := []
  out : List (Option Comm) := []
deriving DecidableEq, Repr

/-- 246-248: `cached_communicators.find(id)`. -/
def PS.find (s : PS) (id : Nat) : Option (Option Comm) := (s.cache.find? fun e => e.1 = id).map (·.2)

/-- 246-256 up to `MPI_Comm_split_type`: what is returned if it is not called. -/
def PS.start (s : PS) (c : Call) : Option (Option Comm) :=
  match s.find c.id with
  | some r => some r
  | none => if c.node then none else some none

/-- 257-261: the rest of the call, which returns `r`. -/
def PS.finish (s : PS) (c : Call) (rest : List Call) (r : Option Comm) : PS :=
  { todo := rest
    cache := match s.find c.id with
      | some _ => s.cache
      | none => (c.id, r) :: s.cache
    out := s.out ++ [r] }

/-- The new communicator `MPI_Comm_split_type(comm, MPI_COMM_TYPE_SHARED, …)` gives to `p`. -/
def split (machine : Nat → Nat) (g : Comm) (p : Nat) : Comm := g.filter fun q => machine q = machine p

/-- The call of `p` that waits in `MPI_Comm_split_type` on `g` returns. -/
def PS.advance (machine : Nat → Nat) (g : Comm) (p : Nat) (s : PS) : PS :=
  match s.todo with
  | c :: rest => s.finish c rest (some (split machine g p))
  | [] => s

abbrev State := Nat → PS

inductive Step (machine : Nat → Nat) : State → State → Prop
  /-- A call that needs no other process. -/
  | ret {s : State} (p : Nat) (c : Call) (rest : List Call) (r : Option Comm) (h : (s p).todo = c :: rest) (hr : (s p).start c = some r) :
      Step machine s fun q => if q = p then (s p).finish c rest r else s q
  /-- All processes of `g` are in `MPI_Comm_split_type` on `g`. -/
  | split {s : State} (g : Comm) (h0 : g ≠ [])
      (h : ∀ q ∈ g, ∃ c rest, (s q).todo = c :: rest ∧ (s q).start c = none ∧ c.comm = g) :
      Step machine s fun q => if q ∈ g then (s q).advance machine g q else s q

inductive Steps (machine : Nat → Nat) : State → State → Prop
  | refl {s : State} : Steps machine s s
  | tail {s t u : State} : Steps machine s t → Step machine t u → Steps machine s u

/-- The processes with the calls they will make. -/
def init (prog : Nat → List Call) : State := fun p => { todo := prog p }

end Umpire.Mpi
