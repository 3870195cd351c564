import Verif.Shm.Spec
/-!
# Processes that open and close a shared memory segment

Source: `src/umpire/resource/HostSharedMemoryResourceImpl.hpp` lines 50–179 and 471–510: the constructor and the
destructor of `HostSharedMemoryResource::impl`, run by any number of processes at the same time.

The state of the system is the directory of shared memory objects (`/dev/shm`), the objects with their size and contents,
and where every process is.  One step is one system call or one store to shared memory; the order of the steps of
different processes is arbitrary, and every call may fail.  The calls of a process that has attached the segment
(allocate, deallocate, writes to its memory) are those of `Shm` (C39, C40), one step each since they hold the mutex of
the segment.

Simplified: the first 48 bytes of the segment (`init_flag`, `reserved`, `mutex`) are fields of the object, not bytes; the
initialisation of the mutex is one step; permissions (`fchmod`, line 481).
-/
set_option autoImplicit false
namespace Umpire.Attach
open Umpire.Shm (M Rec Op)

/-- A shared memory object.  The last three fields are for the specification: who made it, and what has been done with it. -/
structure Obj where
  /-- `st_size`; a new object is empty -/
  size : Nat
  mem : Mem
  /-- `init_flag` (line 40): 0 in new memory, 1 `Initializing`, 2 `Initialized` (53-54) -/
  flag : Nat
  /-- `pthread_mutex_init` has been done -/
  mutex : Bool
  maker : Nat
  hist : List Op
  led : List Rec

/-- Where a process is, with the object its descriptor refers to and the length of its mapping. -/
inductive PC
  /-- before the constructor -/
  | idle
  /-- at line 73 -/
  | create
  /-- at line 80 -/
  | open_
  /-- at line 92 -/
  | trunc (o : Nat)
  /-- at line 98 -/
  | cmap (o : Nat)
  /-- at line 100 -/
  | flag (o len : Nat)
  /-- at lines 102-117 -/
  | mutex (o len : Nat)
  /-- in lines 119-130, after `k` stores -/
  | stores (o len k : Nat)
  /-- at line 132 -/
  | done (o len : Nat)
  /-- at lines 136-146 -/
  | wait (o : Nat)
  /-- at line 148 -/
  | amap (o : Nat)
  /-- at lines 150-156 -/
  | spin (o len : Nat)
  /-- constructed -/
  | ready (o len : Nat)
  /-- at line 164 -/
  | unmap (o : Nat)
  /-- at line 170 -/
  | unlink (o : Nat)
  /-- at line 175 -/
  | close (o : Nat)
  /-- destroyed -/
  | gone
  /-- the constructor threw -/
  | failed
  /-- undefined behaviour: a store outside the mapping, or a lock of what is not a mutex -/
  | ub
  deriving DecidableEq, Repr

/-- The processes: the name and the size each gives, and which of them ever destroy their resource. -/
structure Cfg where
  name : Nat → List Nat
  size : Nat → Nat
  ends : Nat → Prop

/-- `m_segment_name` (line 52); 47 is the slash, and `name[0]` of the empty string is the null character. -/
def path (name : List Nat) : List Nat := if name.headD 0 ≠ 47 then 47 :: name else name

structure Sys where
  dir : List Nat → Option Nat
  obj : Nat → Obj
  /-- the number of objects made so far -/
  made : Nat
  pc : Nat → PC

/-- `/dev/shm` is empty, as lines 64-71 assume. -/
def init : Sys := ⟨fun _ => none, fun _ => ⟨0, fun _ => 0, 0, false, 0, [], []⟩, 0, fun _ => .idle⟩

def Sys.goto (s : Sys) (p : Nat) (c : PC) : Sys := { s with pc := fun q => if q = p then c else s.pc q }

def Sys.put (s : Sys) (o : Nat) (x : Obj) : Sys := { s with obj := fun o' => if o' = o then x else s.obj o' }

/-- The length of a mapping in memory: whole pages. -/
def pages (len : Nat) : Nat := (len + 4095) / 4096 * 4096

/-- The stores of lines 119-130, one by one (`Shm.create`). -/
def inits (lim size : Nat) : List (M Unit) :=
  [Shm.st lim 48 size, Shm.st lim 64 80, Shm.st lim 56 80, Shm.st lim 72 0, Shm.set lim 80 0 0, Shm.set lim 80 8 0,
   Shm.set lim 80 24 (w64 (size + (W - 80))), Shm.set lim 80 32 0]

/-- The next system call or store of process `p`; `ok = false`: it fails with an error that is neither `EEXIST` nor
`ENOENT`. -/
def move (cfg : Cfg) (p : Nat) (ok : Bool) (s : Sys) : Sys :=
  match s.pc p with
  | .idle => s.goto p .create
  | .create =>                                                              -- 73: O_CREAT | O_EXCL
    if ok = false then s.goto p .failed                                     -- 76-78
    else
      match s.dir (path (cfg.name p)) with
      | some _ => s.goto p .open_                                           -- EEXIST
      | none =>
        { dir := fun n => if n = path (cfg.name p) then some s.made else s.dir n
          obj := fun o => if o = s.made then ⟨0, fun _ => 0, 0, false, p, [], []⟩ else s.obj o
          made := s.made + 1
          pc := fun q => if q = p then .trunc s.made else s.pc q }
  | .open_ =>                                                               -- 80
    if ok = false then s.goto p .failed                                     -- 83-86
    else
      match s.dir (path (cfg.name p)) with
      | some o => s.goto p (.wait o)
      | none => s.goto p .create                                            -- ENOENT
  | .trunc o =>                                                             -- 92
    if ok = false then s.goto p .failed
    else (s.put o { s.obj o with size := cfg.size p }).goto p (.cmap o)
  | .cmap o =>                                                              -- 98, 487-510; no mapping of length 0
    if ok = false ∨ (s.obj o).size = 0 then s.goto p .failed
    else s.goto p (.flag o (s.obj o).size)
  | .flag o len => (s.put o { s.obj o with flag := 1 }).goto p (.mutex o len)      -- 100
  | .mutex o len =>                                                         -- 102-117
    if ok = false then s.goto p .failed
    else (s.put o { s.obj o with mutex := true }).goto p (.stores o len 0)
  | .stores o len k =>                                                      -- 119-130
    match (inits (pages len) (cfg.size p))[k]? with
    | none => s.goto p (.done o len)
    | some f =>
      match f (s.obj o).mem with
      | .ok (_, m) => (s.put o { s.obj o with mem := m }).goto p (.stores o len (k + 1))
      | .error _ => s.goto p .ub
  | .done o len => (s.put o { s.obj o with flag := 2 }).goto p (.ready o len)      -- 132
  | .wait o =>                                                              -- 136-146
    if ok = false then s.goto p .failed
    else if (s.obj o).size = 0 then s
    else s.goto p (.amap o)
  | .amap o =>                                                              -- 148
    if ok = false then s.goto p .failed
    else s.goto p (.spin o (s.obj o).size)
  | .spin o len => if (s.obj o).flag ≠ 2 then s else s.goto p (.ready o len)       -- 153-156
  | .unmap o => s.goto p (.unlink o)                                        -- 164
  | .unlink o =>                                                            -- 170
    { s.goto p (.close o) with dir := fun n => if n = path (cfg.name p) then none else s.dir n }
  | .close _ => s.goto p .gone                                              -- 175
  | .ready _ _ => s
  | .gone => s
  | .failed => s
  | .ub => s

/-- Steps of the system. -/
inductive Trans (cfg : Cfg) : Sys → Sys → Prop
  | move (p : Nat) (ok : Bool) (s : Sys) : Trans cfg s (move cfg p ok s)
  /-- the destructor begins -/
  | destroy (p o len : Nat) (s : Sys) (he : cfg.ends p) (h : s.pc p = .ready o len) : Trans cfg s (s.goto p (.unmap o))
  /-- a call of a process that has the segment, under the mutex -/
  | call (p o len : Nat) (s : Sys) (op : Op) (m : Mem) (L : List Rec) (h : s.pc p = .ready o len)
      (hm : (s.obj o).mutex = true) (hs : Shm.Step (pages len) op (s.obj o).mem (s.obj o).led m L) :
      Trans cfg s (s.put o { s.obj o with mem := m, led := L, hist := op :: (s.obj o).hist })
  /-- a call that locks what is not a mutex -/
  | bad (p o len : Nat) (s : Sys) (h : s.pc p = .ready o len) (hm : (s.obj o).mutex = false) :
      Trans cfg s (s.goto p .ub)

/-- The states that can be reached. -/
inductive Reach (cfg : Cfg) : Sys → Prop
  | init : Reach cfg init
  | step {s s' : Sys} (h : Reach cfg s) (t : Trans cfg s s') : Reach cfg s'

end Umpire.Attach
