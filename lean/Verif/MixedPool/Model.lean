import Verif.FixedPool.Model
import Verif.QuickPool.Model
/-!
# Model of `MixedPool` (src/umpire/strategy/MixedPool.{hpp,cpp})

The sub-pools are the models of `FixedPool` and `QuickPool`; all of them use the
same parent.  Not modelled: logging, the statistics of the sub-pools
(`allocate_internal` / `deallocate_internal`), platform and traits.
-/
set_option autoImplicit false
namespace Umpire.MixedPool
open Umpire.Prog

/-- Constructor arguments (MixedPool.hpp:47-56). -/
structure Cfg where
  smallest : Nat
  largest : Nat
  maxInit : Nat
  mult : Nat
  quick : QuickPool.Cfg

/-- `m_fixed_pool` with `m_fixed_pool_map` (its object sizes), `m_quick_pool`,
`m_map` (MixedPool.hpp:68-73). -/
structure State where
  fixed : List (FixedPool.Cfg × FixedPool.State)
  quick : QuickPool.State
  map : List (Nat × Int)
deriving DecidableEq, Repr

/-- `obj_per_pool` (MixedPool.cpp:40); `64 * sizeof(int) * 8` is 2048. -/
def perPool (cfg : Cfg) (obj : Nat) : Nat := min 2048 (cfg.maxInit / obj)

/-- The loop of the constructor (MixedPool.cpp:38-50).  `fuel` bounds the number of
iterations.  Division by zero is undefined behaviour. -/
def mkFixed (cfg : Cfg) : Nat → Nat → Prog (List (FixedPool.Cfg × FixedPool.State))
  | 0, _ => .fail .diverge
  | fuel + 1, obj =>
    if obj ≤ cfg.largest then                                                       -- 39
      if obj = 0 then .fail .ub
      else if 1 < perPool cfg obj then                                              -- 41
        (FixedPool.create ⟨obj, perPool cfg obj⟩).bind fun s =>                     -- 42-43
          (mkFixed cfg fuel (w64 (obj * cfg.mult))).bind fun rest =>                -- 48
            .ret ((⟨obj, perPool cfg obj⟩, s) :: rest)
      else .ret []
    else .ret []

/-- The constructor (MixedPool.cpp:21-55). -/
def create (cfg : Cfg) (fuel : Nat) : Prog State :=
  (mkFixed cfg fuel cfg.smallest).bind fun fs => .ret { fixed := fs, quick := QuickPool.init, map := [] }

/-- The search for the sub-pool (MixedPool.cpp:60-67). -/
def findIndex (bytes : Nat) : List Nat → Nat
  | [] => 0
  | s :: ss => if bytes > s then findIndex bytes ss + 1 else 0

/-- `m_map[p] = v`. -/
def mapSet (p : Nat) (v : Int) (m : List (Nat × Int)) : List (Nat × Int) := (p, v) :: m.filter fun e => e.1 ≠ p

/-- `m_map.find(p)`. -/
def mapGet (p : Nat) (m : List (Nat × Int)) : Option Int := (m.find? fun e => e.1 = p).map (·.2)

/-- `allocate` (MixedPool.cpp:57-81).  `none`: an exception of the sub-pool. -/
def allocate (cfg : Cfg) (fuel : Nat) (s : State) (bytes : Nat) : Prog (Option Nat × State) :=
  let index := findIndex bytes (s.fixed.map (·.1.obj))
  match s.fixed[index]? with
  | some (fc, fs) =>
    (FixedPool.allocate fc fuel fs).bind fun
      | (some p, fs') => .ret (some p, { s with fixed := s.fixed.set index (fc, fs'), map := mapSet p index s.map })
      | (none, fs') => .ret (none, { s with fixed := s.fixed.set index (fc, fs') })
  | none =>
    (QuickPool.allocate cfg.quick s.quick bytes).bind fun
      | (some p, q) => .ret (some p, { s with quick := q, map := mapSet p (-1) s.map })
      | (none, q) => .ret (none, { s with quick := q })

/-- `deallocate` (MixedPool.cpp:83-94).  The Boolean is false when the sub-pool throws. -/
def deallocate (cfg : Cfg) (fuel : Nat) (s : State) (ptr : Nat) : Prog (Bool × State) :=
  match mapGet ptr s.map with
  | none => .ret (true, s)
  | some index =>
    if index < 0 then
      (QuickPool.deallocate cfg.quick fuel s.quick ptr).bind fun q => .ret (true, { s with quick := q })
    else
      match s.fixed[index.toNat]? with
      | none => .fail .ub
      | some (fc, fs) =>
        (FixedPool.deallocate fc fs ptr).bind fun r => .ret (r.1, { s with fixed := s.fixed.set index.toNat (fc, r.2) })

/-- `release` (MixedPool.cpp:96-99): nothing. -/
def release (s : State) : State := s

/-- `getActualSize` (MixedPool.cpp:101-108). -/
def getActualSize (s : State) : Nat :=
  (s.fixed.map fun f => FixedPool.getActualSize f.2).sum + QuickPool.getActualSize s.quick

/-- Destruction of `m_fixed_pool`. -/
def destroyFixed : List (FixedPool.Cfg × FixedPool.State) → Prog Unit
  | [] => .ret ()
  | f :: fs => (FixedPool.destroy f.1 f.2).bind fun _ => destroyFixed fs

/-- Destruction of the members: `m_quick_pool` (QuickPool.cpp:36-41), then
`m_fixed_pool`. -/
def destroy (s : State) : Prog Unit := (QuickPool.release s.quick).bind fun _ => destroyFixed s.fixed

end Umpire.MixedPool
