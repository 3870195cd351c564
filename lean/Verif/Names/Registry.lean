import Verif.Names.TypesProps
import Verif.Names.Model
/-!
Which memory a resource name stands for.

Source: `src/umpire/resource/MemoryResourceRegistry.cpp` lines 83–285, the functions
`isValidMemoryResourceFor` of the `*Factory.cpp` beside it, and `ResourceManager::makeResource`
(`src/umpire/ResourceManager.cpp` lines 132–186).

A build has at most one of CUDA, HIP and SYCL; the number of devices is what the runtime reports
(0 devices with SYCL, or an error with CUDA and HIP, is `Gpu.none`).  What the factories construct is
only told apart by kind and platform.
-/
set_option autoImplicit false

namespace Umpire.Names

/-- The platforms of device memory. -/
inductive Backend
  | cuda | hip | sycl | omp
  deriving DecidableEq, Repr

/-- The factories, by what they construct (`*Factory.cpp`). -/
inductive Kind
  | host | noOp | null | shared | file
  | device (b : Backend) | um (b : Backend) | pinned (b : Backend) | const (b : Backend)
  deriving DecidableEq, Repr

/-- The GPU support compiled in and the devices found.  `coherent` is `UMPIRE_ENABLE_HIP_COHERENCE_GRANULARITY`
and support for it, `const` is `UMPIRE_ENABLE_CONST`. -/
inductive Gpu
  | none
  | cuda (devices : Nat) (const : Bool)
  | hip (devices : Nat) (coherent const : Bool)
  | sycl (devices : Nat)
  deriving DecidableEq, Repr

/-- A build on a machine. -/
structure Build where
  noOp : Bool
  ipc : Bool
  file : Bool
  gpu : Gpu
  omp : Option Nat
  deriving DecidableEq, Repr

def CONST : Name := "CONST".toList
def FINE : Name := "FINE".toList
def COARSE : Name := "COARSE".toList
def NULL : Name := "__umpire_internal_null".toList

/-- `"DEVICE::" + std::to_string(device)`. -/
def devName (i : Nat) : Name := DEVICE ++ COLONS ++ showNat i

/-- `<name>::FINE` and `<name>::COARSE`. -/
def grains (n : Name) : List Name := [n ++ COLONS ++ FINE, n ++ COLONS ++ COARSE]

/-- The names that `MemoryResourceRegistry::MemoryResourceRegistry` lists for a GPU
(MemoryResourceRegistry.cpp:105-227). -/
def Gpu.names : Gpu → List Name
  | .none => []
  | .cuda d c => DEVICE :: (List.range d).map devName ++ [UM, PINNED] ++ (if c then [DEVICE_CONST] else [])
  | .hip d g c => DEVICE :: (if g then grains DEVICE else []) ++
      (List.range d).flatMap (fun i => devName i :: (if g then grains (devName i) else [])) ++
      UM :: (if g then grains UM else []) ++ PINNED :: (if g then grains PINNED else []) ++
      (if c then [DEVICE_CONST] else [])
  | .sycl d => DEVICE :: (List.range d).map devName ++ [UM, PINNED]

/-- The factories it registers for a GPU. -/
def Gpu.factories : Gpu → List Kind
  | .none => []
  | .cuda _ c => [.device .cuda, .um .cuda, .pinned .cuda] ++ (if c then [.const .cuda] else [])
  | .hip _ _ c => [.device .hip, .um .hip, .pinned .hip] ++ (if c then [.const .hip] else [])
  | .sycl _ => [.device .sycl, .um .sycl, .pinned .sycl]

/-- The factory it registers for OpenMP target offload (MemoryResourceRegistry.cpp:229-243). -/
def ompFactories : Option Nat → List Kind
  | some _ => [.device .omp]
  | none => []

/-- `getResourceNames` (MemoryResourceRegistry.cpp:83-243). -/
def Build.names (b : Build) : List Name :=
  HOST :: (if b.noOp then [NO_OP] else []) ++ (if b.ipc then [SHARED] else []) ++ (if b.file then [FILE] else []) ++
    b.gpu.names ++ (match b.omp with | some d => (List.range d).map devName ++ [DEVICE] | none => [])

/-- `m_allocator_factories` (MemoryResourceRegistry.cpp:83-243). -/
def Build.factories (b : Build) : List Kind :=
  .host :: (if b.noOp then [.noOp] else []) ++ [.null] ++ (if b.ipc then [.shared] else []) ++ (if b.file then [.file] else []) ++
    b.gpu.factories ++ ompFactories b.omp

/-- `isValidMemoryResourceFor` of each factory. -/
def Kind.valid : Kind → Name → Bool
  | .host, n => has HOST n
  | .noOp, n => has NO_OP n
  | .null, n => n == NULL
  | .shared, n => has SHARED n
  | .file, n => has FILE n
  | .device _, n => !has CONST n && has DEVICE n
  | .um _, n => has UM n
  | .pinned _, n => has PINNED n
  | .const _, n => n == DEVICE_CONST

/-- `makeMemoryResource`, `getDefaultTraitsForResource` (MemoryResourceRegistry.cpp:251-285): the first factory that
accepts the name; `none` is the exception. -/
def Build.select (b : Build) (n : Name) : Option Kind := b.factories.find? (·.valid n)

/-- `MemoryResourceTraits::granularity_type`. -/
inductive Grain
  | unknown | fine | coarse
  deriving DecidableEq, Repr

/-- The granularity that `makeResource` sets (ResourceManager.cpp:150-156). -/
def grain (n : Name) : Grain :=
  if has (COLONS ++ FINE) n then .fine else if has (COLONS ++ COARSE) n then .coarse else .unknown

/-- The build, for the naming functions. -/
def Build.reg (b : Build) (cur : Int) : Reg where
  names := b.names
  valid n := (b.select n).isSome
  cuda := match b.gpu with | .cuda _ _ => true | _ => false
  cur := cur

end Umpire.Names
