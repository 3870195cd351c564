import Verif.Names.Types
/-!
Creation, naming and lookup of allocators by `ResourceManager`.

Source: `src/umpire/ResourceManager.cpp` lines 94–333 and 889–916,
`src/umpire/ResourceManager.inl` lines 20–57.

An `AllocationStrategy*` is a handle: its index in the list `heap` of all
strategy objects ever constructed; a slot becomes `none` when the object is
destroyed.  Using a destroyed object, or dereferencing `end()`, is the outcome
`ub`.  An exception is the outcome `err` with the state the manager is left in:
the caller may catch it and carry on.

Not modelled: logging and event recording (they read names of live objects),
`m_mutex`, and the other contents of the strategy objects.
-/
set_option autoImplicit false

namespace Umpire.Names

/-- What the naming code reads from an `AllocationStrategy`: `getName()` and
`getId()`. -/
structure Obj where
  name : Name
  id : Nat
  deriving DecidableEq, Repr

/-- `umpire::invalid_allocator_id` (config.hpp.in:63). -/
def INVALID : Nat := 0xDEADBEE

/-- `std::map`/`std::unordered_map` as an association list. -/
def get {α β : Type} [DecidableEq α] (m : List (α × β)) (k : α) : Option β :=
  (m.find? (fun e => decide (e.1 = k))).map (·.2)

/-- `m[k] = v`. -/
def put {α β : Type} [DecidableEq α] (m : List (α × β)) (k : α) (v : β) : List (α × β) :=
  (k, v) :: m.filter (fun e => !decide (e.1 = k))

/-- `m.erase(k)`. -/
def del {α β : Type} [DecidableEq α] (m : List (α × β)) (k : α) : List (α × β) :=
  m.filter (fun e => !decide (e.1 = k))

/-- The members of `ResourceManager` concerned with naming
(ResourceManager.hpp: `m_allocators_by_name`, `m_allocators_by_id`,
`m_memory_resources`, `m_default_allocator`, `m_id`). -/
structure RM where
  heap : List (Option Obj)
  byName : List (Name × Nat)
  byId : List (Nat × Nat)
  byType : List (RType × Nat)
  dflt : Option Nat
  nextId : Nat
  deriving DecidableEq, Repr

/-- What the build and the machine determine: the names listed by
`MemoryResourceRegistry::getResourceNames`, the names some registered factory
accepts, and how a device id is read from a name. -/
structure Reg where
  names : List Name
  valid : Name → Bool
  cuda : Bool
  cur : Int

/-- The outcome of an operation: a value, an exception, or undefined behaviour. -/
inductive Out (α : Type)
  | ok (v : α) (s : RM)
  | err (s : RM)
  | ub
  deriving DecidableEq, Repr

/-- Sequencing: exceptions and undefined behaviour end the operation. -/
def Out.bind {α β : Type} (x : Out α) (f : α → RM → Out β) : Out β :=
  match x with
  | .ok v s => f v s
  | .err s => .err s
  | .ub => .ub

/-- `ResourceManager::initialize` (ResourceManager.cpp:94-130): the null resource
and the zero-byte pool get ids 0 and 1 and no names. -/
def init : RM where
  heap := [some ⟨"__umpire_internal_null".toList, 0⟩, some ⟨"__umpire_internal_0_byte_pool".toList, 1⟩]
  byName := []
  byId := []
  byType := []
  dflt := none
  nextId := 2

/-- The object behind a pointer, if it is alive. -/
def obj (s : RM) (h : Nat) : Option Obj := (s.heap[h]?).join

/-- The constructor `Allocator(AllocationStrategy*)` (Allocator.cpp:17-26) reads
the object. -/
def wrap (s : RM) (h : Nat) : Out Nat :=
  match obj s h with
  | some _ => .ok h s
  | none => .ub

/-- Throwing an error whose message contains `getAllocatorInformation()`
(ResourceManager.cpp:918-927), which prints every object in the name table. -/
def errInfo (s : RM) : Out Nat :=
  if s.byName.all (fun e => (obj s e.2).isSome) then .err s else .ub

/-- `isAllocator(name)` (ResourceManager.cpp:321-328). -/
def isAllocator (g : Reg) (s : RM) (n : Name) : Bool :=
  (get s.byName n).isSome || g.names.contains n

/-- `isAllocator(id)` (ResourceManager.cpp:330-333). -/
def isAllocatorId (s : RM) (i : Nat) : Bool := (get s.byId i).isSome

/-- `name.substr(0, name.find("::") - 1)` (ResourceManager.cpp:176): when `::` is
at the very front the length wraps around and the whole name is taken. -/
def baseName (n : Name) : Name :=
  match findSub COLONS n with
  | some (i + 1) => n.take i
  | some 0 => n
  | none => n

/-- The entries `makeResource` writes into the name table
(ResourceManager.cpp:171-178). -/
def nameIt (m : List (Name × Nat)) (n : Name) (h : Nat) : List (Name × Nat) :=
  let m1 := put m n h
  let m2 := if n = DEVICE then put m1 DEVICE0 h else m1
  if has COLONS0 n then put m2 (baseName n) h else m2

/-- `makeResource(name, traits)` (ResourceManager.cpp:138-186).  `ctor` says
whether the resource's constructor succeeds.  If `string_to_resource` throws, the
name table has been written already and the `unique_ptr` destroys the object. -/
def makeResourceT (g : Reg) (s : RM) (n : Name) (ctor : Bool) : Out Nat :=
  if (get s.byName n).isSome then .err s
  else if has DEVICE n && (deviceId g.cuda g.cur n).isNone then .err s
  else
    let s1 := { s with nextId := s.nextId + 1 }
    if !(g.valid n && ctor) then .err s1
    else
      let h := s.heap.length
      let tab := nameIt s.byName n h
      if has COLONS n then
        .ok h { s1 with heap := s.heap ++ [some ⟨n, s.nextId⟩], byName := tab, byId := put s.byId s.nextId h }
      else
        match ofName n with
        | none => .err { s1 with heap := s.heap ++ [none], byName := tab }
        | some t => .ok h { s1 with heap := s.heap ++ [some ⟨n, s.nextId⟩], byName := tab, byId := put s.byId s.nextId h, byType := put s.byType t h }

/-- `makeResource(name)` (ResourceManager.cpp:132-136): the default traits are
fetched first, which throws when no factory accepts the name. -/
def makeResource (g : Reg) (s : RM) (n : Name) (ctor : Bool) : Out Nat :=
  if g.valid n then makeResourceT g s n ctor else .err s

/-- `getAllocationStrategy(name)` (ResourceManager.cpp:188-206). -/
def getStrategy (g : Reg) (s : RM) (n : Name) (ctor : Bool) : Out Nat :=
  match get s.byName n with
  | some h => .ok h s
  | none =>
    if g.names.contains n then
      (makeResource g s n ctor).bind fun _ s' =>
        match get s'.byName n with
        | some h => .ok h s'
        | none => .ub
    else errInfo s

/-- `getAllocator(name)` (ResourceManager.cpp:208-212). -/
def getByName (g : Reg) (s : RM) (n : Name) (ctor : Bool) : Out Nat :=
  (getStrategy g s n ctor).bind fun h s' => wrap s' h

/-- `getAllocator(type)` (ResourceManager.cpp:219-229). -/
def getByType (g : Reg) (s : RM) (t : RType) (ctor : Bool) : Out Nat :=
  match get s.byType t with
  | some h => wrap s h
  | none =>
    match toName t with
    | some n => getByName g s n ctor
    | none => .err s

/-- `getAllocator(id)` (ResourceManager.cpp:231-250). -/
def getById (s : RM) (i : Int) : Out Nat :=
  if i < 0 then .err s
  else if i = (INVALID : Int) then .err s
  else
    match get s.byId i.toNat with
    | some h => wrap s h
    | none => errInfo s

/-- `getDefaultAllocator` (ResourceManager.cpp:252-262). -/
def getDefault (g : Reg) (s : RM) (ctor : Bool) : Out Nat :=
  match s.dflt with
  | some h => wrap s h
  | none => (getByName g s HOST ctor).bind fun h s' => .ok h { s' with dflt := some h }

/-- `setDefaultAllocator` (ResourceManager.cpp:271-284). -/
def setDefault (s : RM) (h : Nat) : Out Nat :=
  (wrap s h).bind fun h s' => .ok h { s' with dflt := some h }

/-- `makeAllocator<Strategy>(name, …)` (ResourceManager.inl:20-57).  `ctor` says
whether the strategy's constructor succeeds. -/
def makeAllocator (g : Reg) (s : RM) (n : Name) (ctor : Bool) : Out Nat :=
  if s.nextId + 1 = INVALID then .err s
  else if isAllocator g s n then .err s
  else
    let s1 := { s with nextId := s.nextId + 1 }
    if !ctor then .err s1
    else
      let h := s.heap.length
      .ok h { s1 with heap := s.heap ++ [some ⟨n, s.nextId⟩], byName := put s.byName n h, byId := put s.byId s.nextId h }

/-- `addAlias` (ResourceManager.cpp:286-294).  The error message names the
allocator behind a taken name, which creates it when it is a resource not used
so far. -/
def addAlias (g : Reg) (s : RM) (n : Name) (h : Nat) (ctor : Bool) : Out Nat :=
  if isAllocator g s n then (getByName g s n ctor).bind fun _ s' => .err s'
  else .ok h { s with byName := put s.byName n h }

/-- `removeAlias` (ResourceManager.cpp:296-313).  `find` may return `end()` for a
resource name that has not been used. -/
def removeAlias (g : Reg) (s : RM) (n : Name) (h : Nat) : Out Nat :=
  if !isAllocator g s n then .err s
  else
    match get s.byName n with
    | none => .ub
    | some a =>
      match obj s a with
      | none => .ub
      | some o =>
        if o.name = n then .err s
        else
          match obj s h with
          | none => .ub
          | some o' =>
            if o.id ≠ o'.id then .err s
            else .ok h { s with byName := del s.byName n }

/-- `getAllocatorNames` (ResourceManager.cpp:892-901). -/
def names (s : RM) : List Name := s.byName.map (·.1)

/-- `getAllocatorIds` (ResourceManager.cpp:903-911). -/
def ids (s : RM) : List Nat := s.byId.map (·.1)

/-! ### Programs -/

/-- A call a user can make. -/
inductive Op
  | make (n : Name) (ctor : Bool)
  | resource (n : Name) (ctor : Bool)
  | resourceT (n : Name) (ctor : Bool)
  | byName (n : Name) (ctor : Bool)
  | byType (t : RType) (ctor : Bool)
  | byId (i : Int)
  | getDefault (ctor : Bool)
  | setDefault (h : Nat)
  | alias (n : Name) (h : Nat) (ctor : Bool)
  | unalias (n : Name) (h : Nat)
  deriving DecidableEq, Repr

def step (g : Reg) (s : RM) : Op → Out Nat
  | .make n c => makeAllocator g s n c
  | .resource n c => makeResource g s n c
  | .resourceT n c => makeResourceT g s n c
  | .byName n c => getByName g s n c
  | .byType t c => getByType g s t c
  | .byId i => getById s i
  | .getDefault c => getDefault g s c
  | .setDefault h => setDefault s h
  | .alias n h c => addAlias g s n h c
  | .unalias n h => removeAlias g s n h

/-- The state after an operation, whether it returned or threw. -/
def Out.after {α : Type} : Out α → Option RM
  | .ok _ s => some s
  | .err s => some s
  | .ub => none

/-- A whole program: exceptions are caught by the caller; `none` is undefined
behaviour. -/
def run (g : Reg) (s : RM) : List Op → Option RM
  | [] => some s
  | o :: os => (step g s o).after.bind fun s' => run g s' os

end Umpire.Names
