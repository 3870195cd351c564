import Verif.Manager.Props
/-!
# Typed memory and the C and Fortran interfaces

`TypedAllocator` (TypedAllocator.inl), the Fortran routines that make arrays
(interface/c_fortran/wrapfumpire.f), the names that are handed from one language to the other, and
the handles of the C interface (wrapResourceManager.cpp, wrapAllocator.cpp, wrapUmpire.cpp).

Simplifications: default integers of Fortran have 32 bits and `C_SIZE_T` 64, arithmetic wraps.  Texts are lists of bytes.
-/
set_option autoImplicit false
namespace Umpire.Bind

/-! ## Sizes -/

/-- `sizeof(T) * size` in `TypedAllocator::allocate` (TypedAllocator.inl:25-29). -/
def typedBytes (sz n : Nat) : Nat := sz * n % 2 ^ 64

/-- A 64-bit signed value. -/
def wrap64 (x : Int) : Int := if x % 2 ^ 64 < 2 ^ 63 then x % 2 ^ 64 else x % 2 ^ 64 - 2 ^ 64

/-- The loop `p = p * dims(i)` of `allocator_allocate_<type>_array_<n>d`
(wrapfumpire.f:1065-1068, genumpiresplicer.py:59-62). -/
def prodDims : Int → List Int → Int
  | p, [] => p
  | p, d :: l => prodDims (wrap64 (p * d)) l

/-- The argument that `umpire_allocator_allocate` gets (wrapfumpire.f:1069-1070, wrapAllocator.cpp:49-57). -/
def fortranBytes (sz : Nat) (dims : List Int) : Nat := (wrap64 (prodDims 1 dims * sz) % 2 ^ 64).toNat

/-! ## Names -/

/-- A text. -/
abbrev Str := List Nat

/-- `LEN_TRIM` of Fortran. -/
def lenTrim (s : Str) : Nat := (s.reverse.dropWhile (· == 32)).length

/-- `std::string(name, Lname)` with `len_trim` (wrapfumpire.f:1727-1728, wrapResourceManager.cpp:63). -/
def fromFortran (s : Str) : Str := s.take (lenTrim s)

/-- `std::string(name)` (wrapResourceManager.cpp:47); the argument is what is before the zero byte
and whatever comes after. -/
def fromC (s : Str) : Str := s.takeWhile (· != 0)

/-- `getName().c_str()` (wrapAllocator.cpp:124-133), as a C program reads it. -/
def toC (s : Str) : Str := s.takeWhile (· != 0)

/-- `strncpy(to, from, n)`: up to the zero byte, then zero bytes. -/
def strncpy (s : Str) (n : Nat) : Str :=
  let t := (s.take n).takeWhile (· != 0)
  t ++ List.replicate (n - t.length) 0

/-- `allocator_get_name` (wrapfumpire.f:1004-1014, wrapAllocator.cpp:135-144, utilUmpire.cpp:17-26). -/
def toFortran (s : Str) : Str := strncpy s s.length

/-! ## Handles -/

/-- `umpire_allocator` (typesUmpire.h:83-87); `addr` 0 is null. -/
structure Capsule where
  addr : Nat
  idtor : Nat
deriving DecidableEq, Repr

/-- The objects on the heap, by address: `some none` was deleted, `some (some a)` is an `Allocator` for `a`
(a default one for `none`). -/
structure H where
  objs : List (Option (Option Nat))
  vars : List (Nat × Capsule)
deriving DecidableEq, Repr

/-- The result of a call. -/
inductive Res
  | ok (h : H)
  | throws (h : H)
  | on (a : Option Nat)
  | ub
deriving DecidableEq, Repr

/-- The handle in a variable. -/
def H.var (h : H) (v : Nat) : Option Capsule := h.vars.findSome? fun x => if x.1 = v then some x.2 else none

/-- Assign to a variable. -/
def H.assign (h : H) (v : Nat) (c : Capsule) : H := { h with vars := (v, c) :: h.vars }

/-- The object at an address; the first object is at address 1. -/
def H.obj (h : H) (p : Nat) : Option (Option Nat) := if p = 0 then none else (h.objs[p - 1]?).getD none

/-- `umpire_resourcemanager_get_allocator_*`, `_make_allocator_*` (wrapResourceManager.cpp:40-442): `new
umpire::Allocator`, then the call, which may throw (`none`), then the handle. -/
def getHandle (h : H) (v : Nat) (r : Option Nat) : Res :=
  match r with
  | none => .throws { h with objs := h.objs ++ [some none] }
  | some a => .ok ({ h with objs := h.objs ++ [some (some a)] }.assign v ⟨h.objs.length + 1, 1⟩)

/-- Assignment of the struct in C. -/
def copyHandle (h : H) (v w : Nat) : Res :=
  match h.var w with
  | none => .ub
  | some c => .ok (h.assign v c)

/-- `delete`: nothing for null, undefined for anything that is not there. -/
def del (h : H) (p : Nat) : Option H :=
  if p = 0 then some h
  else match h.obj p with
    | none => none
    | some _ => some { h with objs := h.objs.set (p - 1) none }

/-- `umpire_allocator_delete` (wrapAllocator.cpp:39-47). -/
def deleteHandle (h : H) (v : Nat) : Res :=
  match h.var v with
  | none => .ub
  | some c =>
    match del h c.addr with
    | none => .ub
    | some h' => .ok (h'.assign v { c with addr := 0 })

/-- `umpire_SHROUD_memory_destructor` on a handle (wrapUmpire.cpp:121-149). -/
def destroyHandle (h : H) (v : Nat) : Res :=
  match h.var v with
  | none => .ub
  | some c =>
    if c.idtor = 1 then
      match del h c.addr with
      | none => .ub
      | some h' => .ok (h'.assign v ⟨0, 0⟩)
    else .ok (h.assign v ⟨0, 0⟩)

/-- The allocator that a call on a handle acts on: `static_cast<umpire::Allocator *>(self->addr)`
(wrapAllocator.cpp:50-55). -/
def useHandle (h : H) (v : Nat) : Res :=
  match h.var v with
  | none => .ub
  | some c => match h.obj c.addr with
    | none => .ub
    | some a => .on a

/-! ## Copies -/

/-- `umpire_resourcemanager_copy_all(self, src_ptr, dst_ptr)` and `_copy_with_size`
(wrapResourceManager.cpp:490-509): the arguments go to `copy(dst_ptr, src_ptr, size)` as they come. -/
def cCopy (srcPtr dstPtr size : Nat) : Mgr.M Unit := Mgr.copy srcPtr dstPtr size

end Umpire.Bind
