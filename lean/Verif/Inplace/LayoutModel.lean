/-!
Model of where `inplace_polymorphic` puts its objects and what the pointers to `Base` it hands out point to (inplace_polymorphic.hpp:30-35, 58-95,
97-145, 226-231, 244-294). Addresses are natural numbers.
-/
namespace Verif.Inplace

/-- A class of `Ts...`: `sizeof`, `alignof`, and the offset of the `Base` in it (inplace_polymorphic.hpp:59: `std::derived_from<Base>`). -/
structure Cls where
  size : Nat
  align : Nat
  baseOff : Nat
deriving DecidableEq, Repr

/-- `std::max({...})` of a nonempty list (inplace_polymorphic.hpp:75). -/
def maxOf : List Nat → Nat
  | [] => 0
  | x :: l => l.foldl (fun a b => if a < b then b else a) x

/-- `sizeof(storage_)` (inplace_polymorphic.hpp:75). -/
def storageSize (ts : List Cls) : Nat := maxOf (ts.map Cls.size)

/-- `alignof(storage_)` (inplace_polymorphic.hpp:75). -/
def storageAlign (ts : List Cls) : Nat := maxOf (ts.map Cls.align)

/-- The address of `storage_` in an `inplace_polymorphic` at `self`: it is the first member (inplace_polymorphic.hpp:75). -/
def storageAt (self : Nat) : Nat := self

/-- The address of `valueless_`, the member after it (inplace_polymorphic.hpp:76). -/
def flagAt (ts : List Cls) (self : Nat) : Nat := storageAt self + storageSize ts

/-- Where `new (&storage_) T{...}` puts the object (inplace_polymorphic.hpp:128, 143, 229). -/
def objectAt (self : Nat) : Nat := storageAt self

/-- Where the user's `copy_to(dst)` and `move_to(dst)` put it with `new (dst) T{...}`: `dst` is `get_unchecked()` (inplace_polymorphic.hpp:104, 116). -/
def copiedAt (self : Nat) : Nat := storageAt self

/-- `get_unchecked()`: the address of the storage, as a pointer to `Base` (inplace_polymorphic.hpp:89-95). -/
def getUnchecked (self : Nat) : Nat := storageAt self

/-- `get()`, `operator*`; `none`: `std::bad_variant_access` (inplace_polymorphic.hpp:244-270, 284-286). -/
def getPtr (valueless : Bool) (self : Nat) : Option Nat := if valueless then none else some (getUnchecked self)

/-- `operator->`: `&get()`; `amp` is the `operator&` of `Base` (inplace_polymorphic.hpp:276-278, 292-294). -/
def arrow (amp : Nat → Nat) (valueless : Bool) (self : Nat) : Option Nat := (getPtr valueless self).map amp

/-- `first<Ts...>`: the class the default constructor makes; `none`: ill-formed (inplace_polymorphic.hpp:30-36, 61-62, 71). -/
def firstDerived (ts : List Cls) : Option Cls := match ts with
  | [] => none
  | t :: _ => some t

/-- The other assertions about the classes (inplace_polymorphic.hpp:61-68). -/
def accepted (ts : List Cls) (virtualDtor baseNothrow : Bool) (trivial nothrow : Cls → Bool) : Bool :=
  !ts.isEmpty && (virtualDtor || ts.all trivial) && baseNothrow && ts.all nothrow

end Verif.Inplace
