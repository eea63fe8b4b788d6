import Verif.Layout.Model

/-!
Model of `is_zst` (type_traits.hpp:8-34): whether a member of a type needs no space.

Layout as in the Itanium C++ ABI: a `[[no_unique_address]]` member of empty class type goes to offset 0 if no subobject of the same type is there,
any other member goes to the next multiple of its alignment behind the data before it.
-/
namespace Verif.Zst
open Verif.Layout

/-- Types, as far as `is_zst` tells them apart (the argument of type_traits.hpp:26-34). -/
inductive Ty
  /-- `void`, with or without `const` or `volatile` -/
  | void (cv : Bool)
  /-- a type of which there are no objects: functions, arrays of unknown bound, incomplete or abstract classes -/
  | noObject
  /-- a reference (stored as a pointer) -/
  | ref
  /-- any other type: empty class or not (`std::is_empty`), size and alignment -/
  | obj (empty : Bool) (e : Elem)
deriving DecidableEq, Repr

/-- `sizeof` a struct with a member of type `u` (without tail padding) followed by a `[[no_unique_address]]` member of type `t`, which is an
empty class iff `empty`; no subobject of `u` at its beginning has the type of `t` or of one of its bases (the struct in type_traits.hpp:10-18). -/
def pairSize (u : Elem) (empty : Bool) (t : Elem) : Nat := match empty with
  | true => alignUp (max u.size t.size) (max u.align t.align)
  | false => alignUp (alignUp u.size t.align + t.size) (max u.align t.align)

/-- `zst_checker<T>::check()` (type_traits.hpp:10-18): does the struct of `uint64_t pad` and `[[no_unique_address]] T value` have the size of
`uint64_t`? -/
def check (empty : Bool) (t : Elem) : Bool := pairSize ⟨8, 8⟩ empty t == 8

/-- `is_zst<T>::value` (type_traits.hpp:26-34); `none`: the program does not compile. -/
def isZst : Ty → Option Bool
  | .void false => some false
  | .void true => none
  | .noObject => none
  | .ref => some (check false ⟨8, 8⟩)
  | .obj empty t => some (check empty t)

end Verif.Zst
