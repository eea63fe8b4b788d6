import Verif.Integral.Model

/-!
Model of `integral_template_variant` (integral_template_variant.hpp) as a value: construction, copies, assignment, comparison, hash, visiting.
Which indices exist and how `index()` is computed is modelled in `Verif.Integral.Model`.

The member `repr_` is a `std::variant<T<first>, ...>`. Operations on elements may throw.
-/
namespace Verif.IntVariant
open Verif.Range

/-- What the element types `T<ix>` do, by position in the sequence (the template argument in integral_template_variant.hpp:47). -/
structure Elems (V : Type) where
  /-- `is_nothrow_copy_constructible`, `is_nothrow_move_constructible` of the element type -/
  nothrowCopy : Nat → Bool
  nothrowMove : Nat → Bool
  /-- does copying / moving / assigning this value throw? -/
  copyThrows : Nat → V → Bool
  moveThrows : Nat → V → Bool
  assignThrows : Nat → V → Bool
  /-- the value left in the target by a throwing assignment -/
  halfAssigned : V → V → V
  /-- three-way comparison, equality and hash -/
  cmp : Nat → V → V → Ordering
  beq : Nat → V → V → Bool
  hash : Nat → V → Nat
  /-- the number of alternatives -/
  count : Nat

variable {V : Type}

/-- The variant: position of the held alternative and its value, or nothing (integral_template_variant.hpp:61). -/
abbrev Var (V : Type) := Option (Nat × V)

/-- How a function ends: with a result, an exception (with the state the target is left in), or the end of the program
(integral_template_variant.hpp:64-92). -/
inductive Out (α : Type)
  | ok (a : α)
  | threw (a : α)
  | terminated
deriving DecidableEq, Repr

/-- `is_nothrow_copy_constructible` / `is_nothrow_move_constructible` of `std::variant`: those of all alternatives (used in
integral_template_variant.hpp:64-69). -/
def allNothrow (f : Nat → Bool) (n : Nat) : Bool := (List.range n).all f

/-- A function with `noexcept(b)` (integral_template_variant.hpp:64-86). -/
def noexcept {α : Type} (b : Bool) : Out α → Out α
  | .threw a => if b then .terminated else .threw a
  | o => o

/-- The copy constructor of `std::variant`; the target does not exist before (member `repr_`, integral_template_variant.hpp:61). -/
def stdCopy (E : Elems V) (src : Var V) : Out (Var V) := match src with
  | none => .ok none
  | some (k, v) => if E.copyThrows k v then .threw none else .ok (some (k, v))

/-- The copy constructor (integral_template_variant.hpp:65): `noexcept` whenever the elements can be copied at all. -/
def copyCtor (E : Elems V) (src : Var V) : Out (Var V) := noexcept true (stdCopy E src)

/-- The move constructor of `std::variant` (member `repr_`, integral_template_variant.hpp:61). -/
def stdMove (E : Elems V) (src : Var V) : Out (Var V) := match src with
  | none => .ok none
  | some (k, v) => if E.moveThrows k v then .threw none else .ok (some (k, v))

/-- The move constructor (integral_template_variant.hpp:66). -/
def moveCtor (E : Elems V) (src : Var V) : Out (Var V) := noexcept (allNothrow E.nothrowMove E.count) (stdMove E src)

/-- Copy assignment (integral_template_variant.hpp:67), as described for `std::variant` ([variant.assign]). The specification `noexcept` agrees with
that of `std::variant`. -/
def copyAssign (E : Elems V) (dst src : Var V) : Out (Var V) := match dst, src with
  | _, none => .ok none
  | none, some (k, v) => if E.copyThrows k v then .threw none else .ok (some (k, v))
  | some (j, w), some (k, v) =>
    if j = k then (if E.assignThrows k v then .threw (some (k, E.halfAssigned w v)) else .ok (some (k, v)))
    else if E.nothrowCopy k || !E.nothrowMove k then (if E.copyThrows k v then .threw none else .ok (some (k, v)))
    else if E.copyThrows k v then .threw (some (j, w)) else if E.moveThrows k v then .threw none else .ok (some (k, v))

/-- Move assignment (integral_template_variant.hpp:68), as described for `std::variant`: with another alternative the old value is destroyed and
the new one constructed by its move constructor. The specification `noexcept` agrees with that of `std::variant`. -/
def moveAssign (E : Elems V) (dst src : Var V) : Out (Var V) := match dst, src with
  | _, none => .ok none
  | none, some (k, v) => if E.moveThrows k v then .threw none else .ok (some (k, v))
  | some (j, w), some (k, v) =>
    if j = k then (if E.assignThrows k v then .threw (some (k, E.halfAssigned w v)) else .ok (some (k, v)))
    else if E.moveThrows k v then .threw none else .ok (some (k, v))

/-- The constructors from a value of the alternative at position `k` (integral_template_variant.hpp:71-75, 77-81); `throws` and `nothrow` are
those of the copy or move constructor. That `std::variant` chooses the alternative of exactly this type is its rule for converting
construction. -/
def ofValue (nothrow : Nat → Bool) (throws : Nat → V → Bool) (k : Nat) (v : V) : Out (Var V) :=
  noexcept (nothrow k) (if throws k v then .threw none else .ok (some (k, v)))

/-- `emplace<ix>(args...)` (integral_template_variant.hpp:88-92) for the index at position `k`; `v` is the value to be constructed, `none` if
constructing it throws. -/
def emplace (k : Nat) (v : Option V) : Out (Var V) := match v with
  | some v => .ok (some (k, v))
  | none => .threw none

/-- `operator==` (integral_template_variant.hpp:132), by `operator==` of `std::variant`. It is `noexcept`; comparisons of elements that throw
end the program and are not modelled. -/
def eq (E : Elems V) (a b : Var V) : Bool := match a, b with
  | none, none => true
  | some (j, v), some (k, w) => j == k && E.beq j v w
  | _, _ => false

/-- `operator<=>` (integral_template_variant.hpp:131), by `operator<=>` of `std::variant` ([variant.relops]): by position of the alternative. -/
def cmp (E : Elems V) (a b : Var V) : Ordering := match a, b with
  | none, none => .eq
  | none, some _ => .lt
  | some _, none => .gt
  | some (j, v), some (k, w) => if j < k then .lt else if k < j then .gt else E.cmp j v w

/-- `std::hash` (integral_template_variant.hpp:137-143), by `std::hash` of `std::variant` (as in libstdc++); `npos` is the hash of a variant without value. -/
def hash (E : Elems V) (npos : Nat) (a : Var V) : Nat := match a with
  | none => npos
  | some (k, v) => k + E.hash k v

/-- `visit` (integral_template_variant.hpp:110-113): `none` is `std::bad_variant_access`. -/
def visit {ρ : Type} (f : Nat → V → ρ) (a : Var V) : Option ρ := a.map fun x => f x.1 x.2

/-- `index()` (integral_template_variant.hpp:94-102). -/
def index (I : ITy) (first last : Int) (a : Var V) : Option Int := Integral.variantIndex I first last (a.map (·.1))

end Verif.IntVariant
