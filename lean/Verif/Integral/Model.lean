import Verif.Range.Arith
import Verif.TypeList.Model

/-!
Model of integral_sequence.hpp and the index arithmetic of integral_template_tuple.hpp and integral_template_variant.hpp.
`I` is the index type `decltype(first)`, one of the standard integer types (not `bool`). Ill-formed programs are `none`: signed overflow and
narrowing are errors in the constant expressions used here.
-/
namespace Verif.Integral

open Verif.Range (ITy binop sizeT Eval)

variable {τ : Type}

/-- A value used as a template argument of type `I`: narrowing is ill-formed (the template arguments in integral_sequence.hpp:25-109). -/
def narrow (I : ITy) (v : Int) : Option Int := if I.Has v then some v else none

/-- `std::make_integer_sequence<I, n>`: 0, 1, ..., n - 1 (integral_sequence.hpp:25-42). -/
def stdSequence (n : Int) : List Int := (List.range n.toNat).map fun (i : Nat) => (i : Int)

/-- `make_integer_sequence<I, first, last>` (integral_sequence.hpp:25-42). -/
def makeIntegerSequence (I : ITy) (first last : Int) : Option (List Int) :=
  if first = last then some []
  else if first < last then
    ((binop (· - ·) I I last first).bind (narrow I)).bind fun n =>
      TypeList.transform (fun x => (binop (· + ·) I I first x).bind (narrow I)) (stdSequence n)
  else
    ((binop (· - ·) I I first last).bind (narrow I)).bind fun n =>
      TypeList.transform (fun x => (binop (· - ·) I I first x).bind (narrow I)) (stdSequence n)

/-- `make_type_list<first, last, T>` (integral_sequence.hpp:71-76), via `make_integral_constant_list` (53-54). -/
def makeTypeList (I : ITy) (first last : Int) (T : Int → τ) : Option (List τ) :=
  (makeIntegerSequence I first last).bind fun is => TypeList.transform (fun ix => some (T ix)) (TypeList.integerSequenceToTypeList id is)

/-- `valid_index_v<first, last, ix>` (integral_sequence.hpp:82-94). -/
def validIndex (first last ix : Int) : Bool :=
  if first < last then decide (ix ≥ first ∧ ix < last)
  else if first > last then decide (ix ≤ first ∧ ix > last)
  else false

/-- `to_offset<first, last>(ix)` (integral_sequence.hpp:100-109). -/
def toOffset (I : ITy) (first last ix : Int) : Eval :=
  if first < last then binop (· - ·) I I ix first else binop (· - ·) I I first ix

/-- `make_index<ix>()` (integral_template_tuple.hpp:53-56). -/
def makeIndex (I : ITy) (first last ix : Int) : Option Nat := (toOffset I first last ix).map fun v => (sizeT.conv v).toNat

/-- `integral_template_tuple::get<ix>()` (integral_template_tuple.hpp:66-70): the element of the list of elements that is returned.
`none` is a failed `static_assert`. -/
def tupleGet (I : ITy) (first last ix : Int) (elements : List τ) : Option τ :=
  if validIndex first last ix then (makeIndex I first last ix).bind (TypeList.nth elements) else none

/-- `sub_last` in `integral_template_tuple::subtuple` (integral_template_tuple.hpp:108-118), converted to the `size_t` template
parameter. -/
def subCount (I : ITy) (first last newFirst newLast : Int) : Option Int :=
  if first < last then
    if newFirst ≥ first ∧ newLast ≤ last then (binop (· - ·) I I newLast newFirst).bind (narrow sizeT) else none
  else
    if newFirst ≤ first ∧ newLast ≥ last then (binop (· - ·) I I newFirst newLast).bind (narrow sizeT) else none

/-- The elements the result of `integral_template_tuple::subtuple` consists of (integral_template_tuple.hpp:103-122), using
`standard_layout_tuple::subtuple` (standard_layout_tuple.hpp:124-141), or for the empty tuple (57-61). -/
def subtuple (I : ITy) (first last newFirst newLast : Int) (elements : List τ) : Option (List τ) :=
  (subCount I first last newFirst newLast).bind fun count => (makeIndex I first last newFirst).bind fun offset =>
    if elements = [] then (if offset = 0 ∧ count = 0 then some [] else none)
    else if offset < elements.length ∧ count ≤ ((elements.length - offset : Nat) : Int) then
      (TypeList.drop elements offset).bind fun r => TypeList.take r count.toNat
    else none

/-- A `std::variant<Ts...>`: the index of the held alternative, `none` if valueless (integral_template_variant.hpp:61). -/
abbrev Variant := Option Nat

/-- `std::variant::index()`; `variant_npos` if valueless (integral_template_variant.hpp:97, 100). -/
def stdIndex (v : Variant) : Int := match v with
  | none => 2 ^ 64 - 1
  | some n => n

/-- `integral_template_variant::index()` (integral_template_variant.hpp:94-102). -/
def variantIndex (I : ITy) (first last : Int) (v : Variant) : Option Int :=
  if first < last then (binop (· + ·) I sizeT first (stdIndex v)).map I.conv
  else (binop (· - ·) I sizeT first (stdIndex v)).map I.conv

/-- `std::get<U>`, `std::holds_alternative<U>`, `emplace<U>`: the index of the alternative `U`; ill-formed unless it occurs exactly once
(integral_template_variant.hpp:91, 107, 123). -/
def alternative [DecidableEq τ] (types : List τ) (u : τ) : Option Nat :=
  if TypeList.count u types = 1 then TypeList.position (fun t => some (decide (t = u))) types else none

/-- `integral_template_variant::emplace<ix>` (integral_template_variant.hpp:88-92), also construction from a `T<ix>` (71-81). -/
def emplace [DecidableEq τ] (types : List τ) (first last ix : Int) (T : Int → τ) : Option Variant :=
  if validIndex first last ix then (alternative types (T ix)).map some else none

/-- `integral_template_variant::holds_alternative<ix>` (integral_template_variant.hpp:120-124). -/
def holds [DecidableEq τ] (types : List τ) (first last ix : Int) (T : Int → τ) (v : Variant) : Option Bool :=
  if validIndex first last ix then (alternative types (T ix)).map fun n => decide (v = some n) else none

/-- Whether `integral_template_variant::get<ix>` (integral_template_variant.hpp:104-108) returns a reference (true) or throws
`bad_variant_access` (false). -/
def variantGet [DecidableEq τ] (types : List τ) (first last ix : Int) (T : Int → τ) (v : Variant) : Option Bool :=
  if validIndex first last ix then (alternative types (T ix)).map fun n => decide (v = some n) else none

end Verif.Integral
