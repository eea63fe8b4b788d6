import Verif.Integral.Model

/-!
Model of the alternatives of `integral_template_variant` (integral_template_variant.hpp:17-34) and of the operations that name an alternative by its
type instead of its index. Types are elements of `τ`; `mono` is `std::monostate`. As in `Verif.Integral.Model` a `std::variant` is the position of
the alternative it holds, and ill-formed programs are `none`.
-/
namespace Verif.Integral

open Verif.Range (ITy)

variable {τ : Type}

/-- `variant_provider<first, last, T>` (integral_template_variant.hpp:18-19): naming it forms the list of types, whether or not the branch is
chosen. -/
def variantProvider (I : ITy) (first last : Int) (T : Int → τ) : Option (List τ) := makeTypeList I first last T

/-- `empty_variant_provider::type` (integral_template_variant.hpp:24-26). -/
def emptyVariantProvider (mono : τ) : List τ := [mono]

/-- `make_variant<first, last, T>` (integral_template_variant.hpp:32-33): the alternatives of `underlying_type` (51), in order. -/
def makeVariant (mono : τ) (I : ITy) (first last : Int) (T : Int → τ) : Option (List τ) :=
  (variantProvider I first last T).map fun types => if first = last then emptyVariantProvider mono else types

/-- The default constructor (integral_template_variant.hpp:64), that of `std::variant`: it holds the first alternative. Simplified: that this
alternative has a default constructor is assumed. -/
def defaultCtor (types : List τ) : Option Variant := if types = [] then none else some (some 0)

/-- The constructor from `std::in_place_type<U>` (integral_template_variant.hpp:83-86): there is no check of an index, `std::variant` itself
requires that `U` is an alternative exactly once. Simplified: that `U` can be constructed from the arguments is assumed. -/
def inPlace [DecidableEq τ] (types : List τ) (u : τ) : Option Variant := (alternative types u).map some

/-- `holds_alternative<U>()` (integral_template_variant.hpp:126-129). -/
def holdsType [DecidableEq τ] (types : List τ) (u : τ) (v : Variant) : Option Bool := (alternative types u).map fun n => decide (v = some n)

/-- The type of the object the visitor is called with by `visit` (integral_template_variant.hpp:110-113), or by `std::visit` for the result of
`to_underlying()` (115-118), which is the same object; `none` is `std::bad_variant_access`. -/
def visited (types : List τ) (v : Variant) : Option τ := v.bind fun n => types[n]?

end Verif.Integral
