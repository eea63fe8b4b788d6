import Verif.Inplace.Model

/-!
The tests of `tests/tests_inplace_polymorphic.cpp` run on the model. They check the model and are no proofs. A value is `some n` (in tenths), or
`none` for the moved-from `std::unique_ptr`, for which the tests see `INFINITY`.
-/
namespace Verif.Conform.Inplace

open Verif.Inplace

/-- `derived1` and `derived2` (tests_inplace_polymorphic.cpp:14-45): the destructors are virtual, `emplace<derived1>()` may throw. -/
def cfg : Cfg := ⟨false, false, false, false, fun _ => false⟩

/-- Moving out of a `std::unique_ptr` (tests_inplace_polymorphic.cpp:229-275). -/
def moved : Nat → Option Nat → Option Nat := fun _ _ => none

/-- `make_valueless` (tests_inplace_polymorphic.cpp:60-68). -/
def makeValueless (i : Nat) : Op (Option Nat) := .emplace i 0 none true

/-- What `get` gives for some objects after some operations; `none` for objects that do not exist (tests_inplace_polymorphic.cpp:71-344). -/
def see (ops : List (Op (Option Nat))) (objs : List Nat) : Option (List (Option (Res (Option Nat)))) :=
  match run cfg moved (fun _ => none) ops with
  | .ok s => some (objs.map fun i => (s i).map get)
  | .error _ => none

-- tests_inplace_polymorphic.cpp:71-78: a constructor that throws
example : see [.create 0 0 none true] [0] = some [none] := by decide +kernel
-- tests_inplace_polymorphic.cpp:80-99: getters before and after it has become valueless
example : see [.create 0 0 (some 420) false] [0] = some [some (.obj 0 (some 420))] ∧
    see [.create 0 0 (some 420) false, makeValueless 0] [0] = some [some .badVariantAccess] := by decide +kernel
-- tests_inplace_polymorphic.cpp:101-117: emplace of another type, and after it has become valueless
example : see [.create 0 0 (some 420) false, .emplace 0 1 (some 125) false] [0] = some [some (.obj 1 (some 125))] ∧
    see [.create 0 0 (some 420) false, .emplace 0 1 (some 125) false, makeValueless 0, .emplace 0 0 (some 560) false] [0] =
      some [some (.obj 0 (some 560))] := by decide +kernel
-- tests_inplace_polymorphic.cpp:119-122: destroying a valueless object
example : see [.create 0 0 (some 420) false, makeValueless 0, .destroy 0] [0] = some [none] := by decide +kernel

-- tests_inplace_polymorphic.cpp:185-202: copy constructor
example : see [.create 0 0 (some 420) false, .copyCtor 1 0 false, .copyCtor 2 0 false, makeValueless 2, .copyCtor 3 2 false] [0, 1, 2, 3] =
    some [some (.obj 0 (some 420)), some (.obj 0 (some 420)), some .badVariantAccess, some .badVariantAccess] := by decide +kernel
-- tests_inplace_polymorphic.cpp:204-226: copy assignment, from and to valueless objects
example : see [.create 0 0 (some 420) false, .create 1 1 (some 125) false, .copyCtor 2 0 false, makeValueless 2, .copyAssign 1 0 false] [0, 1, 2] =
      some [some (.obj 0 (some 420)), some (.obj 0 (some 420)), some .badVariantAccess] ∧
    see [.create 0 0 (some 420) false, .create 1 1 (some 125) false, .copyCtor 2 0 false, makeValueless 2, .copyAssign 1 0 false,
        .copyAssign 1 2 false, .copyAssign 2 0 false] [0, 1, 2] =
      some [some (.obj 0 (some 420)), some .badVariantAccess, some (.obj 0 (some 420))] := by decide +kernel

-- tests_inplace_polymorphic.cpp:294-313: move constructor; the source keeps a moved-from value, valueless sources stay valueless
example : see [.create 0 0 (some 420) false, .moveCtor 1 0 false, .create 2 0 (some 990) false, makeValueless 2, .moveCtor 3 2 false]
      [0, 1, 2, 3] =
    some [some (.obj 0 none), some (.obj 0 (some 420)), some .badVariantAccess, some .badVariantAccess] := by decide +kernel
-- tests_inplace_polymorphic.cpp:315-344: move assignment, from and to valueless objects
example : see [.create 0 0 (some 420) false, .create 1 1 (some 125) false, .create 2 1 (some 1245) false, .moveCtor 3 2 false, makeValueless 3,
        .moveAssign 1 0 false] [0, 1, 2, 3] =
      some [some (.obj 0 none), some (.obj 0 (some 420)), some (.obj 1 none), some .badVariantAccess] ∧
    see [.create 0 0 (some 420) false, .create 1 1 (some 125) false, .create 2 1 (some 1245) false, .moveCtor 3 2 false, makeValueless 3,
        .moveAssign 1 0 false, .moveAssign 0 3 false, .moveAssign 3 1 false] [0, 1, 2, 3] =
      some [some .badVariantAccess, some (.obj 0 none), some (.obj 1 none), some (.obj 0 (some 420))] := by decide +kernel

end Verif.Conform.Inplace
