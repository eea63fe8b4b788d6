import Verif.TypeList.Model
import Verif.Integral.VariantModel
import Verif.LazyCond.Model

/-!
The tests of `tests/tests_type_list.cpp`, `tests/tests_lazy_conditional.cpp`, `tests/tests_integral_template_variant.cpp` and
`tests/tests_integral_template_tuple.cpp` run on the model. They check the model and are no proofs.
-/
namespace Verif.Conform.Types

open Verif.TypeList Verif.LazyCond

/-- The types named in tests_type_list.cpp (20-391). -/
inductive Ty
  | int | double | char | float | bool
  | const (t : Ty)
  | constant (i : Int)
deriving DecidableEq, Repr

open Ty

/-- `std::is_const_v` (tests_type_list.cpp:152-154). -/
def isConst : Ty → Option Bool
  | .const _ => some true
  | _ => some false

/-- `std::is_same_v<T, u>` (tests_type_list.cpp:188-194). -/
def isSame (u : Ty) : Ty → Option Bool := fun t => some (decide (t = u))

/-- A predicate that is false for all types (tests_type_list.cpp:196-198). -/
def never : Ty → Option Bool := fun _ => some false

/-- `std::add_const` (tests_type_list.cpp:141-143). -/
def addConst : Ty → Option Ty := fun t => some (.const t)

/-- `[] {}`: cannot be called with an argument (tests_type_list.cpp:170, 269-271). -/
def noArgs {υ : Type} : υ → Option Bool := fun _ => none

-- tests_type_list.cpp:20-53: first, last, nth
example : first ([] : List Ty) = none ∧ first [int] = some int ∧ first [int, double] = some int := by decide
example : last ([] : List Ty) = none ∧ last [int] = some int ∧ last [int, double] = some double := by decide
example : nth ([] : List Ty) 0 = none ∧ nth ([] : List Ty) 50 = none ∧ nth [int] 0 = some int ∧ nth [int] 1 = none ∧
    nth [int, double] 0 = some int ∧ nth [int, double] 1 = some double ∧ nth [int, double] 2 = none := by decide

-- tests_type_list.cpp:55-90: concat
example : concat ([[], []] : List (List Ty)) = [] ∧ concat [[], [int]] = [int] ∧ concat [[int], []] = [int] ∧
    concat [[int], [int, double]] = [int, int, double] ∧ concat [[int, double], [int]] = [int, double, int] ∧
    concat ([] : List (List Ty)) = [] ∧ concat ([[]] : List (List Ty)) = [] ∧ concat [[int]] = [int] ∧
    concat [[int, double]] = [int, double] ∧ concat [[int], [int, double], [char]] = [int, int, double, char] ∧
    concat [[], [int], [int, double]] = [int, int, double] ∧ concat [[int], [], [int, double]] = [int, int, double] ∧
    concat [[int], [int, double], []] = [int, int, double] ∧
    concat [[int], [int, double], [char], [float, bool]] = [int, int, double, char, float, bool] ∧
    concat [[], [], [int], [], [int, double], []] = [int, int, double] := by decide

-- tests_type_list.cpp:92-110: drop, take
example : drop ([] : List Ty) 0 = some [] ∧ drop [int, double, char] 0 = some [int, double, char] ∧
    drop [int, double, char] 1 = some [double, char] ∧ drop [int, double, char] 2 = some [char] ∧ drop [int, double, char] 3 = some [] := by
  decide
example : take ([] : List Ty) 0 = some [] ∧ take [int, double, char] 0 = some [] ∧ take [int, double, char] 1 = some [int] ∧
    take [int, double, char] 2 = some [int, double] ∧ take [int, double, char] 3 = some [int, double, char] := by decide

-- tests_type_list.cpp:133-137: unpack is the inverse of apply; a tuple is represented by its arguments
example : unpack some (apply [int, double, char] id) = some [int, double, char] := by decide

-- tests_type_list.cpp:140-167: transform, filter, flatten
example : transform addConst [] = some [] ∧ transform addConst [int, double, char] = some [.const int, .const double, .const char] := by decide
example : filter isConst [] = some [] ∧ filter isConst [int, .const int, double, .const char] = some [.const int, .const char] := by decide
example : flatten ([] : List (List Ty)) = [] ∧ flatten ([[]] : List (List Ty)) = [] ∧
    flatten [[int, double], [], [char, float]] = [int, double, char, float] ∧ flatten [[[int, double]]] = [[int, double]] := by decide

-- tests_type_list.cpp:169-181: generate
example : generate 0 (noArgs (υ := Nat)) = some [] ∧
    generate 3 (fun idx => if idx = 0 then some int else some double) = some [int, double, double] := by decide

-- tests_type_list.cpp:183-213: find_if
example : findIf isConst [] = none ∧ findIf isConst [int, .const int, double] = some (.const int) ∧
    findIf (isSame int) [int, .const int, double] = some int ∧ findIf (isSame double) [int, .const int, double] = some double ∧
    findIf never [int, .const int, double] = none ∧ findIf isConst [char, float] = none ∧ findIf (isSame int) [char, float] = none ∧
    findIf (isSame double) [char, float] = none := by decide

-- tests_type_list.cpp:215-248: position
example : position isConst [] = none ∧ position isConst [int, .const int, double] = some 1 ∧
    position (isSame int) [int, .const int, double] = some 0 ∧ position (isSame double) [int, .const int, double] = some 2 ∧
    position never [int, .const int, double] = none ∧ position isConst [char, float] = none ∧ position (isSame int) [char, float] = none ∧
    position (isSame double) [char, float] = none ∧ position (isSame int) [int, int] = some 0 := by decide

-- tests_type_list.cpp:250-266: contains, count
example : contains int [] = false ∧ contains int [int, double] = true ∧ contains double [int, double] = true ∧
    contains char [int, double] = false := by decide
example : count int [] = 0 ∧ count int [int, double, int] = 2 ∧ count double [int, double, int] = 1 ∧ count char [int, double, int] = 0 := by
  decide

-- tests_type_list.cpp:268-301: all_of, any_of, none_of, all_same
example : allOf noArgs ([] : List Ty) = some true ∧ anyOf noArgs ([] : List Ty) = some false ∧ noneOf noArgs ([] : List Ty) = some true := by
  decide
example : allOf isConst [.const int, .const double] = some true ∧ anyOf isConst [.const int, .const double] = some true ∧
    noneOf isConst [.const int, .const double] = some false := by decide
example : allOf isConst [int, .const double] = some false ∧ anyOf isConst [int, .const double] = some true ∧
    noneOf isConst [int, .const double] = some false := by decide
example : allOf isConst [int, double] = some false ∧ anyOf isConst [int, double] = some false ∧ noneOf isConst [int, double] = some true := by
  decide
example : allSame ([] : List Ty) = true ∧ allSame [int, int] = true ∧ allSame [int, double] = false := by decide

-- tests_type_list.cpp:303-320: integer_sequence_to_type_list, tuple_to_type_list
example : integerSequenceToTypeList constant [] = [] ∧
    integerSequenceToTypeList constant [1, 2, 3] = [constant 1, constant 2, constant 3] := by decide
example : tupleToTypeList 0 (fun n => ([] : List Ty)[n]?) = some [] ∧
    tupleToTypeList 3 (fun n => [char, float, double][n]?) = some [char, float, double] ∧
    tupleToTypeList 2 (fun n => [int, double][n]?) = some [int, double] := by decide

/-- The function of the test of `for_each`: it appends the size of the type (tests_type_list.cpp:326-328). -/
def pushSize (acc : List Nat) (size : Nat) : Except Unit (List Nat) := .ok (acc ++ [size])

/-- The function of the test of `fold` (tests_type_list.cpp:340-342). -/
def addSize (_ : Unit) (acc size : Nat) : Except Unit (Nat × Unit) := .ok (acc + size, ())

-- tests_type_list.cpp:322-348: for_each and fold; the types are given by their sizes
example : forEach pushSize [] [] = .ok [] ∧ forEach pushSize [4, 8, 2] [] = .ok [4, 8, 2] := ⟨rfl, rfl⟩
example : fold addSize [] 0 () = .ok (0, ()) ∧ fold addSize [4, 8, 2] 0 () = .ok (4 + 8 + 2, ()) := ⟨rfl, rfl⟩

-- tests_type_list.cpp:350-358: a class with both members
example : opt char 99 (⟨some int, some 0⟩ : Meta Ty Nat) = (int, 0) := by decide

-- tests_type_list.cpp:360-390: unique, all_distinct
example : unique ([] : List Ty) = [] ∧ unique [int, double, char] = [int, double, char] ∧
    unique [int, double, int, char, double, int] = [int, double, char] ∧ unique [int, int, int] = [int] := by decide
example : allDistinct ([] : List Ty) = true ∧ allDistinct [int] = true ∧ allDistinct [int, double, char] = true ∧
    allDistinct [int, double, int] = false ∧ allDistinct [int, int, int] = false := by decide

/-! ### lazy_conditional -/

/-- The providers of tests_lazy_conditional.cpp: `int_result` (0), `double_result` (1), `void_result` (2), and `error_result`, which contains
a failing `static_assert` (3, tests_lazy_conditional.cpp:11-20, 52-71). -/
def env : Env Ty
  | 0 => .ok int
  | 1 => .ok double
  | 2 => .ok char
  | _ => .broken

-- tests_lazy_conditional.cpp:22-48: the branch not selected is not looked at
example : (lazyConditional true (fun _ => member env 0) (fun _ => member env 3)).type = some int ∧
    (lazyConditional false (fun _ => member env 3) (fun _ => member env 0)).type = some int := by decide

-- tests_lazy_conditional.cpp:73-108: lazy_switch_default; `void` is represented by `char`
example : (lazySwitchDefault env 3 [.case_ true 0, .case_ true 1]).type = some int ∧
    (lazySwitchDefault env 3 [.case_ false 0, .case_ true 1]).type = some double ∧
    (lazySwitchDefault env 2 [.case_ false 0, .case_ false 1]).type = some char := by decide
example : (lazySwitchDefault env 3 [.case_ true 0, .case_ false 1, .case_ false 2]).type = some int ∧
    (lazySwitchDefault env 3 [.case_ false 0, .case_ true 1, .case_ false 2]).type = some double ∧
    (lazySwitchDefault env 3 [.case_ false 0, .case_ false 1, .case_ true 2]).type = some char := by decide

-- tests_lazy_conditional.cpp:122-144: lazy_switch
example : (lazySwitch env [.case_ true 0, .case_ false 1]).type = some int ∧
    (lazySwitch env [.case_ false 0, .case_ true 1]).type = some double := by decide

/-! ### integral_template_variant and integral_template_tuple -/

open Verif.Integral Verif.Range

/-- `int`, the type of the bounds in the tests (tests_integral_template_variant.cpp:40-190). -/
def i32 : ITy := ⟨32, true⟩

/-- `Data<N>` (tests_integral_template_variant.cpp:11-14); `none` is `std::monostate`. -/
def Data (n : Int) : Option Int := some n

/-- Construction of an `integral_template_variant<first, last, Data>` from a `Data<ix>`: `index()`, what `get<ix>` finds and what a visitor is
called with (tests_integral_template_variant.cpp:40-64). -/
def runVariant (first last ix : Int) : Option (Option Int × Option Bool × Option (Option Int)) :=
  (makeVariant none i32 first last Data).bind fun types => (Integral.emplace types first last ix Data).map fun v =>
    (variantIndex i32 first last v, variantGet types first last ix Data v, visited types v)

-- tests_integral_template_variant.cpp:40-64: ascending, and the empty variant
example : ((makeVariant none i32 2 2 Data).bind defaultCtor).isSome = true := by decide +kernel
example : runVariant 2 8 5 = some (some 5, some true, some (Data 5)) ∧ runVariant 2 8 2 = some (some 2, some true, some (Data 2)) ∧
    runVariant 2 8 7 = some (some 7, some true, some (Data 7)) := by decide +kernel

-- tests_integral_template_variant.cpp:67-96: ascending from negative bounds; one alternative
example : runVariant (-6) 0 (-3) = some (some (-3), some true, some (Data (-3))) ∧
    runVariant (-6) 0 (-6) = some (some (-6), some true, some (Data (-6))) ∧
    runVariant (-6) 0 (-1) = some (some (-1), some true, some (Data (-1))) := by decide +kernel
example : runVariant 0 1 0 = some (some 0, some true, some (Data 0)) := by decide +kernel

-- tests_integral_template_variant.cpp:119-145: descending
example : runVariant 7 1 5 = some (some 5, some true, some (Data 5)) ∧ runVariant 7 1 7 = some (some 7, some true, some (Data 7)) ∧
    runVariant 7 1 2 = some (some 2, some true, some (Data 2)) := by decide +kernel
example : runVariant (-2) (-8) (-5) = some (some (-5), some true, some (Data (-5))) ∧
    runVariant (-2) (-8) (-2) = some (some (-2), some true, some (Data (-2))) ∧
    runVariant (-2) (-8) (-7) = some (some (-7), some true, some (Data (-7))) := by decide +kernel

/-- The alternatives of the last tests (tests_integral_template_variant.cpp:147-193). -/
def down : List (Option Int) := [some 10, some 9, some 8, some 7, some 6]

-- tests_integral_template_variant.cpp:147-184: in place construction, emplace, holds_alternative by index and by type
example : makeVariant none i32 10 5 Data = some down := by decide +kernel
example : (inPlace down (Data 7)).map (variantIndex i32 10 5) = some (some 7) ∧
    (Integral.emplace down 10 5 9 Data).map (variantIndex i32 10 5) = some (some 9) := by decide +kernel
example : (Integral.emplace down 10 5 7 Data).map (holds down 10 5 7 Data) = some (some true) ∧
    (Integral.emplace down 10 5 7 Data).map (holds down 10 5 6 Data) = some (some false) ∧
    (Integral.emplace down 10 5 7 Data).map (holds down 10 5 10 Data) = some (some false) ∧
    (Integral.emplace down 10 5 7 Data).map (holdsType down (Data 7)) = some (some true) ∧
    (Integral.emplace down 10 5 7 Data).map (holdsType down (Data 6)) = some (some false) := by decide +kernel

/-- The elements found by `get<ix>` in an `integral_template_tuple<first, last, Data>` whose elements have been constructed from `args`
(tests_integral_template_tuple.cpp:98-116); the type list only gives their number. -/
def runTuple (first last : Int) (args : List Int) (ixs : List Int) : Option (List (Option Int)) :=
  (makeTypeList i32 first last id).bind fun types =>
    if types.length = args.length then some (ixs.map fun ix => tupleGet i32 first last ix args) else none

-- tests_integral_template_tuple.cpp:98-116, 202-220: individual construction, ascending and descending
example : runTuple 0 4 [0, 1, 2, 3] [0, 1, 2, 3] = some [some 0, some 1, some 2, some 3] ∧
    runTuple 3 (-1) [3, 2, 1, 0] [3, 2, 1, 0] = some [some 3, some 2, some 1, some 0] := by decide +kernel

/-- `to_int_vector` of a default-constructed tuple (tests_integral_template_tuple.cpp:50-59): the indices of the elements. -/
def vec (first last : Int) (ixs : List Int) : Option (List (Option Int)) :=
  (makeTypeList i32 first last id).map fun types => ixs.map fun ix => tupleGet i32 first last ix types

-- tests_integral_template_tuple.cpp:125-153, 229-245: the elements of ascending and descending tuples
example : vec 0 1 [0] = some [some 0] ∧ vec 4 5 [4] = some [some 4] ∧
    vec 0 5 [0, 1, 2, 3, 4] = some [some 0, some 1, some 2, some 3, some 4] ∧
    vec 4 9 [4, 5, 6, 7, 8] = some [some 4, some 5, some 6, some 7, some 8] ∧
    vec (-2) 3 [-2, -1, 0, 1, 2] = some [some (-2), some (-1), some 0, some 1, some 2] := by decide +kernel
example : vec 4 3 [4] = some [some 4] ∧ vec 8 3 [4, 5, 6, 7, 8] = some [some 4, some 5, some 6, some 7, some 8] ∧
    vec 2 (-3) [-2, -1, 0, 1, 2] = some [some (-2), some (-1), some 0, some 1, some 2] := by decide +kernel

/-- `subtuple` of a default-constructed tuple (tests_integral_template_tuple.cpp:155-169). -/
def sub (first last a b : Int) : Option (List Int) := (makeTypeList i32 first last id).bind (subtuple i32 first last a b)

-- tests_integral_template_tuple.cpp:155-169, 247-261: subtuple
example : sub 0 4 1 3 = some [1, 2] ∧ sub (-1) 4 0 3 = some [0, 1, 2] ∧ sub 3 (-1) 2 0 = some [2, 1] ∧
    sub 3 (-3) 2 (-2) = some [2, 1, 0, -1] := by decide +kernel

-- tests_integral_template_tuple.cpp:171-176, 263-267: size
example : (makeTypeList i32 (-1) 2 id).map size = some 3 ∧ (makeTypeList i32 1 3 id).map size = some 2 ∧
    (makeTypeList i32 1 2 id).map size = some 1 ∧ (makeTypeList i32 2 2 id).map size = some 0 ∧
    (makeTypeList i32 1 (-2) id).map size = some 3 ∧ (makeTypeList i32 2 1 id).map size = some 1 ∧
    (makeTypeList i32 3 1 id).map size = some 2 := by decide +kernel

end Verif.Conform.Types
