import Verif.RangesAlgo.Model
import Verif.RangesAlgo.EffectModel
import Verif.Range.Model

/-!
The test cases of tests/tests_ranges.cpp, run through the model (validation of the model, not proofs about the code). Vectors, lists, arrays and
subranges are `forwardIt`, `istream_iterator` is `istreamIt`.
-/
namespace Verif.Conform.Ranges

open Verif.RangesAlgo Verif.FlexArray

/-- `is_even` (tests/tests_ranges.cpp:25). -/
def isEven (x : Int) : Bool := x % 2 == 0

/-- A forward range handed to an algorithm (tests/tests_ranges.cpp:27-31): the fuel is more than enough. -/
def fwd {β : Type} (f : It (List Int) Unit Int → Nat → List Int → Unit → β) (l : List Int) : β := f (forwardIt Int) 99 l ()

-- tests_ranges.cpp:27-78 and 86-92 (`vector`, `array`, temporaries, `subrange`, const ranges)
example : fwd (allOf · isEven) [2, 4, 6] = some true ∧ fwd (noneOf · isEven) [2, 4, 6] = some false ∧ fwd (anyOf · isEven) [2, 4, 6] = some true ∧
    fwd (allOf · isEven) [1, 2, 3] = some false ∧ fwd (noneOf · isEven) [1, 2, 3] = some false ∧ fwd (anyOf · isEven) [1, 2, 3] = some true ∧
    fwd (allOf · (· == 0)) [0, 0, 0] = some true ∧ fwd (noneOf · (· == 0)) [0, 0, 0] = some false ∧ fwd (anyOf · (· == 0)) [0, 0, 0] = some true ∧
    fwd (allOf · (· == 0)) [0] = some true ∧ fwd (anyOf · (· == 0)) [0] = some true ∧ fwd (noneOf · (· == 0)) [0] = some false := by decide

-- tests_ranges.cpp:94-103, "stateful lambda capture": three calls
example : allOfS (fun (n : Nat) (x : Int) => (isEven x, n + 1)) 0 [2, 4, 6] = (true, 3) := by decide

-- tests_ranges.cpp:105-114, "input iterator single-pass range"
example : allOf (istreamIt Int) isEven 9 (some 2) [4, 6] = some true ∧ anyOf (istreamIt Int) isEven 9 (some 2) [4, 6] = some true := by decide

-- tests_ranges.cpp:127-161
example : fwd (fun it _ => empty it) [] = true ∧ fwd (fun it _ => nonEmpty it) [] = false ∧ fwd (fun it _ => empty it) [0, 0] = false ∧
    fwd (fun it _ => nonEmpty it) [0, 0] = true ∧
    empty (istreamIt Int) (some 1) [2, 3] = false ∧ nonEmpty (istreamIt Int) (some 1) [2, 3] = true ∧
    empty (istreamIt Int) none [] = true ∧ nonEmpty (istreamIt Int) none [] = false := by decide

-- tests_ranges.cpp:166-181
example : removeElement (forwardIt Int) (fun a b => a == b) 2 9 [1, 2, 3, 2, 4] () = some [1, 3, 4] ∧
    removeElement (forwardIt Int) (fun a b => (a - b).natAbs < 2) (3 : Int) 9 [1, 2, 3, 4, 5] () = some [1, 5] := by decide

-- tests_ranges.cpp:184-213
example : fwd (allEqual · (fun a b => a == b)) [7, 7, 7, 7] = some true ∧ fwd (allEqual · (fun a b => a == b)) [42] = some true ∧
    fwd (allEqual · (fun a b => a == b)) [] = some true ∧ fwd (allEqual · (fun a b => a == b)) [7, 7, 1, 7] = some false ∧
    fwd (allEqual · (fun a b => (a - b).natAbs ≤ 2)) [10, 12, 11, 9, 11] = some true ∧
    fwd (allEqual · (fun a b => (a - b).natAbs ≤ 2)) [10, 12, 13, 9] = some false ∧
    allEqual (forwardIt String) (fun a b => a == b) 9 ["str", "str", "str"] () = some true ∧
    allEqual (forwardIt String) (fun a b => a == b) 9 ["a", "b", "a"] () = some false := by decide +kernel

/-- The hash set of `int`s that `unique` and `all_distinct` use, with some hash function (tests/tests_ranges.cpp:239-309). -/
def ints : SetImpl Int := hashSet (fun x => x.natAbs) (fun n h => h % (n + 1)) fun a b => a == b

/-- `ComparableOnly` and `HashableOnly` (tests/tests_ranges.cpp:217-234): the tree set and the hash set of the type. -/
def comparable : SetImpl Int := treeSet fun a b => decide (a < b)

-- tests_ranges.cpp:239-309, "unique range adaptor"
example : fwd (unique · ints) [1, 2, 1, 3, 4, 2, 1, 5, 4] = some [1, 2, 3, 4, 5] ∧ fwd (unique · ints) [0, 0] = some [0] ∧
    fwd (unique · ints) [] = some [] ∧ fwd (unique · ints) [1, 2, 3, 4, 5] = some [1, 2, 3, 4, 5] ∧ fwd (unique · ints) [7, 7, 7, 7, 7] = some [7] ∧
    fwd (unique · comparable) [10, 20, 10, 30] = some [10, 20, 30] ∧ fwd (unique · ints) [10, 20, 10, 30] = some [10, 20, 30] ∧
    unique (istreamIt Int) ints 20 (some 1) [2, 1, 3, 4, 2, 1, 5, 4] = some [1, 2, 3, 4, 5] ∧
    unique (forwardIt String) (hashSet String.length (fun _ h => h) fun a b => a == b) 9 ["hello", "world", "hello", "again", "world"] () =
      some ["hello", "world", "again"] := by decide +kernel

-- tests_ranges.cpp:468-513, "all_distinct algorithm"
example : fwd (allDistinct · ints) [1, 2, 3, 4, 5] = some true ∧ fwd (allDistinct · ints) [42] = some true ∧ fwd (allDistinct · ints) [] = some true ∧
    fwd (allDistinct · ints) [1, 2, 3, 2, 1] = some false ∧ fwd (allDistinct · ints) [0, 0] = some false ∧
    fwd (allDistinct · comparable) [1, 2, 3] = some true ∧ fwd (allDistinct · comparable) [1, 2, 1] = some false ∧
    fwd (allDistinct · ints) [10, 20, 30] = some true ∧ fwd (allDistinct · ints) [10, 20, 10] = some false := by decide +kernel

/-- `std::ranges::less` (tests/tests_ranges.cpp:527-544). -/
def less (a b : Int) : Bool := decide (a < b)

-- tests_ranges.cpp:518-545, "is_sorted_unique"
example : fwd (isSortedUnique · less id) [1, 2, 3, 4] = some true ∧ fwd (isSortedUnique · less id) [1, 2, 2, 3, 4] = some false ∧
    fwd (isSortedUnique · less id) [1, 1, 2, 3, 4] = some false ∧ fwd (isSortedUnique · less id) [1, 2, 3, 4, 4] = some false ∧
    fwd (isSortedUnique · less id) [5, 4, 3, 2, 1] = some false ∧ fwd (isSortedUnique · less id) [1, 2, 3] = some true := by decide

/-- `<=>` of integers (tests/tests_ranges.cpp:557,566-574). -/
def three (a b : Int) : Cmp := if a < b then .less else if b < a then .greater else .equal

/-- `lexicographical_compare_three_way` of two strings (tests/tests_ranges.cpp:557-586). -/
def lex (cmp : Int → Int → Cmp) (a b : List Int) : Option Cmp := lexCompare (forwardIt Int) (forwardIt Int) cmp 9 a () b ()

-- tests_ranges.cpp:548-560: rows and columns are "", "A", "B", "AA"
example : [[], [65], [66], [65, 65]].map (fun a => [[], [65], [66], [65, 65]].map fun b => lex three a b) =
    [[some .equal, some .less, some .less, some .less],
     [some .greater, some .equal, some .less, some .less],
     [some .greater, some .greater, some .equal, some .greater],
     [some .greater, some .greater, some .less, some .equal]] := by decide

-- tests_ranges.cpp:562-586
example : lex three [65] [66] = some .less ∧ lex (fun a b => three b a) [65] [66] = some .greater ∧
    lex (fun a b => three b (a + 1)) [65] [66] = some .equal ∧ lex (fun a b => three (b - 1) (a + 1)) [65] [66] = some .less := by decide

open Verif.Range (int sizeT range1 range2 range3)

/-- A loop over the view `range(...)` and its `size()` (tests/tests_ranges.cpp:322-443). -/
def loop (T : Range.ITy) (s : Option Range.St) : Option (List Int × Nat) :=
  s.map fun s => (NextTo.visit (Range.iter T T) .forward 99 (NextTo.begin (Range.iter T T) s), NextTo.size (Range.iter T T) s)

-- tests_ranges.cpp:323-350, range(stop)
example : loop int (range1 5) = some ([0, 1, 2, 3, 4], 5) ∧ loop sizeT (range1 3) = some ([0, 1, 2], 3) ∧ loop int (range1 0) = some ([], 0) ∧
    loop int (range1 1) = some ([0], 1) := by decide +kernel

-- tests_ranges.cpp:352-379, range(start, stop)
example : loop int (range2 2 6) = some ([2, 3, 4, 5], 4) ∧ loop int (range2 5 2) = some ([], 0) ∧ loop int (range2 5 5) = some ([], 0) ∧
    loop int (range2 (-2) 2) = some ([-2, -1, 0, 1], 4) := by decide +kernel

-- tests_ranges.cpp:381-432, range(start, stop, step)
example : loop int (range3 0 10 2) = some ([0, 2, 4, 6, 8], 5) ∧ loop int (range3 0 9 2) = some ([0, 2, 4, 6, 8], 5) ∧
    loop int (range3 0 10 20) = some ([0], 1) ∧ loop int (range3 10 0 2) = some ([], 0) ∧
    loop int (range3 10 0 (-2)) = some ([10, 8, 6, 4, 2], 5) ∧ loop int (range3 9 0 (-2)) = some ([9, 7, 5, 3, 1], 5) ∧
    loop int (range3 0 10 (-2)) = some ([], 0) := by decide +kernel

-- tests_ranges.cpp:445-449, reversed()
example : (range3 0 10 2).map (fun s => NextTo.visit (Range.iter int int) .backward 99 (NextTo.rbegin (Range.iter int int) s)) =
    some [8, 6, 4, 2, 0] := by decide +kernel

end Verif.Conform.Ranges
