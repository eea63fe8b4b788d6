import Verif.FlexArray.Model
import Verif.FlexArray.ValueModel
import Verif.StaticString.AccessModel

/-!
The test cases of tests/tests_static_string.cpp and tests/tests_flex_array.cpp, run through the model (validation of the model, not proofs about
the code).
-/
namespace Verif.Conform.Containers

namespace Str

open Verif.StaticString

/-- `std::allocator` (tests/tests_static_string.cpp:23): always equal, moves with the container. -/
def std : Traits := ⟨false, true, true, 1⟩

/-- `weird_allocator` (tests/tests_static_string.cpp:11-19): never equal; the strings get different allocator numbers to express that. -/
def weird : Traits := ⟨false, false, false, 1⟩

/-- The bytes of a text (tests/tests_static_string.cpp:70). -/
def bytes (s : String) : List Nat := s.toList.map Char.toNat

/-- The call returns `x` (tests/tests_static_string.cpp:25-55, the `REQUIRE_EQ`s). -/
def gives {β : Type} [DecidableEq β] (r : Except Err β) (x : β) : Bool := match r with
  | .ok y => decide (y = x)
  | .error _ => false

/-- `check_empty_string` (tests/tests_static_string.cpp:25-36). -/
def checkEmpty (σ : State) (i : Nat) : Bool := match σ.strs i with
  | none => false
  | some s => s.data == none && s.size == 0 && isEmpty s && gives (traverse 1 σ.heap s) [] && gives (rtraverse 1 σ.heap s) [] &&
      gives (strEqView σ.heap s []) true && decide (view 1 σ i = some (some []))

/-- `check_non_empty_string` (tests/tests_static_string.cpp:38-55). -/
def checkNonEmpty (σ : State) (i : Nat) (text : String) : Bool :=
  let e := bytes text
  match σ.strs i with
  | none => false
  | some s => s.size == e.length && gives (strEq σ.heap s s) true && gives (strEqView σ.heap s e) true &&
      gives (strCmpView σ.heap s e) .eq && gives (strCmp σ.heap s s) .eq && !isEmpty s &&
      gives (traverse 1 σ.heap s) (e.map fun x => [some x]) && gives (rtraverse 1 σ.heap s) (e.reverse.map fun x => [some x]) &&
      gives (front 1 σ.heap s) [e.head?] && gives (back 1 σ.heap s) [e.getLast?] && gives (charAt 1 σ.heap s 0) [e.head?] &&
      decide (view 1 σ i = some (some (e.map some)))

/-- Run a history and check the final state (tests/tests_static_string.cpp:57-194). -/
def after (t : Traits) (ops : List Op) (check : State → Bool) : Bool := match run t init ops with
  | .ok σ => check σ
  | .error _ => false

-- tests_static_string.cpp:57-67
example : after std [.empty 0 0] (checkEmpty · 0) = true ∧ after std [.view 0 [] 0 false] (checkEmpty · 0) = true := by decide +kernel

-- tests_static_string.cpp:69-90
example : after std [.view 0 (bytes "Hello World") 0 false] (checkNonEmpty · 0 "Hello World") = true ∧
    after std [.view 0 (bytes "Hello World") 0 false, .move 1 0] (fun σ => checkEmpty σ 0 && checkNonEmpty σ 1 "Hello World") = true ∧
    after std [.view 0 (bytes "Hello World") 0 false, .copy 1 0 false] (fun σ => checkNonEmpty σ 0 "Hello World" && checkNonEmpty σ 1 "Hello World") = true := by
  decide +kernel

-- tests_static_string.cpp:92-134, move assignment
example : after std [.view 0 (bytes "Hello World") 0 false, .view 1 (bytes "Spherical Cow") 0 false, .moveAssign 0 1 false]
      (checkNonEmpty · 0 "Spherical Cow") = true ∧
    after weird [.view 0 (bytes "Hello World") 0 false, .view 1 (bytes "Spherical Cow") 1 false, .moveAssign 0 1 false]
      (checkNonEmpty · 0 "Spherical Cow") = true ∧
    after std [.empty 0 0, .view 1 (bytes "Hello World") 0 false, .moveAssign 1 0 false] (checkEmpty · 1) = true ∧
    after weird [.empty 0 0, .view 1 (bytes "Hello World") 1 false, .moveAssign 1 0 false] (checkEmpty · 1) = true := by decide +kernel

-- tests_static_string.cpp:136-180, copy assignment
example : (∀ a ∈ [(std, 0), (weird, 1)],
    after a.1 [.view 0 (bytes "Hello World") 0 false, .view 1 (bytes "Spherical Cow") a.2 false, .copyAssign 0 1 false]
      (fun σ => checkNonEmpty σ 0 "Spherical Cow" && checkNonEmpty σ 1 "Spherical Cow") = true ∧
    after a.1 [.empty 0 0, .view 1 (bytes "Hello World") a.2 false, .copyAssign 1 0 false] (fun σ => checkEmpty σ 1 && checkEmpty σ 0) = true) := by
  decide +kernel

-- tests_static_string.cpp:182-194, swap
example : after std [.view 0 (bytes "Hello World") 0 false, .view 1 (bytes "Spherical Cow") 0 false, .swap 0 1]
    (fun σ => checkNonEmpty σ 0 "Spherical Cow" && checkNonEmpty σ 1 "Hello World") = true := by decide +kernel

end Str

namespace Flex

open Verif.FlexArray

/-- `int` elements: uninitialised when default-initialised, zero when value-initialised (tests/tests_flex_array.cpp:28). -/
def env : Env Int := ⟨none, 0⟩

/-- `<=>` of `int` (tests/tests_flex_array.cpp:126-128). -/
def three (a b : Int) : Cmp := if a < b then .less else if b < a then .greater else .equal

/-- `check_contents` for an array without elements that were never written (tests/tests_flex_array.cpp:38-52). -/
def holds (a : Except Err (FA Int)) (l : List Int) : Bool := match a with
  | .ok a => decide (values a.live = some l) && a.size == l.length
  | .error _ => false

/-- `REQUIRE_THROWS_AS(..., std::length_error)` (tests/tests_flex_array.cpp:160-165,285-288). -/
def tooLong (a : Except Err (FA Int)) : Bool := match a with
  | .error .lengthError => true
  | _ => false

/-- The comparison of two arrays (tests/tests_flex_array.cpp:122-129). -/
def cmp (a b : Except Err (FA Int)) : Option Cmp := match a, b with
  | .ok a, .ok b => threeWay three a b
  | _, _ => none

/-- `f.resize(5)`, `f[0] = 1`, ... (tests/tests_flex_array.cpp:65-80). -/
def resized (m : Mode) (a : Except Err (FA Int)) : Option (List Int) := match a with
  | .ok a => match resize env m a 5 with
    | some (.ok b) => values ((((((write (write (write (write (write b 0 1) 1 2) 2 3) 3 4) 4 5))))).live)
    | _ => none
  | .error _ => none

-- tests_flex_array.cpp:83-136, static size
example : values (write (write (write (write (write (dflt env (.static 5)) 0 1) 1 2) 2 3) 3 4) 4 5).live = some [1, 2, 3, 4, 5] ∧
    holds (ofInit env (.static 5) [1, 2, 3, 4, 5]) [1, 2, 3, 4, 5] = true ∧ holds (ofRange env (.static 5) true [1, 2, 3, 4, 5]) [1, 2, 3, 4, 5] = true ∧
    cmp (ofInit env (.static 5) [1, 2, 3, 4, 5]) (ofInit env (.static 5) [6, 7, 8, 9, 10]) = some .less ∧
    cmp (ofInit env (.static 5) [1, 2, 3, 4, 5]) (ofInit env (.static 5) [1, 2, 3, 4, 5]) = some .equal ∧
    cmp (ofInit env (.static 5) [6, 7, 8, 9, 10]) (ofInit env (.static 5) [1, 2, 3, 4, 5]) = some .greater := by decide +kernel

-- tests_flex_array.cpp:138-192 and 200-254, bounded and unbounded dynamic size
example : ∀ m ∈ [Mode.limited 5, .dynamic],
    holds (.ok (dflt env m)) [] = true ∧ resized m (.ok (dflt env m)) = some [1, 2, 3, 4, 5] ∧
    holds (ofInit env m [1, 2, 3]) [1, 2, 3] = true ∧ resized m (ofInit env m [1, 2, 3]) = some [1, 2, 3, 4, 5] ∧
    holds (ofRange env m true [1, 2, 3]) [1, 2, 3] = true ∧ resized m (ofRange env m true [1, 2, 3]) = some [1, 2, 3, 4, 5] ∧
    cmp (ofInit env m [1, 2, 3, 4, 5]) (ofInit env m [6, 7, 8]) = some .less ∧
    cmp (ofInit env m [1, 2, 3, 4, 5]) (ofInit env m [1, 2, 3, 4, 5]) = some .equal ∧
    cmp (ofInit env m [5, 6, 7, 8, 9]) (ofInit env m [1, 2, 3, 4, 5]) = some .greater := by decide +kernel

-- tests_flex_array.cpp:160-165: constructor exceptions; 224-228: more elements than the inline buffer
example : tooLong (ofInit env (.limited 1) [1, 2]) = true ∧ tooLong (ofRange env (.limited 1) true [1, 2]) = true ∧
    holds (ofInit env .dynamic [1, 2, 3, 4, 5, 6]) [1, 2, 3, 4, 5, 6] = true := by decide +kernel

-- tests_flex_array.cpp:258-308, converting constructors
example : (∀ s, ofInit env (.static 5) [1, 2, 3, 4, 5] = .ok s →
      (ofStatic env (.limited 6) s).map (fun d => (d.size, values d.live)) = some (5, some [1, 2, 3, 4, 5]) ∧ (Mode.limited 6).max = some 6 ∧
      (ofStatic env .dynamic s).map (fun d => values d.live) = some (some [1, 2, 3, 4, 5])) ∧
    ∀ m ∈ [Mode.limited 5, .dynamic], ∀ d, ofInit env m [1, 2, 3] = .ok d →
      holds (toStatic env 3 d) [1, 2, 3] = true ∧ tooLong (toStatic env 2 d) = true ∧ tooLong (toStatic env 4 d) = true := by
  refine ⟨fun s h => ?_, fun m hm d h => ?_⟩
  · cases h; decide +kernel
  · rcases List.mem_cons.1 hm with rfl | hm
    · cases h; decide +kernel
    · rcases List.mem_cons.1 hm with rfl | hm
      · cases h; decide +kernel
      · cases hm

end Flex

end Verif.Conform.Containers
