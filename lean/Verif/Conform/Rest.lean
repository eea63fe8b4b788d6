import Verif.Binding.Model
import Verif.Layout.Model
import Verif.Control.Model
import Verif.Guards.Model
import Verif.Traits.Model
import Verif.BindFront.Model
import Verif.Overload.Props
import Verif.Print.Model
import Verif.Print.LookupModel
import Verif.Macro.Model
import Verif.Zst.Model
import Verif.Qualifiers.Model

/-!
The tests of `tests/tests_standard_layout_tuple.cpp`, `tests_mutex.cpp`, `tests_shared_mutex.cpp`, `tests_functional.cpp`, `tests_memfn.cpp`,
`tests_macro_util.cpp`, `tests_overloaded.cpp`, `tests_dbg.cpp`, `tests_format_to_ostream.cpp` and `tests_type_traits.cpp` run on the model. The
examples check the model and are no proofs; the theorems are the tests for every value.
-/
namespace Verif.Conform.Rest

/-! ### standard_layout_tuple -/

section Tuple
open Verif.Layout Verif.Binding
open Verif.Qualifiers (Obj Ty)

/-- `int`, `bool`, `float` (tests_standard_layout_tuple.cpp:15-17). -/
def ibf : List Elem := [⟨4, 4⟩, ⟨1, 1⟩, ⟨4, 4⟩]
/-- `int` and `double` (tests_standard_layout_tuple.cpp:94). -/
def int : Obj := .named 0 false false
/-- `double` (tests_standard_layout_tuple.cpp:94). -/
def double : Obj := .named 1 false false
/-- `float` (tests_standard_layout_tuple.cpp:54). -/
def float : Obj := .named 2 false false
/-- The element types of tests_standard_layout_tuple.cpp:54. -/
def idf : List Ty := [.val int, .val double, .val float]

-- tests_standard_layout_tuple.cpp:12-41: the offsets of a struct with these members
example : Layout.sizeOf ibf = 12 ∧ [0, 1, 2].map (getAddr ibf 1000) = [some 1000, some 1004, some 1008] := by decide
-- tests_standard_layout_tuple.cpp:53-82
example : individual (fun _ v => v) 3 [1, 42, 120] = some [1, 42, 120] ∧ [0, 1, 2].map (getVal [1, 42, 120]) = [some 1, some 42, some 120] ∧
    [Ty.val int, .val double, .val float].map (getByType idf [1, 42, 120]) = [some 1, some 42, some 120] := by decide
-- tests_standard_layout_tuple.cpp:84-92
example : tupleSize [] = 0 ∧ tupleSize [.val int] = 1 ∧ tupleSize [.val int, .val double] = 2 := by decide
-- tests_standard_layout_tuple.cpp:94-101: destructuring
example : (bind (fun _ => 9) [.val int, .val double] ⟨false, .copy⟩ true false 2) =
      some [⟨.val int, true, .element 0⟩, ⟨.val double, true, .element 1⟩] := by decide
-- tests_standard_layout_tuple.cpp:102-114: comparison
example :
    let c : Nat → Nat → Nat → Layout.Ord := fun _ x y => if x < y then .less else if x = y then .equal else .greater
    [([1, 1], [1, 1]), ([1, 2], [1, 2]), ([2, 1], [2, 1])].all (fun p => equal (fun _ x y => x == y) p.1 p.2) = true ∧
      [([1, 1], [1, 2]), ([1, 2], [2, 1]), ([1, 1], [2, 1])].all (fun p => compare c p.1 p.2 == .less) = true := by decide
-- tests_standard_layout_tuple.cpp:136-163: subtuple, in elements of `int`, `double`, `float`
example :
    let ts : List Elem := [⟨4, 4⟩, ⟨8, 8⟩, ⟨4, 4⟩]
    subtuple ts 0 0 0 = some ([], 0) ∧ subtuple ts 0 0 3 = some (ts, 0) ∧ subtuple ts 0 0 1 = some ([⟨4, 4⟩], 0) ∧
      subtuple ts 0 0 2 = some ([⟨4, 4⟩, ⟨8, 8⟩], 0) ∧ subtuple ts 0 1 1 = some ([⟨8, 8⟩], 8) ∧
      subtuple ts 0 1 2 = some ([⟨8, 8⟩, ⟨4, 4⟩], 8) := by decide
-- tests_standard_layout_tuple.cpp:166-186: fold and for_each
example : Control.tupleFold .rvalue (fun (s : Unit) (p : Nat × Nat) => (s, some (p.1 + p.2))) () 0 [1, 2, 3] = some (.returned () (.value 6)) ∧
    Control.tupleForEach (fun (s : Unit × Nat) (x : Nat) => ((s.1, s.2 + x), some ())) () 0 [1, 2, 3] = .returned ((), 6) (some ()) := by decide

end Tuple

/-! ### mutex, shared_mutex -/

section Mutexes
open Verif.Guards

variable {α : Type}

/-- What the operations of a test return; `none`: one of them blocks (tests_mutex.cpp:15-70). -/
def results : St α → List (Op α) → Option (List (Res α))
  | _, [] => some []
  | s, o :: os => (step s o).bind fun r => (results r.1 os).map (r.2 :: ·)

/-- `swap(ga, gb)` by moving (tests_mutex.cpp:53, tests_shared_mutex.cpp:56, 69); the guard that is moved through is number 2. -/
def swapOps (a b : Nat) : List (Op α) := [.moveCtor a, .moveAssign a b, .moveAssign b 2, .destroy 2]

/-- The tests tests_mutex.cpp:15-39, 60-70 and tests_shared_mutex.cpp:15-39, 76-99, for every value: what is put in is seen through the guard,
however the mutex is locked. -/
theorem lock_passes (v : α) :
    results (init [v]) [.lock 0, .read 0] = some [.unit, .val v] ∧
    results (init [v]) [.tryLock 0 false, .read 0] = some [.bool true, .val v] ∧
    results (init [v]) [.lockShared 0, .read 0] = some [.unit, .val v] ∧
    results (init [v]) [.tryLockShared 0 false, .read 0] = some [.bool true, .val v] := by
  refine ⟨?_, ?_, ?_, ?_⟩ <;> simp [results, init, step, St.acquire, St.acquireShared]

/-- The tests tests_mutex.cpp:41-58 and tests_shared_mutex.cpp:41-74, for all values: guards that are swapped show each other's values, whether
they are exclusive or shared, and both mutexes are free when they are gone. -/
theorem swap_passes (v w : α) (shared : Bool) :
    let lk : Nat → Op α := fun m => if shared then .lockShared m else .lock m
    results (init [v, w]) ([lk 0, lk 1, .read 0, .read 1] ++ swapOps 0 1 ++ [.read 0, .read 1, .destroy 0, .destroy 1, .lock 0, .lock 1]) =
      some [.unit, .unit, .val v, .val w, .unit, .unit, .unit, .unit, .val w, .val v, .unit, .unit, .unit, .unit] := by
  cases shared <;> simp [results, init, step, St.acquire, St.acquireShared, swapOps, St.unlock]

example : results (init [1, 2]) ([.lock 0, .lock 1] ++ swapOps 0 1 ++ [.read 0]) = some [.unit, .unit, .unit, .unit, .unit, .unit, .val 2] := by decide

-- tests_mutex.cpp:10-13, tests_shared_mutex.cpp:10-13
example :
    let t : Traits.Ty := ⟨fun _ => .trivial, true⟩
    [Traits.Op.copyC, .moveC, .copyA, .moveA].all (fun o => !(Traits.mutex t t).reports o) = true := by decide

end Mutexes

/-! ### bind_front, DICE_MEMFN -/

section Bound
open Verif.BindFront

/-- `double func(int x, double d) { return x + d; }` (tests_functional.cpp:8-10). -/
def func : Callee Unit Int Int := ⟨[.byValue, .byValue], fun s vs => (s, some (vs.foldl (· + ·) 0), fun _ => 0)⟩

/-- The test tests_functional.cpp:43-52, for all numbers: calling `bind_front<func>(x)` with `d` gives `x + d`, any number of times, whether the
result of `bind_front` is const or not. -/
theorem bind_front_passes (x d : Int) (const : Bool) :
    call id func () (bindFront [⟨x, false, false⟩]) true const [⟨d, false, false⟩] = some (⟨(), some (x + d), [d]⟩, ⟨[x]⟩) := by
  cases const <;> simp [call, invoke, bindFront, func, accepts, after]

example : (call id func () (bindFront [⟨5, false, false⟩]) true true [⟨1, false, false⟩]).map (·.1.result) = some (some 6) := by decide

-- tests_functional.cpp:66-71: objects that can only be moved are taken by rvalue references, which a closure used as an lvalue does not give
example :
    let f : Callee Unit Nat Nat := ⟨[.rvalueRef, .rvalueRef], fun s vs => (s, vs.head?, fun _ => 0)⟩
    (call (fun _ => 0) f () (bindFront [⟨1, false, false⟩]) false false [⟨2, false, false⟩]).map (·.1.result) = some (some 1) ∧
      call (fun _ => 0) f () (bindFront [⟨1, false, false⟩]) true false [⟨2, false, false⟩] = none := by decide

/-- The variable `data` of the tests of tests_memfn.cpp, at place 0. -/
def oneVar (v : List Char) : Env (List Char) := fun l => if l = 0 then some v else none

-- tests_memfn.cpp:48-87: by reference to const, by reference, by rvalue reference, by value
example :
    let ref : Callee Unit (List Char) Unit := ⟨[.lvalueRef], fun s vs => (s, some (), fun _ => vs.flatten ++ ['!'])⟩
    let cref : Callee Unit (List Char) Unit := ⟨[.constRef], fun s _ => (s, some (), fun _ => [])⟩
    let rref : Callee (List Char) (List Char) Unit := ⟨[.rvalueRef], fun _ vs => (vs.flatten, some (), fun _ => [])⟩
    let val : Callee Unit (List Char) Unit := ⟨[.byValue], fun s _ => (s, some (), fun _ => [])⟩
    (invoke (fun _ => []) ref () [⟨['m'], true, false⟩]).map (·.objects) = some [['m', '!']] ∧
      (invoke (fun _ => []) cref () [⟨['i'], true, true⟩]).map (·.objects) = some [['i']] ∧
      (invoke (fun _ => []) rref [] [⟨['m', 'o'], false, false⟩]).map (fun r => (r.state, r.objects)) = some (['m', 'o'], [[]]) ∧
      (invoke (fun _ => []) val () [⟨['c'], true, false⟩]).map (·.objects) = some [['c']] := by decide

/-- `transform_int_to_string(prefix, i)` (tests_memfn.cpp:42-45). -/
def transform : Callee Unit (List Char) (List Char) := ⟨[.constRef, .byValue], fun s vs => (s, some vs.flatten, fun _ => [])⟩

/-- The test tests_memfn.cpp:104-119, for every prefix and every element: the prefix is put before the element, and stays as it is. -/
theorem memfn_passes (pre x : List Char) (lv : Bool) :
    ∃ r env, memfnCall (fun _ => []) transform [.var 0 true] (oneVar pre) () [⟨x, lv, false⟩] = .done r env ∧ r.result = some (pre ++ x) ∧
      env 0 = some pre := by
  cases lv <;> exact ⟨_, _, rfl, by simp [transform], by simp [transform, writeBack, after]⟩

example : (match memfnCall (fun _ => []) transform [.var 0 true] (oneVar ['i', '_']) () [⟨['1'], true, false⟩] with
    | .done r _ => r.result | _ => none) = some ['i', '_', '1'] := by decide

end Bound

/-! ### Macros -/

open Verif.Macro in
-- tests_macro_util.cpp:9-15: DICE_IDENT_CONCAT, also with a macro as argument
example :
    let user : Env := fun s => if s = "MY_IDENT" then some ⟨none, false, [.tok (i "world")]⟩ else none
    ((expand (lib 10 "f.cpp" true user) 30 [i "DICE_IDENT_CONCAT", p "(", i "hello_", p ",", i "world", p ")"]).map (·.map (·.text))) =
        some ["hello_world"] ∧
      ((expand (lib 13 "f.cpp" true user) 30 [i "DICE_IDENT_CONCAT", p "(", i "hello_", p ",", i "MY_IDENT", p ")"]).map (·.map (·.text))) =
        some ["hello_world"] := by decide +kernel
open Verif.Macro in
-- tests_macro_util.cpp:17-20: DICE_FILENAME, whether or not the compiler has `__FILE_NAME__`
example : [true, false].all (fun has =>
    ((expand (lib 18 "tests_macro_util.cpp" has (fun _ => none)) 30 [i "DICE_FILENAME"]).map (·.map (·.text))) ==
      some ["\"tests_macro_util.cpp\""]) = true := by decide +kernel
open Verif.Macro in
-- tests_macro_util.cpp:22-34: with a sanitizer the object is given to it, without one nothing happens
example : ignoreLeakFn true true 42 = some [42] ∧ ignoreLeakFn true false 42 = some [] := by decide

/-! ### overloaded, match -/

open Verif.Overload in
-- tests_overloaded.cpp:9-38: the function for `int` is called with 5, and no other one
example : («match» exampleRules [.int, .double, .float] exampleFns (some (0, 5)) []).map (fun r => (r.world, r.calls)) =
    some ([1], [(1, 5)]) := by decide

/-! ### DICE_DBG, format_to_ostream -/

section Output
open Verif.Print

/-- A stream that takes everything (tests_format_to_ostream.cpp:25). -/
def oss : Stream := ⟨[], none, true, 0, false⟩

-- tests_format_to_ostream.cpp:24-36: the own operator is used if there is one, and that of the library else
example : applicable true true = false ∧ applicable true false = true ∧
    (shift (ε := Nat) oss 0 (.text ['4', '2'])).1.text = ['4', '2'] := by decide

/-- The value category of the expression `DICE_DBG(e)` (tests_dbg.cpp:46-55). -/
def dbgCat (r : Result Nat) : Option Cat :=
  match dbg (ε := Nat) [] (fun _ => .text []) 0 99 ⟨0, fun s => (s, .ok r)⟩ ⟨fun a => if a = 1 then some 42 else none, oss, []⟩ with
  | some (_, .ok (.ref c _)) => some c
  | _ => none

-- tests_dbg.cpp:46-55: lvalues stay lvalues, everything else becomes an rvalue reference
example : dbgCat (.ref .lvalue 1) = some .lvalue ∧ dbgCat (.ref .xvalue 1) = some .xvalue ∧ dbgCat (.pure 42) = some .xvalue := by decide

end Output

/-! ### type_traits -/

section Traits
open Verif.Qualifiers

/-- `int` with qualifiers (tests_type_traits.cpp:27-117). -/
def i_ (c v : Bool) : Obj := .named 0 c v
/-- `double` with qualifiers (tests_type_traits.cpp:27-117). -/
def d_ (c v : Bool) : Obj := .named 1 c v

-- tests_type_traits.cpp:9-24: is_zst
example : Zst.isZst (.obj true ⟨1, 1⟩) = some true ∧ Zst.isZst (.obj false ⟨4, 4⟩) = some false ∧ Zst.isZst (.void false) = some false := by decide

/-- The tests tests_type_traits.cpp:26-63, for all qualifiers: `copy_const`, `copy_volatile` and `copy_cv` add the qualifiers of the first type
and keep those of the second; they see no qualifiers through references. -/
theorem copy_passes (c v c' v' : Bool) :
    copyConst (.val (i_ c v)) (.val (d_ c' v')) = .val (d_ (c || c') v') ∧ copyConst (.lref (i_ c v)) (.val (d_ c' v')) = .val (d_ c' v') ∧
    copyVolatile (.val (i_ c v)) (.val (d_ c' v')) = .val (d_ c' (v || v')) ∧ copyVolatile (.lref (i_ c v)) (.val (d_ c' v')) = .val (d_ c' v') ∧
    copyCv (.val (i_ c v)) (.val (d_ c' v')) = .val (d_ (c || c') (v || v')) ∧ copyCv (.lref (i_ c v)) (.val (d_ c' v')) = .val (d_ c' v') := by
  cases c <;> cases v <;> cases c' <;> cases v' <;> decide

/-- The tests tests_type_traits.cpp:65-93, for all qualifiers: `copy_reference` adds the reference, `copy_cvref` also the qualifiers of what it
refers to. -/
theorem copy_reference_passes (c v : Bool) :
    copyReference (.val (i_ c v)) (.val (d_ false false)) = some (.val (d_ false false)) ∧
    copyReference (.lref (i_ c v)) (.val (d_ false false)) = some (.lref (d_ false false)) ∧
    copyReference (.rref (i_ c v)) (.val (d_ false false)) = some (.rref (d_ false false)) ∧
    copyCvref (.val (i_ c v)) (.val (d_ false false)) = some (.val (d_ c v)) ∧
    copyCvref (.lref (i_ c v)) (.val (d_ false false)) = some (.lref (d_ c v)) ∧
    copyCvref (.rref (i_ c v)) (.val (d_ false false)) = some (.rref (d_ c v)) := by
  cases c <;> cases v <;> decide

example : copyCvref (.lref (i_ true false)) (.val (d_ false false)) = some (.lref (d_ true false)) := by decide

-- tests_type_traits.cpp:95-109: forward_like of a member
example : forwardLike (.lref (.named 5 true false)) true (i_ true false) = some (.lref (i_ true false)) ∧
    forwardLike (.lref (.named 5 false false)) true (i_ false false) = some (.lref (i_ false false)) ∧
    forwardLike (.val (.named 5 false false)) true (i_ false false) = some (.rref (i_ false false)) ∧
    forwardLike (.val (.named 5 true false)) true (i_ true false) = some (.rref (i_ true false)) := by decide

-- tests_type_traits.cpp:111-123: DICE_MOVE_IF_VALUE
example : moveIfValueType (.val (i_ false false)) = some (.rref (i_ false false)) ∧ moveIfValueType (.lref (i_ false false)) = some (.lref (i_ false false)) ∧
    moveIfValueType (.lref (i_ true false)) = some (.lref (i_ true false)) ∧ moveIfValueType (.rref (i_ false false)) = some (.rref (i_ false false)) ∧
    moveIfValueType (.rref (i_ true false)) = some (.rref (i_ true false)) := by decide

end Traits

end Verif.Conform.Rest
