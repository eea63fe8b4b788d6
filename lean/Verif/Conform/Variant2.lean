import Verif.Variant2.AccessModel
import Verif.Traits.Model

/-!
The test cases of tests/tests_variant2.cpp, run through the model (validation of the model, not proofs about the code).
-/
namespace Verif.Conform.Variant2

open Verif.Variant2

/-- The values of the tests (tests/tests_variant2.cpp:141-280): numbers (also the doubles, by name), texts, and the type whose special members throw. -/
inductive V where
  | num (n : Int)
  | text (s : String)
  | mute
  deriving DecidableEq, Repr

/-- `int`, `double` and `std::string` (tests/tests_variant2.cpp:141-235): a moved-from string is empty. -/
def env : Env V where
  copyNew _ v := v
  moveNew _ v := v
  movedFrom _ v := match v with
    | .text _ => .text ""
    | v => v
  broken _ v := v

/-- `variant2<int, double>` (tests/tests_variant2.cpp:141): everything trivial. -/
def triv : Cfg := ⟨true, true, true, true, true, fun _ => true⟩

/-- `variant2<int, std::string>` and `variant2<int, make_valueless>` (tests/tests_variant2.cpp:176,236). -/
def rich : Cfg := ⟨false, false, false, false, false, fun x => decide (x = .a)⟩

/-- `check_acessors` (tests/tests_variant2.cpp:74-110) for the alternative and the expected value. -/
def check (s : Var V) (x : Alt) (v : V) : Bool :=
  decide (get s x = .ok v) && decide (getIf (some s) x = .ok (some v)) && holds s x && !valuelessByException s &&
  decide (index s = some (match x with | .a => 0 | .b => 1)) && decide (visit s (fun y w => decide (y = x ∧ w = v)) = (.ok true, [(x, v)])) &&
  decide (eq (fun _ u w => decide (u = w)) s s = .ok true) && decide (cmp (fun _ u w => if u = w then .equal else .less) s s = .ok .equal) &&
  match newVar x v false with
  | .ok (some y) => decide (eq (fun _ u w => decide (u = w)) s y = .ok true) && decide (cmp (fun _ u w => if u = w then .equal else .less) s y = .ok .equal)
  | _ => false

/-- `check_valuelessness` (tests/tests_variant2.cpp:112-121). -/
def checkValueless (s : Var V) : Bool :=
  valuelessByException s && decide (index s = none) && decide (get s .a = .badAccess) && decide (get s .b = .badAccess) &&
  decide (getIf (some s) .a = .ok none) && decide (getIf (some s) .b = .ok none) && decide (visit s (fun _ _ => ()) = (.badAccess, []))

/-- One step of a test case: an operation, whether it throws (`REQUIRE_THROWS`) and what is checked of which variants afterwards
(tests/tests_variant2.cpp:129-280); `none` is `check_valuelessness`. -/
structure Row where
  op : Op V
  throws : Bool := false
  after : List (Nat × Option (Alt × V))

/-- All rows of a test case pass (tests/tests_variant2.cpp:129-280). -/
def passes (cfg : Cfg) : State V → List Row → Bool
  | _, [] => true
  | σ, r :: rs => match step cfg env σ r.op with
    | .error _ => false
    | .ok (σ', thr) => decide (thr = r.throws) && (r.after.all fun e => match σ' e.1, e.2 with
        | some s, some (x, v) => check s x v
        | some s, none => checkValueless s
        | none, _ => false) && passes cfg σ' rs

/-- No variants yet (tests/tests_variant2.cpp:143). -/
def none' : State V := fun _ => none

-- tests_variant2.cpp:129-141 and 143-173, value categories and constructors; 5, 6.0 are written 5, 6
example : passes triv none' [
    ⟨.new 0 .inplace .a (.num 0) false, false, [(0, some (.a, .num 0))]⟩,
    ⟨.new 1 .inplace .a (.num 5) false, false, [(1, some (.a, .num 5))]⟩,
    ⟨.new 2 .inplace .b (.num 6) false, false, [(2, some (.b, .num 6))]⟩,
    ⟨.new 3 .move .a (.num 5) false, false, [(3, some (.a, .num 5))]⟩,
    ⟨.new 4 .move .b (.num 6) false, false, [(4, some (.b, .num 6))]⟩,
    ⟨.new 5 .move .b (.num 1) false, false, [(5, some (.b, .num 1))]⟩,
    ⟨.copyCtor 6 5 false, false, [(5, some (.b, .num 1)), (6, some (.b, .num 1))]⟩,
    ⟨.moveCtor 7 5 false, false, [(7, some (.b, .num 1))]⟩] = true := by decide +kernel

-- tests_variant2.cpp:175-187, copy and move constructors of non-trivial types
example : passes rich none' [
    ⟨.new 0 .move .b (.text "Spherical Cow") false, false, [(0, some (.b, .text "Spherical Cow"))]⟩,
    ⟨.copyCtor 1 0 false, false, [(0, some (.b, .text "Spherical Cow")), (1, some (.b, .text "Spherical Cow"))]⟩,
    ⟨.moveCtor 2 0 false, false, [(2, some (.b, .text "Spherical Cow")), (0, some (.b, .text ""))]⟩] = true := by decide +kernel

-- tests_variant2.cpp:189-233, assignment of non-trivial types
example : passes rich none' [
    ⟨.new 0 .inplace .a (.num 5) false, false, [(0, some (.a, .num 5))]⟩,
    ⟨.set 0 .copy .a (.num 6) false, false, [(0, some (.a, .num 6))]⟩,
    ⟨.set 0 .copy .a (.num 6) false, false, [(0, some (.a, .num 6))]⟩,
    ⟨.set 0 .copy .b (.text "Hello") false, false, [(0, some (.b, .text "Hello"))]⟩,
    ⟨.set 0 .copy .b (.text "Hello") false, false, [(0, some (.b, .text "Hello"))]⟩,
    ⟨.set 0 .move .a (.num 8) false, false, [(0, some (.a, .num 8))]⟩,
    ⟨.set 0 .move .a (.num 8) false, false, [(0, some (.a, .num 8))]⟩,
    ⟨.set 0 .move .b (.text "Spherical Cow") false, false, [(0, some (.b, .text "Spherical Cow"))]⟩,
    ⟨.set 0 .move .b (.text "Spherical Cow") false, false, [(0, some (.b, .text "Spherical Cow"))]⟩,
    ⟨.new 1 .move .a (.num 10) false, false, [(1, some (.a, .num 10))]⟩,
    ⟨.copyAssign 0 1 false, false, [(0, some (.a, .num 10))]⟩,
    ⟨.copyAssign 0 1 false, false, [(0, some (.a, .num 10))]⟩,
    ⟨.new 2 .move .b (.text "Moo") false, false, [(2, some (.b, .text "Moo"))]⟩,
    ⟨.copyAssign 0 2 false, false, [(0, some (.b, .text "Moo"))]⟩,
    ⟨.moveAssign 0 2 false, false, [(0, some (.b, .text "Moo"))]⟩,
    ⟨.copyAssign 0 0 false, false, [(0, some (.b, .text "Moo"))]⟩] = true := by decide +kernel

-- tests_variant2.cpp:235-280, "valueless by exception"
example : passes rich none' [
    ⟨.new 0 .inplace .a (.num 0) false, false, [(0, some (.a, .num 0))]⟩,
    ⟨.emplace 0 .b .mute true, true, [(0, none)]⟩,
    ⟨.set 0 .copy .a (.num 5) false, false, [(0, some (.a, .num 5))]⟩,
    ⟨.set 0 .move .b .mute true, true, [(0, none)]⟩,
    ⟨.set 0 .move .a (.num 6) false, false, [(0, some (.a, .num 6))]⟩,
    ⟨.set 0 .copy .b .mute true, true, [(0, none)]⟩,
    ⟨.new 1 .move .a (.num 8) false, false, [(1, some (.a, .num 8))]⟩,
    ⟨.copyAssign 0 1 false, false, [(0, some (.a, .num 8))]⟩,
    ⟨.set 0 .move .b .mute true, true, [(0, none)]⟩,
    ⟨.new 2 .move .a (.num 9) false, false, [(2, some (.a, .num 9))]⟩,
    ⟨.moveAssign 0 2 false, false, [(0, some (.a, .num 9))]⟩,
    ⟨.emplace 0 .b .mute true, true, [(0, none)]⟩,
    ⟨.new 3 .inplace .b .mute false, false, [(3, some (.b, .mute))]⟩,
    ⟨.copyAssign 0 3 true, true, [(0, none)]⟩,
    ⟨.moveAssign 0 3 true, true, [(0, none)]⟩] = true := by decide +kernel

/-- The formatters of `int` and `double` (tests/tests_variant2.cpp:306-307). -/
def shown (_ : Alt) (v : V) : String × Bool := match v with
  | .num n => (toString n, false)
  | .text s => (s, false)
  | .mute => ("make_valueluess", false)

-- tests_variant2.cpp:305-316, formatting; 1.5 is the text of the number
example : format shown ⟨.first, some (.a, .num 42)⟩ = .ok ("variant(42)", false) ∧
    format shown ⟨.second, some (.b, .text "1.5")⟩ = .ok ("variant(1.5)", false) ∧
    format shown ⟨.valueless, none⟩ = .ok ("variant(valueless by exception)", false) := by decide +kernel

open Verif.Variant2 in
-- tests_variant2.cpp:282-287, the alias `variant`; the types are numbered
example (t u w : Qualifiers.Obj) : select [t, u] = .two t u ∧ select [] = .std [] ∧ select [t] = .std [t] ∧ select [t, u, w] = .std [t, u, w] :=
  ⟨rfl, rfl, rfl, rfl⟩

end Verif.Conform.Variant2
