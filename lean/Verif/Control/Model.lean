import Verif.Integral.Model

/-!
Model of switch_cases.hpp, for.hpp and tuple_algorithm.hpp.

Callables are functions on a state `σ` (everything a call can read or change: captured references, globals, the callable's own members);
a call returns the new state and either a result or `none`, an exception. Ill-formed programs are `none` of type `Option`.
-/
namespace Verif.Control

open Verif.Range (ITy)
open Verif.Integral (narrow)

variable {σ ι ρ κ : Type}

/-- A callable taking an `ι` and returning a `ρ` (the functions passed in switch_cases.hpp:55-68, for.hpp:15-55, tuple_algorithm.hpp:32-53). -/
abbrev Fn (σ ι ρ : Type) := σ → ι → σ × Option ρ

/-- What a call of one of the functions in the model does (switch_cases.hpp:55-125, for.hpp:15-55). -/
inductive Outcome (σ ρ : Type)
  /-- it returns -/
  | returned (s : σ) (r : ρ)
  /-- it is left by an exception -/
  | threw (s : σ)
  /-- `std::terminate` is called -/
  | terminated
  /-- a failed assertion, or undefined behaviour if assertions are off -/
  | unreachable
deriving DecidableEq, Repr

/-- The outcome of just calling something (e.g. switch_cases.hpp:18). -/
def Outcome.ofCall (c : σ × Option ρ) : Outcome σ ρ := match c with
  | (s, some r) => .returned s r
  | (s, none) => .threw s

/-! ## switch_cases.hpp -/

/-- A `std::integral_constant<I, value>` (switch_cases.hpp:13-23, for.hpp:40-55). -/
structure Const where
  type : ITy
  value : Int
deriving DecidableEq, Repr

/-- `execute_case<i, max, min>(value, f)` (switch_cases.hpp:13-23): the constant passed to the function. `I` is `decltype(i)`; as a template
argument `i + 1` has the promoted type. -/
def executeCase (I : ITy) (i max min value : Int) : Const :=
  if h : i < (if max = min then max else max - 1) then
    if value ≠ i then executeCase I.promote (i + 1) max min value else ⟨I, i⟩
  else ⟨I, i⟩
termination_by (max - i).toNat
decreasing_by split at h <;> omega

/-- The values of `i` for which `execute_case<i, max, min>` instantiates the function (switch_cases.hpp:13-23). -/
def caseInstances (I : ITy) (i max min : Int) : List Const :=
  if h : i < (if max = min then max else max - 1) then ⟨I, i⟩ :: caseInstances I.promote (i + 1) max min
  else [⟨I, i⟩]
termination_by (max - i).toNat
decreasing_by split at h <;> omega

/-- What `switch_cases<first, last>(condition, f, d)` (switch_cases.hpp:55-68) calls: the function with a constant, or (`none`) the default
function. -/
def switchTarget (I : ITy) (first last condition : Int) : Option Const :=
  let lo := min first last
  let hi := max first last
  if lo ≠ hi then
    if lo ≤ condition ∧ condition < hi then some (executeCase I lo hi lo condition) else none
  else none

/-- `switch_cases<first, last>(condition, f, d)` (switch_cases.hpp:55-68). -/
def switchCases (I : ITy) (first last condition : Int) (f : Fn σ Const ρ) (d : σ → σ × Option ρ) (s : σ) : Outcome σ ρ :=
  match switchTarget I first last condition with
  | some c => .ofCall (f s c)
  | none => .ofCall (d s)

/-- `switch_cases<first, last>(condition, f)` (switch_cases.hpp:85-88), where the default is `unreachable` (33-37). -/
def switchCasesNoDefault (I : ITy) (first last condition : Int) (f : Fn σ Const ρ) (s : σ) : Outcome σ ρ :=
  match switchTarget I first last condition with
  | some c => .ofCall (f s c)
  | none => .unreachable

/-- `switch_cases<last>(condition, f, d)` (switch_cases.hpp:103-106). -/
def switchCasesTo (I : ITy) (last condition : Int) (f : Fn σ Const ρ) (d : σ → σ × Option ρ) (s : σ) : Outcome σ ρ :=
  switchCases I 0 last condition f d s

/-- `switch_cases<last>(condition, f)` (switch_cases.hpp:122-125). -/
def switchCasesToNoDefault (I : ITy) (last condition : Int) (f : Fn σ Const ρ) (s : σ) : Outcome σ ρ :=
  switchCasesNoDefault I 0 last condition f s

/-- The constants `switch_cases<first, last>` with a default function instantiates the function for (switch_cases.hpp:55-68). -/
def switchInstances (I : ITy) (first last : Int) : List Const :=
  let lo := min first last
  let hi := max first last
  if lo ≠ hi then caseInstances I lo hi lo else []

/-- The same without a default function (switch_cases.hpp:85-88): `unreachable<F, first>` asks for the type of the result of calling the
function with `first` (33-34). -/
def switchInstancesNoDefault (I : ITy) (first last : Int) : List Const := ⟨I, first⟩ :: switchInstances I first last

/-- The same for `switch_cases<last>` without a default function (switch_cases.hpp:122-125): `unreachable<F, last>`. -/
def switchInstancesToNoDefault (I : ITy) (last : Int) : List Const := ⟨I, last⟩ :: switchInstances I 0 last

/-- `switch_bool(condition, f)` (switch_cases.hpp:134-141). -/
def switchBool (condition : Bool) (f : Fn σ Bool ρ) (s : σ) : Outcome σ ρ :=
  match condition with
  | true => .ofCall (f s true)
  | false => .ofCall (f s false)

/-! ## for.hpp -/

/-- `(f(xs), ...)`: calls in order until one throws (for.hpp:17, 28, tuple_algorithm.hpp:47, 52). -/
def sequence (f : Fn σ ι ρ) : σ → List ι → Outcome σ Unit
  | s, [] => .returned s ()
  | s, x :: xs => match f s x with
    | (s, some _) => sequence f s xs
    | (s, none) => .threw s

/-- Leaving a function declared `noexcept(b)` (for.hpp:16, 27, tuple_algorithm.hpp:33, 39). -/
def declaredNoexcept (b : Bool) (o : Outcome σ ρ) : Outcome σ ρ := match b, o with
  | true, .threw _ => .terminated
  | _, o => o

/-- `for_types<Ts...>(f)` (for.hpp:15-18). `ne x` says whether calling `f` for `x` is declared not to throw. -/
def forTypes (ne : ι → Bool) (f : Fn σ ι ρ) (s : σ) (xs : List ι) : Outcome σ Unit := declaredNoexcept (xs.all ne) (sequence f s xs)

/-- `for_values<xs...>(f)` (for.hpp:26-29). `ne x` says whether calling `f` *as it was passed* (lvalue or rvalue) for `x` is declared not to
throw; it is always called as an lvalue. -/
def forValues (ne : ι → Bool) (f : Fn σ ι ρ) (s : σ) (xs : List ι) : Outcome σ Unit := declaredNoexcept (xs.all ne) (sequence f s xs)

/-- The template arguments `(first + xs)...` or `(first - xs)...` of `for_values` in `for_range<first, last>` (for.hpp:40-55). They have the
promoted type. -/
def rangeConsts (I : ITy) (first last : Int) : Option (List Const) :=
  if first < last then
    ((Range.binop (· - ·) I I last first).bind (narrow I)).bind fun n =>
      TypeList.transform (fun x => (Range.binop (· + ·) I I first x).map fun v => ⟨I.promote, v⟩) (Integral.stdSequence n)
  else
    ((Range.binop (· - ·) I I first last).bind (narrow I)).bind fun n =>
      TypeList.transform (fun x => (Range.binop (· - ·) I I first x).map fun v => ⟨I.promote, v⟩) (Integral.stdSequence n)

/-- `for_range<first, last>(f)` (for.hpp:40-55). -/
def forRange (I : ITy) (first last : Int) (ne : Const → Bool) (f : Fn σ Const ρ) (s : σ) : Option (Outcome σ Unit) :=
  (rangeConsts I first last).map fun cs => forValues ne f s cs

/-! ## tuple_algorithm.hpp -/

/-- `((init = f(std::move(init), get<Ixs>(tuple))), ...)` (tuple_algorithm.hpp:32-42). `f` may throw. -/
def foldLoop {α : Type} (f : Fn σ (α × ι) α) : σ → α → List ι → Outcome σ α
  | s, acc, [] => .returned s acc
  | s, acc, x :: xs => match f s (acc, x) with
    | (s, some acc) => foldLoop f s acc xs
    | (s, none) => .threw s

/-- How the initial value is passed to `tuple_fold` (tuple_algorithm.hpp:65-68). -/
inductive InitCategory
  | rvalue | lvalue | constLvalue
deriving DecidableEq, Repr

/-- What the call expression of `tuple_fold` denotes: a value, or a reference to a destroyed temporary (tuple_algorithm.hpp:65-68). -/
inductive FoldResult (α : Type)
  | value (a : α)
  | dangling
deriving DecidableEq, Repr

/-- `tuple_fold(tuple, init, f)` (tuple_algorithm.hpp:65-68, 38-42) and `tuple_type_fold<Tuple>(init, f)` (79-82, 32-36). `Acc` is deduced
as a reference if `init` is an lvalue, and is the return type, but the implementation returns a temporary: that does not convert to a
non-const reference (`none`), and a const reference to it dangles. Both functions are `noexcept`. -/
def tupleFold {α : Type} (cat : InitCategory) (f : Fn σ (α × ι) α) (s : σ) (init : α) (elements : List ι) :
    Option (Outcome σ (FoldResult α)) :=
  let o := declaredNoexcept true (foldLoop f s init elements)
  match cat with
  | .lvalue => none
  | .rvalue => some (match o with
    | .returned s a => .returned s (.value a)
    | .threw s => .threw s
    | .terminated => .terminated
    | .unreachable => .unreachable)
  | .constLvalue => some (match o with
    | .returned s _ => .returned s .dangling
    | .threw s => .threw s
    | .terminated => .terminated
    | .unreachable => .unreachable)

/-- `(f(get<Ixs>(tuple)), ...)` (tuple_algorithm.hpp:47, 52): the result of the last call; `none` if there are none (void). -/
def forEachLoop (f : Fn σ ι ρ) : σ → List ι → Outcome σ (Option ρ)
  | s, [] => .returned s none
  | s, [x] => match f s x with
    | (s, some r) => .returned s (some r)
    | (s, none) => .threw s
  | s, x :: xs => match f s x with
    | (s, some _) => forEachLoop f s xs
    | (s, none) => .threw s

/-- `tuple_for_each(tuple, f)` (tuple_algorithm.hpp:91-94, 44-48) and `tuple_type_for_each<Tuple>(f)` (103-106, 50-53). The callable consists
of its own members `κ`, and it changes the rest of the program's state `σ`. The implementation takes the callable by value, so it is copied
(or moved) from the argument, and the argument is unchanged; `κ` is the value of the argument afterwards if it was passed as an lvalue. -/
def tupleForEach (f : Fn (κ × σ) ι ρ) (own : κ) (s : σ) (elements : List ι) : Outcome (κ × σ) (Option ρ) :=
  match forEachLoop f (own, s) elements with
  | .returned (_, s) r => .returned (own, s) r
  | .threw (_, s) => .threw (own, s)
  | .terminated => .terminated
  | .unreachable => .unreachable

end Verif.Control
