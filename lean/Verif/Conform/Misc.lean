import Verif.Control.Model
import Verif.StdInt.Model
import Verif.Defer.Model
import Verif.PtrTag.Model
import Verif.FmtJoin.Model
import Verif.Sandbox.Model
import Verif.PolyAlloc.Model
import Verif.Pool.Model

/-!
The tests of `tests/tests_switch_cases.cpp`, `tests_for.cpp`, `tests_tuple_algorithm.cpp`, `tests_stdint.cpp`, `tests_defer.cpp`,
`tests_pointer_tag_pair.cpp`, `tests_fmt_join.cpp`, `tests_sandbox.cpp`, `tests_polymorphic_allocator.cpp` and `tests_pool_allocator.cpp` run on the
model. They check the model and are no proofs.
-/
namespace Verif.Conform.Misc

/-! ### switch_cases, for, tuple algorithms -/

open Verif.Control Verif.Range

/-- `int` (tests_switch_cases.cpp:9-11). -/
def i32 : ITy := ⟨32, true⟩

/-- `[&res](auto i) { res = compiled_identity<i>; }` (tests_switch_cases.cpp:15). -/
def assign : Fn Int Const Unit := fun _ c => (c.value, some ())

/-- `[](auto i) { return compiled_identity<i>; }` (tests_switch_cases.cpp:39). -/
def identity : Fn Unit Const Int := fun s c => (s, some c.value)

/-- `[]() { return value + 1; }` (tests_switch_cases.cpp:39). -/
def dflt : Unit → Unit × Option Int := fun s => (s, some 2)

-- tests_switch_cases.cpp:13-35: no return value
example : switchCasesNoDefault i32 (-5) 5 1 assign 2 = .returned 1 () ∧ switchCasesNoDefault i32 (-5) 5 (-1) assign 2 = .returned (-1) () ∧
    switchCasesToNoDefault i32 5 1 assign 2 = .returned 1 () ∧ switchCasesToNoDefault i32 (-5) (-1) assign 2 = .returned (-1) () := by
  decide +kernel
-- tests_switch_cases.cpp:37-75: with a return value
example : switchCases i32 (-5) 5 1 identity dflt () = .returned () 1 ∧ switchCasesNoDefault i32 (-5) 5 1 identity () = .returned () 1 ∧
    switchCasesToNoDefault i32 5 1 identity () = .returned () 1 ∧ switchCases i32 (-5) 5 (-1) identity dflt () = .returned () (-1) ∧
    switchCasesTo i32 5 1 identity dflt () = .returned () 1 ∧ switchCasesTo i32 (-5) (-1) identity dflt () = .returned () (-1) ∧
    switchCasesTo i32 (-5) 1 identity dflt () = .returned () 2 := by decide +kernel
-- tests_switch_cases.cpp:77-83: switch_bool
example : switchBool false (fun s b => (s, some b.toNat)) () = .returned () 0 ∧
    switchBool true (fun s b => (s, some b.toNat)) () = .returned () 1 := by decide

/-- `result += x` (tests_for.cpp:27-29). -/
def addConst : Fn Int Const Unit := fun s c => (s + c.value, some ())

-- tests_for.cpp:13-21: for_types; a type is given by its size
example : forTypes (fun _ => false) (fun (s : List Nat) n => (s ++ [n], some ())) [] [1, 2, 4, 8] = .returned [1, 2, 4, 8] () := by decide
-- tests_for.cpp:24-31: for_values
example : forValues (fun _ => false) (fun (s : Int) x => (s + x, some ())) 0 [-5, 2, 3, 4, 5, 6] = .returned (-5 + 2 + 3 + 4 + 5 + 6) () := by
  decide
-- tests_for.cpp:40-54: for_range up and down
example : forRange i32 (-5) 6 (fun _ => false) addConst 0 = some (.returned 0 ()) ∧
    forRange i32 5 (-6) (fun _ => false) addConst 0 = some (.returned 0 ()) := by decide +kernel

-- tests_tuple_algorithm.cpp:9-15, 25-33: sums, in tenths; 17-23, 35-43: the names of the types in order
example : tupleFold .rvalue (fun (s : Unit) (p : Nat × Nat) => (s, some (p.1 + p.2))) () 0 [10, 12, 20] = some (.returned () (.value 42)) ∧
    tupleForEach (fun (s : Unit × Nat) (x : Nat) => ((s.1, s.2 + x), some ())) () 0 [10, 12, 20] = .returned ((), 42) (some ()) := by decide
example : tupleFold .rvalue (fun (s : Unit) (p : List Char × Char) => (s, some (p.1 ++ [p.2]))) () [] ['i', 'd', 'l'] =
      some (.returned () (.value ['i', 'd', 'l'])) ∧
    tupleForEach (fun (s : Unit × List Char) (x : Char) => ((s.1, s.2 ++ [x]), some ())) () [] ['i', 'd', 'l'] =
      .returned ((), ['i', 'd', 'l']) (some ()) := by decide

/-! ### stdint: the values of the literals in tests_stdint.cpp:14-41 -/

open Verif.StdInt in
example : [StdInt.Ty.u8, .u16, .u32, .u64, .usize, .uptr, .i8, .i16, .i32, .i64, .isize, .iptr].all (fun t => lit t 123 == 123) = true ∧
    [StdInt.Ty.u8, .u16, .u32, .u64].map Ty.width = [8, 16, 32, 64] ∧
    [StdInt.Ty.i8, .i16, .i32, .i64, .isize, .iptr].all Ty.signed = true := by decide +kernel

/-! ### defer -/

open Verif.Defer

/-- A guard that sets `executed`, and then the rest of the block; exceptions are caught around it (tests_defer.cpp:12-27). -/
def deferTest (p : Pol) (fail : Bool) : List Defer.Ev :=
  (exec (.tryCatch (.guard p 0 (.emit 1) (if fail then .throw 7 else .skip)) none .skip) 0).1

-- tests_defer.cpp:9-29: always; 31-51: fail; 53-73: success
example : Defer.Ev.emit 1 ∈ deferTest .always false ∧ Defer.Ev.emit 1 ∈ deferTest .always true ∧
    Defer.Ev.emit 1 ∉ deferTest .onFail false ∧ Defer.Ev.emit 1 ∈ deferTest .onFail true ∧
    Defer.Ev.emit 1 ∈ deferTest .onSuccess false ∧ Defer.Ev.emit 1 ∉ deferTest .onSuccess true := by decide +kernel

/-! ### pointer_tag_pair -/

open Verif.PtrTag in
-- tests_pointer_tag_pair.cpp:9-27: two bits for a type aligned to 4; the pointer and the tag come back; nullptr
example : countrZero 4 = 2 ∧ ((mk 2 0x1000 (3 : BitVec 32)).map fun v => (pointer 2 v, tag 32 2 v)) = some (0x1000, 3) ∧
    ((mkNull 2 (0 : BitVec 32)).map fun v => (pointer 2 v, tag 32 2 v)) = some (0, 0) := by decide +kernel

/-! ### fmt_join -/

open Verif.FmtJoin

/-- `{}` for numbers below 100000 and for strings, given as text already (tests_fmt_join.cpp:16-62): only the empty specification. -/
def plain : Formatter Unit String := ⟨fun s => if s = [] then some ((), []) else none, fun _ s => some s.toList⟩

/-- A formatter with two states, as for `{}` and `{:#x}` (tests_fmt_join.cpp:58-62). -/
def hex : Formatter Bool Nat :=
  ⟨fun s => if s = [] then some (false, []) else if s = ['#', 'x'] then some (true, []) else none,
    fun b n => some ((if b then "0x" ++ String.ofList (Nat.toDigits 16 n) else toString n).toList)⟩

/-- Joins elements that were given by an lvalue or an rvalue (tests_fmt_join.cpp:16-50). -/
def joined (l : List String) (sep : Sep) : Option (List Char) × Option (List Char) :=
  (stdFormat plain [] (fun _ => l) (fmtJoin (.lvalue 0) sep), stdFormat plain [] (fun _ => []) (fmtJoin (.rvalue l) sep))

/-- The same text for both (tests_fmt_join.cpp:16-50). -/
def both (s : String) : Option (List Char) × Option (List Char) := (some s.toList, some s.toList)

-- tests_fmt_join.cpp:17-26: vectors and lists, string literals and a character as separator
example : joined ["1", "2", "3", "4", "5"] (.literal [',', ' ']) = both "1, 2, 3, 4, 5" ∧
    joined ["one", "two", "three"] (.literal [' ', '|', ' ']) = both "one | two | three" ∧
    joined ["1", "2", "3", "4", "5"] (.char '-') = both "1-2-3-4-5" := by decide +kernel
-- tests_fmt_join.cpp:28-40: empty and single-element ranges, temporaries
example : joined [] (.literal [',', ' ']) = both "" ∧ joined ["hello"] (.literal [',', ' ']) = both "hello" ∧
    joined ["10", "20", "30"] (.literal ['-', '>']) = both "10->20->30" := by decide +kernel
-- tests_fmt_join.cpp:58-64: the specification reaches the elements
example : stdFormat hex ['#', 'x'] (fun _ => [10, 15, 255]) (fmtJoin (.lvalue 0) (.literal [' '])) = some "0xa 0xf 0xff".toList := by
  decide +kernel

/-! ### sandbox -/

open Verif.Sandbox

/-- A process in which a test runner has installed handlers for all signals but the two for which it cannot (tests_sandbox.cpp:1-6). -/
def runner : Process := ⟨fun s => if s = 9 ∨ s = 19 ∨ s = 17 then .default else .handler, fun _ => false, none⟩

/-- The result of `DICE_SANDBOX` with a function that does the same in all processes (tests_sandbox.cpp:20-135). -/
def sb (r : Sandbox.Result) : Sandbox.Outcome := sandbox true runner (fun _ => r) []

-- tests_sandbox.cpp:20-59: normal exits, exceptions, abort
example : sb .returnedVoid = .result ExitSuccess ∧ sb (.returnedInt 0) = .result ExitSuccess ∧ sb (.returnedInt 42) = .result ExitFailure ∧
    sb .threw = .result Aborted ∧ sb (.killed SIGABRT true) = .result Aborted := by decide +kernel
-- tests_sandbox.cpp:96-142: signals
example : sb (.killed SIGINT false) = .result 2 ∧ sb (.killed SIGILL true) = .result 4 ∧ sb (.killed SIGFPE true) = .result 8 ∧
    sb (.killed SIGSEGV true) = .result 11 ∧ sb (.killed SIGTERM false) = .result 15 := by decide +kernel

/-! ### polymorphic_allocator -/

open Verif.PolyAlloc

/-- `std::allocator`, `mallocator`, `mallocator2` (tests_polymorphic_allocator.cpp:11-69): the value of a `mallocator` is the number in it. -/
def env3 : PolyAlloc.Env Nat where
  eqv := fun k a b => k == 0 || a == b
  src := fun _ _ => 0
  conv := fun _ a => a
  socc := fun _ a => a
  maxSize := fun _ _ => 2 ^ 63
  traits := [⟨false, true, false, true⟩, ⟨false, true, false, false⟩, ⟨false, true, false, false⟩]

/-- Default construction holds the first alternative; `std::in_place_index<1>` (tests_polymorphic_allocator.cpp:109-150). -/
def pa : PolyAlloc.Alloc Nat := ⟨0, 0⟩

/-- An allocator with alternative 1 (tests_polymorphic_allocator.cpp:142). -/
def pb : PolyAlloc.Alloc Nat := ⟨1, 4711⟩

/-- No memory in use (tests_polymorphic_allocator.cpp:110). -/
def noHeap : PolyAlloc.Heap := fun _ => none

-- tests_polymorphic_allocator.cpp:109-138: a copy can free memory of the original
example : PolyAlloc.eq env3 pa pa = true ∧ (match (allocate env3 pa 1 10 noHeap).bind fun h => (allocate env3 pa 1 20 h).bind fun h =>
    (deallocate env3 pa 10 1 h).bind (deallocate env3 pa 20 1) with | .ok h => decide (h 10 = none ∧ h 20 = none) | _ => false) = true := by
  decide +kernel
-- tests_polymorphic_allocator.cpp:140-188: allocators of different alternatives are not equal
example : PolyAlloc.eq env3 pa pb = false ∧ PolyAlloc.eq env3 pb pb = true ∧ PolyAlloc.eq env3 pb pa = false := by decide +kernel
-- tests_polymorphic_allocator.cpp:190-239: the default, conversions, selection on copy
example : PolyAlloc.holds pa 0 = true ∧ PolyAlloc.holds pb 1 = true ∧ PolyAlloc.convert env3 ["std", "malloc", "malloc2"] pa = some pa ∧
    PolyAlloc.convert env3 ["std", "malloc", "malloc2"] pb = some pb ∧ PolyAlloc.eq env3 pa (PolyAlloc.selectOnCopy env3 pa) = true := by
  decide +kernel

/-! ### pool_allocator -/

open Verif.Pool

-- tests_pool_allocator.cpp:11-37: the bucket for 4 and 8 bytes, memory of the heap for 16
example : allocFrom 0 [8] 4 = .bucket 0 ∧ allocFrom 0 [8] 8 = .bucket 0 ∧ allocFrom 0 [8] 16 = .heap ∧ freeTo 0 [8] 16 = .heap := by decide
-- tests_pool_allocator.cpp:39-54: one of the million iterations, three sources
example : (match Pool.run (2 ^ 64) [8, 16] Pool.init [.make, .copy 0, .copy 0, .copy 0, .alloc 1 1 8 1000 8, .alloc 2 1 16 2000 16,
      .alloc 3 1 32 3000 32, .dealloc 2 1, .dealloc 3 2, .dealloc 1 0] with
    | some (.ok s) => decide (s.issued = [] ∧ s.handles = [some (some 0), some (some 0), some (some 0), some (some 0)])
    | _ => false) = true := by decide +kernel
-- tests_pool_allocator.cpp:74-99: copies, moves, assignments and swap all refer to the same pool
example : (match Pool.run (2 ^ 64) [8, 16] Pool.init [.make, .alloc 0 1 8 1000 8, .dealloc 0 0, .copy 0, .move 1, .copyAssign 1 0, .moveAssign 2 1,
      .swap 2 0, .copy 0, .copy 0, .copy 0, .copy 0] with
    | some (.ok s) => decide (s.handles = [some (some 0), some none, some (some 0), some (some 0), some (some 0), some (some 0), some (some 0)])
    | _ => false) = true := by decide +kernel

end Verif.Conform.Misc
