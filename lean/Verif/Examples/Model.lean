import Verif.Limit.Model
import Verif.Defer.Model
import Verif.FlexArray.Model
import Verif.NextTo.Model

/-!
Programs of the directory `examples`, written with the definitions of the model, for every input instead of the one in the file.
-/
namespace Verif.Examples

/-! ### example_limit_allocator.cpp: a `std::vector` with a `limit_allocator` -/

section Vector
open Verif.Limit

variable {α : Type}

/-- A `std::vector<T, limit_allocator<T>>`: its elements, its capacity, and the bytes its allocator can still give
(example_limit_allocator.cpp:8, limit_allocator.hpp:95). -/
structure Vec (α : Type) where
  elems : List α
  cap : Nat
  left : Nat
  deriving DecidableEq, Repr

/-- An empty vector with a new allocator (example_limit_allocator.cpp:8, limit_allocator.hpp:123-137). -/
def Vec.init (limit : Nat) : Vec α := ⟨[], 0, limit⟩

/-- The vector moves to a block for `n` elements: first it gets the new one, then it returns the old one, as a `std::vector` does to keep its elements
if there is no memory (example_limit_allocator.cpp:9-13, limit_allocator.hpp:139-153). A vector refuses sizes that are no `size_t`, and has no block for no
elements. `M`: number of values of `size_t`, `sz`: `sizeof(T)`, `up`: whether the allocator behind the limit has memory. -/
def Vec.regrow (M sz n : Nat) (up : Bool) (v : Vec α) : Option (Vec α) × Nat :=
  if M ≤ n * sz then (none, v.left) else
  match seqAllocate M v.left ⟨n, sz⟩ up with
  | (.ok, left, _) => (some ⟨v.elems, n, if v.cap = 0 then left else seqDeallocate M left ⟨v.cap, sz⟩⟩, left)
  | (_, left, _) => (none, left)

/-- What programs do with the vector (example_limit_allocator.cpp:9-25). -/
inductive VOp (α : Type) where
  | push (x : α) (up : Bool)
  | pop
  | clear
  | reserve (n : Nat) (up : Bool)
  deriving DecidableEq, Repr

/-- One call (example_limit_allocator.cpp:9-25): whether it returns (or throws), and the vector after it. `grow` is the policy of the implementation. `none`:
undefined, `pop_back` of an empty vector. -/
def Vec.call (M sz : Nat) (grow : Nat → Nat) (v : Vec α) : VOp α → Option (Bool × Vec α)
  | .push x up =>
    if v.elems.length < v.cap then some (true, { v with elems := v.elems ++ [x] })
    else match v.regrow M sz (grow v.cap) up with
      | (some v', _) => some (true, { v' with elems := v'.elems ++ [x] })
      | (none, left) => some (false, { v with left := left })
  | .pop => if v.elems = [] then none else some (true, { v with elems := v.elems.dropLast })
  | .clear => some (true, { v with elems := [] })
  | .reserve n up =>
    if n ≤ v.cap then some (true, v)
    else match v.regrow M sz n up with
      | (some v', _) => some (true, v')
      | (none, left) => some (false, { v with left := left })

/-- A program that catches every exception (example_limit_allocator.cpp:12-25): which calls returned, and the vector at the end. -/
def Vec.run (M sz : Nat) (grow : Nat → Nat) : Vec α → List (VOp α) → Option (List Bool × Vec α)
  | v, [] => some ([], v)
  | v, o :: os => (v.call M sz grow o).bind fun r => (Vec.run M sz grow r.2 os).bind fun r' => some (r.1 :: r'.1, r'.2)

/-- The policy of libstdc++ and libc++: twice the capacity, one to begin with (for example_limit_allocator.cpp:9-25). -/
def doubling (cap : Nat) : Nat := if cap = 0 then 1 else 2 * cap

end Vector

/-! ### examples_defer.cpp: copying a file as a transaction -/

section Files
open Verif.Defer

/-- Files by name (examples_defer.cpp:32-41). -/
abbrev FS := Nat → Option (List Nat)

/-- Change one file (examples_defer.cpp:32-41). -/
def FS.set (fs : FS) (p : Nat) (c : Option (List Nat)) : FS := fun q => if q = p then c else fs q

/-- What the operating system decides (examples_defer.cpp:36,39,40): whether copying succeeds, and if it does not, what it has left behind of the target; whether
renaming succeeds; whether removing succeeds. -/
structure World where
  copyOk : Bool
  partialCopy : Option (List Nat)
  renameOk : Bool
  removeOk : Bool
  deriving DecidableEq, Repr

/-- `std::filesystem::copy_file` without options throws if there is no source or there is a target (examples_defer.cpp:39). -/
def World.copies (w : World) (fs : FS) (src tmp : Nat) : Bool := w.copyOk && (fs src).isSome && (fs tmp).isNone

/-- `copy_file_transact` (examples_defer.cpp:32-41, with the guard of defer.hpp:28-105). The effects are numbered: 0 the file is copied, 1 copying breaks off, 2 the copy is
renamed, 3 the copy is removed. -/
def transact (w : World) (fs : FS) (src tmp : Nat) : Stmt :=
  .guard .onFail 0 (.emit 3)
    (.seq (if w.copies fs src tmp then .emit 0 else .seq (.emit 1) (.throw 0)) (if w.renameOk then .emit 2 else .throw 1))

/-- What an effect does to the files (examples_defer.cpp:36,39,40). -/
def effect (w : World) (src dst tmp : Nat) (fs : FS) : Ev → FS
  | .emit 0 => fs.set tmp (fs src)
  -- an existing target or a missing source is noticed before anything is written
  | .emit 1 => if (fs src).isSome ∧ (fs tmp).isNone then fs.set tmp w.partialCopy else fs
  | .emit 2 => (fs.set dst (fs tmp)).set tmp none
  | .emit 3 => if w.removeOk then fs.set tmp none else fs
  | _ => fs

/-- Call `copy_file_transact(src, dst)` (examples_defer.cpp:32-41) while `c` exceptions are uncaught: how it ends and the files afterwards. -/
def copyFile (w : World) (src dst tmp : Nat) (fs : FS) (c : Nat) : Out × FS :=
  let r := exec (transact w fs src tmp) c
  (r.2.1, r.1.foldl (effect w src dst tmp) fs)

end Files

/-! ### example_flex_array.cpp: shapes -/

section Shapes
open Verif.FlexArray

/-- A shape with `n` extents, a `flex_array<size_t, n>` (example_flex_array.cpp:14-36), and `get_extents()`, a conversion to `shape_extents`, a
`flex_array<size_t, dynamic_extent, 2>` (example_flex_array.cpp:12,47-51). `none`: it does not compile, or throws. -/
def extents (env : Env Nat) (n : Nat) (xs : List Nat) : Option (FA Nat) :=
  match ofInit env (.static n) xs with
  | .ok a => ofStatic env (.limited 2) a
  | .error _ => none

end Shapes

/-! ### example_next_to_range.cpp: `iota{5} | std::views::take(10)` -/

section Take
open Verif.NextTo

variable {σ α : Type}

/-- A loop over `std::views::take(n)` of a range made by `next_to_range` (example_next_to_range.cpp:46-48): the view counts down, and increments the iterator after every
element, also after the last one. Returns the elements visited and the iterator at the end. -/
def takeLoop (I : Iter σ α) (d : Dir) : Nat → W σ α → List α × W σ α
  | 0, w => ([], w)
  | n + 1, w => match deref w with
    | none => ([], w)
    | some x => let r := takeLoop I d n (inc I d w); (x :: r.1, r.2)

end Take

end Verif.Examples
