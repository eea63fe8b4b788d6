/-!
# Evaluation at compile time

Most functions of the library are declared `constexpr`. Such a declaration only allows the function to be called during constant evaluation;
whether a call can really be evaluated then depends on what the body executes. This file runs programs that use `flex_array` and `variant2`, and
single calls of the algorithms, twice: at run time, and at compile time with the rules of C++23 (CMakeLists.txt:67), where an evaluation is not
constant if it calls a function that is not `constexpr` or evaluates a placement `new` (only `std::construct_at` may start a lifetime), if it throws, or
if its behaviour is undefined.

Simplified: all operations of the element types and all callables of the user are `constexpr` and do not throw, comparisons of elements are total;
`std::vector`, `std::array`, `std::variant`, `std::span`, `std::optional` and the algorithms of `<algorithm>` are `constexpr` (C++20), `std::unordered_set`,
`std::set`, `std::function`, `std::shared_ptr` and `ankerl::svector` are not. Defaulted copies of arrays copy elements without a value, too.
-/
namespace Verif.Constexpr

/-- When a program is evaluated; the functions are declared `constexpr` in flex_array.hpp:280-420 and variant2.hpp:199-782 (see above). -/
inductive When where
  | compile | run
  deriving DecidableEq, Repr

/-- Why an evaluation does not finish: it is not allowed in a constant expression, it is undefined, or it throws (e.g. flex_array.hpp:297, 305, 324). -/
inductive Stop where
  | notConstant | ub | threw
  deriving DecidableEq, Repr

/-- The result of an evaluation (of flex_array.hpp:280-420 and others). -/
abbrev Ev (α : Type) := Except Stop α

/-- A call of a function that is not declared `constexpr`, e.g. flex_array.hpp:46-52, 74-80, 136-150. -/
def notConstexpr : When → Ev Unit
  | .compile => .error .notConstant
  | .run => .ok ()

/-- A placement `new`, e.g. variant2.hpp:201, 215, 219. -/
def placementNew : When → Ev Unit
  | .compile => .error .notConstant
  | .run => .ok ()

/-! ### `flex_array` -/

/-- `flex_array_mode` with its extents (flex_array.hpp:23-28, 31-233). -/
inductive Mode where
  | static (n : Nat) | limited (m : Nat) | vector | sbo (n : Nat)
  deriving DecidableEq, Repr

/-- `has_dynamic_extent` (flex_array.hpp:262). -/
def Mode.dynamic : Mode → Bool
  | .static _ => false
  | _ => true

/-- `max_size()`, if `has_max_extent` (flex_array.hpp:261, 382). -/
def Mode.max : Mode → Option Nat
  | .static n => some n
  | .limited m => some m
  | _ => none

/-- What the mode stores: the elements of `data_` (`none`: a scalar without a value), and `size_` (flex_array.hpp:39-40, 62-63, 134, 162). -/
structure Arr (V : Type) where
  cells : List (Option V)
  size : Nat
  deriving DecidableEq, Repr

variable {V : Type}

/-- A member function of the third-party `svector`, which is not `constexpr` (flex_array.hpp:162). -/
def svector (w : When) : Mode → Ev Unit
  | .sbo _ => notConstexpr w
  | _ => .ok ()

/-- `inner_` after its default initialization; `init` is what default initialization makes of an element (flex_array.hpp:39-40, 62-63, 134, 162, 277, 280). -/
def fresh (w : When) (init : Option V) (m : Mode) : Ev (Arr V) :=
  match m with
  | .static n => .ok ⟨List.replicate n init, n⟩
  | .limited k => .ok ⟨List.replicate k init, 0⟩
  | .vector => .ok ⟨[], 0⟩
  | .sbo _ => (svector w m).bind fun _ => .ok ⟨[], 0⟩

/-- `inner_.size()`: `constexpr` in the first two modes only (flex_array.hpp:42-44, 65-67, 136-138, 164-166), so the same for `size()`, `empty()`,
`end()`, `cend()` (flex_array.hpp:383-384, 400-404). -/
def sizeOf (w : When) (m : Mode) (a : Arr V) : Ev Nat :=
  match m with
  | .static n => .ok n
  | .limited _ => .ok a.size
  | .vector => (notConstexpr w).bind fun _ => .ok a.size
  | .sbo _ => (notConstexpr w).bind fun _ => .ok a.size

/-- `resize` of a vector: value-initializes new elements; `zero` is their value (called at flex_array.hpp:149, 177). -/
def resized (zero : V) (cells : List (Option V)) (n : Nat) : List (Option V) :=
  cells.take n ++ List.replicate (n - cells.length) (some zero)

/-- `inner_.set_size(n)`: `constexpr` in the limited mode only (flex_array.hpp:69-72, 148-150, 176-178). -/
def setSize (w : When) (zero : V) (m : Mode) (a : Arr V) (n : Nat) : Ev (Arr V) :=
  match m with
  | .static _ => .error .ub
  | .limited k => if n ≤ k then .ok { a with size := n } else .error .ub
  | .vector => (notConstexpr w).bind fun _ => .ok ⟨resized zero a.cells n, n⟩
  | .sbo _ => (notConstexpr w).bind fun _ => .ok ⟨resized zero a.cells n, n⟩

/-- `std::ranges::copy(src, begin())`: undefined if there is not enough room (flex_array.hpp:309, 360, 371). -/
def copyTo (a : Arr V) (src : List (Option V)) : Ev (Arr V) :=
  if src.length ≤ a.cells.length then .ok { a with cells := src ++ a.cells.drop src.length } else .error .ub

/-- The `initializer_list` constructor (flex_array.hpp:294-310). -/
def ofInit (w : When) (init : Option V) (zero : V) (m : Mode) (l : List V) : Ev (Arr V) :=
  (fresh w init m).bind fun a =>
  if (m.max.any fun k => k < l.length) then .error .threw else
  (if m.dynamic then setSize w zero m a l.length else if some l.length = m.max then .ok a else .error .threw).bind fun a =>
  copyTo a (l.map some)

/-- The constructor from `[first, last)`; with or without random access it fails if there are too many elements, the vectors grow by `push_back`
(flex_array.hpp:319-346). -/
def ofRange (w : When) (init : Option V) (zero : V) (m : Mode) (l : List V) : Ev (Arr V) :=
  (fresh w init m).bind fun a =>
  if (m.max.any fun k => k < l.length) then .error .threw else
  match m with
  | .static _ => .ok { a with cells := l.map some ++ a.cells.drop l.length }
  | .limited _ => setSize w zero m { a with cells := l.map some ++ a.cells.drop l.length } l.length
  | .vector => .ok ⟨l.map some, l.length⟩
  | .sbo _ => (svector w m).bind fun _ => .ok ⟨l.map some, l.length⟩

/-- Conversion to a static extent; iterating over `other` calls its `size()` (flex_array.hpp:353-361, 402). -/
def toStatic (w : When) (init : Option V) (n : Nat) (mo : Mode) (other : Arr V) : Ev (Arr V) :=
  (fresh w init (.static n)).bind fun a =>
  (sizeOf w mo other).bind fun k =>
  if k = n then copyTo a (other.cells.take k) else .error .threw

/-- Conversion from a static extent (flex_array.hpp:366-372). -/
def ofStatic (w : When) (init : Option V) (zero : V) (m : Mode) (n : Nat) (other : Arr V) : Ev (Arr V) :=
  (fresh w init m).bind fun a =>
  (sizeOf w (.static n) other).bind fun k =>
  (setSize w zero m a k).bind fun a => copyTo a other.cells

/-- The conversions to `std::span`: the conversion functions of `inner_` are not `constexpr` in any mode (flex_array.hpp:46-52, 74-80, 140-146, 168-174,
374-380). -/
def toSpan (w : When) (a : Arr V) : Ev (List (Option V)) := (notConstexpr w).bind fun _ => .ok (a.cells.take a.size)

/-- Lexicographic comparison of elements, undefined if an element without a value is read (of flex_array.hpp:54, 99-103, 153). -/
def lex (cmp : V → V → Ordering) : List (Option V) → List (Option V) → Ev Ordering
  | [], [] => .ok .eq
  | [], _ :: _ => .ok .lt
  | _ :: _, [] => .ok .gt
  | some x :: xs, some y :: ys => match cmp x y with
    | .eq => lex cmp xs ys
    | o => .ok o
  | _ :: _, _ :: _ => .error .ub

/-- `operator<=>` (and `operator==`, which calls the same functions): the defaulted one of `std::array` and `std::vector`, spans in the other modes
(flex_array.hpp:54, 99-107, 152-153, 197-205, 415). -/
def compareArr (w : When) (cmp : V → V → Ordering) (m : Mode) (a b : Arr V) : Ev Ordering :=
  match m with
  | .static _ => lex cmp a.cells b.cells
  | .vector => lex cmp a.cells b.cells
  | _ => (toSpan w a).bind fun xs => (toSpan w b).bind fun ys => lex cmp xs ys

/-- `operator[]` read as a value: undefined outside of `data_` and for elements without a value (flex_array.hpp:412-413). -/
def readAt (w : When) (m : Mode) (a : Arr V) (i : Nat) : Ev V :=
  (svector w m).bind fun _ => match a.cells[i]? with
  | some (some v) => .ok v
  | _ => .error .ub

/-- `operator[]` assigned to (flex_array.hpp:412). -/
def writeAt (w : When) (m : Mode) (a : Arr V) (i : Nat) (v : V) : Ev (Arr V) :=
  (svector w m).bind fun _ => if i < a.cells.length then .ok { a with cells := a.cells.set i (some v) } else .error .ub

/-- What is left of an array after it was moved from; moving an array moves its elements, here they keep their values (flex_array.hpp:282, 284). -/
def movedFrom (m : Mode) (a : Arr V) : Arr V :=
  match m with
  | .static _ => a
  | .limited _ => a
  | .vector => ⟨[], 0⟩
  | .sbo _ => ⟨[], 0⟩

/-- What a program does with its arrays, which are numbered; `resize` is missing, as it is not declared `constexpr` (flex_array.hpp:280-420). -/
inductive Op (V : Type) where
  | dflt (d : Nat)
  | ofInit (d : Nat) (l : List V)
  | ofRange (d : Nat) (l : List V)
  | toStatic (d s : Nat)
  | ofStatic (d s : Nat)
  | copy (d s : Nat)
  | move (d s : Nat)
  | assign (d s : Nat)
  | moveAssign (d s : Nat)
  | swap (a b : Nat)
  | destroy (a : Nat)
  | size (a : Nat)
  | isEmpty (a : Nat)
  | begin (a : Nat)
  | finish (a : Nat)
  | span (a : Nat)
  | read (a i : Nat)
  | write (a i : Nat) (v : V)
  | compare (a b : Nat)
  deriving Repr

/-- What an operation shows to the program (flex_array.hpp:374-420). -/
inductive Seen (V : Type) where
  | nothing | number (n : Nat) | truth (b : Bool) | value (v : V) | order (o : Ordering) | elems (l : List (Option V))
  deriving DecidableEq, Repr

/-- The arrays of a program (flex_array.hpp:277). -/
abbrev St (V : Type) := Nat → Option (Arr V)

/-- Overwrite one variable (used for flex_array.hpp:280-420). -/
def upd {β : Type} (f : Nat → β) (i : Nat) (x : β) : Nat → β := fun j => if j = i then x else f j

/-- The parameters of the element type: what default initialization leaves, the value-initialized value, the order (flex_array.hpp:277). -/
structure Elem (V : Type) where
  init : Option V
  zero : V
  cmp : V → V → Ordering

/-- Look up a variable; there is no such program otherwise (used for flex_array.hpp:280-420). -/
def getVar (σ : St V) (x : Nat) : Ev (Arr V) := match σ x with
  | some a => .ok a
  | none => .error .ub

/-- One operation; `Γ` is the type of each variable. Mismatching types are no program and count as undefined (flex_array.hpp:280-420). -/
def step (w : When) (E : Elem V) (Γ : Nat → Mode) (σ : St V) : Op V → Ev (St V × Seen V)
  | .dflt d => (fresh w E.init (Γ d)).bind fun a => .ok (upd σ d (some a), .nothing)
  | .ofInit d l => (ofInit w E.init E.zero (Γ d) l).bind fun a => .ok (upd σ d (some a), .nothing)
  | .ofRange d l => (ofRange w E.init E.zero (Γ d) l).bind fun a => .ok (upd σ d (some a), .nothing)
  | .toStatic d s => (getVar σ s).bind fun o => match Γ d, (Γ s).dynamic with
    | .static n, true => (toStatic w E.init n (Γ s) o).bind fun a => .ok (upd σ d (some a), .nothing)
    | _, _ => .error .ub
  | .ofStatic d s => (getVar σ s).bind fun o => match Γ s, (Γ d).dynamic with
    | .static n, true => (ofStatic w E.init E.zero (Γ d) n o).bind fun a => .ok (upd σ d (some a), .nothing)
    | _, _ => .error .ub
  | .copy d s => (getVar σ s).bind fun o => if Γ d = Γ s then (svector w (Γ s)).bind fun _ => .ok (upd σ d (some o), .nothing) else .error .ub
  | .move d s => (getVar σ s).bind fun o => if Γ d = Γ s then (svector w (Γ s)).bind fun _ =>
      .ok (upd (upd σ s (some (movedFrom (Γ s) o))) d (some o), .nothing) else .error .ub
  | .assign d s => (getVar σ d).bind fun _ => (getVar σ s).bind fun o => if Γ d = Γ s then (svector w (Γ s)).bind fun _ =>
      .ok (upd σ d (some o), .nothing) else .error .ub
  | .moveAssign d s => (getVar σ d).bind fun _ => (getVar σ s).bind fun o => if Γ d = Γ s then (svector w (Γ s)).bind fun _ =>
      .ok (upd (upd σ s (some (movedFrom (Γ s) o))) d (some o), .nothing) else .error .ub
  | .swap a b => (getVar σ a).bind fun x => (getVar σ b).bind fun y => if Γ a = Γ b then (svector w (Γ a)).bind fun _ =>
      .ok (upd (upd σ a (some y)) b (some x), .nothing) else .error .ub
  | .destroy a => (getVar σ a).bind fun _ => (svector w (Γ a)).bind fun _ => .ok (upd σ a none, .nothing)
  | .size a => (getVar σ a).bind fun x => (sizeOf w (Γ a) x).bind fun n => .ok (σ, .number n)
  | .isEmpty a => (getVar σ a).bind fun x => (sizeOf w (Γ a) x).bind fun n => .ok (σ, .truth (n == 0))
  | .begin a => (getVar σ a).bind fun _ => (svector w (Γ a)).bind fun _ => .ok (σ, .nothing)
  | .finish a => (getVar σ a).bind fun x => (svector w (Γ a)).bind fun _ => (sizeOf w (Γ a) x).bind fun _ => .ok (σ, .nothing)
  | .span a => (getVar σ a).bind fun x => (toSpan w x).bind fun l => .ok (σ, .elems l)
  | .read a i => (getVar σ a).bind fun x => (readAt w (Γ a) x i).bind fun v => .ok (σ, .value v)
  | .write a i v => (getVar σ a).bind fun x => (writeAt w (Γ a) x i v).bind fun x => .ok (upd σ a (some x), .nothing)
  | .compare a b => (getVar σ a).bind fun x => (getVar σ b).bind fun y => if Γ a = Γ b then (compareArr w E.cmp (Γ a) x y).bind fun o =>
      .ok (σ, .order o) else .error .ub

/-- A program: what each operation showed, and the arrays at the end (programs using flex_array.hpp:280-420). -/
def exec (w : When) (E : Elem V) (Γ : Nat → Mode) : St V → List (Op V) → Ev (St V × List (Seen V))
  | σ, [] => .ok (σ, [])
  | σ, op :: ops => (step w E Γ σ op).bind fun p => (exec w E Γ p.1 ops).bind fun q => .ok (q.1, p.2 :: q.2)

/-! ### `variant2` -/

/-- Which special members of the alternatives are trivial, for both at once (variant2.hpp:204-206, 232-234, 329-331, 420-422). -/
structure Triv where
  copyCtor : Bool
  moveCtor : Bool
  copyAssign : Bool
  moveAssign : Bool
  deriving DecidableEq, Repr

/-- A `variant2`: the alternative and its value; `none`: valueless (variant2.hpp:189-196). -/
abbrev Var (V : Type) := Option (Bool × V)

/-- What a program does with its variants; the value constructors and in-place constructors are `make` (variant2.hpp:199-782). -/
inductive VOp (V : Type) where
  | make (d : Nat) (alt : Bool) (v : V)
  | copy (d s : Nat)
  | move (d s : Nat)
  | assign (d s : Nat)
  | moveAssign (d s : Nat)
  | assignValue (d : Nat) (alt : Bool) (v : V)
  | emplace (d : Nat) (alt : Bool) (v : V)
  | swap (a b : Nat)
  | destroy (a : Nat)
  | index (a : Nat)
  | get (a : Nat) (alt : Bool)
  | equal (a b : Nat)
  deriving Repr

/-- What an operation shows (variant2.hpp:637-648, 724-743, 111-139). -/
inductive VSeen (V : Type) where
  | nothing | alt (a : Option Bool) | value (v : V) | truth (b : Bool)
  deriving DecidableEq, Repr

/-- The variants of a program (variant2.hpp:173-196). -/
abbrev VSt (V : Type) := Nat → Option (Var V)

/-- Look up a variant (used for variant2.hpp:199-782). -/
def getVariant (σ : VSt V) (x : Nat) : Ev (Var V) := match σ x with
  | some a => .ok a
  | none => .error .ub

/-- Copy and move constructor; the trivial ones are defaulted (variant2.hpp:204-256). -/
def constructFrom (w : When) (trivial : Bool) (other : Var V) : Ev (Var V) :=
  if trivial then .ok other else match other with
  | some p => (placementNew w).bind fun _ => .ok (some p)
  | none => .ok none

/-- Copy and move assignment from a different object; the trivial ones are defaulted (variant2.hpp:329-511). -/
def assignFrom (w : When) (trivial : Bool) (self other : Var V) : Ev (Var V) :=
  if trivial then .ok other else match self, other with
  | some (a, _), some (b, v) => if a = b then .ok (some (a, v)) else (placementNew w).bind fun _ => .ok (some (b, v))
  | some _, none => .ok none
  | none, some p => (placementNew w).bind fun _ => .ok (some p)
  | none, none => .ok none

/-- Assignment of a value (variant2.hpp:513-629). -/
def assignVal (w : When) (self : Var V) (alt : Bool) (v : V) : Ev (Var V) :=
  match self with
  | some (a, _) => if a = alt then .ok (some (a, v)) else (placementNew w).bind fun _ => .ok (some (alt, v))
  | none => (placementNew w).bind fun _ => .ok (some (alt, v))

/-- One operation on variants; `swap` moves one into a temporary and assigns twice (variant2.hpp:199-782, 718-722). Self-assignment
of non-trivial alternatives returns at once for copies and fails an assertion for moves (variant2.hpp:340, 430). -/
def vstep [DecidableEq V] (w : When) (t : Triv) (σ : VSt V) : VOp V → Ev (VSt V × VSeen V)
  | .make d alt v => (placementNew w).bind fun _ => .ok (upd σ d (some (some (alt, v))), .nothing)
  | .copy d s => (getVariant σ s).bind fun o => (constructFrom w t.copyCtor o).bind fun r => .ok (upd σ d (some r), .nothing)
  | .move d s => (getVariant σ s).bind fun o => (constructFrom w t.moveCtor o).bind fun r => .ok (upd σ d (some r), .nothing)
  | .assign d s => (getVariant σ d).bind fun x => (getVariant σ s).bind fun o =>
      if d = s then .ok (σ, .nothing) else (assignFrom w t.copyAssign x o).bind fun r => .ok (upd σ d (some r), .nothing)
  | .moveAssign d s => (getVariant σ d).bind fun x => (getVariant σ s).bind fun o =>
      if d = s then (if t.moveAssign then .ok (σ, .nothing) else .error .ub) else
      (assignFrom w t.moveAssign x o).bind fun r => .ok (upd σ d (some r), .nothing)
  | .assignValue d alt v => (getVariant σ d).bind fun x => (assignVal w x alt v).bind fun r => .ok (upd σ d (some r), .nothing)
  | .emplace d alt v => (getVariant σ d).bind fun _ => (placementNew w).bind fun _ => .ok (upd σ d (some (some (alt, v))), .nothing)
  | .swap a b => (getVariant σ a).bind fun x => (getVariant σ b).bind fun y =>
      if a = b then (if t.moveAssign then (constructFrom w t.moveCtor x).bind fun _ => .ok (σ, .nothing) else .error .ub) else
      (constructFrom w t.moveCtor x).bind fun tmp => (assignFrom w t.moveAssign x y).bind fun x' =>
      (assignFrom w t.moveAssign y tmp).bind fun y' => .ok (upd (upd σ a (some x')) b (some y'), .nothing)
  | .destroy a => (getVariant σ a).bind fun _ => .ok (upd σ a none, .nothing)
  | .index a => (getVariant σ a).bind fun x => .ok (σ, .alt (x.map Prod.fst))
  | .get a alt => (getVariant σ a).bind fun x => match x with
    | some (b, v) => if b = alt then .ok (σ, .value v) else .error .threw
    | none => .error .threw
  | .equal a b => (getVariant σ a).bind fun x => (getVariant σ b).bind fun y => .ok (σ, .truth (x == y))

/-- A program using variants (variant2.hpp:199-782). -/
def vexec [DecidableEq V] (w : When) (t : Triv) : VSt V → List (VOp V) → Ev (VSt V × List (VSeen V))
  | σ, [] => .ok (σ, [])
  | σ, op :: ops => (vstep w t σ op).bind fun p => (vexec w t p.1 ops).bind fun q => .ok (q.1, p.2 :: q.2)

/-! ### Algorithms -/

/-- `tuple_fold`: the `get_impl` called for each element is not `constexpr` (tuple_algorithm.hpp:22-30, 38-42, 65-67). -/
def tupleFold {α β : Type} (w : When) (f : β → α → β) : β → List α → Ev β
  | acc, [] => .ok acc
  | acc, x :: xs => (notConstexpr w).bind fun _ => tupleFold w f (f acc x) xs

/-- `tuple_type_fold` (tuple_algorithm.hpp:32-36, 79-81). -/
def tupleTypeFold {α β : Type} (_w : When) (f : β → α → β) : β → List α → Ev β
  | acc, [] => .ok acc
  | acc, x :: xs => tupleTypeFold _w f (f acc x) xs

/-- `tuple_for_each`, and with it `integral_template_tuple::visit`: the results of the calls (tuple_algorithm.hpp:44-48, 91-93,
integral_template_tuple.hpp:90-94). -/
def tupleForEach {α β : Type} (w : When) (f : α → β) : List α → Ev (List β)
  | [] => .ok []
  | x :: xs => (notConstexpr w).bind fun _ => (tupleForEach w f xs).bind fun r => .ok (f x :: r)

/-- `tuple_type_for_each` (tuple_algorithm.hpp:50-53, 103-105). -/
def tupleTypeForEach {α β : Type} (_w : When) (f : α → β) : List α → Ev (List β)
  | [] => .ok []
  | x :: xs => (tupleTypeForEach _w f xs).bind fun r => .ok (f x :: r)

/-- How a terminal algorithm is called: with a range or two iterators, or as the end of a pipeline (ranges.hpp:13-50, 559-610). -/
inductive CallForm where
  | direct | pipe
  deriving DecidableEq, Repr

/-- `all_of`, `any_of`, `none_of`, `empty`, `lexicographical_compare_three_way`: `constexpr` throughout; `r` is the result (ranges.hpp:13-96, 623-683). -/
def plainAlgo {β : Type} (_w : When) (_form : CallForm) (r : β) : Ev β := .ok r

/-- `all_equal`: `all_equal_impl` is not `constexpr` (ranges.hpp:175-202). -/
def allEqual {α : Type} (w : When) (_form : CallForm) (eq : α → α → Bool) (l : List α) : Ev Bool :=
  (notConstexpr w).bind fun _ => match l with
  | [] => .ok true
  | x :: xs => .ok (xs.all fun y => eq y x)

/-- The set of `all_distinct` is created only if there is an element (ranges.hpp:486-510). -/
def allDistinct {α : Type} [DecidableEq α] (w : When) (_form : CallForm) : List α → Ev Bool
  | [] => .ok true
  | x :: xs => (notConstexpr w).bind fun _ => .ok (decide (x :: xs).Nodup)

/-- `is_sorted_unique`: the constructor of the object that is piped into is not `constexpr` (ranges.hpp:539-610). -/
def isSortedUnique {α : Type} (w : When) (form : CallForm) (lt : α → α → Bool) : List α → Ev Bool := fun l =>
  (if form = .pipe then notConstexpr w else .ok ()).bind fun _ => .ok (go l)
where
  /-- The loop (ranges.hpp:547-555). -/
  go : List α → Bool
    | x :: y :: l => lt x y && go (y :: l)
    | _ => true

/-- The elements of `unique`: making an iterator looks for the first element with a function that is not `constexpr`, and has a set (ranges.hpp:229-231,
254-278). -/
def unique {α : Type} [DecidableEq α] (w : When) (l : List α) : Ev (List α) := (notConstexpr w).bind fun _ => .ok (go [] l)
where
  /-- The elements seen first (ranges.hpp:263-291). -/
  go : List α → List α → List α
    | _, [] => []
    | seen, x :: xs => if x ∈ seen then go seen xs else x :: go (x :: seen) xs

/-- `range(start, stop, step)`: throws for a zero step (ranges.hpp:364-369, 464-467). -/
def mkRange (_w : When) (start stop step : Int) : Ev (Int × Int × Int) := if step = 0 then .error .threw else .ok (start, stop, step)

/-- The default constructor of a `range_view`: that of `range_iterator` is not `constexpr` (ranges.hpp:357-362, 454, next_to_range.hpp:441-444). -/
def defaultRange (w : When) : Ev (Int × Int × Int) := (notConstexpr w).bind fun _ => .ok (0, 0, 1)

/-- A `next_to_range` made and iterated over: for an iterator that cannot be copied a `std::function` makes the iterators (next_to_range.hpp:291-325). -/
def nextToRange {α : Type} (w : When) (copyable : Bool) (elems : List α) : Ev (List α) :=
  (if copyable then .ok () else notConstexpr w).bind fun _ => .ok elems

/-- `get<ix>` of a `pointer_tag_pair`: `pointer()` is not `constexpr`, `tag()` is (pointer_tag_pair.hpp:92-98, 107-115). -/
def pairGet (w : When) (ptr tag : Nat) : Bool → Ev Nat
  | false => (notConstexpr w).bind fun _ => .ok ptr
  | true => .ok tag

/-- `subtuple` of an `integral_template_tuple`: calls the one of `standard_layout_tuple`, which is not `constexpr`, and casts with
`reinterpret_cast` (integral_template_tuple.hpp:103-122, standard_layout_tuple.hpp:124-141). -/
def intSubtuple {α : Type} (w : When) (off count : Nat) (l : List α) : Ev (List α) :=
  (notConstexpr w).bind fun _ => .ok ((l.drop off).take count)

/-- A `limit_allocator` made from a limit: `std::make_shared` (limit_allocator.hpp:105-137). -/
def mkLimit (w : When) (limit : Nat) : Ev Nat := (notConstexpr w).bind fun _ => .ok limit

end Verif.Constexpr
