/-!
Model of `flex_array.hpp` in all four storage modes.

A cell that has never been initialised (a scalar in default-initialised storage) is `none`. Not modelled: failing
allocations, throwing element copies (the copy operations of `flex_array` are `noexcept`), `constexpr`.
-/
namespace Verif.FlexArray

/-- `flex_array_mode` (flex_array.hpp:22-27); `sbo_dynamic_size` and `dynamic_size` are both growing vectors. -/
inductive Mode where
  | static (n : Nat)
  | limited (max : Nat)
  | dynamic
  deriving DecidableEq, Repr

/-- `max_size()` (flex_array.hpp:382); `none` means unbounded (`dynamic_extent`). -/
def Mode.max : Mode → Option Nat
  | .static n => some n
  | .limited m => some m
  | .dynamic => none

/-- Storage: `data_` and, in limited mode, `size_` (flex_array.hpp:39-40,62-63,134,162). For the vectors `size` is the size
of the vector. -/
structure FA (α : Type) where
  size : Nat
  data : List (Option α)
  deriving DecidableEq, Repr

/-- Exceptions and undefined behaviour of flex_array.hpp:280-415. -/
inductive Err where
  | lengthError
  | invalidArgument
  deriving DecidableEq, Repr

variable {α : Type}

/-- What the environment decides: `fresh` is the content of a default-initialised `T` (`none` for a scalar), `zero` a
value-initialised `T` (element type and buffers behind flex_array.hpp:39-40, 62-63, 134, 162). -/
structure Env (α : Type) where
  fresh : Option α
  zero : α

/-- Default-initialised storage (flex_array.hpp:280; also the state in which the constructor bodies start). -/
def dflt (env : Env α) : Mode → FA α
  | .static n => ⟨n, List.replicate n env.fresh⟩
  | .limited m => ⟨0, List.replicate m env.fresh⟩
  | .dynamic => ⟨0, []⟩

/-- `inner_.set_size` (flex_array.hpp:69-72,148-150,176-178). -/
def setSize (env : Env α) (m : Mode) (a : FA α) (k : Nat) : FA α :=
  match m with
  | .static _ => a
  | .limited _ => { a with size := k }
  | .dynamic => ⟨k, a.data.take k ++ List.replicate (k - a.data.length) (some env.zero)⟩

/-- Overwrite the first cells with `xs` (`std::ranges::copy(xs, begin())`) (flex_array.hpp:309). -/
def overwrite : List (Option α) → List α → List (Option α)
  | cs, [] => cs
  | [], _ :: _ => []
  | _ :: cs, x :: xs => some x :: overwrite cs xs

/-- `k > max_size()` (flex_array.hpp:295; never true when `max_extent` is `dynamic_extent`). -/
def Mode.tooMany : Mode → Nat → Bool
  | .static n, k => decide (n < k)
  | .limited n, k => decide (n < k)
  | .dynamic, _ => false

/-- Constructor from an initializer list (flex_array.hpp:294-310). -/
def ofInit (env : Env α) (m : Mode) (xs : List α) : Except Err (FA α) :=
  let a := dflt env m
  match m.tooMany xs.length with
  | true => .error .lengthError
  | false => match m with
    | .static n =>
      if xs.length ≠ n then .error .lengthError else .ok { a with data := overwrite a.data xs }
    | _ =>
      let a := setSize env m a xs.length
      .ok { a with data := overwrite a.data xs }

/-- The loop of the range constructor (flex_array.hpp:328-341): `ix` elements have been written. -/
def fill (check : Bool) (max : Nat) : List (Option α) → Nat → List α → Except Err (List (Option α) × Nat)
  | cs, ix, [] => .ok (cs, ix)
  | cs, ix, x :: xs =>
    if check ∧ max ≤ ix then .error .lengthError
    else fill check max (cs.set ix (some x)) (ix + 1) xs

/-- Constructor from an iterator range (flex_array.hpp:319-346). `ra`: random access iterators. -/
def ofRange (env : Env α) (m : Mode) (ra : Bool) (xs : List α) : Except Err (FA α) :=
  let a := dflt env m
  match m with
  | .dynamic => .ok ⟨a.data.length + xs.length, a.data ++ xs.map some⟩
  | .static n =>
    if ra ∧ n < xs.length then .error .lengthError
    else match fill (!ra) n a.data 0 xs with
      | .error e => .error e
      | .ok (cs, _) => .ok { a with data := cs }
  | .limited k =>
    if ra ∧ k < xs.length then .error .lengthError
    else match fill (!ra) k a.data 0 xs with
      | .error e => .error e
      | .ok (cs, ix) => .ok ⟨ix, cs⟩

/-- The live cells, `[begin(), end())` (flex_array.hpp:399-404). -/
def FA.live (a : FA α) : List (Option α) := a.data.take a.size

/-- Overwrite the first cells with the cells `ys` (copying from another flex_array) (flex_array.hpp:353-372). -/
def overwriteCells : List (Option α) → List (Option α) → List (Option α)
  | cs, [] => cs
  | [], _ :: _ => []
  | _ :: cs, x :: xs => x :: overwriteCells cs xs

/-- Conversion from dynamic to static extent (flex_array.hpp:353-361). -/
def toStatic (env : Env α) (n : Nat) (other : FA α) : Except Err (FA α) :=
  if other.size ≠ n then .error .lengthError
  else
    let a := dflt env (.static n)
    .ok { a with data := overwriteCells a.data other.live }

/-- Conversion from static to dynamic extent (flex_array.hpp:366-372); `none`: rejected by the `static_assert`. -/
def ofStatic (env : Env α) (m : Mode) (other : FA α) : Option (FA α) :=
  match m with
  | .static _ => none
  | .limited k =>
    if other.size ≤ k then
      let a := setSize env m (dflt env m) other.size
      some { a with data := overwriteCells a.data other.live }
    else none
  | .dynamic =>
    let a := setSize env m (dflt env m) other.size
    some { a with data := overwriteCells a.data other.live }

/-- `resize` (flex_array.hpp:386-394); `none`: not available for a static extent. -/
def resize (env : Env α) (m : Mode) (a : FA α) (k : Nat) : Option (Except Err (FA α)) :=
  match m with
  | .static _ => none
  | .limited max => some (if max < k then .error .invalidArgument else .ok (setSize env m a k))
  | .dynamic => some (.ok (setSize env m a k))

/-- `a[i] = x` (flex_array.hpp:412). -/
def write (a : FA α) (i : Nat) (x : α) : FA α := { a with data := a.data.set i (some x) }

/-! ### Comparison -/

/-- Results of `<=>` (`std::partial_ordering`; stronger orderings are never `unordered`) (flex_array.hpp:415). -/
inductive Cmp where
  | less
  | equal
  | greater
  | unordered
  deriving DecidableEq, Repr

/-- The values of the cells, `none` if one of them is uninitialised (reading it is undefined behaviour) (read by flex_array.hpp:99-107, 197-205). -/
def values : List (Option α) → Option (List α)
  | [] => some []
  | none :: _ => none
  | some x :: cs => (values cs).map (x :: ·)

/-- `std::lexicographical_compare_three_way` / the `<=>` of `std::array` and `std::vector` (used by flex_array.hpp:54, 99-103, 153, 197-201). -/
def lexCmp {β : Type} (c : α → β → Cmp) : List α → List β → Cmp
  | [], [] => .equal
  | [], _ :: _ => .less
  | _ :: _, [] => .greater
  | x :: xs, y :: ys => match c x y with
    | .equal => lexCmp c xs ys
    | r => r

/-- `std::ranges::equal` on sized ranges / the `==` of `std::array` and `std::vector` (used by flex_array.hpp:54, 105-107, 152, 203-205). -/
def rangeEq (eq : α → α → Bool) (xs ys : List α) : Bool :=
  if xs.length ≠ ys.length then false else (xs.zip ys).all (fun p => eq p.1 p.2)

/-- `a <=> b` (flex_array.hpp:415,54,99-103,153,197-201); outer `none` = undefined behaviour. -/
def threeWay (c : α → α → Cmp) (a b : FA α) : Option Cmp :=
  (values a.live).bind fun xs => (values b.live).bind fun ys => some (lexCmp c xs ys)

/-- `a == b`: implicitly declared with the defaulted `<=>` (flex_array.hpp:415), calls the `==` of `inner_`
(flex_array.hpp:54,105-107,152,203-205). -/
def equals (eq : α → α → Bool) (a b : FA α) : Option Bool :=
  (values a.live).bind fun xs => (values b.live).bind fun ys => some (rangeEq eq xs ys)

/-- The operators the compiler derives from `<=>` and `==` (flex_array.hpp:415). -/
def opNe (eq : α → α → Bool) (a b : FA α) : Option Bool := (equals eq a b).map (!·)
/-- `<`, derived from flex_array.hpp:415. -/
def opLt (c : α → α → Cmp) (a b : FA α) : Option Bool := (threeWay c a b).map (fun r => decide (r = .less))
/-- `>`, derived from flex_array.hpp:415. -/
def opGt (c : α → α → Cmp) (a b : FA α) : Option Bool := (threeWay c a b).map (fun r => decide (r = .greater))
/-- `<=`, derived from flex_array.hpp:415. -/
def opLe (c : α → α → Cmp) (a b : FA α) : Option Bool := (threeWay c a b).map (fun r => decide (r = .less ∨ r = .equal))
/-- `>=`, derived from flex_array.hpp:415. -/
def opGe (c : α → α → Cmp) (a b : FA α) : Option Bool := (threeWay c a b).map (fun r => decide (r = .greater ∨ r = .equal))

/-- `std::ranges::lexicographical_compare(xs, ys, less)` ([alg.lex.comparison]) (used by flex_array.hpp:109-127, 207-225). -/
def lexLess (less : α → α → Bool) : List α → List α → Bool
  | [], [] => false
  | [], _ :: _ => true
  | _ :: _, [] => false
  | x :: xs, y :: ys => if less x y then true else if less y x then false else lexLess less xs ys

/-- The hand-written operators of the inner types (flex_array.hpp:109-127,207-225). They are not reachable through
`flex_array`, whose operators come from its own defaulted `<=>`. -/
def innerNe (ne : α → α → Bool) (xs ys : List α) : Bool := rangeEq ne xs ys
/-- `operator<=` of the private inner types (flex_array.hpp:109-127, 207-225). -/
def innerLe (le : α → α → Bool) (xs ys : List α) : Bool := lexLess le xs ys

end Verif.FlexArray
