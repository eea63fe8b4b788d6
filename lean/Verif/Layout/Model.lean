import Verif.TypeList.Model

/-!
Model of standard_layout_tuple.hpp: where the elements of a `standard_layout_tuple` are in memory, and the values its functions give.

A `standard_layout_tuple<T, Ts...>` is laid out like any struct with the members `T first; [[no_unique_address]] standard_layout_tuple<Ts...>
rest;` in the Itanium C++ ABI: `first` is at offset 0 and takes `sizeof(T)` bytes; `rest` is at the next multiple of its alignment, or at
offset 0 if it is empty. Simplified: no element is or contains an empty `standard_layout_tuple<>` (which would displace the empty `rest`).
-/
namespace Verif.Layout

/-- An element type: `sizeof` and `alignof` (the types of standard_layout_tuple.hpp:58). -/
structure Elem where
  size : Nat
  align : Nat
deriving DecidableEq, Repr

/-- What every C++ type fulfils (of the types of standard_layout_tuple.hpp:58). -/
def Elem.Ok (e : Elem) : Prop := (∃ k, e.align = 2 ^ k) ∧ e.align ∣ e.size ∧ 0 < e.size

/-- The next multiple of `a` (layout rule for standard_layout_tuple.hpp:70-71). -/
def alignUp (n a : Nat) : Nat := (n + a - 1) / a * a

/-- `alignof(standard_layout_tuple<Ts...>)` (standard_layout_tuple.hpp:45-71). -/
def tupAlign : List Elem → Nat
  | [] => 1
  | t :: ts => max t.align (tupAlign ts)

/-- Offset of the member `rest` (standard_layout_tuple.hpp:70-71). -/
def restOffset (t : Elem) (ts : List Elem) : Nat := match ts with
  | [] => 0
  | _ :: _ => alignUp t.size (tupAlign ts)

/-- Size without tail padding (standard_layout_tuple.hpp:45-71). -/
def dsize : List Elem → Nat
  | [] => 0
  | t :: ts => max t.size (restOffset t ts + dsize ts)

/-- `sizeof(standard_layout_tuple<Ts...>)` (standard_layout_tuple.hpp:45-71). -/
def sizeOf (ts : List Elem) : Nat := alignUp (max 1 (dsize ts)) (tupAlign ts)

/-- The address of `get<ix>()` of the tuple at address `a` (standard_layout_tuple.hpp:100-109); `none` is a failed `static_assert`. -/
def getAddr : List Elem → Nat → Nat → Option Nat
  | [], _, _ => none
  | _ :: _, a, 0 => some a
  | t :: ts, a, ix + 1 => getAddr ts (a + restOffset t ts) ix

/-- `subtuple<offset, count>()` of the tuple at address `a` (standard_layout_tuple.hpp:124-141, for the empty tuple 57-61): the element
types and the address of the result. -/
def subtuple : List Elem → Nat → Nat → Nat → Option (List Elem × Nat)
  | [], a, offset, count => if offset = 0 ∧ count = 0 then some ([], a) else none
  | t :: ts, a, 0, count =>
    if 0 < (t :: ts).length ∧ count ≤ (t :: ts).length then (TypeList.take (t :: ts) count).map fun us => (us, a) else none
  | t :: ts, a, offset + 1, count =>
    if offset + 1 < (t :: ts).length ∧ count ≤ (t :: ts).length - (offset + 1) then subtuple ts (a + restOffset t ts) offset count else none

/-- The default for `count` (standard_layout_tuple.hpp:124). -/
def defaultCount (ts : List Elem) : Nat := ts.length

variable {α β : Type}

/-- Construction from one argument per element (standard_layout_tuple.hpp:76-87, 48): the values of the elements. `mk ix` makes the element
at position `ix` from its argument. -/
def individual (mk : Nat → α → β) : Nat → List α → Option (List β)
  | 0, [] => some []
  | n + 1, arg :: args => (individual (fun ix => mk (ix + 1)) n args).map (mk 0 arg :: ·)
  | _, _ => none

/-- How arguments are passed to the constructor of an element (standard_layout_tuple.hpp:76-94). -/
inductive Passed
  | lvalue | forwarded
deriving DecidableEq, Repr

/-- Uniform construction (standard_layout_tuple.hpp:89-94, 50-51): how the arguments are passed to each element, in order of construction. -/
def uniform : Nat → List Passed
  | 0 => []
  | n + 1 => .lvalue :: uniform n

/-- The value of `get<ix>()` (standard_layout_tuple.hpp:100-109). -/
def getVal : List β → Nat → Option β
  | [], _ => none
  | x :: _, 0 => some x
  | _ :: xs, ix + 1 => getVal xs ix

/-- `get<U>()` (standard_layout_tuple.hpp:111-122) for a tuple with the given element types. -/
def getByType {τ : Type} [DecidableEq τ] (types : List τ) (xs : List β) (u : τ) : Option β :=
  if TypeList.count u types = 1 then (TypeList.position (fun t => some (decide (u = t))) types).bind (getVal xs) else none

/-- Result of comparing: an ordering or unordered (standard_layout_tuple.hpp:63, 143). -/
inductive Ord
  | less | equal | greater | unordered
deriving DecidableEq, Repr

/-- The defaulted `operator<=>` (standard_layout_tuple.hpp:143, 63): the members are compared in order until they differ. `c ix` compares
elements at position `ix`. Exceptions thrown by an element's comparison terminate the program (`noexcept`) and are not modelled. -/
def compare (c : Nat → β → β → Ord) : List β → List β → Ord
  | x :: xs, y :: ys => match c 0 x y with
    | .equal => compare (fun ix => c (ix + 1)) xs ys
    | o => o
  | _, _ => .equal

/-- The defaulted `operator==` (standard_layout_tuple.hpp:144, 64). -/
def equal (e : Nat → β → β → Bool) : List β → List β → Bool
  | x :: xs, y :: ys => e 0 x y && equal (fun ix => e (ix + 1)) xs ys
  | _, _ => true

end Verif.Layout
