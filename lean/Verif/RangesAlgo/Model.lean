import Verif.FlexArray.Model

/-!
Model of the range algorithms in ranges.hpp (all_of, empty, remove_element, all_equal, unique, all_distinct, is_sorted_unique,
lexicographical_compare_three_way).

An iterator is a value of type `ι`; what it refers to may also depend on a state `σ` shared by all copies (a stream). Comparing with the
sentinel and dereferencing are one function `get`: `none` means "equal to the sentinel" (and dereferencing it would be undefined).
The result `none` of an algorithm means that it did not return within `fuel` steps or that an end iterator was dereferenced.

Simplified: the three call forms of each algorithm (ranges.hpp:13-50: iterator pair, range, pipe) all call the same function
with the same arguments and are not distinguished; predicates and projections are pure functions.
-/
namespace Verif.RangesAlgo

open Verif.FlexArray (Cmp)

variable {ι σ α β γ ι' σ' : Type}

/-- The operations on input iterators used in ranges.hpp (iterators passed to ranges.hpp:13-96, 175-190, 486-557). -/
structure It (ι σ α : Type) where
  /-- `i == end` (none) or `*i` -/
  get : ι → σ → Option α
  /-- `++i` -/
  inc : ι → σ → ι × σ

/-- Forward iterators (`vector`, `list`, ...): a copy is independent. The iterator is represented by the elements from it on (argument of
ranges.hpp:13-96, 175-190, 486-557). -/
def forwardIt (α : Type) : It (List α) Unit α := ⟨fun i _ => i.head?, fun i _ => (i.tail, ())⟩

/-- `std::istream_iterator`: reads from a shared stream, each copy caches the value it read last (argument of ranges.hpp:13-96, 175-190, 486-557). -/
def istreamIt (α : Type) : It (Option α) (List α) α := ⟨fun i _ => i, fun _ s => (s.head?, s.tail)⟩

/-- `std::istreambuf_iterator`: all copies refer to the current position of the shared stream (argument of ranges.hpp:13-96, 175-190, 486-557). -/
def istreambufIt (α : Type) : It Unit (List α) α := ⟨fun _ s => s.head?, fun _ s => ((), s.tail)⟩

/-- `all_of` (ranges.hpp:53), which is `std::ranges::all_of`. -/
def allOf (it : It ι σ α) (f : α → Bool) : Nat → ι → σ → Option Bool
  | 0, _, _ => none
  | n + 1, i, s => match it.get i s with
    | none => some true
    | some x => match f x with
      | false => some false
      | true => allOf it f n (it.inc i s).1 (it.inc i s).2

/-- `any_of` (ranges.hpp:54), which is `std::ranges::any_of`. -/
def anyOf (it : It ι σ α) (f : α → Bool) : Nat → ι → σ → Option Bool
  | 0, _, _ => none
  | n + 1, i, s => match it.get i s with
    | none => some false
    | some x => match f x with
      | true => some true
      | false => anyOf it f n (it.inc i s).1 (it.inc i s).2

/-- `none_of` (ranges.hpp:55), which is `std::ranges::none_of`. -/
def noneOf (it : It ι σ α) (f : α → Bool) : Nat → ι → σ → Option Bool
  | 0, _, _ => none
  | n + 1, i, s => match it.get i s with
    | none => some true
    | some x => match f x with
      | true => some false
      | false => noneOf it f n (it.inc i s).1 (it.inc i s).2

/-- `empty` (ranges.hpp:61-79). -/
def empty (it : It ι σ α) (i : ι) (s : σ) : Bool := (it.get i s).isNone

/-- `non_empty` (ranges.hpp:81-96). -/
def nonEmpty (it : It ι σ α) (i : ι) (s : σ) : Bool := !empty it i s

/-- `all_equal_impl` (ranges.hpp:175-190). -/
def allEqual (it : It ι σ α) (pred : α → α → Bool) (fuel : Nat) (i : ι) (s : σ) : Option Bool :=
  match it.get i s with
  | none => some true
  | some first => allOf it (fun current => pred current first) fuel (it.inc i s).1 (it.inc i s).2

/-- A set of values: whether a value is found among the inserted ones (ranges.hpp:254-257, 496-502). -/
abbrev SetImpl (α : Type) := List α → α → Bool

/-- `std::unordered_set` (ranges.hpp:254-257,498): looks for an equal value in the bucket of the hash. The bucket of a hash changes
with the number of elements. -/
def hashSet (hash : α → Nat) (bucket : Nat → Nat → Nat) (pred : α → α → Bool) : SetImpl α := fun seen x =>
  seen.any fun y => bucket seen.length (hash y) == bucket seen.length (hash x) && pred x y

/-- `std::set` (ranges.hpp:254-257,500): two values are the same if neither is less. -/
def treeSet (lt : α → α → Bool) : SetImpl α := fun seen x => seen.any fun y => !lt x y && !lt y x

/-- `seen.insert(x)`: the new set and whether `x` was inserted (ranges.hpp:265, 505). -/
def insert (set : SetImpl α) (seen : List α) (x : α) : List α × Bool := if set seen x then (seen, false) else (x :: seen, true)

/-- The loop of `all_distinct_impl` (ranges.hpp:504-509). -/
def allDistinctLoop (it : It ι σ α) (set : SetImpl α) : Nat → List α → ι → σ → Option Bool
  | 0, _, _, _ => none
  | n + 1, seen, i, s => match it.get i s with
    | none => some true
    | some x => match (insert set seen x).2 with
      | false => some false
      | true => allDistinctLoop it set n (insert set seen x).1 (it.inc i s).1 (it.inc i s).2

/-- `all_distinct_impl` (ranges.hpp:487-510). -/
def allDistinct (it : It ι σ α) (set : SetImpl α) (fuel : Nat) (i : ι) (s : σ) : Option Bool :=
  match it.get i s with
  | none => some true
  | some _ => allDistinctLoop it set fuel [] i s

/-- `all_distinct_sorted_impl` (ranges.hpp:513-515): `adjacent_find` finds nothing. `adjacent_find` needs a forward iterator. -/
def allDistinctSorted (pred : α → α → Bool) : List α → Bool
  | [] => true
  | [_] => true
  | x :: y :: l => !pred x y && allDistinctSorted pred (y :: l)

/-- The loop of `is_sorted_unique_impl` (ranges.hpp:547-555); `first` and `i` are the two iterators of the code. -/
def isSortedUniqueLoop (it : It ι σ α) (cmp : β → β → Bool) (proj : α → β) : Nat → ι → ι → σ → Option Bool
  | 0, _, _, _ => none
  | n + 1, first, i, s => match it.get (it.inc i s).1 (it.inc i s).2 with
    | none => some true
    | some y => match it.get first (it.inc i s).2 with
      | none => none
      | some x => match cmp (proj x) (proj y) with
        | false => some false
        | true => isSortedUniqueLoop it cmp proj n (it.inc i s).1 (it.inc i s).1 (it.inc i s).2

/-- `is_sorted_unique_impl` (ranges.hpp:541-557). -/
def isSortedUnique (it : It ι σ α) (cmp : β → β → Bool) (proj : α → β) (fuel : Nat) (first : ι) (s : σ) : Option Bool :=
  match it.get first s with
  | none => some true
  | some _ => isSortedUniqueLoop it cmp proj fuel first first s

/-- `find_next_unique` (ranges.hpp:263-270): the new `seen_`, `current_` and the stream. -/
def findNextUnique (it : It ι σ α) (set : SetImpl α) : Nat → List α → ι → σ → Option (List α × ι × σ)
  | 0, _, _, _ => none
  | n + 1, seen, i, s => match it.get i s with
    | none => some (seen, i, s)
    | some x => match (insert set seen x).2 with
      | true => some ((insert set seen x).1, i, s)
      | false => findNextUnique it set n (insert set seen x).1 (it.inc i s).1 (it.inc i s).2

/-- A loop over the iterators of a `unique_view` from a given iterator on: compare with the sentinel, dereference, increment
(ranges.hpp:280-301). -/
def uniqueLoop (it : It ι σ α) (set : SetImpl α) (fuel : Nat) : Nat → List α × ι × σ → Option (List α)
  | 0, _ => none
  | n + 1, (seen, i, s) => match it.get i s with
    | none => some []
    | some x => (findNextUnique it set fuel seen (it.inc i s).1 (it.inc i s).2).bind fun st =>
      (uniqueLoop it set fuel n st).map (x :: ·)

/-- A loop over a `unique_view` of the range starting at `i` (ranges.hpp:229-231,273-278). -/
def unique (it : It ι σ α) (set : SetImpl α) (fuel : Nat) (i : ι) (s : σ) : Option (List α) :=
  (findNextUnique it set fuel [] i s).bind fun st => uniqueLoop it set fuel fuel st

/-- `std::views::filter`: move to the next element for which `f` holds (used in ranges.hpp:126). -/
def findIf (it : It ι σ α) (f : α → Bool) : Nat → ι → σ → Option (ι × σ)
  | 0, _, _ => none
  | n + 1, i, s => match it.get i s with
    | none => some (i, s)
    | some x => match f x with
      | true => some (i, s)
      | false => findIf it f n (it.inc i s).1 (it.inc i s).2

/-- A loop over a `std::views::filter` from a given iterator on (used in ranges.hpp:126). -/
def filterLoop (it : It ι σ α) (f : α → Bool) (fuel : Nat) : Nat → ι × σ → Option (List α)
  | 0, _ => none
  | n + 1, (i, s) => match it.get i s with
    | none => some []
    | some x => (findIf it f fuel (it.inc i s).1 (it.inc i s).2).bind fun st => (filterLoop it f fuel n st).map (x :: ·)

/-- A loop over `r | remove_element(value, pred)` (ranges.hpp:123-129). -/
def removeElement (it : It ι σ α) (pred : α → β → Bool) (value : β) (fuel : Nat) (i : ι) (s : σ) : Option (List α) :=
  (findIf it (fun element => !pred element value) fuel i s).bind fun st =>
    filterLoop it (fun element => !pred element value) fuel fuel st

/-- `lexicographical_compare_three_way` (ranges.hpp:652-679); the projections are applied before the comparison. -/
def lexCompare (it : It ι σ α) (it' : It ι' σ' β) (cmp : α → β → Cmp) : Nat → ι → σ → ι' → σ' → Option Cmp
  | 0, _, _, _, _ => none
  | n + 1, i, s, j, t => match it.get i s, it'.get j t with
    | some x, some y => match cmp x y with
      | .equal => lexCompare it it' cmp n (it.inc i s).1 (it.inc i s).2 (it'.inc j t).1 (it'.inc j t).2
      | r => some r
    | none, none => some .equal
    | none, some _ => some .less
    | some _, none => some .greater

end Verif.RangesAlgo
