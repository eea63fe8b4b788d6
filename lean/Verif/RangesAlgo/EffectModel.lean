import Verif.RangesAlgo.Model

/-!
Model of the range algorithms in ranges.hpp with function objects that have a state (counters, logs, caches) and with ranges whose elements can be
moved from. Iterators are those of forward ranges, so a range is the list of its elements; other iterators are in `Model.lean`.

A function object with state `τ` is a function that also returns the new state. Copies of a function object have their own state.
-/
namespace Verif.RangesAlgo

open Verif.FlexArray (Cmp)

variable {α β γ τ ρ ρ' : Type}

/-- `std::ranges::all_of` (ranges.hpp:53): one function object is called for one element after the other. -/
def allOfS (p : τ → α → Bool × τ) : τ → List α → Bool × τ
  | t, [] => (true, t)
  | t, x :: l => match p t x with
    | (false, t') => (false, t')
    | (true, t') => allOfS p t' l

/-- `std::ranges::any_of` (ranges.hpp:54). -/
def anyOfS (p : τ → α → Bool × τ) : τ → List α → Bool × τ
  | t, [] => (false, t)
  | t, x :: l => match p t x with
    | (true, t') => (true, t')
    | (false, t') => anyOfS p t' l

/-- `std::ranges::none_of` (ranges.hpp:55). -/
def noneOfS (p : τ → α → Bool × τ) : τ → List α → Bool × τ
  | t, [] => (true, t)
  | t, x :: l => match p t x with
    | (true, t') => (false, t')
    | (false, t') => noneOfS p t' l

/-- `all_equal_impl` (ranges.hpp:175-190): the lambda refers to the function object. -/
def allEqualS (p : τ → α → α → Bool × τ) (t : τ) : List α → Bool × τ
  | [] => (true, t)
  | first :: l => allOfS (fun t current => p t current first) t l

/-- One round of the loop of `is_sorted_unique_impl` (ranges.hpp:551): both projections, in an order the compiler chooses, then the comparison. -/
def sortedTest (leftFirst : Bool) (cmp : τ → β → β → Bool × τ) (proj : ρ → α → β × ρ) (s : τ × ρ) (x y : α) : Bool × (τ × ρ) :=
  match leftFirst with
  | true =>
    let (a, r) := proj s.2 x
    let (b, r) := proj r y
    let (c, t) := cmp s.1 a b
    (c, (t, r))
  | false =>
    let (b, r) := proj s.2 y
    let (a, r) := proj r x
    let (c, t) := cmp s.1 a b
    (c, (t, r))

/-- The loop of `is_sorted_unique_impl` (ranges.hpp:547-555). -/
def sortedLoop (leftFirst : Bool) (cmp : τ → β → β → Bool × τ) (proj : ρ → α → β × ρ) : τ × ρ → α → List α → Bool × (τ × ρ)
  | s, _, [] => (true, s)
  | s, x, y :: l => match sortedTest leftFirst cmp proj s x y with
    | (false, s') => (false, s')
    | (true, s') => sortedLoop leftFirst cmp proj s' y l

/-- `is_sorted_unique_impl` (ranges.hpp:541-557). -/
def isSortedUniqueS (leftFirst : Bool) (cmp : τ → β → β → Bool × τ) (proj : ρ → α → β × ρ) (s : τ × ρ) : List α → Bool × (τ × ρ)
  | [] => (true, s)
  | x :: l => sortedLoop leftFirst cmp proj s x l

/-- `lexicographical_compare_three_way` (ranges.hpp:652-679), without projections. -/
def lexCompareS (cmp : τ → α → β → Cmp × τ) : τ → List α → List β → Cmp × τ
  | t, [], [] => (.equal, t)
  | t, [], _ :: _ => (.less, t)
  | t, _ :: _, [] => (.greater, t)
  | t, x :: l, y :: m => match cmp t x y with
    | (.equal, t') => lexCompareS cmp t' l m
    | (r, t') => (r, t')

/-! ### Call forms -/

/-- How an algorithm is called (ranges.hpp:31-45, 584-610). -/
inductive Form where
  /-- `algo(first, last, pred)` -/
  | iterators
  /-- `algo(range, pred)` -/
  | range
  /-- `range | algo(pred)` -/
  | pipe
deriving DecidableEq, Repr

/-- One call with a function object of the caller: every form takes it by value (ranges.hpp:32, 37, 43). Returns the result and the state of the
object of the caller. `impl` is the implementation. -/
def callForm (impl : τ → List α → Bool × τ) (f : Form) (t : τ) (l : List α) : Bool × τ := match f with
  | .iterators => ((impl t l).1, t)
  | .range => ((impl t l).1, t)
  | .pipe => ((impl t l).1, t)

/-- `range | pipeline` for a pipeline that was stored before: the implementation gets a copy of the stored function object (ranges.hpp:25-27,
570-572). Returns the result and the pipeline after it. -/
def usePipeline (impl : τ → List α → Bool × τ) (pipeline : τ) (l : List α) : Bool × τ := ((impl pipeline l).1, pipeline)

/-! ### Ranges whose elements can be moved from -/

/-- What `*it` is (the ranges of ranges.hpp:265, 505): an lvalue, so that insertion into a set copies it, or an rvalue, so that it is moved (ranges of
`std::move_iterator`, `std::views::as_rvalue`). -/
inductive RefKind where
  | lvalue
  | rvalue
deriving DecidableEq, Repr

/-- `seen.insert(*it)` (ranges.hpp:265, 505): the new set, whether it was inserted, and the element afterwards. `hollow` is the value left by moving;
`eager`: the set moves the element into a node before it looks for it. -/
def insertRef (set : SetImpl α) (hollow : α → α) (eager : Bool) (k : RefKind) (seen : List α) (x : α) : List α × Bool × α :=
  match insert set seen x, k with
  | (seen', b), .lvalue => (seen', b, x)
  | (seen', true), .rvalue => (seen', true, hollow x)
  | (seen', false), .rvalue => (seen', false, if eager then hollow x else x)

/-- The loop of `all_distinct_impl` (ranges.hpp:504-509): the result and the range afterwards. -/
def allDistinctM (set : SetImpl α) (hollow : α → α) (eager : Bool) (k : RefKind) : List α → List α → Bool × List α
  | _, [] => (true, [])
  | seen, x :: l => match insertRef set hollow eager k seen x with
    | (_, false, x') => (false, x' :: l)
    | (seen', true, x') =>
      let r := allDistinctM set hollow eager k seen' l
      (r.1, x' :: r.2)

/-- A loop over a `unique_view` that reads each element with `*it` (ranges.hpp:263-289): what it reads, and the range afterwards. -/
def uniqueM (set : SetImpl α) (hollow : α → α) (eager : Bool) (k : RefKind) : List α → List α → List α × List α
  | _, [] => ([], [])
  | seen, x :: l => match insertRef set hollow eager k seen x with
    | (seen', false, x') =>
      let r := uniqueM set hollow eager k seen' l
      (r.1, x' :: r.2)
    | (seen', true, x') =>
      let r := uniqueM set hollow eager k seen' l
      (x' :: r.1, x' :: r.2)

/-- `all_equal_impl`: `auto const first_element = *first` copies or moves the first element (ranges.hpp:180); the others are only compared
(ranges.hpp:184-187). The result and the range afterwards. -/
def allEqualM (pred : α → α → Bool) (hollow : α → α) (k : RefKind) : List α → Bool × List α
  | [] => (true, [])
  | x :: l => (l.all fun y => pred y x, (match k with | .lvalue => x | .rvalue => hollow x) :: l)

end Verif.RangesAlgo
