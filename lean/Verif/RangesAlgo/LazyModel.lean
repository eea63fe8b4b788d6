import Verif.RangesAlgo.Model

/-!
The views of ranges.hpp (`unique`, `remove_element`) over sources that need not end, with a record of every operation they perform on the
iterators of the source, and the loops that consume them: a loop with `break`, and a loop over `view | std::views::take(n)`.

A source is the sequence of its elements; `src i = none` says that position `i` is the end. The source is a forward range: iterators are
positions. `fuel` bounds the number of turns of each loop; a loop that does not return for any fuel does not return at all.
-/
namespace Verif.RangesAlgo

variable {α β τ : Type}

/-- The elements of a source, without end if no position is `none` (arguments of ranges.hpp:124, 212-213). -/
abbrev Src (α : Type) := Nat → Option α

/-- Iterators into a source, as used by the terminal algorithms (ranges.hpp:13-96, 175-190, 486-557, 652-679). -/
def seqIt (src : Src α) : It Nat Unit α := ⟨fun i _ => src i, fun i _ => (i + 1, ())⟩

/-- Operations on an iterator of the source at a position: comparison with the sentinel, dereference, increment (ranges.hpp:264-268,
281, 285, 295, and the same inside `std::views::filter`, ranges.hpp:126). -/
inductive Ev where
  | cmp (i : Nat)
  | deref (i : Nat)
  | inc (i : Nat)
  deriving DecidableEq, Repr

/-- `find_next_unique` (ranges.hpp:263-270): new `seen_` and `current_`, with the record of the operations on the source. -/
def findNextUniqueL (src : Src α) (set : SetImpl α) : Nat → List α → Nat → List Ev → Option (List α × Nat × List Ev)
  | 0, _, _, _ => none
  | n + 1, seen, i, log => match src i with
    | none => some (seen, i, log ++ [.cmp i])
    | some x => match (insert set seen x).2 with
      | true => some ((insert set seen x).1, i, log ++ [.cmp i, .deref i])
      | false => findNextUniqueL src set n (insert set seen x).1 (i + 1) (log ++ [.cmp i, .deref i, .inc i])

/-- `std::ranges::find_if`, with which `std::views::filter` looks for the next element (used in ranges.hpp:126). -/
def findIfL (src : Src α) (f : α → Bool) : Nat → Unit → Nat → List Ev → Option (Unit × Nat × List Ev)
  | 0, _, _, _ => none
  | n + 1, _, i, log => match src i with
    | none => some ((), i, log ++ [.cmp i])
    | some x => match f x with
      | true => some ((), i, log ++ [.cmp i, .deref i])
      | false => findIfL src f n () (i + 1) (log ++ [.cmp i, .deref i, .inc i])

/-- What a loop sees of a view: the state of a fresh iterator, and the search for the next element from a position on (ranges.hpp:275-278
and 284-288). -/
structure View (τ : Type) where
  init : τ
  find : Nat → τ → Nat → List Ev → Option (τ × Nat × List Ev)

/-- `src | unique` (ranges.hpp:229-231, 263-288). Building it (ranges.hpp:306-308) does nothing with the source. -/
def uniqueV (src : Src α) (set : SetImpl α) : View (List α) := ⟨[], findNextUniqueL src set⟩

/-- `src | remove_element(value, pred)` (ranges.hpp:123-129). Building it does nothing with the source. -/
def removeV (src : Src α) (pred : α → β → Bool) (value : β) : View Unit := ⟨(), findIfL src fun element => !pred element value⟩

/-- `begin()` of the view (ranges.hpp:275-278; `filter_view::begin` for 126). -/
def View.begin (v : View τ) (fuel : Nat) (log : List Ev) : Option (τ × Nat × List Ev) := v.find fuel v.init 0 log

/-- `++it` (ranges.hpp:284-288; `filter_view` for 126). -/
def View.incr (v : View τ) (fuel : Nat) (t : τ) (i : Nat) (log : List Ev) : Option (τ × Nat × List Ev) :=
  v.find fuel t (i + 1) (log ++ [.inc i])

/-- `for (; it != view.end(); ++it) { use(*it); if (--n == 0) break; }` from an iterator on (ranges.hpp:280-297): the values used. -/
def breakLoop (src : Src α) (v : View τ) (fuel : Nat) : Nat → Nat → τ × Nat × List Ev → Option (List α × List Ev)
  | 0, _, _ => none
  | m + 1, n, (t, i, log) => match src i with
    | none => some ([], log ++ [.cmp i])
    | some x => match n with
      | 0 => some ([x], log ++ [.cmp i, .deref i])
      | n + 1 => ((v.incr fuel t i (log ++ [.cmp i, .deref i])).bind (breakLoop src v fuel m n)).map fun r => (x :: r.1, r.2)

/-- A loop over the view that is left after `n + 1` values (client of ranges.hpp:207-301). -/
def forBreak (src : Src α) (v : View τ) (fuel n : Nat) : Option (List α × List Ev) :=
  (v.begin fuel []).bind (breakLoop src v fuel fuel n)

/-- A loop over `view | std::views::take(n)` from an iterator on: `counted_iterator` tests its counter before it compares the base
iterator, and increments the base iterator together with the counter (client of ranges.hpp:280-297). -/
def takeLoop (src : Src α) (v : View τ) (fuel : Nat) : Nat → Nat → τ × Nat × List Ev → Option (List α × List Ev)
  | 0, _, _ => none
  | m + 1, n, (t, i, log) => match n with
    | 0 => some ([], log)
    | n + 1 => match src i with
      | none => some ([], log ++ [.cmp i])
      | some x => ((v.incr fuel t i (log ++ [.cmp i, .deref i])).bind (takeLoop src v fuel m n)).map fun r => (x :: r.1, r.2)

/-- A loop over `view | std::views::take(n)`; `take_view::begin` calls `begin()` of the view also for `n = 0` (client of
ranges.hpp:207-301). -/
def forTake (src : Src α) (v : View τ) (fuel n : Nat) : Option (List α × List Ev) :=
  (v.begin fuel []).bind (takeLoop src v fuel fuel n)

/-- A loop over the whole view from an iterator on (client of ranges.hpp:280-297). -/
def allLoop (src : Src α) (v : View τ) (fuel : Nat) : Nat → τ × Nat × List Ev → Option (List α × List Ev)
  | 0, _ => none
  | m + 1, (t, i, log) => match src i with
    | none => some ([], log ++ [.cmp i])
    | some x => ((v.incr fuel t i (log ++ [.cmp i, .deref i])).bind (allLoop src v fuel m)).map fun r => (x :: r.1, r.2)

/-- `for (auto const &x : view)` (client of ranges.hpp:207-301). -/
def forAll (src : Src α) (v : View τ) (fuel : Nat) : Option (List α × List Ev) :=
  (v.begin fuel []).bind (allLoop src v fuel fuel)

/-- `begin()` of `remove_element` over a forward range: `std::views::filter` remembers the position it found first ([range.filter.view],
required for amortized constant time; used in ranges.hpp:126). -/
def cachedBegin (v : View τ) (cache : Option Nat) (fuel : Nat) (log : List Ev) : Option ((τ × Nat × List Ev) × Option Nat) :=
  match cache with
  | some p => some ((v.init, p, log), some p)
  | none => (v.begin fuel log).map fun r => (r, some r.2.1)

/-- A loop over a `remove_element` view that has been iterated before (`cache`): values, operations, new cache (ranges.hpp:126). -/
def forAllCached (src : Src α) (v : View τ) (cache : Option Nat) (fuel : Nat) : Option ((List α × List Ev) × Option Nat) :=
  (cachedBegin v cache fuel []).bind fun r => (allLoop src v fuel fuel r.1).map fun l => (l, r.2)

/-- A loop over a `unique_view` of any range, from an iterator on, left after `n + 1` values: the values, and what is left of the source
(ranges.hpp:280-297). -/
def uniqueBreakLoop {ι σ : Type} (it : It ι σ α) (set : SetImpl α) (fuel : Nat) : Nat → List α × ι × σ → Option (List α × σ)
  | n, (seen, i, s) => match it.get i s with
    | none => some ([], s)
    | some x => match n with
      | 0 => some ([x], s)
      | n + 1 => ((findNextUnique it set fuel seen (it.inc i s).1 (it.inc i s).2).bind (uniqueBreakLoop it set fuel n)).map
          fun r => (x :: r.1, r.2)

/-- The same from `begin()` on (ranges.hpp:229-231, 275-278). -/
def uniqueBreak {ι σ : Type} (it : It ι σ α) (set : SetImpl α) (fuel n : Nat) (i : ι) (s : σ) : Option (List α × σ) :=
  (findNextUnique it set fuel [] i s).bind (uniqueBreakLoop it set fuel n)

end Verif.RangesAlgo
