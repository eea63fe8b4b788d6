import Verif.RangesAlgo.Model

/-!
The views and algorithms of ranges.hpp with operations that throw.

The source of a view is a forward range, given by the list of its elements; an iterator of it is a position. Comparing iterators of the source does not throw. Reading an
element and recording or testing it, and incrementing an iterator of the source, can throw; so can copying iterators of `unique_view` (they own a set) and copying the value
of a `remove_element` pipeline. A list of faults says which of these operations throw, in the order in which they are executed; those after the end of the list do not.
-/
namespace Verif.RangesThrow

open Verif.RangesAlgo (SetImpl insert)
open Verif.FlexArray (Cmp)

variable {α β τ I : Type}

/-- Does the next operation throw (for the operations of ranges.hpp:126, 265, 268, 285)? -/
def draw : List Bool → Bool × List Bool
  | [] => (false, [])
  | b :: fs => (b, fs)

/-- What an operation on an iterator has done: whether it threw, the iterator afterwards, the faults that are left (ranges.hpp:263-288, and `std::views::filter` for 126). -/
structure Ran (I : Type) where
  threw : Bool
  it : I
  faults : List Bool
deriving DecidableEq, Repr

/-! ### `unique` -/

/-- An iterator of `unique_view`: `seen_` and `current_` (ranges.hpp:259-261). -/
structure UIt (α : Type) where
  seen : List α
  pos : Nat
deriving DecidableEq, Repr

/-- `find_next_unique` (ranges.hpp:263-270) where the elements from `current_` on are given. If `*current_` or `insert` throws, nothing has been inserted
([associative.reqmts.except], [unord.req.except]; a hash function that throws while the table grows is taken to do no more harm). -/
def findNext (set : SetImpl α) : List α → UIt α → List Bool → Ran (UIt α)
  | [], it, fs => ⟨false, it, fs⟩
  | x :: l, it, fs => match draw fs with
    | (true, fs) => ⟨true, it, fs⟩
    | (false, fs) => match insert set it.seen x with
      | (seen, true) => ⟨false, ⟨seen, it.pos⟩, fs⟩
      | (seen, false) => match draw fs with
        | (true, fs) => ⟨true, ⟨seen, it.pos⟩, fs⟩
        | (false, fs) => findNext set l ⟨seen, it.pos + 1⟩ fs

/-- `begin()` (ranges.hpp:229-231, 275-278); if it throws there is no iterator. -/
def uBegin (set : SetImpl α) (xs : List α) (fs : List Bool) : Ran (Option (UIt α)) :=
  let r := findNext set xs ⟨[], 0⟩ fs
  ⟨r.threw, if r.threw then none else some r.it, r.faults⟩

/-- `++it` (ranges.hpp:284-288); undefined at the end. -/
def uIncr (set : SetImpl α) (xs : List α) (it : UIt α) (fs : List Bool) : Option (Ran (UIt α)) :=
  if xs.length ≤ it.pos then none
  else match draw fs with
    | (true, fs) => some ⟨true, it, fs⟩
    | (false, fs) => some (findNext set (xs.drop (it.pos + 1)) ⟨it.seen, it.pos + 1⟩ fs)

/-! ### `remove_element` -/

/-- `std::ranges::find_if` from a position on, as used by `std::views::filter` (ranges.hpp:126): where the search ended. -/
def findIf (keep : α → Bool) : List α → Nat → List Bool → Ran Nat
  | [], p, fs => ⟨false, p, fs⟩
  | x :: l, p, fs => match draw fs with
    | (true, fs) => ⟨true, p, fs⟩
    | (false, fs) => match keep x with
      | true => ⟨false, p, fs⟩
      | false => match draw fs with
        | (true, fs) => ⟨true, p, fs⟩
        | (false, fs) => findIf keep l (p + 1) fs

/-- `begin()` of the view (`filter_view::begin` for ranges.hpp:126). -/
def fBegin (keep : α → Bool) (xs : List α) (fs : List Bool) : Ran (Option Nat) :=
  let r := findIf keep xs 0 fs
  ⟨r.threw, if r.threw then none else some r.it, r.faults⟩

/-- `++it` (`filter_view` for ranges.hpp:126): `current_ = find_if(std::move(++current_), ...)`, so that `current_` stays on the element after the old one if the search
throws (for iterators that moving does not change). -/
def fIncr (keep : α → Bool) (xs : List α) (p : Nat) (fs : List Bool) : Option (Ran Nat) :=
  if xs.length ≤ p then none
  else match draw fs with
    | (true, fs) => some ⟨true, p, fs⟩
    | (false, fs) => match findIf keep (xs.drop (p + 1)) (p + 1) fs with
      | ⟨false, q, fs⟩ => some ⟨false, q, fs⟩
      | ⟨true, _, fs⟩ => some ⟨true, p + 1, fs⟩

/-- The condition of the filter (ranges.hpp:126-128). -/
def keeps (pred : α → β → Bool) (value : β) (x : α) : Bool := !pred x value

/-! ### A loop that goes on after exceptions -/

/-- `while (it != end) { use(*it); do { try { ++it; ok = true; } catch (...) { ok = false; } } while (!ok && it != end); }`, a client of the iterators
(ranges.hpp:280-297): the values used, and the positions at which `it` was left by an exception other than the one it had before. `fresh` says that `*it` is to be used. -/
def drive (xs : List α) (pos : I → Nat) (incr : I → List Bool → Option (Ran I)) : Nat → Bool → I → List Bool → Option (List α × List Nat)
  | 0, _, _, _ => none
  | n + 1, fresh, it, fs => match xs[pos it]? with
    | none => some ([], [])
    | some x => match incr it fs with
      | none => none
      | some r => (drive xs pos incr n (!r.threw) r.it r.faults).map fun o =>
        ((if fresh then [x] else []) ++ o.1, (if r.threw && pos r.it != pos it then [pos r.it] else []) ++ o.2)

/-! ### Iterators of `unique_view` as values -/

/-- What a program does with iterators of one `unique_view` (ranges.hpp:229-288). -/
inductive Op where
  /-- `auto it = view.begin()` -/
  | begin
  /-- `auto it = its[j]` -/
  | copy (j : Nat)
  /-- `auto it = std::move(its[j])` -/
  | move (j : Nat)
  /-- `its[i] = its[j]` -/
  | assign (i j : Nat)
  /-- `++its[i]` -/
  | incr (i : Nat)
deriving DecidableEq, Repr

/-- The iterators of a program; `none` for those that have been moved from, and those whose assignment threw: `seen_` is then unspecified (implicitly defined copies and
moves of ranges.hpp:259-261), they can only be assigned to. -/
structure St (α : Type) where
  its : List (Option (UIt α))
  faults : List Bool
  /-- how many exceptions there were -/
  thrown : Nat

/-- An iterator of the program (ranges.hpp:259-261). -/
def St.it? (s : St α) (i : Nat) : Option (UIt α) := (s.its[i]?).join

/-- One operation; `none` if the program must not do it (ranges.hpp:229-231, 259-288). -/
def step (set : SetImpl α) (xs : List α) (s : St α) : Op → Option (St α)
  | .begin => match uBegin set xs s.faults with
    | ⟨_, some it, fs⟩ => some { s with its := s.its ++ [some it], faults := fs }
    | ⟨_, none, fs⟩ => some { s with faults := fs, thrown := s.thrown + 1 }
  | .copy j => (s.it? j).map fun it => match draw s.faults with
    | (false, fs) => { s with its := s.its ++ [some it], faults := fs }
    | (true, fs) => { s with faults := fs, thrown := s.thrown + 1 }
  | .move j => (s.it? j).map fun it => { s with its := s.its.set j none ++ [some it] }
  | .assign i j => (s.it? j).bind fun it =>
    if i = j then some s
    else if s.its.length ≤ i then none
    else match draw s.faults with
      | (false, fs) => some { s with its := s.its.set i (some it), faults := fs }
      | (true, fs) => some { s with its := s.its.set i none, faults := fs, thrown := s.thrown + 1 }
  | .incr i => (s.it? i).bind fun it => (uIncr set xs it s.faults).map fun r =>
    { s with its := s.its.set i (some r.it), faults := r.faults, thrown := s.thrown + r.threw.toNat }

/-- A program (clients of ranges.hpp:207-301). -/
def run (set : SetImpl α) (xs : List α) : St α → List Op → Option (St α)
  | s, [] => some s
  | s, o :: os => (step set xs s o).bind fun s => run set xs s os

/-! ### Pipelines of `remove_element` -/

/-- What a program does with values, pipelines and views (ranges.hpp:131-158). -/
inductive POp (β : Type) where
  /-- a variable gets a value -/
  | set (v : Nat) (b : β)
  /-- `auto p = remove_element(v, pred)`: the parameter is a copy of the variable (154-156) -/
  | make (v : Nat)
  /-- `auto p = remove_element(std::move(v), pred)` -/
  | makeMove (v : Nat)
  /-- `auto view = range | p`, which copies the value of the pipeline (143-146) -/
  | use (p : Nat)
deriving DecidableEq, Repr

/-- Variables (`none`: moved from), pipelines and views, the latter two with their values (ranges.hpp:124-127, 133-135). -/
structure PSt (β : Type) where
  vars : Nat → Option β
  pipes : List β
  views : List β
  faults : List Bool

/-- One operation; `none` if the program must not do it (ranges.hpp:124-158). Copies can throw, moves do not. -/
def pstep (s : PSt β) : POp β → Option (PSt β)
  | .set v b => some { s with vars := fun w => if w = v then some b else s.vars w }
  | .make v => (s.vars v).map fun b => match draw s.faults with
    | (false, fs) => { s with pipes := s.pipes ++ [b], faults := fs }
    | (true, fs) => { s with faults := fs }
  | .makeMove v => (s.vars v).map fun b => { s with vars := fun w => if w = v then none else s.vars w, pipes := s.pipes ++ [b] }
  | .use p => (s.pipes[p]?).map fun b => match draw s.faults with
    | (false, fs) => { s with views := s.views ++ [b], faults := fs }
    | (true, fs) => { s with faults := fs }

/-- A program (clients of ranges.hpp:131-158). -/
def prun : PSt β → List (POp β) → Option (PSt β)
  | s, [] => some s
  | s, o :: os => (pstep s o).bind fun s => prun s os

/-! ### Function objects that throw

A function object returns `none` if it throws; it has a state which it can also change before it throws. So does an algorithm. -/

/-- `std::ranges::all_of` (ranges.hpp:53). -/
def allOfT (p : τ → α → Option Bool × τ) : τ → List α → Option Bool × τ
  | t, [] => (some true, t)
  | t, x :: l => match p t x with
    | (some true, t') => allOfT p t' l
    | (some false, t') => (some false, t')
    | (none, t') => (none, t')

/-- `std::ranges::any_of` (ranges.hpp:54). -/
def anyOfT (p : τ → α → Option Bool × τ) : τ → List α → Option Bool × τ
  | t, [] => (some false, t)
  | t, x :: l => match p t x with
    | (some true, t') => (some true, t')
    | (some false, t') => anyOfT p t' l
    | (none, t') => (none, t')

/-- `std::ranges::none_of` (ranges.hpp:55). -/
def noneOfT (p : τ → α → Option Bool × τ) : τ → List α → Option Bool × τ
  | t, [] => (some true, t)
  | t, x :: l => match p t x with
    | (some true, t') => (some false, t')
    | (some false, t') => noneOfT p t' l
    | (none, t') => (none, t')

/-- `all_equal_impl` (ranges.hpp:175-190); copying the first element can throw (180). -/
def allEqualT (copyThrows : Bool) (p : τ → α → α → Option Bool × τ) (t : τ) : List α → Option Bool × τ
  | [] => (some true, t)
  | first :: l => if copyThrows then (none, t) else allOfT (fun t current => p t current first) t l

/-- The loop of `all_distinct_impl` (ranges.hpp:504-509). -/
def allDistinctT (set : SetImpl α) : List α → List α → List Bool → Option Bool × List Bool
  | _, [], fs => (some true, fs)
  | seen, x :: l, fs => match draw fs with
    | (true, fs) => (none, fs)
    | (false, fs) => match insert set seen x with
      | (_, false) => (some false, fs)
      | (seen, true) => allDistinctT set seen l fs

/-- The loop of `is_sorted_unique_impl` (ranges.hpp:547-555); the comparison includes the projections. -/
def sortedT (cmp : τ → α → α → Option Bool × τ) : τ → α → List α → Option Bool × τ
  | t, _, [] => (some true, t)
  | t, x, y :: l => match cmp t x y with
    | (some true, t') => sortedT cmp t' y l
    | (some false, t') => (some false, t')
    | (none, t') => (none, t')

/-- `is_sorted_unique_impl` (ranges.hpp:541-557). -/
def isSortedUniqueT (cmp : τ → α → α → Option Bool × τ) (t : τ) : List α → Option Bool × τ
  | [] => (some true, t)
  | x :: l => sortedT cmp t x l

/-- `lexicographical_compare_three_way` (ranges.hpp:652-679); the comparison includes the projections. -/
def lexCompareT (cmp : τ → α → β → Option Cmp × τ) : τ → List α → List β → Option Cmp × τ
  | t, [], [] => (some .equal, t)
  | t, [], _ :: _ => (some .less, t)
  | t, _ :: _, [] => (some .greater, t)
  | t, x :: l, y :: m => match cmp t x y with
    | (some .equal, t') => lexCompareT cmp t' l m
    | (some r, t') => (some r, t')
    | (none, t') => (none, t')

end Verif.RangesThrow
