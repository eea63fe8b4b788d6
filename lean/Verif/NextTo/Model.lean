/-! Model of `next_to_iter`, `next_back_to_reverse_iter`, `next_to_range` and `next_to_view`
(include/dice/template-library/next_to_range.hpp) over an arbitrary rust-style iterator. -/
namespace Verif.NextTo

/-- next_to_range.hpp:18-57: the operations of a rust-style iterator with state `σ`; each returns the result and the state after
the call. Iterators that lack an operation never have it called. -/
structure Iter (σ α : Type) where
  next : σ → Option α × σ
  nextBack : σ → Option α × σ
  nth : σ → Nat → Option α × σ
  nthBack : σ → Nat → Option α × σ
  remaining : σ → Nat

/-- next_to_range.hpp:60-63: `direction`. -/
inductive Dir where
  | forward
  | backward
  deriving DecidableEq, Repr

variable {σ α : Type}

/-- next_to_range.hpp:85-91: `next`. -/
def Iter.step (I : Iter σ α) : Dir → σ → Option α × σ
  | .forward => I.next
  | .backward => I.nextBack

/-- next_to_range.hpp:93-99: `nth`. -/
def Iter.skip (I : Iter σ α) : Dir → σ → Nat → Option α × σ
  | .forward => I.nth
  | .backward => I.nthBack

/-- next_to_range.hpp:70, 82-83: `next_to_iter_impl`: the base iterator, `cur_` and `peeked_`. -/
structure W (σ α : Type) where
  it : σ
  cur : Option α
  peeked : Option α

/-- next_to_range.hpp:132-137: the constructor. -/
def mk (I : Iter σ α) (d : Dir) (s : σ) : W σ α := ⟨(I.step d s).2, (I.step d s).1, none⟩

/-- next_to_range.hpp:101-108 and 149-152: `advance`, pre-increment. -/
def inc (I : Iter σ α) (d : Dir) (w : W σ α) : W σ α :=
  match w.peeked with
  | some v => ⟨w.it, some v, none⟩
  | none => ⟨(I.step d w.it).2, (I.step d w.it).1, none⟩

/-- next_to_range.hpp:154-162: post-increment, returning the old iterator (copyable iterators). -/
def postInc (I : Iter σ α) (d : Dir) (w : W σ α) : W σ α × W σ α := (w, inc I d w)

/-- next_to_range.hpp:110-129 and 164-167: `advance_by`, `operator+=`. -/
def addAssign (I : Iter σ α) (d : Dir) (w : W σ α) : Nat → W σ α
  | 0 => w
  | off + 1 => match w.peeked with
    | some v => match off with
      | 0 => ⟨w.it, some v, none⟩
      | off + 1 => ⟨(I.skip d w.it off).2, (I.skip d w.it off).1, none⟩
    | none => ⟨(I.skip d w.it off).2, (I.skip d w.it off).1, none⟩

/-- next_to_range.hpp:169-173: `operator+`. -/
def add (I : Iter σ α) (d : Dir) (w : W σ α) (off : Nat) : W σ α := addAssign I d w off

/-- next_to_range.hpp:181-187: `peek`. -/
def peek (I : Iter σ α) (d : Dir) (w : W σ α) : Option α × W σ α :=
  match w.peeked with
  | some v => (some v, w)
  | none => ((I.step d w.it).1, ⟨(I.step d w.it).2, w.cur, (I.step d w.it).1⟩)

/-- next_to_range.hpp:139-147: `operator*`; `none` stands for the failed assertion. -/
def deref (w : W σ α) : Option α := w.cur

/-- next_to_range.hpp:189-195: comparison with the sentinel. -/
def atEnd (w : W σ α) : Bool := !w.cur.isSome

/-- The implicit copy constructor, chosen for copies of const iterators and for copy-initialization (of next_to_range.hpp:70). -/
def copyInit (w : W σ α) : W σ α := w

/-- Direct-initialization from a non-const iterator, `iterator b(a)`: the constructor template of next_to_range.hpp:132-137 with
`Args = next_to_iter_impl &` is a better match than the copy constructor and is enabled because the base iterator can be
constructed from the derived object. -/
def directInit (I : Iter σ α) (d : Dir) (w : W σ α) : W σ α := mk I d w.it

/-- The range-based for loop `for (it = begin; it != end; ++it)`, cut after `fuel` rounds: the values seen (over next_to_range.hpp:101-195). -/
def visit (I : Iter σ α) (d : Dir) : Nat → W σ α → List α
  | 0, _ => []
  | fuel + 1, w => match w.cur with
    | none => []
    | some v => v :: visit I d fuel (inc I d w)

/-- next_to_range.hpp:323-325 and 450-452: `begin`. The range or view is its (initial) iterator state (next_to_range.hpp:298-304,
438). -/
def begin (I : Iter σ α) (s : σ) : W σ α := mk I .forward s

/-- next_to_range.hpp:343-345, 363-365, 470-472 and 490-492: `rbegin`, start of `reversed`. -/
def rbegin (I : Iter σ α) (s : σ) : W σ α := mk I .backward s

/-- next_to_range.hpp:497-499: `front`; `none` stands for dereferencing an empty optional. -/
def front (I : Iter σ α) (s : σ) : Option α := (I.next s).1

/-- next_to_range.hpp:504-506: `back`. -/
def back (I : Iter σ α) (s : σ) : Option α := (I.nextBack s).1

/-- next_to_range.hpp:512-514: `operator[]`. -/
def index (I : Iter σ α) (s : σ) (off : Nat) : Option α := (I.nth s off).1

/-- next_to_range.hpp:523-531: `advance`. -/
def advance (I : Iter σ α) (s : σ) : Nat → σ
  | 0 => s
  | off + 1 => (I.nth s off).2

/-- next_to_range.hpp:370-372 and 536-538: `size`. -/
def size (I : Iter σ α) (s : σ) : Nat := I.remaining s

/-- next_to_range.hpp:377-379 and 543-545: `empty`. -/
def empty (I : Iter σ α) (s : σ) : Bool := size I s == 0

/-- next_to_range.hpp:384-386 and 550-552: `operator bool`. -/
def toBool (I : Iter σ α) (s : σ) : Bool := !empty I s

end Verif.NextTo
