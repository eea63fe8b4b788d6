import Verif.NextTo.Props

/-!
Model of the functions of the wrapped iterator on the wrapper: `next_to_iter_impl` inherits publicly from it
(next_to_range.hpp:70) and hides only `next` and `nth` (next_to_range.hpp:85-99), so on a `next_to_iter` a user can call
`next_back()`, `nth_back(off)` and `remaining()` of the wrapped iterator, besides the operations of the wrapper.
-/
namespace Verif.NextTo

variable {σ α : Type}

/-- Operations on a `next_to_iter` (next_to_range.hpp:132-187), and the functions it inherits (next_to_range.hpp:28-57,70). -/
inductive BOp where
  | own (o : Op)
  | nextBack
  | nthBack (k : Nat)
  | remaining
  deriving DecidableEq, Repr

/-- Their results (next_to_range.hpp:28-57,132-187). -/
inductive BRes (α : Type) where
  | val (v : Option α)
  | num (n : Nat)
  deriving DecidableEq, Repr

/-- One operation on a `next_to_iter` (next_to_range.hpp:70,132-187). -/
def bexec (I : Iter σ α) (w : W σ α) : BOp → W σ α × BRes α
  | .own o => ((exec I .forward w o).1, .val (exec I .forward w o).2)
  | .nextBack => ({ w with it := (I.nextBack w.it).2 }, .val (I.nextBack w.it).1)
  | .nthBack k => ({ w with it := (I.nthBack w.it k).2 }, .val (I.nthBack w.it k).1)
  | .remaining => (w, .num (I.remaining w.it))

/-- The results of a history (next_to_range.hpp:70,132-187). -/
def bexecs (I : Iter σ α) : W σ α → List BOp → List (BRes α)
  | _, [] => []
  | w, op :: ops => (bexec I w op).2 :: bexecs I (bexec I w op).1 ops

end Verif.NextTo
