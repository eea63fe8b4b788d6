import Verif.Range.Arith
import Verif.NextTo.Model

/-! Model of `range` for integer types (`range_iterator`, include/dice/template-library/ranges.hpp:340-479), with the arithmetic of
the C++ types `T` (values) and `S` (steps). -/
namespace Verif.Range

/-- ranges.hpp:352-354: `current_`, `stop_`, `step_`. -/
structure St where
  current : Int
  stop : Int
  step : Int
  deriving DecidableEq, Repr

/-- ranges.hpp:364-369: the constructor; `none` if it throws `invalid_argument`. -/
def create (start stop step : Int) : Option St := if step = 0 then none else some ⟨start, stop, step⟩

/-- Results of member functions: `none` is undefined behaviour (ranges.hpp:371-449). -/
abbrev Res (β : Type) := Option (β × St)

/-- ranges.hpp:371-383: `next`. -/
def next (T S : ITy) (s : St) : Res (Option Int) :=
  if (if 0 < s.step then s.stop ≤ s.current else s.current ≤ s.stop) then some (none, s)
  else (binop (· + ·) T S s.current s.step).map fun r => (some s.current, { s with current := T.conv r })

/-- ranges.hpp:385-405: `remaining`. -/
def remaining (T S : ITy) (s : St) : Option Nat :=
  let c := common T.promote S
  if s.current ≤ s.stop then
    if s.step < 0 then some 0
    else
      (binop (· - ·) T T s.stop s.current).bind fun d =>
      (binop (· + ·) T.promote S d s.step).bind fun e =>
      (binop (· - ·) c int e 1).bind fun e =>
      (quot c S e s.step).map fun q => (sizeT.conv q).toNat
  else
    if 0 < s.step then some 0
    else
      (binop (· - ·) T T s.current s.stop).bind fun d =>
      (neg S s.step).bind fun m =>
      (binop (· + ·) T.promote S.promote d m).bind fun e =>
      (binop (· - ·) c int e 1).bind fun e =>
      (quot c S.promote e m).map fun q => (sizeT.conv q).toNat

/-- ranges.hpp:407-418: `nth`. -/
def nth (T S : ITy) (s : St) (off : Nat) : Res (Option Int) :=
  (remaining T S s).bind fun rem =>
  if rem ≤ off then some (none, { s with current := s.stop })
  else
    (binop (· * ·) T S (T.conv off) s.step).bind fun p =>
    (binop (· + ·) T (common T S) s.current p).bind fun r =>
    next T S { s with current := T.conv r }

/-- ranges.hpp:420-436: `next_back`. -/
def nextBack (T S : ITy) (s : St) : Res (Option Int) :=
  if (if 0 < s.step then s.stop ≤ s.current else s.current ≤ s.stop) then some (none, s)
  else (binop (· - ·) T S s.stop s.step).map fun r => (some (T.conv r), { s with stop := T.conv r })

/-- ranges.hpp:438-449: `nth_back`. -/
def nthBack (T S : ITy) (s : St) (off : Nat) : Res (Option Int) :=
  (remaining T S s).bind fun rem =>
  if rem ≤ off then some (none, { s with stop := s.current })
  else
    (binop (· * ·) T S (T.conv off) s.step).bind fun p =>
    (binop (· - ·) T (common T S) s.stop p).bind fun r =>
    nextBack T S { s with stop := T.conv r }

/-- `range_iterator` as a rust-style iterator (ranges.hpp:453-454: `range_view` wraps it with `next_to_view`). The value chosen for
undefined behaviour is irrelevant: the theorems show where it does not occur. -/
def iter (T S : ITy) : NextTo.Iter St Int where
  next s := (next T S s).getD (none, s)
  nextBack s := (nextBack T S s).getD (none, s)
  nth s k := (nth T S s k).getD (none, s)
  nthBack s k := (nthBack T S s k).getD (none, s)
  remaining s := (remaining T S s).getD 0

/-- ranges.hpp:464-467: `range(start, stop, step)`. -/
def range3 (start stop step : Int) : Option St := create start stop step

/-- ranges.hpp:469-473: `range(start, stop)`. -/
def range2 (start stop : Int) : Option St := create start stop 1

/-- ranges.hpp:475-479: `range(stop)`. -/
def range1 (stop : Int) : Option St := create 0 stop 1

end Verif.Range
