/-!
Model of `range` for arbitrary number types (ranges.hpp:332-383, 453-479): `double`, rational and arbitrary-precision numbers, user-defined
types. Only the operations that the code uses are assumed; none of them throws (`next` is `noexcept`). Integers of fixed width, with `remaining`, `nth`
and backward iteration, are in `Model.lean`.
-/
namespace Verif.Range

/-- The operations of the number type `T` and the step type `S` (ranges.hpp:332-338, 366, 372, 382): `start >= stop`, `start <= stop`,
`start + step`, `step == S{}`, `step > S{}`. -/
structure Num (T S : Type) where
  ge : T → T → Bool
  le : T → T → Bool
  add : T → S → T
  isZero : S → Bool
  pos : S → Bool

/-- `current_`, `stop_`, `step_` (ranges.hpp:352-354). -/
structure GSt (T S : Type) where
  current : T
  stop : T
  step : S

variable {T S : Type}

/-- The constructor (ranges.hpp:364-369); `none`: it throws `std::invalid_argument`. -/
def gcreate (n : Num T S) (start stop : T) (step : S) : Option (GSt T S) := if n.isZero step then none else some ⟨start, stop, step⟩

/-- `next` (ranges.hpp:371-383). -/
def gnext (n : Num T S) (s : GSt T S) : Option T × GSt T S :=
  if n.pos s.step then
    if n.ge s.current s.stop then (none, s) else (some s.current, { s with current := n.add s.current s.step })
  else
    if n.le s.current s.stop then (none, s) else (some s.current, { s with current := n.add s.current s.step })

/-- The values a loop over the range sees in its first `k` rounds (ranges.hpp:371-383 through next_to_range.hpp). -/
def gtake (n : Num T S) : Nat → GSt T S → List T
  | 0, _ => []
  | k + 1, s => match gnext n s with
    | (none, _) => []
    | (some x, s') => x :: gtake n k s'

/-- The default constructor (ranges.hpp:357-362): `T{}`, `T{}`, `S{1}`. -/
def gdefault (zero : T) (one : S) : GSt T S := ⟨zero, zero, one⟩

/-- `range(start, stop)` (ranges.hpp:469-473); `one` is `T(1)`. -/
def grange2 (n : Num T T) (start stop one : T) : Option (GSt T T) := gcreate n start stop one

/-- `range(stop)` (ranges.hpp:475-479); `zero` is `T{}`, `one` is `T(1)`. -/
def grange1 (n : Num T T) (stop zero one : T) : Option (GSt T T) := gcreate n zero stop one

end Verif.Range
