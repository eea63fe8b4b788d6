import Verif.OptMinMax.Props

/-!
The tests of `tests/tests_opt_minmax.cpp` run through the model. The tests with a comparator that reverses the order are
generalised to a theorem.
-/
namespace Verif.Conform.OptMinMax

open Verif.OptMinMax

variable {α : Type}

theorem maxLoop_flip (cmp : α → α → Bool) (l : List (Option α)) : ∀ r,
    maxLoop (fun a b => cmp b a) r l = minLoop cmp r l := by
  intro r; exact maxLoop_eq _ r l

theorem minmaxLoop_flip (cmp : α → α → Bool) (l : List (Option α)) : ∀ r,
    minmaxLoop (fun a b => cmp b a) r l = (minmaxLoop cmp (r.map Prod.swap) l).map Prod.swap := by
  induction l with
  | nil => intro r; cases r <;> simp [minmaxLoop]
  | cons x l ih =>
    intro r
    rcases x with _ | v <;> rcases r with _ | ⟨a, b⟩ <;> simp [minmaxLoop, ih, Prod.swap]

/-- C112. The tests with a reversed comparator (tests_opt_minmax.cpp:403-502) for every comparator and every range: with the
order reversed the minimum is the maximum, the maximum is the minimum, and the two change places in `opt_minmax`. -/
theorem reversed (cmp : α → α → Bool) (l : List (Option α)) :
    optMinElement (fun a b => cmp b a) l = optMaxElement cmp l ∧
      optMaxElement (fun a b => cmp b a) l = optMinElement cmp l ∧
      optMinmaxElement (fun a b => cmp b a) l = (optMinmaxElement cmp l).map Prod.swap := by
  refine ⟨(maxLoop_eq cmp none l).symm, maxLoop_flip cmp l none, ?_⟩
  exact minmaxLoop_flip cmp l none

/-- `std::less` for integers (opt_minmax.hpp:135). -/
def less (a b : Int) : Bool := decide (a < b)
/-- `std::greater` (tests_opt_minmax.cpp:405). -/
def greater (a b : Int) : Bool := less b a

/-- Plain arguments always have a value (opt_minmax.hpp:49-62). -/
def plain (l : List Int) : List (Option Int) := l.map some

/-- "opt_min" (tests_opt_minmax.cpp:11-104). -/
example : optMinList less [some 10, some 3, some 5] = some 3 ∧ optMin less none none = none ∧
    optMinList less (plain [5, 3, 8, 1, 4]) = some 1 ∧ optMinList less (plain [-5, 3, -8, 1]) = some (-8) ∧
    optMinList less (plain [4, 4, 4]) = some 4 ∧ optMin less (some 5) (some 3) = some 3 ∧
    optMin less (some 5) none = some 5 ∧ optMin less none (some 3) = some 3 ∧
    optMinList less [some 10, some 3, none] = some 3 := by decide

/-- "opt_max" (tests_opt_minmax.cpp:106-203). -/
example : optMaxList less [some 10, some 3, some 5] = some 10 ∧ optMax less none none = none ∧
    optMaxList less (plain [5, 3, 8, 1, 4]) = some 8 ∧ optMaxList less (plain [-5, 3, -8, 1]) = some 3 ∧
    optMaxList less (plain [4, 4, 4]) = some 4 ∧ optMax less (some 3) (some 5) = some 5 ∧
    optMax less (some 5) none = some 5 ∧ optMax less none (some 3) = some 3 ∧
    optMaxList less [some 1, some 10, none] = some 10 := by decide

/-- "opt_minmax" (tests_opt_minmax.cpp:207-300). -/
example : optMinmaxList less (plain [5, 3, 8, 1, 4]) = some (1, 8) ∧ optMinmax less none none = none ∧
    optMinmaxList less [some 10, none, some 3, some 5] = some (3, 10) ∧ optMinmax less (some 3) (some 5) = some (3, 5) ∧
    optMinmax less (some 5) none = some (5, 5) ∧ optMinmax less none (some 3) = some (3, 3) ∧
    optMinmaxList less (plain [5, 3, 8]) = some (3, 8) ∧ optMinmaxList less [some 1, some 10, none] = some (1, 10) := by
  decide

/-- "opt_min_element", "opt_max_element", "opt_minmax_element" (tests_opt_minmax.cpp:302-401). -/
example : optMinElement less [] = none ∧ optMinElement less (plain [42]) = some 42 ∧
    optMinElement less (plain [5, 3, 8, 1, 4]) = some 1 ∧ optMinElement less [none, some 5, some 2, none] = some 2 ∧
    optMinElement less [none, none] = none ∧ optMaxElement less [] = none ∧ optMaxElement less (plain [42]) = some 42 ∧
    optMaxElement less (plain [5, 3, 8, 1, 4]) = some 8 ∧ optMaxElement less [none, some 5, some 2, none] = some 5 ∧
    optMinmaxElement less [] = none ∧ optMinmaxElement less (plain [42]) = some (42, 42) ∧
    optMinmaxElement less (plain [5, 3, 8, 1, 4]) = some (1, 8) ∧
    optMinmaxElement less [none, some 5, some 2, some 9, none] = some (2, 9) := by decide

/-- The tests with a comparator (tests_opt_minmax.cpp:403-502). -/
example : optMinList greater (plain [5, 3, 8, 1, 4]) = some 8 ∧ optMinList greater [some 10, some 3, none] = some 10 ∧
    optMinElement greater [none, some 5, some 2] = some 5 ∧ optMaxList greater (plain [5, 3, 8, 1, 4]) = some 1 ∧
    optMaxList greater [some 10, some 3, none] = some 3 ∧ optMinmaxList greater (plain [5, 3, 8, 1, 4]) = some (8, 1) ∧
    optMinmaxElement greater [none, some 5, some 2, some 9] = some (9, 2) := by
  have _use := reversed less (plain [5, 3, 8, 1, 4])
  decide

end Verif.Conform.OptMinMax
