/-! Model of `opt_min`, `opt_max`, `opt_minmax` and their range forms (include/dice/template-library/opt_minmax.hpp).

A range is the list of the values its iterators yield; elements that are not optionals always have a value
(opt_minmax.hpp:49-62), so a range of plain values is a list of `some`. Copies of values are the values. -/
namespace Verif.OptMinMax

variable {α : Type}

/-- opt_minmax.hpp:69-79: the loop of `opt_min_element_impl` with the current `ret`. -/
def minLoop (cmp : α → α → Bool) : Option α → List (Option α) → Option α
  | ret, [] => ret
  | ret, none :: l => minLoop cmp ret l
  | none, some v :: l => minLoop cmp (some v) l
  | some m, some v :: l => minLoop cmp (if cmp v m then some v else some m) l

/-- opt_minmax.hpp:64-82 and 135: `opt_min_element`. -/
def optMinElement (cmp : α → α → Bool) (l : List (Option α)) : Option α := minLoop cmp none l

/-- opt_minmax.hpp:89-99: the loop of `opt_max_element_impl`. -/
def maxLoop (cmp : α → α → Bool) : Option α → List (Option α) → Option α
  | ret, [] => ret
  | ret, none :: l => maxLoop cmp ret l
  | none, some v :: l => maxLoop cmp (some v) l
  | some m, some v :: l => maxLoop cmp (if cmp m v then some v else some m) l

/-- opt_minmax.hpp:84-102 and 168: `opt_max_element`. -/
def optMaxElement (cmp : α → α → Bool) (l : List (Option α)) : Option α := maxLoop cmp none l

/-- opt_minmax.hpp:109-122: the loop of `opt_minmax_element_impl`. -/
def minmaxLoop (cmp : α → α → Bool) : Option (α × α) → List (Option α) → Option (α × α)
  | ret, [] => ret
  | ret, none :: l => minmaxLoop cmp ret l
  | none, some v :: l => minmaxLoop cmp (some (v, v)) l
  | some (lo, hi), some v :: l =>
    let lo := if cmp v lo then v else lo
    let hi := if cmp hi v then v else hi
    minmaxLoop cmp (some (lo, hi)) l

/-- opt_minmax.hpp:104-125 and 201: `opt_minmax_element`. -/
def optMinmaxElement (cmp : α → α → Bool) (l : List (Option α)) : Option (α × α) := minmaxLoop cmp none l

/-- `std::min(a, b, cmp)` (used in opt_minmax.hpp:140-150). -/
def stdMin (cmp : α → α → Bool) (a b : α) : α := if cmp b a then b else a

/-- `std::max(a, b, cmp)` (used in opt_minmax.hpp:174-184). -/
def stdMax (cmp : α → α → Bool) (a b : α) : α := if cmp a b then b else a

/-- opt_minmax.hpp:140-150: `opt_min` of two arguments. -/
def optMin (cmp : α → α → Bool) (a b : Option α) : Option α :=
  match a, b with
  | none, b => b
  | a, none => a
  | some a, some b => some (stdMin cmp a b)

/-- opt_minmax.hpp:174-184: `opt_max` of two arguments. -/
def optMax (cmp : α → α → Bool) (a b : Option α) : Option α :=
  match a, b with
  | none, b => b
  | a, none => a
  | some a, some b => some (stdMax cmp a b)

/-- opt_minmax.hpp:155-158: `opt_min` of an initializer list. -/
def optMinList (cmp : α → α → Bool) (l : List (Option α)) : Option α := optMinElement cmp l

/-- opt_minmax.hpp:189-192: `opt_max` of an initializer list. -/
def optMaxList (cmp : α → α → Bool) (l : List (Option α)) : Option α := optMaxElement cmp l

/-- opt_minmax.hpp:211-214: `opt_minmax` of an initializer list. -/
def optMinmaxList (cmp : α → α → Bool) (l : List (Option α)) : Option (α × α) := optMinmaxElement cmp l

/-- opt_minmax.hpp:224-227: `opt_minmax` of two arguments. -/
def optMinmax (cmp : α → α → Bool) (a b : Option α) : Option (α × α) := optMinmaxList cmp [a, b]

end Verif.OptMinMax
