import Verif.OptMinMax.Props

/-!
What `opt_min`, `opt_max` and `opt_minmax` do besides their result (C105): which copies of elements they make, with which
arguments they call the comparator, and what happens if a copy or the comparator throws; and what they do with optionals of
optionals.

A run has a log of what it called and a list of the faults to come: one entry per call, `true` if that call throws (no
faults once the list is used up). The comparator answers by a function of the program's choice that may depend on what was
called before. Copies of an element are the element. Reading an element without a value copies an empty optional, which
cannot throw and is not logged.
-/
namespace Verif.OptMinMax

variable {α : Type}

/-- What is called on elements: `auto val = *first` for an element with a value, `std::invoke(cmp, a, b)`, and the copy into
the result by assignment or `emplace` (opt_minmax.hpp:70, 72-76, 90, 92-96, 110, 112-119). -/
inductive Call (α : Type)
  | read (x : α)
  | cmp (a b : α)
  | put (x : α)
deriving DecidableEq, Repr

/-- Log of the calls and the faults to come (state for opt_minmax.hpp:64-125). -/
structure Run (α : Type) where
  log : List (Call α)
  faults : List Bool
deriving DecidableEq, Repr

/-- A call that may throw (opt_minmax.hpp:70-76, 90-96, 110-119). -/
def call (c : Call α) (k : Run α → Option β × Run α) (r : Run α) : Option β × Run α :=
  let r' : Run α := ⟨r.log ++ [c], r.faults.tail⟩
  if r.faults.headD false then (none, r') else k r'

/-- The comparator of the program: its answer may depend on what was called before (`cmp` in opt_minmax.hpp:65, 85, 105). -/
abbrev Cmp (α : Type) := List (Call α) → α → α → Bool

/-- `std::invoke(cmp, a, b)` (opt_minmax.hpp:72, 92, 112, 115). -/
def invoke (cmp : Cmp α) (a b : α) (k : Bool → Run α → Option β × Run α) (r : Run α) : Option β × Run α :=
  call (.cmp a b) (fun r' => k (cmp r.log a b) r') r

/-- The loop of `opt_min_element_impl`; the result is `none` if an exception leaves it (opt_minmax.hpp:64-82). -/
def minRun (cmp : Cmp α) : Option α → List (Option α) → Run α → Option (Option α) × Run α
  | ret, [], r => (some ret, r)
  | ret, none :: l, r => minRun cmp ret l r
  | none, some v :: l, r => call (.read v) (call (.put v) (minRun cmp (some v) l)) r
  | some m, some v :: l, r =>
    call (.read v) (invoke cmp v m fun less =>
      if less then call (.put v) (minRun cmp (some v) l) else minRun cmp (some m) l) r

/-- The loop of `opt_max_element_impl` (opt_minmax.hpp:84-102). -/
def maxRun (cmp : Cmp α) : Option α → List (Option α) → Run α → Option (Option α) × Run α
  | ret, [], r => (some ret, r)
  | ret, none :: l, r => maxRun cmp ret l r
  | none, some v :: l, r => call (.read v) (call (.put v) (maxRun cmp (some v) l)) r
  | some m, some v :: l, r =>
    call (.read v) (invoke cmp m v fun less =>
      if less then call (.put v) (maxRun cmp (some v) l) else maxRun cmp (some m) l) r

/-- The loop of `opt_minmax_element_impl` (opt_minmax.hpp:104-125). -/
def minmaxRun (cmp : Cmp α) : Option (α × α) → List (Option α) → Run α → Option (Option (α × α)) × Run α
  | ret, [], r => (some ret, r)
  | ret, none :: l, r => minmaxRun cmp ret l r
  | none, some v :: l, r => call (.read v) (call (.put v) (call (.put v) (minmaxRun cmp (some (v, v)) l))) r
  | some (lo, hi), some v :: l, r =>
    let upper (lo : α) : Run α → Option (Option (α × α)) × Run α :=
      invoke cmp hi v fun less => if less then call (.put v) (minmaxRun cmp (some (lo, v)) l) else minmaxRun cmp (some (lo, hi)) l
    call (.read v) (invoke cmp v lo fun less => if less then call (.put v) (upper v) else upper lo) r

/-- `opt_min(a, b, cmp)`: copies of whole optionals, or the copy of the smaller value into the result
(opt_minmax.hpp:140-150). -/
def optMinRun (cmp : Cmp α) (a b : Option α) (r : Run α) : Option (Option α) × Run α :=
  match a, b with
  | none, none => (some none, r)
  | none, some b => call (.put b) (fun r => (some (some b), r)) r
  | some a, none => call (.put a) (fun r => (some (some a), r)) r
  | some a, some b => invoke cmp b a (fun less r => let x := if less then b else a; call (.put x) (fun r => (some (some x), r)) r) r

/-- `opt_max(a, b, cmp)` (opt_minmax.hpp:174-184). -/
def optMaxRun (cmp : Cmp α) (a b : Option α) (r : Run α) : Option (Option α) × Run α :=
  match a, b with
  | none, none => (some none, r)
  | none, some b => call (.put b) (fun r => (some (some b), r)) r
  | some a, none => call (.put a) (fun r => (some (some a), r)) r
  | some a, some b => invoke cmp a b (fun less r => let x := if less then b else a; call (.put x) (fun r => (some (some x), r)) r) r

/-! ### Types -/

/-- Types of elements: a type that is not an optional, or `std::optional<T>` (what opt_minmax.hpp:24-62 distinguish). -/
inductive Ty
  | plain (n : Nat)
  | opt (t : Ty)
deriving DecidableEq, Repr

/-- Values: of a type that is not an optional, an empty optional, an optional with a value (opt_minmax.hpp:44-62). -/
inductive Val
  | plain (n : Nat)
  | empty
  | full (v : Val)
deriving DecidableEq, Repr

/-- Is it a value of that type? (for opt_minmax.hpp:24-62) -/
def Val.ofTy : Val → Ty → Bool
  | .plain _, .plain _ => true
  | .empty, .opt _ => true
  | .full v, .opt t => v.ofTy t
  | _, _ => false

/-- `into_optional<T>::type` (opt_minmax.hpp:24-32). -/
def intoOptional : Ty → Ty
  | .opt t => .opt t
  | t => .opt t

/-- `T` of `into_minmax_result<...>::type`, which is `std::optional<opt_minmax_result<T>>` (opt_minmax.hpp:34-42). -/
def minmaxOf : Ty → Ty
  | .opt t => t
  | t => t

/-- `has_value(val)` and `deref(val)`: the overload for optionals is more specialized, so that it is chosen by the type of the
element; an inner optional is a value like any other (opt_minmax.hpp:44-62). -/
def valueOf (t : Ty) (v : Val) : Option Val :=
  match t, v with
  | .opt _, .full v => some v
  | .opt _, _ => none
  | .plain _, v => some v

/-- `ret` as a value of type `into_optional<T>::type`; `ret = deref(val)` makes an optional that has the value `deref(val)`, also if
that is an empty optional (opt_minmax.hpp:68, 73, 76, 81). -/
def asOptional : Option Val → Val
  | none => .empty
  | some v => .full v

/-- `opt_min_element` for a range of elements of type `t` (opt_minmax.hpp:64-82, 135). -/
def optMinTyped (cmp : Val → Val → Bool) (t : Ty) (l : List Val) : Val := asOptional (optMinElement cmp (l.map (valueOf t)))

end Verif.OptMinMax
