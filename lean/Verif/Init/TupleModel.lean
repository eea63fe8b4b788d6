/-!
# Constructors of tuples

`standard_layout_tuple` has, next to its copy and move constructor, a constructor that forwards one argument to each element, and constructors with tags
(standard_layout_tuple.hpp:44-95). Which one is called is decided by overload resolution; the constructors differ only in how they take the first argument.

Simplified: `volatile`, conversion functions to tuples, and elements that are tags themselves are not modelled.
-/
namespace Verif.Init.Tuple

/-- What the first argument is: a tuple of the same type, an object of a class derived from it (like an `integral_template_tuple`), a tag, or something else
(for standard_layout_tuple.hpp:71-94). -/
inductive What where
  | self | derived | uniformTag | individualTag | other
  deriving DecidableEq, Repr

/-- An argument (for standard_layout_tuple.hpp:71-94). -/
structure Arg where
  what : What
  isConst : Bool
  lvalue : Bool
  deriving DecidableEq, Repr

/-- The constructors (standard_layout_tuple.hpp:46-51 for no elements, 71-94 otherwise; copy and move constructor are implicit). -/
inductive Ctor where
  | dflt | copy | move | forward | individual | uniform
  deriving DecidableEq, Repr

/-- How the first argument is bound: by an exact match (`rank = 0`) or to a base class (1), by a reference or by value, by an rvalue reference, with an
added `const` (for standard_layout_tuple.hpp:71-94). -/
structure Bind where
  rank : Nat
  ref : Bool
  rref : Bool
  addsConst : Bool
  deriving DecidableEq, Repr

/-- Overload resolution prefers `a` because of the argument ([over.ics.rank]/3.2, for standard_layout_tuple.hpp:71-94). -/
def Bind.better (a b : Bind) : Bool :=
  decide (a.rank < b.rank) || (decide (a.rank = b.rank) && a.ref && b.ref &&
    ((a.rref && !b.rref) || (decide (a.rref = b.rref) && !a.addsConst && b.addsConst)))

/-- The rank of binding to the tuple type itself (for the copy and move constructor of standard_layout_tuple.hpp:71). -/
def What.rank : What → Option Nat
  | .self => some 0
  | .derived => some 1
  | _ => none

/-- A constructor that can be called with the arguments, and how it takes the first one. `n` is the number of elements; the forwarding constructor needs
as many arguments and does not exist for the empty tuple (standard_layout_tuple.hpp:46-51, 71-94). All but copy and move are explicit, except for the
default constructor. -/
def binds (n : Nat) (explicit : Bool) : List Arg → Ctor → Option Bind
  | [], .dflt => some ⟨0, false, false, false⟩
  | [a], .copy => a.what.rank.map fun r => ⟨r, true, false, !a.isConst⟩
  | [a], .move => if a.isConst || a.lvalue then none else a.what.rank.map fun r => ⟨r, true, true, false⟩
  | a :: as, .forward => if explicit && decide (as.length + 1 = n) then some ⟨0, true, !a.lvalue, false⟩ else none
  | a :: as, .individual => if explicit && decide (a.what = .individualTag) && decide (as.length = n) then some ⟨0, false, false, false⟩ else none
  | a :: _, .uniform => if explicit && decide (a.what = .uniformTag) then some ⟨0, false, false, false⟩ else none
  | _, _ => none

/-- Templates are worse than other functions, and the forwarding constructor is less specialized than those with tags ([over.match.best]/2.5, 2.6, for
standard_layout_tuple.hpp:73-94; the constructor at 47 for the empty tuple is no template, but never competes). -/
def Ctor.special : Ctor → Nat
  | .forward => 2
  | .individual => 1
  | .uniform => 1
  | _ => 0

/-- The better constructor (for standard_layout_tuple.hpp:46-51, 71-94). -/
def better (c : Ctor) (a : Bind) (d : Ctor) (b : Bind) : Bool := a.better b || (!b.better a && decide (c.special < d.special))

/-- All constructors (standard_layout_tuple.hpp:46-51, 71-94). -/
def ctors : List Ctor := [.dflt, .copy, .move, .forward, .individual, .uniform]

/-- The constructor called, `none` if there is none or it is ambiguous. `explicit`: the object is initialized directly, as in `standard_layout_tuple<T> t(a)` or
`t{a}`; otherwise, as in `auto t = a`, explicit constructors do not take part (standard_layout_tuple.hpp:46-51, 71-94). -/
def choose (n : Nat) (explicit : Bool) (args : List Arg) : Option Ctor :=
  let cs := ctors.filterMap fun c => (binds n explicit args c).map fun b => (c, b)
  match cs.filter fun c => cs.all fun d => decide (d.1 = c.1) || better c.1 c.2 d.1 d.2 with
  | c :: _ => some c.1
  | [] => none

/-- The same for `integral_template_tuple`, which inherits the constructors: an inherited constructor is not used for a single argument of the class itself or a
derived one ([over.match.funcs]/8, integral_template_tuple.hpp:59). -/
def chooseIntegral (n : Nat) (explicit : Bool) (args : List Arg) : Option Ctor :=
  match args with
  | [a] => if a.what = .self ∨ a.what = .derived then choose n false args else choose n explicit args
  | _ => choose n explicit args

end Verif.Init.Tuple
