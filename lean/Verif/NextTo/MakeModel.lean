import Verif.NextTo.Model

/-!
Model of how `next_to_range` and `next_to_view` are constructed, where their iterators come from, and which members they and their iterators have
(next_to_range.hpp:18-57, 69, 80, 131-173, 285-553).
-/
namespace Verif.NextTo

/-- Which of the concepts an iterator satisfies (next_to_range.hpp:18-57), and `std::is_copy_constructible_v`. -/
structure Caps where
  next : Bool
  nextBack : Bool
  nth : Bool
  nthBack : Bool
  remaining : Bool
  copyable : Bool
deriving DecidableEq, Repr

/-- The members of an iterator that are not always there (next_to_range.hpp:154-173). -/
inductive ItMember where
  | preInc | postIncCopy | plusAssign | plus
deriving DecidableEq, Repr

/-- `efficient_skip` (next_to_range.hpp:80). -/
def efficientSkip (d : Dir) (c : Caps) : Bool := match d with
  | .forward => c.nth
  | .backward => c.nthBack

/-- Whether `next_to_iter<Iter>` or `next_back_to_reverse_iter<Iter>` is a type (next_to_range.hpp:69, 220-221, 243-244). -/
def iterOk (d : Dir) (c : Caps) : Bool := match d with
  | .forward => c.next
  | .backward => c.nextBack

/-- Whether an iterator has the member. `postIncCopy`: post-increment gives the old iterator rather than `void` (next_to_range.hpp:149-173). -/
def iterHas (d : Dir) (c : Caps) : ItMember → Bool
  | .preInc => true
  | .postIncCopy => c.copyable
  | .plusAssign => efficientSkip d c
  | .plus => efficientSkip d c && c.copyable

/-- The members of a range or view (next_to_range.hpp:323-386, 450-552). -/
inductive Member where
  | begin | cbegin | stop | cend | rbegin | crbegin | rend | crend | reversed | front | back | index | advance | size | empty | toBool
deriving DecidableEq, Repr

/-- Whether `next_to_range<Iter>` is a type (next_to_range.hpp:285). -/
def rangeOk (c : Caps) : Bool := c.next

/-- The requires-clauses of `next_to_range` (next_to_range.hpp:323-386). -/
def rangeHas (c : Caps) : Member → Bool
  | .begin | .cbegin | .stop | .cend => true
  | .rbegin | .crbegin | .rend | .crend | .reversed => c.nextBack
  | .front | .back | .index | .advance => false
  | .size | .empty | .toBool => c.copyable && c.remaining

/-- Whether `next_to_view<Iter>` is a type (next_to_range.hpp:431). -/
def viewOk (c : Caps) : Bool := c.next && c.copyable

/-- The requires-clauses of `next_to_view` (next_to_range.hpp:450-552). -/
def viewHas (c : Caps) : Member → Bool
  | .begin | .cbegin | .stop | .cend => true
  | .rbegin | .rend | .crend | .reversed => c.nextBack
  | .crbegin => c.nthBack
  | .front => c.next
  | .back => c.nextBack
  | .index | .advance => c.nth
  | .size | .empty | .toBool => c.remaining

/-- How a parameter of a constructor of `Iter` is declared (used at next_to_range.hpp:309-310, 315-316, 442-443). -/
inductive Par where
  | byValue | constRef | mutRef | rvalueRef
deriving DecidableEq, Repr

/-- An argument: an lvalue, a const lvalue or an rvalue (next_to_range.hpp:308, 314, 442: `Args &&...args`). -/
inductive Arg where
  | lvalue | constLvalue | rvalue
deriving DecidableEq, Repr

/-- One parameter with its argument; whether the type of the argument can be copied, can be moved, and whether the conversion to the type of the parameter is a narrowing one
(next_to_range.hpp:308-316, 442-443). -/
structure Slot where
  par : Par
  arg : Arg
  copies : Bool
  moves : Bool
  narrowing : Bool
deriving DecidableEq, Repr

/-- Whether the parameter can be initialized by the argument with parentheses: what `std::is_constructible_v` asks. A narrowing conversion makes a temporary
(next_to_range.hpp:309, 315, 442). -/
def Slot.parens (s : Slot) : Bool := match s.par with
  | .byValue => s.narrowing || (match s.arg with
    | .rvalue => s.moves || s.copies
    | _ => s.copies)
  | .constRef => true
  | .mutRef => !s.narrowing && s.arg == .lvalue
  | .rvalueRef => s.narrowing || s.arg == .rvalue

/-- Whether it can be with braces, which refuse narrowing: what the constructors do (next_to_range.hpp:310, 316, 443). -/
def Slot.braces (s : Slot) : Bool := s.parens && !s.narrowing

/-- The constraint of the constructors: `Iter` can be constructed from the forwarded arguments (next_to_range.hpp:309, 315, 442). -/
def ctorConstraint (l : List Slot) : Bool := l.all Slot.parens

/-- The captured argument: a copy of the decayed argument, a const lvalue in the call operator of the (not `mutable`) closure (next_to_range.hpp:310). -/
def Slot.captured (s : Slot) : Slot := { s with arg := .constLvalue }

/-- Whether the capture can be initialized, and the closure be copied, as `std::function` demands (next_to_range.hpp:295, 310). -/
def Slot.capturable (s : Slot) : Bool := s.copies

/-- The outcome of `next_to_range<Iter>{args...}` (next_to_range.hpp:307-317). -/
inductive Ctor where
  /-- no constructor applies: the caller can test for it -/
  | notAvailable
  /-- a constructor is selected, and its body does not compile -/
  | hardError
  | ok
deriving DecidableEq, Repr

/-- `next_to_range<Iter>{args...}` (next_to_range.hpp:307-317). -/
def rangeCtor (copyable : Bool) (l : List Slot) : Ctor :=
  if !ctorConstraint l then .notAvailable
  else if copyable then (if l.all Slot.braces then .ok else .hardError)
  else (if l.all (fun s => s.capturable && s.captured.braces) then .ok else .hardError)

/-- `next_to_view<Iter>{args...}` (next_to_range.hpp:441-444). -/
def viewCtor (l : List Slot) : Ctor :=
  if !ctorConstraint l then .notAvailable else if l.all Slot.braces then .ok else .hardError

/-- `make_iter_`: an iterator, or a function that makes one from captured values (next_to_range.hpp:292-296). -/
inductive Maker (σ β : Type) where
  | proto (s : σ)
  | fn (captured : List β)

variable {σ α β : Type}

/-- The constructor: `init` is the constructor of `Iter`, `mem` what the arguments refer to (next_to_range.hpp:307-317). -/
def makeRange (copyable : Bool) (init : List β → σ) (mem : Nat → β) (args : List Nat) : Maker σ β :=
  if copyable then .proto (init (args.map mem)) else .fn (args.map mem)

/-- `iter()` (next_to_range.hpp:298-304). -/
def Maker.iter (init : List β → σ) : Maker σ β → σ
  | .proto s => s
  | .fn c => init c

/-- `begin()` of a range made by the constructors (next_to_range.hpp:323-325). -/
def rangeBegin (I : Iter σ α) (init : List β → σ) (m : Maker σ β) : W σ α := mk I .forward (m.iter init)

/-- `rbegin()` of it (next_to_range.hpp:343-345). -/
def rangeRbegin (I : Iter σ α) (init : List β → σ) (m : Maker σ β) : W σ α := mk I .backward (m.iter init)

/-- What an iterator that keeps a reference to its argument refers to: the argument itself, or the copy in the range (next_to_range.hpp:310, 316). -/
inductive Home where
  | caller (a : Nat)
  | range (i : Nat)
deriving DecidableEq, Repr

/-- The objects the iterators of a range refer to if `Iter` keeps references (next_to_range.hpp:307-317). -/
def keptRefs (copyable : Bool) (args : List Nat) : List Home :=
  if copyable then args.map .caller else (List.range args.length).map .range

end Verif.NextTo
