import Verif.Variant2.Model
import Verif.Qualifiers.Model

/-!
Model of what `get`, `get_if`, `visit` and `std::formatter` of `variant2` give (variant2.hpp:36-93, 96-163, 798-924): the types and value
categories of the results, the addresses of pointers, and the text. Which alternative is accessed is in `Model.lean`.
-/
namespace Verif.Variant2

open Verif.Qualifiers (Obj Ty)

/-! ### Overloads -/

/-- `variant2<T, U>` with or without `const` and as an lvalue or an rvalue: an argument, or the parameter `const &`, `&`, `const &&`, `&&`
of an overload (variant2.hpp:799, 804, 809, 814). -/
structure Ref where
  isConst : Bool
  lvalue : Bool
deriving DecidableEq, Repr

/-- The overloads of `get` and `visit` (variant2.hpp:798-816, 837-855, 877-895). -/
def overloads : List Ref := [⟨true, true⟩, ⟨false, true⟩, ⟨true, false⟩, ⟨false, false⟩]

/-- Can the parameter be bound to the argument (language rule for variant2.hpp:798-816)? -/
def binds (p a : Ref) : Bool := match p.lvalue with
  | true => p.isConst || (a.lvalue && !a.isConst)
  | false => !a.lvalue && (p.isConst || !a.isConst)

/-- Is `p` the better match than `q` (language rule for variant2.hpp:798-816): rvalue references for rvalues, then fewer qualifiers. -/
def better (p q : Ref) : Bool := (!p.lvalue && q.lvalue) || (p.lvalue == q.lvalue && !p.isConst && q.isConst)

/-- The overload called, if there is a best one (language rule for variant2.hpp:798-816). -/
def resolve (a : Ref) : Option Ref :=
  (overloads.filter (binds · a)).find? fun p => (overloads.filter (binds · a)).all fun q => p == q || better p q

/-- `var` in an overload for lvalues, `std::move(var)` in one for rvalues (variant2.hpp:800, 805, 810, 815). -/
def inner (p : Ref) : Ref := p

/-- The expression `std::forward<Self>(self)` in the implementation: of the same type and category (variant2.hpp:97, 118). -/
def self (e : Ref) : Ty := match e.lvalue with
  | true => .lref (.named 0 e.isConst false)
  | false => .rref (.named 0 e.isConst false)

/-! ### Types -/

/-- `copy_const` (variant2.hpp:57-65) -/
def vCopyConst (from_ to : Ty) : Ty := match from_ with
  | .val o => match o.isConst with
    | true => to.addConst
    | false => to
  | _ => to

/-- `copy_reference` (variant2.hpp:67-80) -/
def vCopyReference (from_ to : Ty) : Option Ty := match from_ with
  | .val _ => some to
  | .lref _ => to.addL
  | .rref _ => to.addR

/-- `copy_cvref_t` (variant2.hpp:82-83) -/
def vCopyCvref (from_ to : Ty) : Option Ty := vCopyReference from_ (vCopyConst (.val from_.obj) to)

/-- The type and category of `std::forward<Self>(self).a_` (variant2.hpp:102, 105, 126, 132; language rule). -/
def member (e : Ref) (alt : Obj) : Ty := match e.lvalue, e.isConst with
  | true, true => .lref alt.addConst
  | true, false => .lref alt
  | false, true => .rref alt.addConst
  | false, false => .rref alt

/-- Return `e` from a function with return type `t`, as a reference to the same object (language rule for variant2.hpp:126, 132, 800); `none`:
ill-formed, or not the same object. -/
def returnAs (t e : Ty) : Option Ty := match t, e with
  | .lref a, .lref b => match Verif.Qualifiers.bindable b a with | true => some (.lref a) | false => none
  | .rref a, .rref b => match Verif.Qualifiers.bindable b a with | true => some (.rref a) | false => none
  | _, _ => none

/-- `get_impl<ix>` (variant2.hpp:117-134). -/
def getImpl (e : Ref) (alt : Obj) : Option Ty := (vCopyCvref (self e) (.val alt)).bind fun t => returnAs t (member e alt)

/-- The declared return type of an overload of `get`: `A const &`, `A &`, `A const &&`, `A &&` (variant2.hpp:799, 804, 809, 814). -/
def declared (p : Ref) (alt : Obj) : Ty := match p.lvalue, p.isConst with
  | true, true => .lref alt.addConst
  | true, false => .lref alt
  | false, true => .rref alt.addConst
  | false, false => .rref alt

/-- The type of `get<ix>(var)` and `get<X>(var)` (variant2.hpp:798-816, 837-855); `none`: ill-formed or not a reference to the object in the variant. -/
def getTy (a : Ref) (alt : Obj) : Option Ty := (resolve a).bind fun p => (getImpl (inner p) alt).bind fun t => returnAs (declared p alt) t

/-- The type and category of the argument the visitor gets (variant2.hpp:96-107, 876-895). -/
def visitTy (a : Ref) (alt : Obj) : Option Ty := (resolve a).map fun p => member (inner p) alt

/-! ### Pointers -/

/-- The alternative type: with `operator&` of its own, or the built-in one (variant2.hpp:146, 152: `&std::forward<Self>(self).a_`). `amp p` is what `&x` gives
for an object at address `p`. -/
structure Amp where
  amp : Nat → Nat

/-- `get_if` on a pointer to a variant whose storage is at address `addr` (variant2.hpp:141-158, 818-834, 857-873); `none`: null pointer. -/
def getIfPtr {V : Type} (am : Alt → Amp) (v : Option (Var V × Nat)) (x : Alt) : Option Nat := match v with
  | none => none
  | some (s, addr) => match x with
    | .a => if s.disc ≠ .first then none else some ((am .a).amp addr)
    | .b => if s.disc ≠ .second then none else some ((am .b).amp addr)

/-- The pointee type of `get_if<ix>(&var)` (variant2.hpp:141-142, 819, 828). -/
def getIfTy (isConst : Bool) (alt : Obj) : Obj := (vCopyConst (.val (.named 0 isConst false)) (.val alt)).obj

/-- Where `new (&a_) T{...}` makes the object (e.g. variant2.hpp:213, 281, 657). -/
def placeAt (am : Amp) (addr : Nat) : Nat := am.amp addr

/-! ### Hash, comparison with throwing operators, formatting -/

/-- Which hash the lambda uses for an alternative of type `alt`: `X` is deduced from `X const &`, so it has no `const` (variant2.hpp:41-53); the first
branch is for `X = T`. -/
def hashBranch (t alt : Obj) : Alt := match alt with
  | .named n _ v => if Obj.named n false v = t then .a else .b
  | o => if o = t then .a else .b

/-- `==` with operators of the elements that may throw (`none`); it is `noexcept` (variant2.hpp:724-744). -/
def eqThrow {V : Type} (e : Alt → V → V → Option Bool) (s o : Var V) : Except Err Bool :=
  if s.disc ≠ o.disc then .ok false
  else match s.disc with
    | .first => (readAs .a s.store).bind fun u => (readAs .a o.store).bind fun v => match e .a u v with
      | some r => .ok r
      | none => .error .terminate
    | .second => (readAs .b s.store).bind fun u => (readAs .b o.store).bind fun v => match e .b u v with
      | some r => .ok r
      | none => .error .terminate
    | .valueless => .ok true

/-- `parse` (variant2.hpp:909-912): consumes nothing; `std::format` refuses if what follows is not the closing brace. Is the format
specification accepted? -/
def parses (spec : List Char) : Bool := spec.isEmpty

/-- `format` (variant2.hpp:914-923): the text written and whether an exception leaves it. `f` is the formatter of an alternative: what it writes, and
whether it throws then. -/
def format {V : Type} (f : Alt → V → String × Bool) (s : Var V) : Res (String × Bool) :=
  if valuelessByException s then .ok ("variant(valueless by exception)", false)
  else (visit s fun x v => match f x v with
    | (t, true) => ("variant(" ++ t, true)
    | (t, false) => ("variant(" ++ t ++ ")", false)).1

/-- `variant<Ts...>` (variant2.hpp:85-94, 898-904) -/
inductive Selected
  | std (types : List Obj)
  | two (t u : Obj)
deriving DecidableEq

/-- `select_variant` (variant2.hpp:85-94) -/
def select : List Obj → Selected
  | [t, u] => .two t u
  | ts => .std ts

end Verif.Variant2
