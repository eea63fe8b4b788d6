/-!
Model of the type transformations in type_traits.hpp: `copy_const`, `copy_volatile`, `copy_cv`, `copy_reference`, `copy_cvref`,
`forward_like`, `DICE_MOVE_IF_VALUE` and `is_strict_invocable_r`.

A type is a non-reference type or a reference to one. `none` stands for an ill-formed program.
-/
namespace Verif.Qualifiers

/-- Non-reference types (arguments of type_traits.hpp:39-152). -/
inductive Obj
  /-- object types other than arrays: scalars, classes, pointers, ... with their own cv-qualifiers -/
  | named (n : Nat) (c v : Bool)
  | void (c v : Bool)
  /-- function types; `abominable` if it has cv- or ref-qualifiers itself, so that there are no references to it -/
  | func (n : Nat) (abominable : Bool)
  /-- arrays; the qualifiers are those of the elements -/
  | arr (elem : Obj) (len : Option Nat)
deriving DecidableEq, Repr

/-- Types: objects and references to them; arguments of type_traits.hpp:39-152. -/
inductive Ty
  | val (o : Obj)
  | lref (o : Obj)
  | rref (o : Obj)
deriving DecidableEq, Repr

/-! ## The language -/

/-- `O const` (type_traits.hpp:46) -/
def Obj.addConst : Obj → Obj
  | .named n _ v => .named n true v
  | .void _ v => .void true v
  | .func n a => .func n a
  | .arr e l => .arr e.addConst l

/-- `O volatile` (type_traits.hpp:62) -/
def Obj.addVolatile : Obj → Obj
  | .named n c _ => .named n c true
  | .void c _ => .void c true
  | .func n a => .func n a
  | .arr e l => .arr e.addVolatile l

/-- Does a pattern `From const` match? (type_traits.hpp:44-47) -/
def Obj.isConst : Obj → Bool
  | .named _ c _ => c
  | .void c _ => c
  | .func _ _ => false
  | .arr e _ => e.isConst

/-- Does a pattern `From volatile` match? (type_traits.hpp:60-63) -/
def Obj.isVolatile : Obj → Bool
  | .named _ _ v => v
  | .void _ v => v
  | .func _ _ => false
  | .arr e _ => e.isVolatile

/-- `std::remove_cv_t` (used in the specification of type_traits.hpp:39-125) -/
def Obj.bare : Obj → Obj
  | .named n _ _ => .named n false false
  | .void _ _ => .void false false
  | .func n a => .func n a
  | .arr e l => .arr e.bare l

/-- Are there references to it? (type_traits.hpp:98-114) -/
def Obj.referable : Obj → Bool
  | .named _ _ _ => true
  | .void _ _ => false
  | .func _ a => !a
  | .arr _ _ => true

/-- `To const`: no effect on references (type_traits.hpp:46). -/
def Ty.addConst : Ty → Ty
  | .val o => .val o.addConst
  | t => t

/-- `To volatile` (type_traits.hpp:62) -/
def Ty.addVolatile : Ty → Ty
  | .val o => .val o.addVolatile
  | t => t

/-- `To &`, with reference collapsing (type_traits.hpp:98-114) -/
def Ty.addL : Ty → Option Ty
  | .val o => match o.referable with
    | true => some (.lref o)
    | false => none
  | .lref o => some (.lref o)
  | .rref o => some (.lref o)

/-- `To &&`, with reference collapsing (type_traits.hpp:98-114) -/
def Ty.addR : Ty → Option Ty
  | .val o => match o.referable with
    | true => some (.rref o)
    | false => none
  | .lref o => some (.lref o)
  | .rref o => some (.rref o)

/-- `std::remove_reference_t`, and the type referred to (type_traits.hpp:127-152) -/
def Ty.obj : Ty → Obj
  | .val o => o
  | .lref o => o
  | .rref o => o

/-! ## copy_* -/

/-- `copy_const` (type_traits.hpp:39-50): the specialization for `From const` does not match references. -/
def copyConst (from_ to : Ty) : Ty := match from_ with
  | .val o => match o.isConst with
    | true => to.addConst
    | false => to
  | _ => to

/-- `copy_volatile` (type_traits.hpp:55-66) -/
def copyVolatile (from_ to : Ty) : Ty := match from_ with
  | .val o => match o.isVolatile with
    | true => to.addVolatile
    | false => to
  | _ => to

/-- `copy_cv` (type_traits.hpp:71-92): the most specialized matching specialization. -/
def copyCv (from_ to : Ty) : Ty := match from_ with
  | .val o => match o.isConst, o.isVolatile with
    | true, true => to.addConst.addVolatile
    | true, false => to.addConst
    | false, true => to.addVolatile
    | false, false => to
  | _ => to

/-- `copy_reference` (type_traits.hpp:98-114) -/
def copyReference (from_ to : Ty) : Option Ty := match from_ with
  | .val _ => some to
  | .lref _ => to.addL
  | .rref _ => to.addR

/-- `copy_cvref` (type_traits.hpp:119-125) -/
def copyCvref (from_ to : Ty) : Option Ty := copyReference from_ (copyCv (.val from_.obj) to)

/-! ## forward_like -/

/-- `like<T, U>` (type_traits.hpp:127-150): `T` must be a reference and `U` an lvalue reference. Patterns with `const` are more specialized. -/
def like (t u : Ty) : Option Ty := match u with
  | .lref uo => match t with
    | .lref to => match to.isConst with
      | true => some (.lref uo.addConst)
      | false => some (.lref uo)
    | .rref to => match to.isConst with
      | true => some (.rref uo.addConst)
      | false => some (.rref uo)
    | .val _ => none
  | _ => none

/-- `like_t<T, U>` (type_traits.hpp:151-152): `like<T &&, U &>` -/
def likeT (t u : Ty) : Option Ty := t.addR.bind fun t' => u.addL.bind fun u' => like t' u'

/-- The type deduced for `U` in `forward_like(U &&val)` from an argument: `O &` for lvalues, `O` for rvalues (type_traits.hpp:184-187). -/
def deduced (lvalue : Bool) (o : Obj) : Ty := match lvalue with
  | true => .lref o
  | false => .val o

/-- Return type of `forward_like<T>(val)` (type_traits.hpp:184-187) for an argument of the given type and value category. -/
def forwardLike (t : Ty) (lvalue : Bool) (o : Obj) : Option Ty := likeT t (deduced lvalue o)

/-! ## DICE_MOVE_IF_VALUE -/

/-- `_dice_detail_no_move` (type_traits.hpp:211) for `decltype(expr)`. -/
def noMove (d : Ty) : Bool := match d with
  | .lref _ => true
  | .rref o => o.isConst
  | .val o => o.isConst

/-- The return type (type_traits.hpp:212). -/
def moveIfValueType (d : Ty) : Option Ty := match noMove d with
  | true => some d
  | false => (Ty.val d.obj.bare).addR

/-- Can an object of type `a` be bound to a reference to `b` directly: same type, no qualifier dropped? (language rule for type_traits.hpp:186) -/
def bindable (a b : Obj) : Bool := a.bare == b.bare && (!a.isConst || b.isConst) && (!a.isVolatile || b.isVolatile)

/-- What the call `DICE_MOVE_IF_VALUE(expr)` does with the object named by `expr` (type_traits.hpp:210-218). -/
inductive MoveResult
  /-- it gives a reference to the object, as an lvalue or an rvalue -/
  | ref (t : Ty)
  /-- it gives a copy of the object -/
  | copy
deriving DecidableEq, Repr

/-- `DICE_MOVE_IF_VALUE(expr)` (type_traits.hpp:210-218) evaluated, where `expr` names a variable declared with type `d`. In the lambda it is
an lvalue; it is not implicitly moved from by `return` since it is not declared in the lambda. -/
def moveIfValue (d : Ty) : Option MoveResult := match noMove d with
  | true => match d with
    | .lref o => some (.ref (.lref o))
    -- `return expr;` with return type `O const &&`: an rvalue reference does not bind to an lvalue
    | .rref _ => none
    -- `return expr;` with return type `O const`
    | .val _ => some .copy
  | false => match bindable d.obj d.obj.bare with
    | true => (moveIfValueType d).map .ref
    | false => none

/-! ## is_strict_invocable_r -/

/-- An argument expression: an lvalue or rvalue of a type (type_traits.hpp:155-172). -/
structure Expr where
  lvalue : Bool
  obj : Obj
deriving DecidableEq, Repr

/-- `std::declval<A>()` (type_traits.hpp:155-172) -/
def declval (a : Ty) : Expr := match a with
  | .val o => ⟨false, o⟩
  | .lref o => ⟨true, o⟩
  | .rref o => ⟨false, o⟩

/-- A variable or parameter declared with type `A`, named in an expression (type_traits.hpp:155-172). -/
def name (a : Ty) : Expr := ⟨true, a.obj⟩

/-- Return type of calling an `F` given as some expression with some arguments, `none` if that is ill-formed (type_traits.hpp:155-172). -/
abbrev Call := Expr → List Expr → Option Ty

/-- `is_strict_invocable_r_v<R, F, Args...>` (type_traits.hpp:155-172): `func` and `args` are parameters of the requires-expression. -/
def isStrictInvocableR (call : Call) (r f : Ty) (args : List Ty) : Bool := call (name f) (args.map name) == some r

/-- `std::is_invocable_v` with return type `R`, i.e. what the documentation refers to, without conversions (what type_traits.hpp:155-172 is
measured against). -/
def isInvocableExact (call : Call) (r f : Ty) (args : List Ty) : Bool := call (declval f) (args.map declval) == some r

end Verif.Qualifiers
