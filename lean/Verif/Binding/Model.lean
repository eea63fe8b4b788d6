import Verif.Qualifiers.Model
import Verif.TypeList.Model

/-!
`get` and structured bindings of `standard_layout_tuple` (standard_layout_tuple.hpp:100-122, 149-156) and `pointer_tag_pair`
(pointer_tag_pair.hpp:107-145): types, value categories and which objects the names mean, by the rules of the language
([dcl.struct.bind], [dcl.init.ref]). `none` stands for an ill-formed program.

Simplified: the tuple itself is not `volatile` (elements may be); a tuple has at least one element when it is bound; where a copy is
made, that the tuple can be copied or moved is taken for granted (`Traits/Model.lean` says when it can).
-/
namespace Verif.Binding

open Verif.Qualifiers (Obj Ty forwardLike bindable)

/-- Functions are lvalues even if named by an rvalue reference (language rule for calls of standard_layout_tuple.hpp:101). -/
def isFunc : Obj → Bool
  | .func _ _ => true
  | _ => false

/-- The expression `self.first`, an lvalue, for a member declared as `T first` (standard_layout_tuple.hpp:70, 105): qualifiers of
the tuple do not apply to what a reference refers to. -/
def memberObj (t : Ty) (tupleConst : Bool) : Obj := match t with
  | .val o => match tupleConst with
    | true => o.addConst
    | false => o
  | .lref o => o
  | .rref o => o

/-- The template argument deduced for `Self` when the function is called on an expression of type `r`
(standard_layout_tuple.hpp:101). -/
def deduceSelf : Ty → Ty
  | .rref o => .val o
  | t => t

/-- The type of the expression `get<ix>()` of a `standard_layout_tuple` with the given element types (standard_layout_tuple.hpp:100-109);
`name` gives names to the tuple types. The empty tuple has no `get` (45-65). -/
def getType (name : List Ty → Nat) : List Ty → Ty → Nat → Option Ty
  | [], _, _ => none
  | t :: _, self, 0 => forwardLike self true (memberObj t self.obj.isConst)
  | _ :: ts, self, ix + 1 =>
    (forwardLike self true (.named (name ts) self.obj.isConst false)).bind fun r => getType name ts (deduceSelf r) ix

/-- An object that an element expression means (standard_layout_tuple.hpp:100-109): the element at a position, or what the reference
that is the element refers to. -/
inductive Place
  | element (pos : Nat)
  | target (pos : Nat)
deriving DecidableEq, Repr

/-- Which object `get<ix>()` means (standard_layout_tuple.hpp:100-109); `depth` members `rest` have been entered already. -/
def getPlace : List Ty → Nat → Nat → Option Place
  | [], _, _ => none
  | .val _ :: _, depth, 0 => some (.element depth)
  | _ :: _, depth, 0 => some (.target depth)
  | _ :: ts, depth, ix + 1 => getPlace ts (depth + 1) ix

/-- `get<U>()` (standard_layout_tuple.hpp:111-122). -/
def getTypeByType (name : List Ty → Nat) (ts : List Ty) (self : Ty) (u : Ty) : Option Ty :=
  if TypeList.count u ts = 1 then
    (TypeList.position (fun t => some (decide (u = t))) ts).bind fun ix => getType name ts self ix
  else none

/-- `std::tuple_size` (standard_layout_tuple.hpp:149-151). -/
def tupleSize (ts : List Ty) : Nat := ts.length

/-- `std::tuple_element` (standard_layout_tuple.hpp:153-156) of a tuple, or of a `const` one by the specialization in the standard
library. -/
def tupleElement (ts : List Ty) (tupleConst : Bool) (ix : Nat) : Option Ty :=
  (TypeList.nth ts ix).map fun t => match tupleConst with
    | true => t.addConst
    | false => t

/-! ### Structured bindings -/

/-- `auto`, `auto &`, `auto &&` (declarations with a tuple of standard_layout_tuple.hpp:67 or a pair of pointer_tag_pair.hpp:17). -/
inductive RefOp
  | copy | lref | rref
deriving DecidableEq, Repr

/-- `auto [...]` with its qualifiers (declarations with a tuple of standard_layout_tuple.hpp:67). -/
structure Decl where
  const : Bool
  op : RefOp
deriving DecidableEq, Repr

/-- The variable that is decomposed: whether it names the initializer or a copy of it, whether it is `const`, and whether `e` is used
as an lvalue (for the tuple of standard_layout_tuple.hpp:67). -/
structure Entity where
  isCopy : Bool
  const : Bool
  lvalue : Bool
deriving DecidableEq, Repr

/-- The variable introduced for an initializer that is an lvalue or not, `const` or not (language rule for declarations with a tuple of
standard_layout_tuple.hpp:67). -/
def entity (d : Decl) (initLvalue initConst : Bool) : Option Entity := match d.op with
  | .copy => some ⟨true, d.const, false⟩
  | .lref => if initLvalue || d.const || initConst then some ⟨false, d.const || initConst, true⟩ else none
  | .rref => match d.const, initLvalue with
    | false, true => some ⟨false, initConst, true⟩
    | true, true => none
    | c, false => some ⟨false, c || initConst, false⟩

/-- Is an expression of this type an lvalue (language rule for calls of standard_layout_tuple.hpp:101)? -/
def isLvalue : Ty → Bool
  | .lref _ => true
  | .rref o => isFunc o
  | .val _ => false

/-- Can a variable of reference type `r` be initialized with an expression of type `e`, both of the same type up to qualifiers
(language rule for bindings of standard_layout_tuple.hpp:101)? -/
def binds (r e : Ty) : Bool := match r with
  | .lref o => bindable e.obj o && (isLvalue e || (o.isConst && !o.isVolatile))
  | .rref o => bindable e.obj o && (!isLvalue e || isFunc o)
  | .val _ => false

/-- The variable for one binding: a reference to `ti`, an lvalue reference if the initializer is an lvalue (language rule for bindings of
standard_layout_tuple.hpp:149-156). -/
def bindOne (ti e : Ty) : Option Ty :=
  (if isLvalue e then ti.addL else ti.addR).bind fun r => if binds r e then some ti else none

/-- One name of a structured binding: `decltype` of it, and the object it means (standard_layout_tuple.hpp:100-109, 149-156). -/
structure Name where
  type : Ty
  ofCopy : Bool
  place : Place
deriving DecidableEq, Repr

/-- The names for the positions from `ix` on (standard_layout_tuple.hpp:100-109, 149-156). -/
def names (name : List Ty → Nat) (ts : List Ty) (e : Entity) : Nat → Nat → Option (List Name)
  | _, 0 => some []
  | ix, k + 1 =>
    let tuple := Obj.named (name ts) e.const false
    (getType name ts (if e.lvalue then .lref tuple else .val tuple) ix).bind fun g =>
    (tupleElement ts e.const ix).bind fun ti => (bindOne ti g).bind fun t =>
    (getPlace ts 0 ix).bind fun p => (names name ts e (ix + 1) k).map fun r => ⟨t, e.isCopy, p⟩ :: r

/-- `auto [a, b, ...] = tuple;` with `n` names (standard_layout_tuple.hpp:100-109, 149-156). -/
def bind (name : List Ty → Nat) (ts : List Ty) (d : Decl) (initLvalue initConst : Bool) (n : Nat) : Option (List Name) :=
  if n = tupleSize ts then (entity d initLvalue initConst).bind fun e => names name ts e 0 n else none

/-! ### pointer_tag_pair -/

/-- `std::tuple_element` of `pointer_tag_pair<T, Tag>` (pointer_tag_pair.hpp:128-145): `ptr` is `T *`, and `const` makes no difference. -/
def pairElement (ptr tag : Obj) (_pairConst : Bool) : Nat → Option Ty
  | 0 => some (.val ptr)
  | 1 => some (.val tag)
  | _ => none

/-- The type of `get<I>(pair)` (pointer_tag_pair.hpp:107-109): a value. -/
def pairGet (ptr tag : Obj) (i : Nat) : Option Ty := pairElement ptr tag false i

/-- A name of a structured binding of a pair (pointer_tag_pair.hpp:107-145): its type; it means a temporary object that holds the part. -/
def pairName (ptr tag : Obj) (pairConst : Bool) (i : Nat) : Option Ty :=
  (pairGet ptr tag i).bind fun g => (pairElement ptr tag pairConst i).bind fun ti =>
  (if isLvalue g then ti.addL else ti.addR).bind fun r => match r with
    | .rref o => if bindable g.obj o then some ti else none
    | _ => none

/-- `auto [p, t] = pair;` (pointer_tag_pair.hpp:107-145): the types of the names. -/
def pairBind (ptr tag : Obj) (d : Decl) (initLvalue initConst : Bool) (n : Nat) : Option (List Ty) :=
  if n = 2 then (entity d initLvalue initConst).bind fun e =>
    (pairName ptr tag e.const 0).bind fun a => (pairName ptr tag e.const 1).map fun b => [a, b]
  else none

end Verif.Binding
