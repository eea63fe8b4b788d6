/-!
# Which alternative a value selects

`variant2<T, U>` has no converting template like `std::variant`: a value is taken by one of the overloads for `T const &`, `T &&`, `U const &`, `U &&`
(constructors: variant2.hpp:259-277, assignments: variant2.hpp:513-629), next to the overloads for another variant (variant2.hpp:204-256, 329-511).
Which alternative a value ends up in is decided by overload resolution, that is by the implicit conversions of the argument. This file models
implicit conversions and overload resolution for one argument ([over.ics.rank], [over.best.ics]) and applies them to those overloads.

Simplified: types are `bool`, integers of a width and a signedness, floating point types of a width, one pointer type and classes; enumerations, other
pointers, `nullptr_t`, types of equal width (`long` and `long long`), `volatile`, and arguments that are themselves variants of this type, or that
convert to such variants, are not modelled. Classes have at most one direct base.
-/
namespace Verif.Init

/-- Types of arguments and alternatives; `T` and `U` of variant2.hpp:178-183. -/
inductive Ty where
  | bool
  | int (width : Nat) (signed : Bool)
  | flt (width : Nat)
  | ptr
  | cls (n : Nat)
  deriving DecidableEq, Repr

/-- `int` (an alternative `T` of variant2.hpp:178, as in tests/tests_variant2.cpp:126). -/
abbrev Ty.int32 : Ty := .int 32 true

/-- The classes of a program: the bases of each from the nearest to the furthest, the parameter types of the non-explicit constructors, the targets of the
non-explicit conversion functions, and whether there is a default constructor (of the alternatives, variant2.hpp:178-193). -/
structure Env where
  bases : Nat → List Nat
  ctors : Nat → List Ty
  convs : Nat → List Ty
  dflt : Nat → Bool

/-- A standard conversion sequence as it is ranked: 0 exact match, 1 promotion, 2 conversion, and among conversions the distance to the base class
(conversions of the arguments of variant2.hpp:259-277, 513-629). -/
structure Std where
  rank : Nat
  depth : Nat
  deriving DecidableEq, Repr

/-- Strictly better ranked (conversions of the arguments of variant2.hpp:259-277, 513-629). -/
def Std.better (a b : Std) : Bool := decide (a.rank < b.rank) || (decide (a.rank = b.rank) && decide (a.depth < b.depth))

/-- The standard conversion from `s` to `t` (of the arguments of variant2.hpp:259-277, 513-629). Conversions of pointers to `bool` are worse than
others. -/
def stdConv (env : Env) (s t : Ty) : Option Std :=
  if s = t then some ⟨0, 0⟩ else match s, t with
  | .bool, .int w sg => if w = 32 ∧ sg = true then some ⟨1, 0⟩ else some ⟨2, 0⟩
  | .int w _, .int w' sg' => if w < 32 ∧ w' = 32 ∧ sg' = true then some ⟨1, 0⟩ else some ⟨2, 0⟩
  | .flt w, .flt w' => if w = 32 ∧ w' = 64 then some ⟨1, 0⟩ else some ⟨2, 0⟩
  | .int _ _, .bool => some ⟨2, 0⟩
  | .flt _, .bool => some ⟨2, 0⟩
  | .bool, .flt _ => some ⟨2, 0⟩
  | .int _ _, .flt _ => some ⟨2, 0⟩
  | .flt _, .int _ _ => some ⟨2, 0⟩
  | .ptr, .bool => some ⟨2, 1⟩
  | .cls d, .cls b => if b ∈ env.bases d then some ⟨2, (env.bases d).idxOf b⟩ else none
  | _, _ => none

/-- A function that converts: the `k`-th constructor or conversion function of a class, a default constructor (for `{}`), or a constructor of the
variant for an alternative or without arguments (variant2.hpp:199-202, 259-277). -/
inductive Fn where
  | ctor (n k : Nat) | conv (n k : Nat) | dflt (n : Nat) | self (alt : Bool) | selfDflt
  deriving DecidableEq, Repr

/-- An implicit conversion sequence; `ambiguous` if several user-defined conversions are equally good (for variant2.hpp:259-277, 513-629). -/
inductive Ics where
  | std (c : Std)
  | user (f : Fn) (second : Std)
  | ambiguous
  deriving DecidableEq, Repr

/-- Strictly better: standard conversions before user-defined ones; those are only compared if they use the same function (for variant2.hpp:259-277,
513-629). -/
def Ics.better : Ics → Ics → Bool
  | .std a, .std b => a.better b
  | .std _, _ => true
  | .user f a, .user g b => decide (f = g) && a.better b
  | _, _ => false

/-- A user-defined conversion considered: its function, the conversion of the argument, the conversion of its result (for variant2.hpp:259-277, 513-629). -/
structure UConv where
  fn : Fn
  first : Std
  second : Std
  deriving DecidableEq, Repr

/-- Strictly better user-defined conversion to the same type (for variant2.hpp:259-277, 513-629). -/
def UConv.better (a b : UConv) : Bool := a.first.better b.first || (decide (a.first = b.first) && a.second.better b.second)

/-- All user-defined conversions from `s` to `t`: constructors of `t`, conversion functions of `s` (for variant2.hpp:259-277, 513-629). -/
def userConvs (env : Env) (s t : Ty) : List UConv :=
  (match t with
    | .cls n => (env.ctors n).zipIdx.filterMap fun p => (stdConv env s p.1).map fun c => ⟨.ctor n p.2, c, ⟨0, 0⟩⟩
    | _ => []) ++
  (match s with
    | .cls m => (env.convs m).zipIdx.filterMap fun p => (stdConv env p.1 t).map fun c => ⟨.conv m p.2, ⟨0, 0⟩, c⟩
    | _ => [])

/-- The best one of several user-defined conversions (for variant2.hpp:259-277, 513-629). -/
def bestUser (l : List UConv) : Option Ics :=
  if l = [] then none else match l.filter fun c => l.all fun d => decide (d.fn = c.fn) || c.better d with
  | c :: _ => some (.user c.fn c.second)
  | [] => some .ambiguous

/-- The implicit conversion from `s` to `t`, if there is one (for variant2.hpp:259-277, 513-629). -/
def conv (env : Env) (s t : Ty) : Option Ics :=
  match stdConv env s t with
  | some c => some (.std c)
  | none => bestUser (userConvs env s t)

/-- The argument: an expression of a type, an lvalue or not, or the empty braces (of variant2.hpp:259-277, 513-629). -/
inductive Src where
  | expr (s : Ty) (lvalue : Bool)
  | braces
  deriving DecidableEq, Repr

/-- The parameter types of the overloads: an alternative (`false`: `T`, `true`: `U`) or another variant (variant2.hpp:204-277, 329-629). -/
inductive Target where
  | alt (u : Bool) | self
  deriving DecidableEq, Repr

/-- A `variant2<T, U>` (variant2.hpp:178-183). -/
structure Alts where
  T : Ty
  U : Ty
  deriving DecidableEq, Repr

/-- The alternatives by number (variant2.hpp:182-183). -/
def Alts.get (a : Alts) : Bool → Ty
  | false => a.T
  | true => a.U

/-- The conversion of the argument to a parameter. `{}` initializes a scalar without a conversion and a class with its default constructor. A value becomes
a variant through one of the constructors for values, whose arguments must not need a user-defined conversion themselves; `{}` through the default
constructor (variant2.hpp:199-202, 204-277, 329-629). -/
def icsTo (env : Env) (a : Alts) : Src → Target → Option Ics
  | .expr s _, .alt u => conv env s (a.get u)
  | .expr s _, .self => match stdConv env s a.T, stdConv env s a.U with
    | none, none => none
    | some c, none => some (.user (.self false) c)
    | none, some c => some (.user (.self true) c)
    | some c, some d => some (if c.better d then .user (.self false) c else if d.better c then .user (.self true) d else .ambiguous)
  | .braces, .alt u => match a.get u with
    | .cls n => if env.dflt n then some (.user (.dflt n) ⟨0, 0⟩) else none
    | _ => some (.std ⟨0, 0⟩)
  | .braces, .self => some (.user .selfDflt ⟨0, 0⟩)

/-- Whether a reference to `t` binds to an expression of type `s` itself: the same type or a base class. An rvalue reference does not bind to such an
lvalue (the overloads of variant2.hpp:264, 274, 544, 600). -/
def related (env : Env) (s t : Ty) : Bool := decide (s = t) || match s, t with
  | .cls d, .cls b => decide (b ∈ env.bases d)
  | _, _ => false

/-- One overload: the parameter, `X &&` or `X const &`, and the conversion of the argument (variant2.hpp:204-277, 329-629). -/
structure Cand where
  to : Target
  rv : Bool
  ics : Ics
  deriving DecidableEq, Repr

/-- The overloads that can be called: `X const &` if the argument converts, `X &&` also only if it does not have to bind to an lvalue
(variant2.hpp:204-277, 329-629). -/
def cands (env : Env) (a : Alts) (s : Src) : List Cand :=
  [Target.alt false, .alt true, .self].flatMap fun t => match icsTo env a s t with
  | none => []
  | some i => ⟨t, false, i⟩ :: (match s, t with
    | .expr x true, .alt u => if related env x (a.get u) then [] else [⟨t, true, i⟩]
    | _, _ => [⟨t, true, i⟩])

/-- Conversions that can be compared: two standard ones, or user-defined ones by the same function (for variant2.hpp:259-277, 513-629). -/
def Ics.comparable : Ics → Ics → Bool
  | .std _, .std _ => true
  | .user f _, .user g _ => decide (f = g)
  | _, _ => false

/-- The better overload: the better conversion, otherwise the rvalue reference, which never binds to an lvalue here (for variant2.hpp:204-277,
329-629). -/
def Cand.better (c d : Cand) : Bool :=
  c.ics.better d.ics || (!d.ics.better c.ics && c.ics.comparable d.ics && c.rv && !d.rv)

/-- The outcome: the program is ill-formed as no overload can be called or none is the best, or one is called (of variant2.hpp:204-277, 329-629). -/
inductive Choice where
  | none | ambiguous | one (to : Target) (rv : Bool)
  deriving DecidableEq, Repr

/-- The overload called by `variant2<T, U> v(x)` and by `v = x`; both have the same parameters. A conversion that is ambiguous cannot be carried out
(variant2.hpp:204-277, 329-629). -/
def choose (env : Env) (a : Alts) (s : Src) : Choice :=
  let cs := cands env a s
  if cs = [] then .none else match cs.filter fun c => cs.all fun d => decide (d.to = c.to ∧ d.rv = c.rv) || c.better d with
  | c :: _ => if c.ics = .ambiguous then .ambiguous else .one c.to c.rv
  | [] => .ambiguous

end Verif.Init
