import Verif.Init.Model
/-!
# Construction in place

Most of the library creates objects from the arguments of the user with braces, `T{std::forward<Args>(args)...}`, the channels hand the arguments to
containers of the standard library, which use parentheses. This file models both forms of initialization ([dcl.init.general], [dcl.init.list]) with
overload resolution for any number of arguments.

Simplified: arguments are described by their types alone; aggregates, explicit conversion functions and templates of constructors are not modelled; a class has
at most one constructor that takes a `std::initializer_list` and nothing else.
-/
namespace Verif.Init

/-- What can be seen of a class when an object is made: the parameters of all constructors except for the one with an initializer list, including the copy
constructor, the element type of that one, and which of them do not throw (the classes `T` of variant2.hpp:282, mutex.hpp:101, and others). -/
structure Cls where
  ctors : List (List Ty)
  list : Option Ty
  nothrow : Nat → Bool
  nothrowList : Bool

/-- How an object is made: by the `k`-th constructor, by the constructor for initializer lists with so many elements, by conversion to a scalar,
or as a zero; or the program is ill-formed (for variant2.hpp:282, mutex.hpp:101, and others). -/
inductive Made where
  | ctor (k : Nat) | list (n : Nat) | scalar | zero | illFormed
  deriving DecidableEq, Repr

/-- The conversions of the arguments to the parameters, if there are (for variant2.hpp:282, mutex.hpp:101, and others). -/
def argIcs (env : Env) : List Ty → List Ty → Option (List Ics)
  | [], [] => some []
  | s :: ss, p :: ps => match conv env s p, argIcs env ss ps with
    | some i, some l => some (i :: l)
    | _, _ => none
  | _, _ => none

/-- A better constructor: no conversion is worse and one is better (for variant2.hpp:282, mutex.hpp:101, and others). -/
def betterAll (xs ys : List Ics) : Bool :=
  ((xs.zip ys).all fun p => !p.2.better p.1) && (xs.zip ys).any fun p => p.1.better p.2

/-- The constructors that can be called, with their numbers (for variant2.hpp:282, mutex.hpp:101, and others). -/
def viable (env : Env) (k : Cls) (args : List Ty) : List (Nat × List Ics) :=
  k.ctors.zipIdx.filterMap fun p => (argIcs env args p.1).map fun l => (p.2, l)

/-- `T(args...)` (what `std::is_constructible` asks for and the containers of the channels use, channel.hpp:100, 126, exchange_channel.hpp:91). -/
def paren (env : Env) (K : Nat → Cls) (t : Ty) (args : List Ty) : Made :=
  match t with
  | .cls n =>
    let cs := viable env (K n) args
    match cs.filter fun c => cs.all fun d => decide (d.1 = c.1) || betterAll c.2 d.2 with
    | c :: _ => if .ambiguous ∈ c.2 then .illFormed else .ctor c.1
    | [] => .illFormed
  | t => match args with
    | [] => .zero
    | [s] => match conv env s t with
      | some .ambiguous => .illFormed
      | some _ => .scalar
      | none => .illFormed
    | _ => .illFormed

/-- The values of the types with integral values ([dcl.init.list]/7, for variant2.hpp:282, mutex.hpp:101, and others). -/
def bounds : Ty → Option (Int × Int)
  | .bool => some (0, 1)
  | .int w sg => if sg then some (-(2 ^ (w - 1) : Nat), (2 ^ (w - 1) : Nat) - 1) else some (0, (2 ^ w : Nat) - 1)
  | _ => none

/-- Narrowing conversions ([dcl.init.list]/7, for variant2.hpp:282, mutex.hpp:101, and others). -/
def narrows (s t : Ty) : Bool :=
  match s, t with
  | .flt w, .flt w' => decide (w' < w)
  | .flt _, .bool => true
  | .flt _, .int _ _ => true
  | .bool, .flt _ => true
  | .int _ _, .flt _ => true
  | .ptr, .bool => true
  | s, t => match bounds s, bounds t with
    | some b, some b' => decide (b.1 < b'.1) || decide (b'.2 < b.2)
    | _, _ => false

/-- An argument in braces can be converted: not ambiguous, and not narrowing at the end ([dcl.init.list]/3, for variant2.hpp:282, mutex.hpp:101, and
others). -/
def braceable (env : Env) (s t : Ty) : Bool :=
  match conv env s t with
  | some (.std _) => !narrows s t
  | some (.user (.conv m k) _) => !((env.convs m)[k]?.any fun q => narrows q t)
  | some (.user _ _) => true
  | _ => false

/-- `T{args...}`: no arguments select the default constructor, otherwise the constructor for initializer lists is used if all arguments convert to its elements,
otherwise the same constructors as for parentheses; narrowing is ill-formed (variant2.hpp:201-301, 352-691, inplace_polymorphic.hpp:128, 143, 229,
mutex.hpp:92-102, shared_mutex.hpp:94-104, standard_layout_tuple.hpp:84, 91). -/
def brace (env : Env) (K : Nat → Cls) (t : Ty) (args : List Ty) : Made :=
  match t with
  | .cls n =>
    if args = [] ∧ [] ∈ (K n).ctors then paren env K t args
    else if ((K n).list.any fun x => args.all fun s => (conv env s x).isSome) then
      (if ((K n).list.all fun x => args.all fun s => braceable env s x) then .list args.length else .illFormed)
    else match paren env K t args with
      | .ctor k => if (((K n).ctors[k]?.getD []).zip args).all (fun p => braceable env p.2 p.1) then .ctor k else .illFormed
      | r => r
  | t => match args with
    | [] => .zero
    | [s] => if braceable env s t then .scalar else .illFormed
    | _ => .illFormed

/-- The functions of the library that make an object of a type of the user from arguments (variant2.hpp:204-301, 329-716, mutex.hpp:91-102, and others, see below). -/
inductive Site where
  /-- The constructors with `std::in_place_type_t` and `std::in_place_index_t`, and `emplace` (variant2.hpp:280-301, 650-716). -/
  | variant
  /-- Constructors and assignments from a value or another variant, a single argument (variant2.hpp:204-277, 329-629). -/
  | variantValue
  /-- `inplace_polymorphic` (inplace_polymorphic.hpp:139-145, 223-231). -/
  | polymorphic
  /-- `mutex` and `shared_mutex` (mutex.hpp:91-102, shared_mutex.hpp:93-104). -/
  | mutex
  /-- An element of a tuple: one argument, or all of them with `uniform_construct` (standard_layout_tuple.hpp:73-94). -/
  | tuple
  /-- `emplace`, `try_emplace`, `push`, `try_push` (channel.hpp:85-170). -/
  | channel
  /-- `emplace`, `push` (exchange_channel.hpp:79-116). -/
  | exchange
  deriving DecidableEq, Repr

/-- How an object is made: the channels use `std::deque::emplace_back` and `std::optional::emplace` (channel.hpp:100, 126, exchange_channel.hpp:91), the others
braces (see `Site`). -/
def Site.make (env : Env) (K : Nat → Cls) : Site → Ty → List Ty → Made
  | .channel => paren env K
  | .exchange => paren env K
  | _ => brace env K

/-- Whether an expression `T(args...)` is known not to throw: `std::is_nothrow_constructible_v<T, Args...>`, and for one argument of the type itself the
traits for copying and moving (variant2.hpp:207, 235, 259-299, inplace_polymorphic.hpp:139, 223, mutex.hpp:91-100, shared_mutex.hpp:93-102,
channel.hpp:85, 114, exchange_channel.hpp:79). -/
def declaredNoexcept (env : Env) (K : Nat → Cls) (t : Ty) (args : List Ty) : Bool :=
  match t, paren env K t args with
  | .cls n, .ctor k => (K n).nothrow k
  | _, .illFormed => false
  | _, _ => true

/-- What making the object executes (variant2.hpp:201-301, 352-691, inplace_polymorphic.hpp:143, 229, mutex.hpp:101, shared_mutex.hpp:103,
channel.hpp:100, exchange_channel.hpp:91). -/
def mayThrow (K : Nat → Cls) (t : Ty) : Made → Bool
  | .ctor k => match t with
    | .cls n => !(K n).nothrow k
    | _ => false
  | .list _ => match t with
    | .cls n => !(K n).nothrowList
    | _ => false
  | _ => false

/-- A tuple made from one argument for each element (standard_layout_tuple.hpp:73-87). -/
def tupleOf (env : Env) (K : Nat → Cls) : List Ty → List Ty → Option (List Made)
  | [], [] => some []
  | t :: ts, s :: ss => (tupleOf env K ts ss).bind fun r => match Site.tuple.make env K t [s] with
    | .illFormed => none
    | m => some (m :: r)
  | _, _ => none

/-- A tuple with all elements made from the same arguments (standard_layout_tuple.hpp:50-51, 89-94). -/
def tupleUniform (env : Env) (K : Nat → Cls) (args : List Ty) : List Ty → Option (List Made)
  | [] => some []
  | t :: ts => (tupleUniform env K args ts).bind fun r => match Site.tuple.make env K t args with
    | .illFormed => none
    | m => some (m :: r)

end Verif.Init
