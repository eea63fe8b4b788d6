/-!
Model of overloaded.hpp: `overloaded` (an overload set made of function objects) and `match` (visiting a variant with such a set).

What the compiler does with the overload set is described for one argument, which is what visiting one variant needs: which function
objects can take the argument, how good the conversion is, and the tie-breakers of [over.match.best]. Conversions are abstract: a type
`Conv` of implicit conversion sequences with the relation "better than".
-/
namespace Verif.Overload

/-- What the language says about conversions and tie-breakers ([over.match.best]) (for the overload set of overloaded.hpp:15-18). -/
structure Rules (Key Conv : Type) where
  /-- the first conversion sequence is better than the second ([over.ics.rank]) -/
  lt : Conv → Conv → Bool
  /-- tie-breakers between functions: a non-template is better than a template, the more specialised template is better than the other, the
  more constrained one is better than the other -/
  tie : Key → Key → Bool

/-- The type of a function object, as far as the base class list of `overloaded` is concerned (overloaded.hpp:15-18). -/
inductive Shape
  /-- a class that may be derived from, e.g. a lambda -/
  | cls
  /-- a final class -/
  | final
  /-- not a class, e.g. a function pointer -/
  | other
deriving DecidableEq, Repr

/-- The type of a function object. `Arg` are the argument types including value category, `Ret` the return types (`Fs` in overloaded.hpp:15). -/
structure FnType (Key Arg Conv Ret : Type) where
  /-- identity of the type -/
  key : Key
  shape : Shape
  /-- the implicit conversion sequence from an argument to the parameter, if there is one -/
  conv : Arg → Option Conv
  /-- the return type for an argument -/
  ret : Arg → Ret

/-- A function object: its type, its own state, and what a call does. A call takes and returns the state of the object and the state `σ` of
the rest of the program, and ends with a result or an exception (`fs` in overloaded.hpp:24). -/
structure Fn (Key Arg Conv Ret Val Res Own σ : Type) extends FnType Key Arg Conv Ret where
  own : Own
  call : Own → Val → σ → Own × σ × Except Val Res

variable {Key Arg Conv Ret Val Res Own σ : Type}

/-- One function of the overload set is better than another for an argument ([over.match.best.general], for one argument) (for the overload set of
overloaded.hpp:15-18). -/
def better (R : Rules Key Conv) (a : Arg) (f g : FnType Key Arg Conv Ret) : Bool := match f.conv a, g.conv a with
  | some c, some d => !R.lt d c && (R.lt c d || R.tie f.key g.key)
  | _, _ => false

/-- A function of the overload set that can take the argument (for the overload set of overloaded.hpp:15-18). -/
def viable (a : Arg) (f : FnType Key Arg Conv Ret) : Bool := (f.conv a).isSome

/-- The function at index `i` is the best one: it is viable and better than any other viable one (for the overload set of overloaded.hpp:15-18). -/
def isBest (R : Rules Key Conv) (a : Arg) (fs : List (FnType Key Arg Conv Ret)) (i : Nat) : Bool := match fs[i]? with
  | none => false
  | some f => viable a f && (List.range fs.length).all fun j => j == i || match fs[j]? with
    | some g => !viable a g || better R a f g
    | none => true

/-- Overload resolution for a call `overloaded{fs...}(a)`: `using Fs::operator()...` makes all call operators candidates
(overloaded.hpp:15-18). `none`: no viable function, or the call is ambiguous. -/
def resolve (R : Rules Key Conv) (a : Arg) (fs : List (FnType Key Arg Conv Ret)) : Option Nat :=
  (List.range fs.length).find? (isBest R a fs)

/-- `overloaded<Fs...>` is a valid type: all `Fs` are classes that may be base classes, and no two of them are the same class
(overloaded.hpp:15-21). -/
def validSet [DecidableEq Key] (fs : List (FnType Key Arg Conv Ret)) : Bool :=
  fs.all (fun f => f.shape == .cls) && decide ((fs.map (·.key)).Nodup)

/-- `match(variant, fs...)` compiles (overloaded.hpp:23-26): the overload set is valid, `visit` finds a function for each alternative, and
all of them return the same type. `alts` are the types of the alternatives with the value category and constness of the variant. -/
def accepted [DecidableEq Key] [DecidableEq Ret] (R : Rules Key Conv) (alts : List Arg) (fs : List (FnType Key Arg Conv Ret)) : Bool :=
  validSet fs && alts.all (fun a => (resolve R a fs).isSome) &&
    alts.all fun a => alts.all fun b => match resolve R a fs, resolve R b fs with
      | some i, some j => (fs[i]?.map (·.ret a)) == (fs[j]?.map (·.ret b))
      | _, _ => true

/-- How a call of `match` ends, as seen by the caller (overloaded.hpp:23-26). -/
inductive Outcome (Val Res : Type)
  | ok (r : Res)
  /-- exception of a function -/
  | threw (e : Val)
  | badVariantAccess
deriving DecidableEq, Repr

/-- What the caller can see after `match`: the outcome, the state of the program, the caller's own function objects, and (ghost) the calls
made: which function with which value (overloaded.hpp:23-26). -/
structure After (Key Val Res Own σ : Type) where
  out : Outcome Val Res
  world : σ
  fns : List Own
  calls : List (Key × Val)

/-- `match(variant, fs...)` (overloaded.hpp:23-26) for a variant holding a value of alternative `k`, or nothing. The overload set is built from
copies of the functions (deduction guide, overloaded.hpp:20-21; for rvalues moved copies), so a call changes the state of the copy only. It
is assumed that moving a function object does not change its own state and copies do not throw. `none`: the call does not compile. -/
def «match» [DecidableEq Key] [DecidableEq Ret] (R : Rules Key Conv) (alts : List Arg) (fs : List (Fn Key Arg Conv Ret Val Res Own σ))
    (held : Option (Nat × Val)) (w : σ) : Option (After Key Val Res Own σ) :=
  if accepted R alts (fs.map (·.toFnType)) then
    match held with
    | none => some ⟨.badVariantAccess, w, fs.map (·.own), []⟩
    | some (k, v) =>
      alts[k]?.bind fun a => (resolve R a (fs.map (·.toFnType))).bind fun i => fs[i]?.map fun f =>
        let (_, w', r) := f.call f.own v w
        ⟨match r with | .ok r => .ok r | .error e => .threw e, w', fs.map (·.own), [(f.key, v)]⟩
  else none

end Verif.Overload
