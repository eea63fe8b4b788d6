/-!
Model of lazy_conditional.hpp: template instantiation as evaluation with a record of the providers whose `::type` is looked at.

Providers are named by numbers; what naming `typename P::type` does is given by an environment.
-/
namespace Verif.LazyCond

/-- What naming `typename P::type` does (lazy_conditional.hpp:12-15). -/
inductive Prov (τ : Type)
  | ok (t : τ)
  /-- there is no member `type`: a substitution failure -/
  | noMember
  /-- instantiating the provider is an error, e.g. a `static_assert` in it fails -/
  | broken
deriving DecidableEq, Repr

/-- What each provider does when its `::type` is named (lazy_conditional.hpp:12-15). -/
abbrev Env (τ : Type) := Nat → Prov τ

/-- Result of an instantiation: the type, or `none` if the program is ill-formed; and the providers looked at, in order (of
lazy_conditional.hpp:60-173). -/
structure Inst (τ : Type) where
  type : Option τ
  touched : List Nat
deriving DecidableEq, Repr

variable {τ : Type}

/-- `using type = typename P::type;` in a class: without `type` in `P` the program is ill-formed (lazy_conditional.hpp:62, 70, 138). -/
def member (env : Env τ) (p : Nat) : Inst τ := match env p with
  | .ok t => ⟨some t, [p]⟩
  | .noMember => ⟨none, [p]⟩
  | .broken => ⟨none, [p]⟩

/-- `lazy_conditional<enabled, T, F>::type` (lazy_conditional.hpp:60-71). The branches are given as what naming `typename T::type` does,
since they can themselves be templates not yet instantiated. -/
def lazyConditional (enabled : Bool) (t f : Unit → Inst τ) : Inst τ := match enabled with
  | true => t ()
  | false => f ()

/-- A type fulfilling the concept `lazy_case` (lazy_conditional.hpp:20-24). -/
inductive Case
  /-- `case_<Cond, Provider>` (lazy_conditional.hpp:87-91) -/
  | case_ (cond : Bool) (p : Nat)
  /-- another class with members `condition` and `provider` -/
  | other (cond : Bool) (p : Nat)
deriving DecidableEq, Repr

/-- Checking the constraint `type_provider Provider` (lazy_conditional.hpp:12-15), to find out whether a partial specialization matches:
`Provider` is looked at. `none`: ill-formed, `some b`: fulfilled or not. -/
def typeProvider (env : Env τ) (p : Nat) : Option Bool := match env p with
  | .ok _ => some true
  | .noMember => some false
  | .broken => none

/-- The partial specializations for a first case and the rest (lazy_conditional.hpp:142-148, 167-173): if it matches, its `type`, otherwise the
primary template, which is not defined. `rest` is the remaining `lazy_switch_default<DefaultProvider, Rest...>` or `lazy_switch<Rest...>`. -/
def firstCase (env : Env τ) (c : Case) (rest : Unit → Inst τ) : Inst τ := match c with
  | .other _ _ => ⟨none, []⟩
  | .case_ cond p => match typeProvider env p with
    | some true =>
      let r := lazyConditional cond (fun _ => member env p) rest
      ⟨r.type, p :: r.touched⟩
    | some false => ⟨none, [p]⟩
    | none => ⟨none, [p]⟩

/-- `lazy_switch_default<DefaultProvider, Cases...>::type` (lazy_conditional.hpp:132-148). -/
def lazySwitchDefault (env : Env τ) (dflt : Nat) : List Case → Inst τ
  | [] => member env dflt
  | c :: cs => firstCase env c fun _ => lazySwitchDefault env dflt cs

/-- `lazy_switch<Cases...>::type` (lazy_conditional.hpp:163-173); `lazy_switch<>` is not defined. -/
def lazySwitch (env : Env τ) : List Case → Inst τ
  | [] => ⟨none, []⟩
  | c :: cs => firstCase env c fun _ => lazySwitch env cs

end Verif.LazyCond
