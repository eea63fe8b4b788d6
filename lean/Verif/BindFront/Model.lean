import Verif.Qualifiers.Model

/-!
Model of functional.hpp (`bind_front`) and memfn.hpp (`DICE_MEMFN`).

Objects have values of a type `V`; `moved v` is the value of an object holding `v` after it was moved from. A callee is a body with
parameters declared in one of four ways. Programs that do not compile give `none`.
-/
namespace Verif.BindFront

variable {σ V ρ : Type}

/-- An argument expression: the value of the object it refers to, its value category and constness (the arguments of functional.hpp:35, 38). -/
structure Arg (V : Type) where
  value : V
  lvalue : Bool
  const : Bool
deriving DecidableEq, Repr

/-- How a parameter is declared (parameters of `func`, functional.hpp:34). -/
inductive Param
  /-- `T` -/
  | byValue
  /-- `T const &` -/
  | constRef
  /-- `T &` -/
  | lvalueRef
  /-- `T &&` -/
  | rvalueRef
deriving DecidableEq, Repr

/-- Can the parameter be initialized by the argument? (language rule for the call in functional.hpp:40) -/
def accepts : Param → Arg V → Bool
  | .byValue, _ => true
  | .constRef, _ => true
  | .lvalueRef, a => a.lvalue && !a.const
  | .rvalueRef, a => !a.lvalue && !a.const

/-- The object of the argument after the call, if the callee leaves `w` in its parameter: parameters by value are initialized by copying or moving
when the call begins; through references to non-const the callee's changes are seen (language rule for the call in functional.hpp:40). -/
def after (moved : V → V) : Param → Arg V → V → V
  | .byValue, a, _ => match a.lvalue || a.const with
    | true => a.value
    | false => moved a.value
  | .constRef, a, _ => a.value
  | .lvalueRef, _, w => w
  | .rvalueRef, _, w => w

/-- Something that can be called. The body gets the values of its parameters and leaves values in them; `none` as result: it throws (`func`,
functional.hpp:34). -/
structure Callee (σ V ρ : Type) where
  params : List Param
  body : σ → List V → σ × Option ρ × (Nat → V)

/-- Result of a call: the state, the result, and the objects the arguments refer to (of the call in functional.hpp:40). -/
structure Res (σ V ρ : Type) where
  state : σ
  result : Option ρ
  objects : List V
deriving DecidableEq

/-- `std::invoke(f, args...)` (functional.hpp:40) -/
def invoke (moved : V → V) (f : Callee σ V ρ) (s : σ) (args : List (Arg V)) : Option (Res σ V ρ) :=
  match decide (f.params.length = args.length) && (f.params.zip args).all (fun pa => accepts pa.1 pa.2) with
  | false => none
  | true =>
    let r := f.body s (args.map (·.value))
    some ⟨r.1, r.2.1, (f.params.zip args).mapIdx fun i pa => after moved pa.1 pa.2 (r.2.2 i)⟩

/-! ## bind_front -/

/-- The closure: one object for each bound argument (functional.hpp:38). -/
structure Closure (V : Type) where
  bound : List V
deriving DecidableEq, Repr

/-- `bind_front<f>(bind_args...)` (functional.hpp:34-38): every argument initializes an object of the closure, by copying or moving. -/
def bindFront (args : List (Arg V)) : Closure V := ⟨args.map (·.value)⟩

/-- The objects given to `bind_front`, afterwards (functional.hpp:38, `std::forward<BindArgs>(bind_args)`). -/
def bindFrontLeaves (moved : V → V) (args : List (Arg V)) : List V := args.map fun a => after moved .byValue a a.value

/-- Calling the closure, as an lvalue or rvalue, const or not, with further arguments (functional.hpp:38-41):
`invoke(func, forward_like<Self>(bound_args)..., forward<RestArgs>(rest_args)...)`. Gives the closure and the objects of the further
arguments afterwards, too. -/
def call (moved : V → V) (f : Callee σ V ρ) (s : σ) (c : Closure V) (lvalue const : Bool) (rest : List (Arg V)) :
    Option (Res σ V ρ × Closure V) :=
  (invoke moved f s ((c.bound.map fun v => ⟨v, lvalue, const⟩) ++ rest)).map fun r =>
    (⟨r.state, r.result, r.objects.drop c.bound.length⟩, ⟨r.objects.take c.bound.length⟩)

/-- Type of the expression `forward_like<Self>(bound_arg)` (functional.hpp:40): within the lambda `bound_arg` is a member of `self`, const iff `self`
is. `self` is the closure type as `Self` is deduced: `L &`, `L const &`, `L` or `L const`. -/
def passedType (self : Qualifiers.Ty) (member : Qualifiers.Obj) : Option Qualifiers.Ty :=
  Qualifiers.forwardLike self true (match self.obj.isConst with
    | true => member.addConst
    | false => member)

/-- `type_forward_like_t<Self, decay_t<BindArg>>` (functional.hpp:13-25), used in the exception specification (39). -/
def noexceptType (self : Qualifiers.Ty) (member : Qualifiers.Obj) : Option Qualifiers.Ty :=
  let x := Qualifiers.copyConst (.val self.obj) (.val member)
  match self with
  | .lref _ => x.addL
  | _ => x.addR

/-! ## DICE_MEMFN -/

/-- The variables in scope of the macro; `none` after the end of their lifetime (memfn.hpp:15). -/
abbrev Env (V : Type) := Nat → Option V

/-- An argument of the macro, an expression evaluated in every call (memfn.hpp:14-17: captured by reference). -/
inductive MArg (V : Type)
  /-- the name of a variable, const or not -/
  | var (loc : Nat) (const : Bool)
  /-- an expression giving a new value computed from the variables -/
  | expr (f : Env V → Option V)

/-- Evaluation; `none` is undefined behaviour: the variable is gone (`__VA_ARGS__` in memfn.hpp:16). -/
def MArg.eval (env : Env V) : MArg V → Option (Arg V)
  | .var loc c => (env loc).map fun v => ⟨v, true, c⟩
  | .expr f => (f env).map fun v => ⟨v, false, false⟩

/-- All of them. (The order of evaluation is unspecified in C++ and does not matter here: evaluation has no effects.) (memfn.hpp:16) -/
def evalAll (env : Env V) : List (MArg V) → Option (List (Arg V))
  | [] => some []
  | a :: as => (a.eval env).bind fun x => (evalAll env as).map fun xs => x :: xs

/-- Variables after the call: those passed get the values the objects have. Simplification: if a variable is passed twice and changed through one of
the references, the callee does not see that through the other, and the first one counts (memfn.hpp:15-16, capture by reference). -/
def writeBack (env : Env V) : List (MArg V) → List V → Env V
  | .var loc _ :: as, v :: vs => fun l => if l = loc then some v else writeBack env as vs l
  | .expr _ :: as, _ :: vs => writeBack env as vs
  | _, _ => env

/-- How a call of the lambda ends (memfn.hpp:14-17). -/
inductive MOutcome (σ V ρ : Type)
  | done (r : Res σ V ρ) (env : Env V)
  /-- a variable is used after the end of its lifetime -/
  | undefined
  | illFormed

/-- Calling `DICE_MEMFN(m, args...)` with further arguments (memfn.hpp:14-17): `this->m(args..., forward<RuntimeArgs>(runtime_args)...)`. The state is
that of the object `this` points to. -/
def memfnCall (moved : V → V) (m : Callee σ V ρ) (args : List (MArg V)) (env : Env V) (s : σ) (rest : List (Arg V)) : MOutcome σ V ρ :=
  match evalAll env args with
  | none => .undefined
  | some xs => match invoke moved m s (xs ++ rest) with
    | none => .illFormed
    | some r => .done ⟨r.state, r.result, r.objects.drop args.length⟩ (writeBack env args (r.objects.take args.length))

end Verif.BindFront
