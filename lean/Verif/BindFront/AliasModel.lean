import Verif.BindFront.Model

/-!
`bind_front` and `DICE_MEMFN` with objects instead of values: several arguments may be the same object, the callee may change objects the arguments refer
to, and the program goes on changing its objects between the calls.

Simplified: all objects have values of one type; bound arguments are no references (`std::ref`); a callee that calls the closure again is not modelled.
-/
namespace Verif.BindFront.Alias

open Verif.BindFront (Param Arg accepts)

variable {V ρ : Type}

/-- The objects there are: those of the program, the members of the closure (functional.hpp:38), and the parameters of the function called that are no
references (functional.hpp:40). -/
inductive Loc
  | obj (n : Nat)
  | bound (i : Nat)
  | param (i : Nat)
deriving DecidableEq, Repr

/-- The values of all objects (of functional.hpp:38-40, memfn.hpp:14-17). -/
abbrev Mem (V : Type) := Loc → V

/-- Change one object (done by calls of functional.hpp:40, memfn.hpp:16). -/
def Mem.set (m : Mem V) (l : Loc) (v : V) : Mem V := fun l' => if l' = l then v else m l'

/-- An argument expression names an object (functional.hpp:35, 38; memfn.hpp:15). -/
structure Ref where
  loc : Loc
  lvalue : Bool
  const : Bool
deriving DecidableEq, Repr

/-- What the function called does (`func`, functional.hpp:34; `member_func`, memfn.hpp:14): reads and writes its parameters and objects of the program it knows, then returns or
throws (`none`). -/
inductive Body (V ρ : Type)
  | ret (r : Option ρ)
  | read (p : Nat) (k : V → Body V ρ)
  | write (p : Nat) (v : V) (k : Body V ρ)
  | peek (n : Nat) (k : V → Body V ρ)
  | poke (n : Nat) (v : V) (k : Body V ρ)

/-- Does the body compile with these parameters? `T const &` cannot be written to (language rule for `func`, functional.hpp:34). -/
def Body.compiles (ps : List Param) : Body V ρ → Prop
  | .ret _ => True
  | .read _ k => ∀ v, (k v).compiles ps
  | .write p _ k => ps[p]? ≠ some .constRef ∧ k.compiles ps
  | .peek _ k => ∀ v, (k v).compiles ps
  | .poke _ _ k => k.compiles ps

/-- The object a parameter is or refers to (language rule for the call in functional.hpp:40, memfn.hpp:16). -/
def target (ps : List Param) (args : List Ref) (p : Nat) : Option Loc :=
  match ps[p]? with
  | some .byValue => some (.param p)
  | some _ => (args[p]?).map (·.loc)
  | none => none

/-- One step of the body; `none`: it has ended, or uses a parameter it does not have (for the call in functional.hpp:40, memfn.hpp:16). -/
def step (ps : List Param) (args : List Ref) : Body V ρ × Mem V → Option (Body V ρ × Mem V)
  | (.ret _, _) => none
  | (.read p k, m) => (target ps args p).map fun l => (k (m l), m)
  | (.write p v k, m) => (target ps args p).map fun l => (k, m.set l v)
  | (.peek n k, m) => some (k (m (.obj n)), m)
  | (.poke n v k, m) => some (k, m.set (.obj n) v)

/-- The states a call goes through (the call in functional.hpp:40, memfn.hpp:16). -/
inductive Steps (ps : List Param) (args : List Ref) (x : Body V ρ × Mem V) : Body V ρ × Mem V → Prop
  | refl : Steps ps args x x
  | tail {y z} : Steps ps args x y → step ps args y = some z → Steps ps args x z

/-- Initialize one parameter: one by value is a copy, or takes over the value of an rvalue that is not const (language rule for the call in functional.hpp:40,
memfn.hpp:16). -/
def initParam (moved : V → V) (ps : List Param) (args : List Ref) (m : Mem V) (p : Nat) : Mem V :=
  match ps[p]?, args[p]? with
  | some .byValue, some a => match a.lvalue || a.const with
    | true => m.set (.param p) (m a.loc)
    | false => (m.set a.loc (moved (m a.loc))).set (.param p) (m a.loc)
  | _, _ => m

/-- Initialize the parameters in the order the compiler likes (language rule for the call in functional.hpp:40, memfn.hpp:16). -/
def enter (moved : V → V) (ps : List Param) (args : List Ref) (order : List Nat) (m : Mem V) : Mem V :=
  order.foldl (initParam moved ps args) m

/-- The call compiles (functional.hpp:40, memfn.hpp:16). -/
def callable (ps : List Param) (args : List Ref) : Prop :=
  ps.length = args.length ∧ ∀ pa ∈ ps.zip args, accepts pa.1 (⟨(), pa.2.lvalue, pa.2.const⟩ : Arg Unit) = true

/-- The arguments of the function when a closure with `n` members is called, as an lvalue or not, const or not (functional.hpp:38-40). -/
def closureArgs (n : Nat) (lvalue const : Bool) (rest : List Ref) : List Ref :=
  (List.range n).map (fun i => ⟨.bound i, lvalue, const⟩) ++ rest

/-- Initialize the members of the closure, one after the other (functional.hpp:38). -/
def bindFrom (moved : V → V) : Nat → List Ref → Mem V → Mem V
  | _, [], m => m
  | i, a :: as, m => bindFrom moved (i + 1) as (match a.lvalue || a.const with
    | true => m.set (.bound i) (m a.loc)
    | false => (m.set a.loc (moved (m a.loc))).set (.bound i) (m a.loc))

/-- `bind_front<f>(args...)` (functional.hpp:35-38). -/
def bindFront (moved : V → V) (args : List Ref) (m : Mem V) : Mem V := bindFrom moved 0 args m

/-- The arguments of the member function when `DICE_MEMFN(m, x...)` is called, for variables `x` (memfn.hpp:14-16): the variables themselves. -/
def memfnArgs (vars : List Nat) (rest : List Ref) : List Ref := vars.map (fun n => ⟨.obj n, true, false⟩) ++ rest

/-- What happens after `bind_front`: the program changes an object, or a call of the closure has got to some point (functional.hpp:38-40). -/
inductive After (moved : V → V) (ps : List Param) (n : Nat) (lvalue const : Bool) (body : Body V ρ) : Mem V → Mem V → Prop
  | refl (m) : After moved ps n lvalue const body m m
  | change {m m'} (k : Nat) (v : V) : After moved ps n lvalue const body m m' → After moved ps n lvalue const body m (m'.set (.obj k) v)
  | call {m m' b' m''} (rest : List Ref) (order : List Nat) : After moved ps n lvalue const body m m' →
    callable ps (closureArgs n lvalue const rest) → (∀ a ∈ rest, ∃ k, a.loc = .obj k) →
    Steps ps (closureArgs n lvalue const rest) (body, enter moved ps (closureArgs n lvalue const rest) order m') (b', m'') →
    After moved ps n lvalue const body m m''

end Verif.BindFront.Alias
