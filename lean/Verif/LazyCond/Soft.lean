import Verif.LazyCond.Props

/-!
What kind of error an unusable `lazy_conditional_t`, `lazy_switch_t` or `lazy_switch_default_t` is (C103): a substitution
failure, which a constraint or an overload can react to, or an error in the instantiation of a class, which ends the
compilation. A `typename P::type` written in a class template is checked when the class is instantiated: it is then never
a substitution failure. Naming `::type` of a class template that is declared but not defined is one.
-/
namespace Verif.LazyCond

variable {τ : Type}

/-- What naming `typename X::type` does: it gives a type, it is a substitution failure, or an error (lazy_conditional.hpp:60-183). -/
inductive Named (τ : Type)
  | ok (t : τ)
  | soft
  | hard
deriving DecidableEq, Repr

/-- `typename P::type` for a provider (lazy_conditional.hpp:12-15). -/
def Prov.named : Prov τ → Named τ
  | .ok t => .ok t
  | .noMember => .soft
  | .broken => .hard

/-- `typename X::type` where `X` is a class with a member `using type = typename P::type;` that has to be instantiated: a
failure inside is an error of the program (lazy_conditional.hpp:62, 70, 138, 145-148, 170-173). -/
def inClass : Named τ → Named τ
  | .ok t => .ok t
  | .soft => .hard
  | .hard => .hard

/-- `lazy_conditional_t<enabled, T, F>`; the branches are given by what naming their `::type` does
(lazy_conditional.hpp:60-78). -/
def conditionalN (enabled : Bool) (t f : Unit → Named τ) : Named τ := match enabled with
  | true => inClass (t ())
  | false => inClass (f ())

/-- The specializations for a first case and the rest (lazy_conditional.hpp:142-148, 167-173). A case that matches none of
them, or whose provider does not fulfil `type_provider`, leaves the primary template, which is not defined (132-133,
163-164). -/
def firstCaseN (env : Env τ) (c : Case) (rest : Unit → Named τ) : Named τ := match c with
  | .other _ _ => .soft
  | .case_ cond p => match typeProvider env p with
    | some true => inClass (conditionalN cond (fun _ => (env p).named) rest)
    | some false => .soft
    | none => .hard

/-- `lazy_switch_default_t<DefaultProvider, Cases...>` (lazy_conditional.hpp:132-155). -/
def switchDefaultN (env : Env τ) (dflt : Nat) : List Case → Named τ
  | [] => inClass (env dflt).named
  | c :: cs => firstCaseN env c fun _ => switchDefaultN env dflt cs

/-- `lazy_switch_t<Cases...>` (lazy_conditional.hpp:163-183). -/
def switchN (env : Env τ) : List Case → Named τ
  | [] => .soft
  | c :: cs => firstCaseN env c fun _ => switchN env cs

/-! ## Specification -/

/-- The type, if naming it gives one (lazy_conditional.hpp:62, 70, 78). -/
def Named.type? : Named τ → Option τ
  | .ok t => some t
  | _ => none

/-- A first case that can be seen to be unusable without instantiating a switch: not a `case_`, or a provider without
`::type` (for lazy_conditional.hpp:12-24, 87-90, 132-180). -/
def Case.Hopeless (env : Env τ) : Case → Prop
  | .case_ _ p => env p = .noMember
  | .other _ _ => True

/-! ## Lemmas -/

theorem inClass_type (n : Named τ) : (inClass n).type? = n.type? := by cases n <;> rfl

theorem inClass_not_soft (n : Named τ) : inClass n ≠ .soft := by cases n <;> simp [inClass]

theorem named_type (p : Prov τ) : p.named.type? = p.type? := by cases p <;> rfl

theorem firstCaseN_type (env : Env τ) (c : Case) (rest : Unit → Named τ) (r : Unit → Inst τ)
    (h : (rest ()).type? = (r ()).type) : (firstCaseN env c rest).type? = (firstCase env c r).type := by
  cases c with
  | other => rfl
  | case_ b p =>
    cases hp : env p with
    | ok t =>
      cases b
      · simp [firstCaseN, firstCase, typeProvider, hp, conditionalN, lazyConditional, inClass_type, h]
      · simp [firstCaseN, firstCase, typeProvider, hp, conditionalN, lazyConditional, inClass, member, Prov.named,
          Named.type?]
    | noMember => simp [firstCaseN, firstCase, typeProvider, hp, Named.type?]
    | broken => simp [firstCaseN, firstCase, typeProvider, hp, Named.type?]

theorem firstCaseN_soft (env : Env τ) (c : Case) (rest : Unit → Named τ) :
    firstCaseN env c rest = .soft ↔ c.Hopeless env := by
  cases c with
  | other => simp [firstCaseN, Case.Hopeless]
  | case_ b p => cases hp : env p <;> simp [firstCaseN, typeProvider, hp, Case.Hopeless, inClass_not_soft]

/-! ## C103 -/

/-- **C103.** The templates give a type in exactly the cases of C55, and the same type. -/
theorem named_agrees (env : Env τ) (dflt : Nat) (cases : List Case) (b : Bool) (t f : Nat) :
    (conditionalN b (fun _ => (env t).named) (fun _ => (env f).named)).type? =
      (lazyConditional b (fun _ => member env t) (fun _ => member env f)).type ∧
    (switchDefaultN env dflt cases).type? = (lazySwitchDefault env dflt cases).type ∧
    (switchN env cases).type? = (lazySwitch env cases).type := by
  refine ⟨?_, ?_, ?_⟩
  · cases b <;> simp [conditionalN, lazyConditional, inClass_type, named_type, member_type]
  · induction cases with
    | nil => simp [switchDefaultN, lazySwitchDefault, inClass_type, named_type, member_type]
    | cons c cs ih => exact firstCaseN_type env c _ _ ih
  · induction cases with
    | nil => rfl
    | cons c cs ih => exact firstCaseN_type env c _ _ ih

example : switchDefaultN sample 7 [.case_ false 0, .case_ true 1, .case_ true 8] = .ok "double" := by decide

/-- **C103.** `lazy_conditional_t` is never a substitution failure: if the selected provider has no `::type`, the program is
ill-formed. -/
theorem conditional_never_soft (b : Bool) (t f : Unit → Named τ) : conditionalN b t f ≠ .soft := by
  cases b <;> exact inClass_not_soft _

example : conditionalN true (fun _ => (sample 2).named) (fun _ => (sample 0).named) = .hard := by decide

/-- **C103.** A switch with a default is a substitution failure exactly if there is a first case and it is not a `case_` or its
provider has no `::type`, whatever the conditions. -/
theorem switch_default_soft_iff (env : Env τ) (dflt : Nat) (cases : List Case) :
    switchDefaultN env dflt cases = .soft ↔ ∃ c cs, cases = c :: cs ∧ c.Hopeless env := by
  cases cases with
  | nil => simp [switchDefaultN, inClass_not_soft]
  | cons c cs => simp [switchDefaultN, firstCaseN_soft]

example : switchDefaultN sample 0 [.case_ false 2, .case_ true 1] = .soft ∧
    switchDefaultN sample 0 [.case_ false 0, .case_ false 2] = .hard ∧ switchDefaultN sample 2 [] = .hard := by decide

/-- **C103.** A switch without a default is a substitution failure exactly if it has no cases, or its first case is not a `case_`
or has a provider without `::type`. In particular "no condition holds" is an error that cannot be detected, unless there
are no cases at all. -/
theorem switch_soft_iff (env : Env τ) (cases : List Case) :
    switchN env cases = .soft ↔ cases = [] ∨ ∃ c cs, cases = c :: cs ∧ c.Hopeless env := by
  cases cases with
  | nil => simp [switchN]
  | cons c cs => simp [switchN, firstCaseN_soft]

/-- **C103.** If there are cases, all with usable providers, and no condition holds, `lazy_switch_t` ends the compilation: code
that asks whether it is valid is itself invalid. -/
theorem no_match_hard {env : Env τ} {c : Case} {cs : List Case} (hp : c.Proper) {t : τ} (ht : env c.provider = .ok t)
    (h : ∀ d ∈ c :: cs, d.cond = false) : switchN env (c :: cs) = .hard := by
  have h1 := (named_agrees env 0 (c :: cs) true 0 0).2.2
  rw [switch_no_match h] at h1
  cases hs : switchN env (c :: cs) with
  | ok t => rw [hs] at h1; cases h1
  | hard => rfl
  | soft =>
    rcases (switch_soft_iff env (c :: cs)).1 hs with h2 | ⟨d, ds, h2, h3⟩
    · cases h2
    · cases h2
      cases c with
      | other => exact hp.elim
      | case_ b p => simp only [Case.provider] at ht; rw [Case.Hopeless, ht] at h3; cases h3

example : switchN sample [.case_ false 0, .case_ false 1] = .hard ∧ switchN sample [] = .soft := by decide

/-- **C103, refuted.** "Whether a switch has a matching case can be tested": of two switches without a match one is a
substitution failure and the other ends the compilation. -/
theorem no_match_detectable_refuted :
    switchN sample [] = .soft ∧ switchN sample [.case_ false 0] = .hard := by decide

end Verif.LazyCond
