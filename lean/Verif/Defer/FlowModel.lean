import Verif.Defer.Model

/-!
Model of `defer.hpp` in functions with variables, branches, loops, `return`, `break`, `continue`, `throw;`, calls and coroutines, and of the
names the `DICE_DEFER*` macros give to their guards. It extends `Defer/Model.lean`, which has straight-line code only.

The functions of guards capture by reference (`[&]`, defer.hpp:151-166), so they read and write the variables of the block as they are when
the guard is destroyed. The relation `Exec` is a big-step semantics: an execution that does not end has no final state. Not modelled: guards
that live on the heap, and a coroutine that is destroyed while suspended when a success guard throws.
-/
namespace Verif.Defer.Flow

/-- The variables of a program that uses guards (captured by reference, defer.hpp:151-166). -/
abbrev Store := Nat → Nat

/-- Assignment to one variable (the function of a guard may do so, defer.hpp:151-166). -/
def Store.set (σ : Store) (x v : Nat) : Store := fun y => if y = x then v else σ y

/-- Programs that use guards (defer.hpp:28-166). `guard p id init f rest` is `{ guard with function f; rest }`; `init` tells whether
copying or moving the function into the guard throws (defer.hpp:37-41). `suspend` is a suspension point of a coroutine. -/
inductive Stmt where
  | skip
  | emit (e : Store → Nat)
  | assign (x : Nat) (e : Store → Nat)
  | throw (e : Store → Nat)
  /-- `throw;` -/
  | rethrow
  | ret (e : Store → Nat)
  | brk
  | cont
  | seq (a b : Stmt)
  | ite (b : Store → Bool) (t e : Stmt)
  | loop (b : Store → Bool) (body : Stmt)
  /-- `filter = none`: `catch (...)`, `some e`: catches only `e` -/
  | tryCatch (a : Stmt) (filter : Option Nat) (handler : Stmt)
  /-- `x = [&] { body }();` -/
  | call (x : Nat) (body : Stmt)
  | guard (p : Pol) (id : Nat) (init : Store → Option Nat) (f : Stmt) (rest : Stmt)
  | suspend

/-- How a statement ends (scopes with guards, defer.hpp:48-74). -/
inductive Out where
  | normal
  | thrown (e : Nat)
  | returned (v : Nat)
  | brk
  | cont
  /-- the coroutine is destroyed while it is suspended -/
  | abandoned
  | terminate
  deriving DecidableEq, Repr

/-- Observable events; `made`/`gone`: a guard is constructed/destroyed, where `gone` records how the scope was left and whether the
function was invoked (defer.hpp:37-41, 48-74). -/
inductive Ev where
  | emit (n : Nat)
  | made (id : Nat)
  | gone (id : Nat) (p : Pol) (left : Out) (ran : Bool)
  | suspended
  deriving DecidableEq, Repr

/-- How the scope is left after the destructor of a guard of policy `p`, when it was being left by `o` and the function of the guard ended
with `fo` (defer.hpp:48: the destructor is `noexcept` unless the policy is OnSuccess; leaving it by an exception during unwinding
terminates). `none`: not a program, or not modelled. -/
def afterDtor (p : Pol) (o fo : Out) : Option Out :=
  match fo with
  | .normal => some o
  | .returned _ => some o
  | .terminate => some .terminate
  | .thrown e =>
    match p with
    | .onSuccess =>
      match o with
      | .thrown _ => some .terminate
      | .abandoned => none
      | _ => some (.thrown e)
    | _ => some .terminate
  | _ => none

/-- Executions of a thread (defer.hpp:28-75). `Exec R co h s c σ t o c' σ'`: in variables `σ`, with `c` uncaught exceptions and with the
exception `h` being handled, `s` can emit `t` and end with `o`, `c'` and `σ'`. `co`: the code belongs to the body of a coroutine, so it may be
suspended. While it is suspended other code runs and another thread may take over: the variables change arbitrarily, and the count of
uncaught exceptions is that of the thread which resumes it; `R c c'` says which counts are possible. A throw increments the count, entering a
handler decrements it; a guard records it when it is constructed (defer.hpp:32) and compares when it is destroyed (defer.hpp:59-73). -/
inductive Exec (R : Nat → Nat → Prop) : Bool → Option Nat → Stmt → Nat → Store → List Ev → Out → Nat → Store → Prop
  | skip : Exec R co h .skip c σ [] .normal c σ
  | emit : Exec R co h (.emit e) c σ [.emit (e σ)] .normal c σ
  | assign : Exec R co h (.assign x e) c σ [] .normal c (σ.set x (e σ))
  | throw : Exec R co h (.throw e) c σ [] (.thrown (e σ)) (c + 1) σ
  | rethrow : Exec R co (some e) .rethrow c σ [] (.thrown e) (c + 1) σ
  | rethrowNone : Exec R co none .rethrow c σ [] .terminate c σ
  | ret : Exec R co h (.ret e) c σ [] (.returned (e σ)) c σ
  | brk : Exec R co h .brk c σ [] .brk c σ
  | cont : Exec R co h .cont c σ [] .cont c σ
  | seqNormal : Exec R co h a c σ t₁ .normal c₁ σ₁ → Exec R co h b c₁ σ₁ t₂ o c₂ σ₂ → Exec R co h (.seq a b) c σ (t₁ ++ t₂) o c₂ σ₂
  | seqLeft : Exec R co h a c σ t o c₁ σ₁ → o ≠ .normal → Exec R co h (.seq a b) c σ t o c₁ σ₁
  | iteTrue : b σ = true → Exec R co h s c σ t o c₁ σ₁ → Exec R co h (.ite b s s') c σ t o c₁ σ₁
  | iteFalse : b σ = false → Exec R co h s' c σ t o c₁ σ₁ → Exec R co h (.ite b s s') c σ t o c₁ σ₁
  | loopEnd : b σ = false → Exec R co h (.loop b s) c σ [] .normal c σ
  | loopNext : b σ = true → Exec R co h s c σ t₁ o₁ c₁ σ₁ → o₁ = .normal ∨ o₁ = .cont → Exec R co h (.loop b s) c₁ σ₁ t₂ o c₂ σ₂ →
      Exec R co h (.loop b s) c σ (t₁ ++ t₂) o c₂ σ₂
  | loopBreak : b σ = true → Exec R co h s c σ t .brk c₁ σ₁ → Exec R co h (.loop b s) c σ t .normal c₁ σ₁
  | loopLeft : b σ = true → Exec R co h s c σ t o c₁ σ₁ → o ≠ .normal → o ≠ .cont → o ≠ .brk → Exec R co h (.loop b s) c σ t o c₁ σ₁
  | tryPass : Exec R co h s c σ t o c₁ σ₁ → (∀ e, o = .thrown e → flt ≠ none ∧ flt ≠ some e) →
      Exec R co h (.tryCatch s flt hd) c σ t o c₁ σ₁
  | tryCatch : Exec R co h s c σ t₁ (.thrown e) c₁ σ₁ → flt = none ∨ flt = some e → Exec R false (some e) hd (c₁ - 1) σ₁ t₂ o c₂ σ₂ →
      Exec R co h (.tryCatch s flt hd) c σ (t₁ ++ t₂) o c₂ σ₂
  | callReturn : Exec R false h s c σ t (.returned v) c₁ σ₁ → Exec R co h (.call x s) c σ t .normal c₁ (σ₁.set x v)
  | callEnd : Exec R false h s c σ t .normal c₁ σ₁ → Exec R co h (.call x s) c σ t .normal c₁ σ₁
  | callThrow : Exec R false h s c σ t (.thrown e) c₁ σ₁ → Exec R co h (.call x s) c σ t (.thrown e) c₁ σ₁
  | callTerminate : Exec R false h s c σ t .terminate c₁ σ₁ → Exec R co h (.call x s) c σ t .terminate c₁ σ₁
  | guardInit : init σ = some e → Exec R co h (.guard p i init f s) c σ [] (.thrown e) (c + 1) σ
  | guardTerminate : init σ = none → Exec R co h s c σ t .terminate c₁ σ₁ →
      Exec R co h (.guard p i init f s) c σ (.made i :: t) .terminate c₁ σ₁
  | guardQuiet : init σ = none → Exec R co h s c σ t o c₁ σ₁ → o ≠ .terminate → runs p c c₁ = false →
      Exec R co h (.guard p i init f s) c σ (.made i :: (t ++ [.gone i p o false])) o c₁ σ₁
  | guardRun : init σ = none → Exec R co h s c σ t₁ o c₁ σ₁ → o ≠ .terminate → runs p c c₁ = true →
      Exec R false h f c₁ σ₁ t₂ fo c₂ σ₂ → afterDtor p o fo = some o' →
      Exec R co h (.guard p i init f s) c σ (.made i :: (t₁ ++ .gone i p o true :: t₂)) o' c₂ σ₂
  | resume : R c c₁ → Exec R true h .suspend c σ [.suspended] .normal c₁ σ₁
  | abandon : R c c₁ → Exec R true h .suspend c σ [.suspended] .abandoned c₁ σ₁

/-! ### The macros -/

/-- Tokens of the preprocessor that matter for the name of a guard (defer.hpp:135): identifiers and the macro `__LINE__`. -/
inductive Tok where
  | ident (s : String)
  | line
  deriving DecidableEq, Repr

/-- The spelling of a token before (`n = none`) or after macro expansion on line `n` (defer.hpp:135). -/
def Tok.spell : Tok → Option Nat → String
  | .ident s, _ => s
  | .line, none => "__LINE__"
  | .line, some n => toString n

/-- `DICE_IMPL_IDENT_CONCAT(a, b)`: operands of `##` are not expanded, so the arguments are pasted as they arrive (macro_util.hpp:19). -/
def pasteRaw (a b : String) : String := a ++ b

/-- `DICE_IDENT_CONCAT(a, b)`: its arguments are not operands of `##`, so they are expanded before `DICE_IMPL_IDENT_CONCAT` sees them
(macro_util.hpp:27). -/
def identConcat (n : Nat) (a b : Tok) : String := pasteRaw (a.spell (some n)) (b.spell (some n))

/-- The name of the guard that a `DICE_DEFER*` on line `n` declares (defer.hpp:135, 151-166). -/
def guardName (n : Nat) : String := identConcat n (.ident "_scope_guard") .line

/-- Declarations of a block: a name may be declared once (the guards are `auto` variables, defer.hpp:151-166). -/
def blockCompiles (lines : List Nat) : Bool := decide (lines.map guardName).Nodup

/-- The forms of the macro (defer.hpp:151-166). -/
inductive Form where
  | defer
  | toFail
  | toSuccess
  deriving DecidableEq, Repr

/-- The policy each form selects: `operator+` on the tag type (defer.hpp:112-131). -/
def Form.pol : Form → Pol
  | .defer => .always
  | .toFail => .onFail
  | .toSuccess => .onSuccess

/-- Is the lambda `noexcept` (defer.hpp:152, 159, 166)? -/
def Form.noexcept : Form → Bool
  | .defer => true
  | .toFail => true
  | .toSuccess => false

/-- Is the destructor of the guard `noexcept` (defer.hpp:48)? -/
def dtorNoexcept (p : Pol) : Bool := decide (p ≠ .onSuccess)

end Verif.Defer.Flow
