/-!
Model of `defer.hpp`: a small language with scope guards, `throw` and `try`/`catch`, executed with the exact mechanism the
guards use: the runtime's count of uncaught exceptions is recorded when a guard is created and compared when it is
destroyed.

Guards are local variables (`DICE_DEFER*`); guards on the heap are not modelled. `FlowModel.lean` has loops, early exits and coroutines.
-/
namespace Verif.Defer

/-- `ScopeExitPolicy` (defer.hpp:15-19). -/
inductive Pol where
  | always
  | onFail
  | onSuccess
  deriving DecidableEq, Repr

/-- Programs. `guard p id f rest` is the block `{ guard with function f; rest }`: the guard is destroyed when `rest` has
been left. `id` names the guard in traces. `noguard` declares a default-constructed (empty) guard (the programs that use defer.hpp:28-105). -/
inductive Stmt where
  | skip
  | emit (n : Nat)
  | throw (e : Nat)
  | seq (a b : Stmt)
  /-- `filter = none`: `catch (...)`, `some e`: catches only `e` -/
  | tryCatch (a : Stmt) (filter : Option Nat) (handler : Stmt)
  | guard (p : Pol) (id : Nat) (f : Stmt) (rest : Stmt)
  | noguard (p : Pol) (rest : Stmt)
  deriving Repr

/-- Observable events of a program that uses guards (defer.hpp:28-75). -/
inductive Ev where
  | emit (n : Nat)
  /-- the function of guard `id` is invoked -/
  | ran (id : Nat)
  deriving DecidableEq, Repr

/-- How a block ends (defer.hpp:48-74). -/
inductive Out where
  | normal
  | thrown (e : Nat)
  /-- `std::terminate` -/
  | terminate
  deriving DecidableEq, Repr

/-- Does the block end with an exception? (used for `scope_failed`, defer.hpp:59-61). -/
def Out.isThrown : Out → Bool
  | .thrown _ => true
  | _ => false

/-- Does the destructor invoke the function (defer.hpp:59-73)? `base` is `uncaught_exceptions_`, `now` the present value of
`std::uncaught_exceptions()`. -/
def runs (p : Pol) (base now : Nat) : Bool :=
  let failed := decide (base < now)
  match p with
  | .onSuccess => !failed
  | .onFail => failed
  | .always => true

/-- Execution. The last component is `std::uncaught_exceptions()`: a throw increments it, entering a handler decrements
it (destructor of the guard: defer.hpp:48-74). -/
def exec : Stmt → Nat → List Ev × Out × Nat
  | .skip, c => ([], .normal, c)
  | .emit n, c => ([.emit n], .normal, c)
  | .throw e, c => ([], .thrown e, c + 1)
  | .seq a b, c =>
    match exec a c with
    | (t, .normal, c1) => let r := exec b c1; (t ++ r.1, r.2.1, r.2.2)
    | r => r
  | .tryCatch a flt h, c =>
    match exec a c with
    | (t, .thrown e, c1) =>
      if flt = none ∨ flt = some e then let r := exec h (c1 - 1); (t ++ r.1, r.2.1, r.2.2) else (t, .thrown e, c1)
    | r => r
  | .noguard _ rest, c => exec rest c                       -- defer.hpp:35,49-51
  | .guard p id f rest, c =>
    let base := c                                           -- defer.hpp:32
    match exec rest base with
    | (t, .terminate, c1) => (t, .terminate, c1)
    | (t, o, c1) =>                                         -- the destructor, defer.hpp:48-74
      if runs p base c1 then
        match exec f c1 with
        | (t2, .normal, c2) => (t ++ .ran id :: t2, o, c2)
        | (t2, .terminate, c2) => (t ++ .ran id :: t2, .terminate, c2)
        | (t2, .thrown e, c2) =>
          -- the destructor is noexcept unless the policy is OnSuccess (defer.hpp:48); leaving a destructor by an
          -- exception during unwinding terminates
          if p = .onSuccess ∧ o.isThrown = false then (t ++ .ran id :: t2, .thrown e, c2)
          else (t ++ .ran id :: t2, .terminate, c2)
      else (t, o, c1)

end Verif.Defer
