import Verif.Guards.Props
import Verif.Pipeline.Model

/-!
Threads that execute arbitrary programs on values behind `mutex` and `shared_mutex` objects
(`include/dice/template-library/mutex.hpp`, `include/dice/template-library/shared_mutex.hpp`).

More general than `Critical/Model.lean`: programs branch on what they read and on the results of `try_lock`, may end in many
ways (an exception that leaves a block is one of them: the guards end, then the rest is another program), guards may end in
any order, and threads may go on for ever. A transaction is a program from its first guard to the end of its last one; it
computes the new local state of the thread.
-/
namespace Verif.Atomic

open Verif.Guards (Kind)
open Verif.Pipeline (upd)

variable {α σ : Type}

/-- A transaction: `ret` ends it with a new local state; `auto g = x.lock()` (mutex.hpp:111, shared_mutex.hpp:113),
`x.lock_shared()` (shared_mutex.hpp:140), `x.try_lock()` and `x.try_lock_shared()` (mutex.hpp:122, shared_mutex.hpp:124, 151;
the program goes on with the answer), reading and writing through the `d`-th newest guard (mutex.hpp:49-55,
shared_mutex.hpp:51-57), the end of the `d`-th newest guard (mutex.hpp:47, shared_mutex.hpp:49). -/
inductive Prog (α σ : Type) where
  | ret (r : σ)
  | lock (m : Nat) (k : Prog α σ)
  | lockShared (m : Nat) (k : Prog α σ)
  | tryLock (m : Nat) (k : Bool → Prog α σ)
  | tryLockShared (m : Nat) (k : Bool → Prog α σ)
  | read (d : Nat) (k : α → Prog α σ)
  | write (d : Nat) (v : α) (k : Prog α σ)
  | drop (d : Nat) (k : Prog α σ)

/-- A guard of a thread: its kind, the mutex it was made from and its number in the model of the guards
(mutex.hpp:26-62, shared_mutex.hpp:27-64). -/
structure Held where
  kind : Kind
  m : Nat
  g : Nat
  deriving DecidableEq, Repr

/-- A thread: the rest of its transaction (between transactions: `ret` with the local state), its guards (newest first;
mutex.hpp:26-62, shared_mutex.hpp:27-64) and the number of transactions it has begun. -/
structure Thr (α σ : Type) where
  code : Prog α σ
  held : List Held
  begun : Nat

/-- What is to be done: the initial values (mutex.hpp:91-102), the number of threads, their initial states and what each does
next in a given state, if anything. -/
structure Plan (α σ : Type) where
  values : List α
  threads : Nat
  init : Nat → σ
  body : Nat → σ → Option (Prog α σ)

/-- The mutex objects with all guards (`Guards/Model.lean`; mutex.hpp:26-130, shared_mutex.hpp:27-159), and the threads. -/
structure Sys (α σ : Type) where
  mem : Guards.St α
  thr : Nat → Thr α σ

/-- Fresh mutex objects (mutex.hpp:91-102, shared_mutex.hpp:93-104); no thread has begun. -/
def start (p : Plan α σ) : Sys α σ where
  mem := Guards.init p.values
  thr i := ⟨.ret (p.init i), [], 0⟩

/-- Thread `i` executes its next command (mutex.hpp:41-129, shared_mutex.hpp:43-158); `none` if it has none or blocks.
`spurious`: a `try_lock` fails although it could succeed. -/
def exec1 (s : Sys α σ) (i : Nat) (spurious : Bool) : Option (Sys α σ) :=
  let t := s.thr i
  match t.code with
  | .ret _ => none
  | .lock m k => (Guards.step s.mem (.lock m)).map fun r =>
      ⟨r.1, upd s.thr i { t with code := k, held := ⟨.excl, m, s.mem.guards.length⟩ :: t.held }⟩
  | .lockShared m k => (Guards.step s.mem (.lockShared m)).map fun r =>
      ⟨r.1, upd s.thr i { t with code := k, held := ⟨.shrd, m, s.mem.guards.length⟩ :: t.held }⟩
  | .tryLock m k => match Guards.step s.mem (.tryLock m spurious) with
    | some (mem, .bool true) =>
      some ⟨mem, upd s.thr i { t with code := k true, held := ⟨.excl, m, s.mem.guards.length⟩ :: t.held }⟩
    | some (mem, .bool false) => some ⟨mem, upd s.thr i { t with code := k false }⟩
    | _ => none
  | .tryLockShared m k => match Guards.step s.mem (.tryLockShared m spurious) with
    | some (mem, .bool true) =>
      some ⟨mem, upd s.thr i { t with code := k true, held := ⟨.shrd, m, s.mem.guards.length⟩ :: t.held }⟩
    | some (mem, .bool false) => some ⟨mem, upd s.thr i { t with code := k false }⟩
    | _ => none
  | .read d k => match t.held[d]? with
    | none => none
    | some h => match Guards.step s.mem (.read h.g) with
      | some (mem, .val v) => some ⟨mem, upd s.thr i { t with code := k v }⟩
      | _ => none
  | .write d v k => match t.held[d]? with
    | none => none
    | some h => (Guards.step s.mem (.write h.g v)).map fun r => ⟨r.1, upd s.thr i { t with code := k }⟩
  | .drop d k => match t.held[d]? with
    | none => none
    | some h => (Guards.step s.mem (.destroy h.g)).map fun r =>
        ⟨r.1, upd s.thr i { t with code := k, held := t.held.eraseIdx d }⟩

/-- Scheduler choices: a thread begins its next transaction, or executes its next command (mutex.hpp:41-129). -/
inductive Act where
  | begin (i : Nat)
  | run (i : Nat) (spurious : Bool)
  deriving DecidableEq, Repr

/-- One step of one thread (mutex.hpp:41-129, shared_mutex.hpp:43-158). -/
def step (p : Plan α σ) (s : Sys α σ) : Act → Option (Sys α σ)
  | .begin i =>
    if i < p.threads then
      match (s.thr i).code with
      | .ret r => (p.body i r).map fun c =>
          { s with thr := upd s.thr i { s.thr i with code := c, begun := (s.thr i).begun + 1 } }
      | _ => none
    else none
  | .run i spurious => if i < p.threads then exec1 s i spurious else none

/-- A list of steps (programs that use mutex.hpp:41-129, shared_mutex.hpp:43-158). -/
def exec (p : Plan α σ) : Sys α σ → List Act → Option (Sys α σ)
  | s, [] => some s
  | s, a :: as => (step p s a).bind fun s' => exec p s' as

/-- The states of all executions (programs that use mutex.hpp:41-129, shared_mutex.hpp:43-158). -/
def Reach (p : Plan α σ) (s : Sys α σ) : Prop := ∃ acts, exec p (start p) acts = some s

/-- No thread can do anything (blocked in mutex.hpp:111, shared_mutex.hpp:113, 140, or done). -/
def Stuck (p : Plan α σ) (s : Sys α σ) : Prop := ∀ a, step p s a = none

/-! ### Conditions on the programs -/

/-- Scopes are respected whatever is read and whichever `try_lock` fails (rules for users of mutex.hpp:16-20 and of C++):
accesses go through guards that exist, writes through guards for writing, a mutex is not locked by a thread that has it locked
already (undefined for `std::mutex`), no guard is left at the end; `n` is the number of mutex objects. -/
def Scoped (n : Nat) : List (Kind × Nat) → Prog α σ → Prop
  | hs, .ret _ => hs = []
  | hs, .lock m k => m < n ∧ (∀ h ∈ hs, h.2 ≠ m) ∧ Scoped n ((.excl, m) :: hs) k
  | hs, .lockShared m k => m < n ∧ (∀ h ∈ hs, h.2 ≠ m) ∧ Scoped n ((.shrd, m) :: hs) k
  | hs, .tryLock m k => m < n ∧ (∀ h ∈ hs, h.2 ≠ m) ∧ Scoped n ((.excl, m) :: hs) (k true) ∧ Scoped n hs (k false)
  | hs, .tryLockShared m k => m < n ∧ (∀ h ∈ hs, h.2 ≠ m) ∧ Scoped n ((.shrd, m) :: hs) (k true) ∧ Scoped n hs (k false)
  | hs, .read d k => d < hs.length ∧ ∀ v, Scoped n hs (k v)
  | hs, .write d _ k => (∃ m, hs[d]? = some (.excl, m)) ∧ Scoped n hs k
  | hs, .drop d k => d < hs.length ∧ Scoped n (hs.eraseIdx d) k

/-- Two phases: nothing is locked after a guard has ended (a rule for users of mutex.hpp:111, 122). -/
def TwoPhase : Bool → Prog α σ → Prop
  | _, .ret _ => True
  | b, .lock _ k => b = false ∧ TwoPhase b k
  | b, .lockShared _ k => b = false ∧ TwoPhase b k
  | b, .tryLock _ k => b = false ∧ ∀ x, TwoPhase b (k x)
  | b, .tryLockShared _ k => b = false ∧ ∀ x, TwoPhase b (k x)
  | b, .read _ k => ∀ v, TwoPhase b (k v)
  | b, .write _ _ k => TwoPhase b k
  | _, .drop _ k => TwoPhase true k

/-- `lock` and `lock_shared` are called only for mutex objects after all those held, in one order (a rule for users of
mutex.hpp:111); `try_lock` is free. -/
def Ordered : List Nat → Prog α σ → Prop
  | _, .ret _ => True
  | hs, .lock m k => (∀ h ∈ hs, h < m) ∧ Ordered (m :: hs) k
  | hs, .lockShared m k => (∀ h ∈ hs, h < m) ∧ Ordered (m :: hs) k
  | hs, .tryLock m k => Ordered (m :: hs) (k true) ∧ Ordered hs (k false)
  | hs, .tryLockShared m k => Ordered (m :: hs) (k true) ∧ Ordered hs (k false)
  | hs, .read _ k => ∀ v, Ordered hs (k v)
  | hs, .write _ _ k => Ordered hs k
  | hs, .drop d k => Ordered (hs.eraseIdx d) k

/-! ### Specification: transactions one after the other -/

/-- (Accesses without a guard do not occur in `Scoped` programs.) A transaction executed alone, given which of its `try_lock`s succeed (they may fail spuriously): values and local state
afterwards (the meaning of a block with guards of mutex.hpp:26-62 for a single thread). -/
def runTx : (Nat → α) → List Bool → List Nat → Prog α σ → (Nat → α) × σ
  | M, _, _, .ret r => (M, r)
  | M, o, hs, .lock m k => runTx M o (m :: hs) k
  | M, o, hs, .lockShared m k => runTx M o (m :: hs) k
  | M, o, hs, .tryLock m k => if o.head? = some true then runTx M o.tail (m :: hs) (k true) else runTx M o.tail hs (k false)
  | M, o, hs, .tryLockShared m k => if o.head? = some true then runTx M o.tail (m :: hs) (k true) else runTx M o.tail hs (k false)
  | M, o, hs, .read d k => match hs[d]? with
    | some m => runTx M o hs (k (M m))
    | none => runTx M o hs (k (M 0))
  | M, o, hs, .write d v k => match hs[d]? with
    | some m => runTx (upd M m v) o hs k
    | none => runTx M o hs k
  | M, o, hs, .drop d k => runTx M o (hs.eraseIdx d) k

/-- The state of a serial execution: values, local states, the number of transactions each thread has executed
(specification of programs that use mutex.hpp:111). -/
structure Ser (α σ : Type) where
  M : Nat → α
  st : Nat → σ
  done : Nat → Nat

/-- Thread `e.1` executes its next transaction without interruption, with the answers `e.2` to `try_lock` (specification of
programs that use mutex.hpp:111). -/
def Ser.next (p : Plan α σ) (s : Ser α σ) (e : Nat × List Bool) : Ser α σ :=
  match p.body e.1 (s.st e.1) with
  | none => s
  | some c =>
    let r := runTx s.M e.2 [] c
    ⟨r.1, upd s.st e.1 r.2, upd s.done e.1 (s.done e.1 + 1)⟩

/-- Transactions in the given order, one after the other (specification of programs that use mutex.hpp:111). -/
def serial (p : Plan α σ) (s : Ser α σ) (order : List (Nat × List Bool)) : Ser α σ := order.foldl (Ser.next p) s

end Verif.Atomic
