import Verif.Guards.Props
import Verif.Pipeline.Model

/-!
Threads that work on values behind `mutex` and `shared_mutex` objects (`include/dice/template-library/mutex.hpp`,
`include/dice/template-library/shared_mutex.hpp`) in blocks with guards on the stack, as in

    {
        auto a = x.lock();
        {
            auto b = y.lock_shared();
            *a = f(*b);
        }
        *a = g(*a);
    }

Every lock, every access through a guard and every end of the life of a guard is one step of the model of the guards in
`Guards/Model.lean`; the steps of all threads interleave. A block from its first guard to the end of its last one is called
a transaction here; a thread executes a list of them. Guards end in reverse order of their creation, as local variables do.
Functions that compute new values depend on what the thread has read so far.
-/
namespace Verif.Critical

open Verif.Guards (Kind)
open Verif.Pipeline (upd)

variable {α : Type}

/-- A command of a thread: `auto g = x.lock()` (mutex.hpp:111, shared_mutex.hpp:113), `auto g = x.lock_shared()`
(shared_mutex.hpp:140), read through the `d`-th innermost guard, write through it a value computed from everything the thread
has read (mutex.hpp:49-55, shared_mutex.hpp:51-57), end of the innermost guard (mutex.hpp:47, shared_mutex.hpp:49). -/
inductive Cmd (α : Type) where
  | lock (m : Nat)
  | lockShared (m : Nat)
  | read (d : Nat)
  | write (d : Nat) (f : List α → α)
  | drop

/-- A guard of a thread: its kind, the mutex it was made from and its number in the model of the guards
(mutex.hpp:26-62, shared_mutex.hpp:27-64). -/
structure Held where
  kind : Kind
  m : Nat
  g : Nat
  deriving DecidableEq, Repr

/-- A thread: the rest of its transaction, the transactions after it, its guards (innermost first; mutex.hpp:26-62,
shared_mutex.hpp:27-64) and what it has read. -/
structure Thr (α : Type) where
  now : List (Cmd α)
  later : List (List (Cmd α))
  held : List Held
  seen : List α

/-- What is to be done: the initial values (mutex.hpp:91-102), the number of threads and the transactions of each. -/
structure Plan (α : Type) where
  values : List α
  threads : Nat
  work : Nat → List (List (Cmd α))

/-- The mutex objects with all guards (`Guards/Model.lean`; mutex.hpp:26-130, shared_mutex.hpp:27-159), and the threads. -/
structure Sys (α : Type) where
  mem : Guards.St α
  thr : Nat → Thr α

/-- Fresh mutex objects (mutex.hpp:91-102, shared_mutex.hpp:93-104); no thread has begun. -/
def start (p : Plan α) : Sys α where
  mem := Guards.init p.values
  thr i := ⟨[], p.work i, [], []⟩

/-- Thread `i` executes its next command (mutex.hpp:41-113, shared_mutex.hpp:43-142); `none` if it has none or blocks. -/
def exec1 (s : Sys α) (i : Nat) : Option (Sys α) :=
  let t := s.thr i
  match t.now with
  | [] => none
  | .lock m :: c => (Guards.step s.mem (.lock m)).map fun r =>
      ⟨r.1, upd s.thr i { t with now := c, held := ⟨.excl, m, s.mem.guards.length⟩ :: t.held }⟩
  | .lockShared m :: c => (Guards.step s.mem (.lockShared m)).map fun r =>
      ⟨r.1, upd s.thr i { t with now := c, held := ⟨.shrd, m, s.mem.guards.length⟩ :: t.held }⟩
  | .read d :: c => match t.held[d]? with
    | none => none
    | some h => match Guards.step s.mem (.read h.g) with
      | some (mem, .val v) => some ⟨mem, upd s.thr i { t with now := c, seen := t.seen ++ [v] }⟩
      | _ => none
  | .write d f :: c => match t.held[d]? with
    | none => none
    | some h => (Guards.step s.mem (.write h.g (f t.seen))).map fun r => ⟨r.1, upd s.thr i { t with now := c }⟩
  | .drop :: c => match t.held with
    | [] => none
    | h :: hs => (Guards.step s.mem (.destroy h.g)).map fun r => ⟨r.1, upd s.thr i { t with now := c, held := hs }⟩

/-- Scheduler choices: a thread begins its next transaction, or executes its next command (mutex.hpp:41-113). -/
inductive Act where
  | begin (i : Nat)
  | run (i : Nat)
  deriving DecidableEq, Repr

/-- One step of one thread (mutex.hpp:41-113, shared_mutex.hpp:43-142). -/
def step (p : Plan α) (s : Sys α) : Act → Option (Sys α)
  | .begin i =>
    if i < p.threads then
      match (s.thr i).now, (s.thr i).later with
      | [], t :: ts => some { s with thr := upd s.thr i { s.thr i with now := t, later := ts } }
      | _, _ => none
    else none
  | .run i => if i < p.threads then exec1 s i else none

/-- A list of steps (programs that use mutex.hpp:41-113, shared_mutex.hpp:43-142). -/
def exec (p : Plan α) : Sys α → List Act → Option (Sys α)
  | s, [] => some s
  | s, a :: as => (step p s a).bind fun s' => exec p s' as

/-- The states of all executions (programs that use mutex.hpp:41-113, shared_mutex.hpp:43-142). -/
def Reach (p : Plan α) (s : Sys α) : Prop := ∃ acts, exec p (start p) acts = some s

/-- No thread can do anything (blocked in mutex.hpp:111, shared_mutex.hpp:113, 140, or done). -/
def Stuck (p : Plan α) (s : Sys α) : Prop := ∀ i, step p s (.begin i) = none ∧ step p s (.run i) = none

/-- The thread has executed all its transactions (user code around mutex.hpp:111). -/
def Thr.done (t : Thr α) : Prop := t.now = [] ∧ t.later = []

/-! ### Conditions on the programs -/

/-- Scopes are respected (rules for users of mutex.hpp:16-20 and of C++): accesses go through guards in scope, writes through
guards from `lock`, a mutex is not locked by a thread that has it locked already (undefined for `std::mutex`), every guard
ends with the transaction; `n` is the number of mutex objects. -/
def wellScoped (n : Nat) : List (Kind × Nat) → List (Cmd α) → Bool
  | hs, [] => hs.isEmpty
  | hs, .lock m :: c => decide (m < n) && !(hs.any fun h => h.2 == m) && wellScoped n ((.excl, m) :: hs) c
  | hs, .lockShared m :: c => decide (m < n) && !(hs.any fun h => h.2 == m) && wellScoped n ((.shrd, m) :: hs) c
  | hs, .read d :: c => decide (d < hs.length) && wellScoped n hs c
  | hs, .write d _ :: c => (hs[d]?.any fun h => h.1 == .excl) && wellScoped n hs c
  | hs, .drop :: c => !hs.isEmpty && wellScoped n hs.tail c

/-- Two phases: nothing is locked after a guard has ended (a rule for users of mutex.hpp:111). -/
def twoPhase : Bool → List (Cmd α) → Bool
  | _, [] => true
  | shrinking, .lock _ :: c => !shrinking && twoPhase shrinking c
  | shrinking, .lockShared _ :: c => !shrinking && twoPhase shrinking c
  | _, .drop :: c => twoPhase true c
  | shrinking, _ :: c => twoPhase shrinking c

/-- Mutex objects are locked in increasing order of their numbers (a rule for users of mutex.hpp:111). -/
def ordered : List Nat → List (Cmd α) → Bool
  | _, [] => true
  | hs, .lock m :: c => hs.all (· < m) && ordered (m :: hs) c
  | hs, .lockShared m :: c => hs.all (· < m) && ordered (m :: hs) c
  | hs, .drop :: c => ordered hs.tail c
  | hs, _ :: c => ordered hs c

/-! ### Specification: transactions one after the other -/

/-- A transaction executed alone on values that belong to nobody else: the values and what the thread has read afterwards
(the meaning of a block with guards of mutex.hpp:26-62 for a single thread). -/
def runTx : (Nat → α) → List α → List Nat → List (Cmd α) → (Nat → α) × List α
  | M, seen, _, [] => (M, seen)
  | M, seen, hs, .lock m :: c => runTx M seen (m :: hs) c
  | M, seen, hs, .lockShared m :: c => runTx M seen (m :: hs) c
  | M, seen, hs, .read d :: c => match hs[d]? with
    | some m => runTx M (seen ++ [M m]) hs c
    | none => runTx M seen hs c
  | M, seen, hs, .write d f :: c => match hs[d]? with
    | some m => runTx (upd M m (f seen)) seen hs c
    | none => runTx M seen hs c
  | M, seen, hs, .drop :: c => runTx M seen hs.tail c

/-- The state of a serial execution: values, what each thread has read, the transactions each has yet to do (specification of
programs that use mutex.hpp:111). -/
structure Ser (α : Type) where
  M : Nat → α
  seen : Nat → List α
  todo : Nat → List (List (Cmd α))

/-- Thread `i` executes its next transaction without interruption (specification of programs that use mutex.hpp:111). -/
def Ser.next (s : Ser α) (i : Nat) : Ser α :=
  match s.todo i with
  | [] => s
  | t :: ts =>
    let r := runTx s.M (s.seen i) [] t
    ⟨r.1, upd s.seen i r.2, upd s.todo i ts⟩

/-- The threads execute transactions in the given order, one after the other (specification of programs that use
mutex.hpp:111). -/
def serial (s : Ser α) (order : List Nat) : Ser α := order.foldl Ser.next s

end Verif.Critical
