import Verif.Critical.Props

/-!
Threads that work on values behind `mutex` and `shared_mutex` objects (`include/dice/template-library/mutex.hpp`,
`include/dice/template-library/shared_mutex.hpp`) for ever: each executes one block with guards after the other, as in
`Critical/Model.lean`, without an end. Infinite executions and fairness of the scheduler, for statements that a call of `lock`
returns eventually.

The C++ standard does not promise that a thread that waits for a `std::mutex` or `std::shared_mutex` ever gets it. `Exec.Fair` is
therefore a hypothesis about the scheduler and the mutex; the theorems that use it say so in their statement.
-/
namespace Verif.Forever

open Verif.Critical (Cmd Thr exec1 wellScoped ordered Act)
open Verif.Pipeline (upd)

variable {α : Type}

/-- What is to be done: the initial values (mutex.hpp:91-102), the number of threads and the blocks of each, in order. -/
structure Plan (α : Type) where
  values : List α
  threads : Nat
  work : Nat → Nat → List (Cmd α)

/-- Mutex objects with guards and the threads (mutex.hpp:26-130, shared_mutex.hpp:27-159), and how many blocks each thread has
begun. -/
structure Sys (α : Type) where
  sys : Critical.Sys α
  begun : Nat → Nat

/-- Fresh mutex objects (mutex.hpp:91-102, shared_mutex.hpp:93-104); no thread has begun. -/
def start (p : Plan α) : Sys α := ⟨⟨Guards.init p.values, fun _ => ⟨[], [], [], []⟩⟩, fun _ => 0⟩

/-- One step of one thread: it begins its next block, or executes its next command (mutex.hpp:41-113, shared_mutex.hpp:43-142). -/
def step (p : Plan α) (s : Sys α) : Act → Option (Sys α)
  | .begin i =>
    if i < p.threads then
      match (s.sys.thr i).now with
      | [] => some ⟨{ s.sys with thr := upd s.sys.thr i { s.sys.thr i with now := p.work i (s.begun i) } }, upd s.begun i (s.begun i + 1)⟩
      | _ => none
    else none
  | .run i => if i < p.threads then (exec1 s.sys i).map fun t => ⟨t, s.begun⟩ else none

/-- An execution without end. `none` stands for an instant at which nothing happens to the mutex objects (executions of programs
that use mutex.hpp:41-113, shared_mutex.hpp:43-142). -/
structure Exec (p : Plan α) where
  st : Nat → Sys α
  act : Nat → Option Act
  start : st 0 = Forever.start p
  ok : ∀ n, (act n = none ∧ st (n + 1) = st n) ∨ ∃ a, act n = some a ∧ step p (st n) a = some (st (n + 1))

variable {p : Plan α}

/-- Thread `i` at instant `n` (a user of mutex.hpp:111, shared_mutex.hpp:113, 140). -/
def Exec.thr (e : Exec p) (n i : Nat) : Thr α := (e.st n).sys.thr i

/-- Thread `i` is inside a block and can execute its next command: it does not wait for a mutex (mutex.hpp:111,
shared_mutex.hpp:113, 140). -/
def Ready (p : Plan α) (s : Sys α) (i : Nat) : Prop := ∃ s', step p s (.run i) = some s'

/-- Strong fairness: a thread that can run again and again does run again and again. For a thread at a call of `lock` (mutex.hpp:111)
this says that it gets the mutex eventually if the mutex is free again and again. -/
def Exec.Fair (e : Exec p) : Prop :=
  ∀ i, (∀ N, ∃ n, N ≤ n ∧ Ready p (e.st n) i) → ∀ N, ∃ n, N ≤ n ∧ e.act n = some (.run i)

/-- Weak fairness: a thread that can run from some instant on does run again and again (executions of mutex.hpp:111). -/
def Exec.WeakFair (e : Exec p) : Prop :=
  ∀ i, (∃ N, ∀ n, N ≤ n → Ready p (e.st n) i) → ∀ N, ∃ n, N ≤ n ∧ e.act n = some (.run i)

/-- No thread has a shared guard of mutex `m` in this state (shared_mutex.hpp:140). -/
def NoReader (s : Sys α) (m : Nat) : Prop := ∀ j, ∀ h ∈ (s.sys.thr j).held, h.m = m → h.kind ≠ .shrd

/-- If a thread waits in `lock` of mutex `m` for ever then again and again there is an instant at which no thread has a shared
guard of `m` (shared_mutex.hpp:113, 140): readers do not take turns without a gap. -/
def Exec.ReadersPause (e : Exec p) : Prop :=
  ∀ m i N, (∀ n, N ≤ n → ∃ c, (e.thr n i).now = .lock m :: c) → ∀ N', ∃ n, N' ≤ n ∧ NoReader (e.st n) m

/-- While a thread waits in `lock` of mutex `m` for ever, shared guards of `m` are handed out finitely often only
(shared_mutex.hpp:113, 140), as by a `std::shared_mutex` that prefers writers. -/
def Exec.WritersFirst (e : Exec p) : Prop :=
  ∀ m i N, (∀ n, N ≤ n → ∃ c, (e.thr n i).now = .lock m :: c) →
    ∃ N', ∀ n, N' ≤ n → ∀ j c, e.act n = some (.run j) → (e.thr n j).now ≠ .lockShared m :: c

/-- For each mutex there is one thread at most that uses `lock_shared` of it (shared_mutex.hpp:140). -/
def Plan.OneReader (p : Plan α) : Prop := ∀ m i j k l, Cmd.lockShared m ∈ p.work i k → Cmd.lockShared m ∈ p.work j l → i = j

/-- Scopes are respected in all blocks (rules for users of mutex.hpp:16-20). -/
def Plan.Scoped (p : Plan α) : Prop := ∀ i k, wellScoped p.values.length [] (p.work i k) = true

/-- All blocks lock in increasing order (a rule for users of mutex.hpp:111). -/
def Plan.Ordered (p : Plan α) : Prop := ∀ i k, ordered [] (p.work i k) = true

/-- `lock_shared` is not used (shared_mutex.hpp:140). -/
def Plan.Exclusive (p : Plan α) : Prop := ∀ i k m, Cmd.lockShared m ∉ p.work i k

end Verif.Forever
