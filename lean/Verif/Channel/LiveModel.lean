import Verif.Channel.Progress

/-!
Infinite executions of the model of `channel.hpp` and fairness of the scheduler, for statements that something
eventually happens.

The C++ standard does not promise that a thread that waits for a `std::mutex` ever gets it. `Exec.Fair` is therefore a
hypothesis about the scheduler and the mutex; the theorems that use it say so in their statement.
-/
namespace Verif.Channel

/-- An execution without end of a channel with `n` threads. `none` stands for an instant at which nothing happens to the
channel, so executions that stop are included (executions of channel.hpp:58-212). -/
structure Exec (cfg : Cfg) (α : Type) (n : Nat) where
  st : Nat → St α
  act : Nat → Option (Act α)
  start : st 0 = init α n
  ok : ∀ i, (act i = none ∧ st (i + 1) = st i) ∨ ∃ a, act i = some a ∧ next cfg (st i) a = some (st (i + 1))

variable {α : Type} {cfg : Cfg} {n : Nat}

/-- Thread `t` executes a piece of a member function (channel.hpp:58-212). -/
def Act.By (t : Nat) : Act α → Prop
  | .step u _ => u = t
  | .throw u => u = t
  | .stale u => u = t
  | _ => False

/-- Thread `t` can execute its next action now: it is inside a member function, not asleep, and not waiting for a mutex
that another thread owns (channel.hpp:58-212). -/
def Ready (cfg : Cfg) (s : St α) (t : Nat) : Prop := ∃ w s', next cfg s (.step t w) = some s'

/-- Strong fairness: a thread that can run again and again does run again and again. For a thread at a lock acquisition
(channel.hpp:64, 91, 120, 180, 201) this says that it gets the mutex eventually if the mutex is free again and again. -/
def Exec.Fair (e : Exec cfg α n) : Prop :=
  ∀ t, (∀ N, ∃ i, N ≤ i ∧ Ready cfg (e.st i) t) → ∀ N, ∃ i, N ≤ i ∧ ∃ a, e.act i = some a ∧ a.By t

/-- Weak fairness: a thread that can run from some instant on does run again and again (executions of channel.hpp:58-212). -/
def Exec.WeakFair (e : Exec cfg α n) : Prop :=
  ∀ t, (∃ N, ∀ i, N ≤ i → Ready cfg (e.st i) t) → ∀ N, ∃ i, N ≤ i ∧ ∃ a, e.act i = some a ∧ a.By t

/-- At instant `i` thread `t` calls `op` (channel.hpp:58, 74, 85, 114, 179, 200). -/
def Exec.Calls (e : Exec cfg α n) (i t : Nat) (op : Op α) : Prop :=
  (e.st (i + 1)).hist = (e.st i).hist ++ [.call t op]

/-- At instant `j` the running call of thread `t` returns `r` to its caller (channel.hpp:69, 75, 87, 97, 104, 116, 123,
130, 185, 193, 203, 211). -/
def Exec.Returns (e : Exec cfg α n) (j t : Nat) (r : Res α) : Prop :=
  (e.st (j + 1)).hist = (e.st j).hist ++ [.ret t r]

/-- A value has been inserted and not yet removed (channel.hpp:32). -/
def Exec.Avail (e : Exec cfg α n) (i : Nat) : Prop :=
  (removed (e.st i).hist).length < (inserted (e.st i).hist).length

/-- Fewer than `cap` values have been inserted and not yet removed (channel.hpp:31,32). -/
def Exec.Room (e : Exec cfg α n) (i : Nat) : Prop :=
  (inserted (e.st i).hist).length < (removed (e.st i).hist).length + cfg.cap

/-- A `close` has taken effect (channel.hpp:65). -/
def Exec.Closed (e : Exec cfg α n) (i : Nat) : Prop := ∃ t, Ev.lin t .close .unit ∈ (e.st i).hist

/-- The instant at which the thread is woken does not come from a notification (channel.hpp:92,181). -/
def Exec.SpuriousAt (e : Exec cfg α n) (i : Nat) : Prop := ∃ t, e.act i = some (.spurious t)

end Verif.Channel
