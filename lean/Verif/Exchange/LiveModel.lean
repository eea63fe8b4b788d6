import Verif.Exchange.Lemmas
import Verif.Channel.LiveLemmas

/-!
Infinite executions of the model of `exchange_channel.hpp`, as in `Verif.Channel.LiveModel`.
-/
namespace Verif.Exchange

open Verif.Channel (Op Res Ev Act)

/-- An execution without end of an exchange channel with `n` threads. `none` stands for an instant at which nothing
happens to the channel (executions of exchange_channel.hpp:53-149). -/
structure Exec (cfg : Cfg) (α : Type) (n : Nat) where
  st : Nat → St α
  act : Nat → Option (Act α)
  start : st 0 = init α n
  ok : ∀ i, (act i = none ∧ st (i + 1) = st i) ∨ ∃ a, act i = some a ∧ next cfg (st i) a = some (st (i + 1))

variable {α : Type} {cfg : Cfg} {n : Nat}

/-- Thread `t` can execute its next action now (exchange_channel.hpp:53-149). -/
def Ready (cfg : Cfg) (s : St α) (t : Nat) : Prop := ∃ w s', next cfg s (.step t w) = some s'

/-- Strong fairness: a thread that can run again and again does run again and again. For a thread at a lock acquisition
(exchange_channel.hpp:59, 85, 125, 143) this says that it gets the mutex eventually if the mutex is free again and again. -/
def Exec.Fair (e : Exec cfg α n) : Prop :=
  ∀ t, (∀ N, ∃ i, N ≤ i ∧ Ready cfg (e.st i) t) → ∀ N, ∃ i, N ≤ i ∧ ∃ a, e.act i = some a ∧ a.By t

/-- At instant `i` thread `t` calls `op` (exchange_channel.hpp:53, 68, 79, 124, 142). -/
def Exec.Calls (e : Exec cfg α n) (i t : Nat) (op : Op α) : Prop :=
  (e.st (i + 1)).hist = (e.st i).hist ++ [.call t op]

/-- At instant `j` the running call of thread `t` returns `r` to its caller (exchange_channel.hpp:63, 69, 81, 88, 95,
132, 135, 145, 148). -/
def Exec.Returns (e : Exec cfg α n) (j t : Nat) (r : Res α) : Prop :=
  (e.st (j + 1)).hist = (e.st j).hist ++ [.ret t r]

/-- A slot on which the operations of the history took effect one after another holds a value (exchange_channel.hpp:32). -/
def Exec.Avail (e : Exec cfg α n) (i : Nat) : Prop := ∃ v c, Explains (e.st i).hist (some v, c)

/-- A `close` has taken effect (exchange_channel.hpp:60). -/
def Exec.Closed (e : Exec cfg α n) (i : Nat) : Prop := ∃ t, Ev.lin t .close .unit ∈ (e.st i).hist

/-- Only `t` calls `pop` or `try_pop` (about exchange_channel.hpp:124-149). -/
def Exec.SoleConsumer (e : Exec cfg α n) (t : Nat) : Prop := ∀ i u, e.Calls i u .pop ∨ e.Calls i u .tryPop → u = t

/-- The instant at which the thread is woken does not come from a notification (exchange_channel.hpp:126). -/
def Exec.SpuriousAt (e : Exec cfg α n) (i : Nat) : Prop := ∃ t, e.act i = some (.spurious t)

end Verif.Exchange
