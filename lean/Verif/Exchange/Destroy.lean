import Verif.Channel.Destroy
import Verif.Exchange.Props

/-!
The end of the lifetime of an exchange channel (`include/dice/template-library/exchange_channel.hpp:46`, defaulted) while
other threads may still be inside its member functions. A call that has released the mutex and is about to notify
(exchange_channel.hpp:62,94) still uses the object.
-/
namespace Verif.Exchange

open Verif.Channel (Op Res Ev Act isCall inCall closeCalls closeDone endSeen)

variable {α : Type}

/-- The members of the exchange channel that threads share (exchange_channel.hpp:31-35). -/
inductive Part where
  | flag
  | mutex
  | slot
  | hasValue
  deriving DecidableEq, Repr

/-- The member that the next action of a thread at a position uses (exchange_channel.hpp:53-149); a sleeping thread uses the
mutex when it wakes up, a thread that moves the value into the result holds it. `none`: what is left of the call only
concerns the thread itself. Simplification: where a position stands for a few accesses with the mutex held, one of them is
named. -/
def touch : PC α → Option Part
  | .idle => none
  | .eFast _ | .kRead | .cSet => some .flag
  | .eLock _ | .pLock | .qLock | .cLock => some .mutex
  | .pSleep => some .mutex
  | .sUnlock _ | .relRet _ _ | .cUnlock | .rMove _ _ => some .mutex
  | .eBody _ | .pCheck | .pBody | .qBody => some .slot
  | .sNotify _ | .cNotify => some .hasValue
  | .done _ _ => none

/-- A channel that exists, memory where a channel was, or a program that has lost its meaning (exchange_channel.hpp:46). -/
inductive Life (α : Type) where
  | alive (s : St α)
  | gone (s : St α)
  | ub
  deriving DecidableEq, Repr

/-- Scheduler choices: an action of a thread as before, or thread `t`, which is in no call, destroys the channel
(exchange_channel.hpp:46). -/
inductive LAct (α : Type) where
  | act (a : Act α)
  | destroy (t : Nat)
  deriving DecidableEq, Repr

/-- The destructor (exchange_channel.hpp:46): destroying a mutex that is owned or a condition variable on which a thread is blocked
is undefined ([thread.mutex.class], [thread.condition.condvar]). -/
def destroyed (s : St α) : Life α :=
  if s.owner.isSome || s.pcs.any PC.asleep then .ub else .gone s

/-- What a thread does when there is no channel any more: a call or an access to a member (exchange_channel.hpp:53-149) is undefined,
an action that only concerns the thread happens as before. -/
def nextGone (cfg : Cfg) (s : St α) : Act α → Option (Life α)
  | .call t op => (next cfg s (.call t op)).map (fun _ => .ub)
  | .step t w => match s.pcs[t]? with
    | some pc => if (touch pc).isSome then some .ub else (next cfg s (.step t w)).map .gone
    | none => none
  | .throw t => match s.pcs[t]? with
    | some pc => if (touch pc).isSome then some .ub else (next cfg s (.throw t)).map .gone
    | none => none
  | .spurious t => (next cfg s (.spurious t)).map (fun _ => .ub)
  | .stale t => (next cfg s (.stale t)).map (fun _ => .ub)

/-- One scheduler action (exchange_channel.hpp:46,53-149). -/
def nextLife (cfg : Cfg) : Life α → LAct α → Option (Life α)
  | .alive s, .act a => (next cfg s a).map .alive
  | .alive s, .destroy t => match s.pcs[t]? with
    | some .idle => some (destroyed s)
    | _ => none
  | .gone s, .act a => nextGone cfg s a
  | .gone _, .destroy _ => some .ub
  | .ub, _ => none

/-- A list of scheduler actions (exchange_channel.hpp:46,53-149). -/
def runLife (cfg : Cfg) : Life α → List (LAct α) → Option (Life α)
  | l, [] => some l
  | l, a :: as => (nextLife cfg l a).bind (fun l' => runLife cfg l' as)

/-! ### Specification -/

/-- The thread is in no call, or everything that is left of its call is to hand over the result (exchange_channel.hpp:63,95,136). -/
def Clear (pc : PC α) : Prop :=
  pc = .idle ∨ ∃ op r, pc = .done op r

/-- Thread `t` may destroy the channel: no continuation of the calls that were made before is undefined (exchange_channel.hpp:46). -/
def MayDestroy (cfg : Cfg) (s : St α) (t : Nat) : Prop :=
  ∀ acts : List (Act α), (∀ a ∈ acts, isCall a = false) →
    runLife cfg (.alive s) (.destroy t :: acts.map .act) ≠ some .ub

end Verif.Exchange
