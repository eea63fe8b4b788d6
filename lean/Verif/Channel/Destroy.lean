import Verif.Channel.Props

/-!
The end of the lifetime of a channel (`include/dice/template-library/channel.hpp:51`, `~channel() = default`) while other
threads may still be inside its member functions. A call that has released the mutex and is about to notify
(channel.hpp:67,68,103,129,192,210) still uses the object.
-/
namespace Verif.Channel

variable {α : Type}

/-- The members of the channel that threads share (channel.hpp:31-37). -/
inductive Part where
  | flag
  | mutex
  | queue
  | notEmpty
  | notFull
  deriving DecidableEq, Repr

/-- The member that the next action of a thread at a position uses (channel.hpp:58-212); a sleeping thread uses the mutex
when it wakes up. `none`: what is left of the call only concerns the thread itself. Simplification: where a position stands
for a few accesses with the mutex held, one of them is named. -/
def touch : PC α → Option Part
  | .idle => none
  | .eFast _ | .tFast _ | .kRead | .cSet => some .flag
  | .eLock _ | .tLock _ | .pLock | .qLock | .cLock => some .mutex
  | .eSleep _ | .pSleep => some .mutex
  | .sUnlock _ | .rUnlock _ _ | .relRet _ _ | .cUnlock => some .mutex
  | .eCheck _ | .eBody _ | .tBody _ | .pCheck | .pBody | .qBody => some .queue
  | .sNotify _ | .cNotifyE => some .notEmpty
  | .rNotify _ _ | .cNotifyF => some .notFull
  | .rRet _ _ => none
  | .done _ _ => none

/-- Blocked on one of the condition variables (channel.hpp:92,181). -/
def asleep : PC α → Bool
  | .eSleep _ | .pSleep => true
  | _ => false

/-- A channel that exists, memory where a channel was, or a program that has lost its meaning (channel.hpp:51). -/
inductive Life (α : Type) where
  | alive (s : St α)
  | gone (s : St α)
  | ub
  deriving DecidableEq, Repr

/-- Scheduler choices: an action of a thread as before, or thread `t`, which is in no call, destroys the channel
(channel.hpp:51). -/
inductive LAct (α : Type) where
  | act (a : Act α)
  | destroy (t : Nat)
  deriving DecidableEq, Repr

/-- The destructor (channel.hpp:51): destroying a mutex that is owned or a condition variable on which a thread is blocked
is undefined ([thread.mutex.class], [thread.condition.condvar]). -/
def destroyed (s : St α) : Life α :=
  if s.owner.isSome || s.pcs.any asleep then .ub else .gone s

/-- What a thread does when there is no channel any more: a call or an access to a member (channel.hpp:58-212) is undefined,
an action that only concerns the thread happens as before. -/
def nextGone (cfg : Cfg) (s : St α) : Act α → Option (Life α)
  | .call t op => (next cfg s (.call t op)).map (fun _ => .ub)
  | .step t w => match s.pcs[t]? with
    | some pc => if (touch pc).isSome then some .ub else (next cfg s (.step t w)).map .gone
    | none => none
  | .throw t => match s.pcs[t]? with
    | some pc => if (touch pc).isSome then some .ub else (next cfg s (.throw t)).map .gone
    | none => none
  | .spurious t => (next cfg s (.spurious t)).map (fun _ => .ub)
  | .stale t => (next cfg s (.stale t)).map (fun _ => .ub)

/-- One scheduler action (channel.hpp:51,58-212). -/
def nextLife (cfg : Cfg) : Life α → LAct α → Option (Life α)
  | .alive s, .act a => (next cfg s a).map .alive
  | .alive s, .destroy t => match s.pcs[t]? with
    | some .idle => some (destroyed s)
    | _ => none
  | .gone s, .act a => nextGone cfg s a
  | .gone _, .destroy _ => some .ub
  | .ub, _ => none

/-- A list of scheduler actions (channel.hpp:51,58-212). -/
def runLife (cfg : Cfg) : Life α → List (LAct α) → Option (Life α)
  | l, [] => some l
  | l, a :: as => (nextLife cfg l a).bind (fun l' => runLife cfg l' as)

/-! ### Specification -/

/-- The thread is in no call, or everything that is left of its call is to hand over the result (channel.hpp:69,104,193). -/
def Clear (pc : PC α) : Prop :=
  pc = .idle ∨ (∃ op x, pc = .rRet op x) ∨ ∃ op r, pc = .done op r

/-- Whether an action begins a call (of channel.hpp:58-212). -/
def isCall : Act α → Bool
  | .call _ _ => true
  | _ => false

/-- Whether thread `t` has made a call that has not returned (observed at channel.hpp:58-212). -/
def inCall (t : Nat) (h : List (Ev α)) : Bool :=
  h.foldl (fun b e => match e with
    | .call u _ => if u = t then true else b
    | .ret u _ => if u = t then false else b
    | .lin _ _ _ => b) false

/-- Thread `t` may destroy the channel: no continuation of the calls that were made before is undefined (channel.hpp:51). -/
def MayDestroy (cfg : Cfg) (s : St α) (t : Nat) : Prop :=
  ∀ acts : List (Act α), (∀ a ∈ acts, isCall a = false) →
    runLife cfg (.alive s) (.destroy t :: acts.map .act) ≠ some .ub

/-- The number of times `close` was called (channel.hpp:58). -/
def closeCalls (h : List (Ev α)) : Nat := h.countP (fun e => match e with | .call _ .close => true | _ => false)

/-- The number of times the flag was set (channel.hpp:65). -/
def closeDone (h : List (Ev α)) : Nat := h.countP (fun e => match e with | .lin _ .close _ => true | _ => false)

/-- Whether some `pop` has seen the end (channel.hpp:185). -/
def endSeen (h : List (Ev α)) : Bool := h.any (fun e => match e with | .lin _ .pop (.val none) => true | _ => false)

end Verif.Channel
