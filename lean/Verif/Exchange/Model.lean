import Verif.Exchange.Spec
import Verif.Channel.Model

/-!
Model of `include/dice/template-library/exchange_channel.hpp`, in the style of `Verif.Channel.Model`: any number of
threads, interleaved at the granularity of the accesses to shared state. The test of the flag without the mutex at the
start of `emplace` (exchange_channel.hpp:80) may read an older value (action `stale`); the tests with the mutex held read
the current value, because the flag is only written with the mutex held (`HB.exch_weak` shows this for loads that may give any value
that is coherent). Simplification: `closed()` reads the current value (it may be older, see `HB.exch_closed` and `HB.exch_closed_late`).
-/
namespace Verif.Exchange

open Verif.Channel (Op Res Ev)

/-- Whether constructing the element in place (exchange_channel.hpp:91) or moving it (135,148) may throw. -/
structure Cfg where
  ctorThrow : Bool := false
  moveThrow : Bool := false

/-- Program counter of a thread (exchange_channel.hpp:53-149, lines given at each position). -/
inductive PC (α : Type) where
  | idle
  /-- `emplace`, about to evaluate the fast path test, exchange_channel.hpp:80 -/
  | eFast (v : α)
  /-- `emplace`, about to acquire the mutex, exchange_channel.hpp:85 -/
  | eLock (v : α)
  /-- `emplace`, mutex held, about to run exchange_channel.hpp:86-91 -/
  | eBody (v : α)
  /-- value stored, mutex held, about to release it at the end of the block, exchange_channel.hpp:92; `op` is ghost -/
  | sUnlock (op : Op α)
  /-- about to call `has_value_.notify_one()`, exchange_channel.hpp:94 -/
  | sNotify (op : Op α)
  /-- `pop`, about to (re)acquire the mutex, exchange_channel.hpp:125 or inside `wait` at 126 -/
  | pLock
  /-- `pop`, mutex held, about to evaluate the wait predicate, exchange_channel.hpp:126-128 -/
  | pCheck
  /-- `pop`, asleep on `has_value_`, exchange_channel.hpp:126 -/
  | pSleep
  /-- `pop`, mutex held, `wait` has returned, about to run exchange_channel.hpp:130-135 -/
  | pBody
  /-- `try_pop`, about to acquire the mutex, exchange_channel.hpp:143 -/
  | qLock
  /-- `try_pop`, mutex held, about to run exchange_channel.hpp:144-148 -/
  | qBody
  /-- mutex held, `std::exchange` has moved the value out and emptied the slot, about to move it into the returned
  optional, exchange_channel.hpp:135,148 -/
  | rMove (op : Op α) (x : α)
  /-- mutex held, leaving the function with the given result (the `unique_lock` destructor releases the mutex) -/
  | relRet (op : Op α) (r : Res α)
  /-- `close`, about to acquire the mutex, exchange_channel.hpp:59 -/
  | cLock
  /-- `close`, mutex held, about to set the flag, exchange_channel.hpp:60 -/
  | cSet
  /-- `close`, mutex held, about to release it, exchange_channel.hpp:61 -/
  | cUnlock
  /-- `close`, about to call `has_value_.notify_all()`, exchange_channel.hpp:62 -/
  | cNotify
  /-- `closed`, about to read the flag, exchange_channel.hpp:69 -/
  | kRead
  /-- about to return to the caller -/
  | done (op : Op α) (r : Res α)
  deriving DecidableEq, Repr

/-- Positions at which the thread owns `value_mutex_` (exchange_channel.hpp:31). -/
def PC.holds {α} : PC α → Bool
  | .eBody _ | .sUnlock _ | .pCheck | .pBody | .qBody | .rMove _ _ | .relRet _ _ | .cSet | .cUnlock => true
  | _ => false

/-- The object (exchange_channel.hpp:31-35) and its threads. `hist` is ghost. -/
structure St (α : Type) where
  /-- `value_`, exchange_channel.hpp:32 -/
  slot : Option α
  /-- `closed_`, exchange_channel.hpp:34 -/
  closed : Bool
  /-- owner of `value_mutex_` -/
  owner : Option Nat
  pcs : List (PC α)
  hist : List (Ev α)
  deriving DecidableEq, Repr

/-- A freshly constructed exchange channel (exchange_channel.hpp:38) with `n` threads. -/
def init (α : Type) (n : Nat) : St α :=
  { slot := none, closed := false, owner := none, pcs := List.replicate n .idle, hist := [] }

variable {α : Type}

/-- Entry of each member function: exchange_channel.hpp:79, 124, 142, 53, 68. `push` forwards to `emplace`
(104-106,114-116). There is no `try_push`. -/
def entry : Op α → Option (PC α)
  | .push v => some (.eFast v)
  | .tryPush _ => none
  | .pop => some .pLock
  | .tryPop => some .qLock
  | .close => some .cLock
  | .isClosed => some .kRead

/-- `s` with thread `t` moved to `pc` (control flow in exchange_channel.hpp:53-149). -/
def St.goto (s : St α) (t : Nat) (pc : PC α) : St α := { s with pcs := s.pcs.set t pc }

/-- Record a ghost event (ghost, for exchange_channel.hpp:53-149). -/
def St.log (s : St α) (e : Ev α) : St α := { s with hist := s.hist ++ [e] }

/-- Where a sleeper of `has_value_` continues (exchange_channel.hpp:126). -/
def wake : PC α → PC α
  | .pSleep => .pLock
  | p => p

/-- Asleep on `has_value_` (exchange_channel.hpp:126). -/
def PC.asleep : PC α → Bool
  | .pSleep => true
  | _ => false

/-- `has_value_.notify_one()`: if any thread is asleep, one of them (the scheduler's choice `w`) wakes up (exchange_channel.hpp:94). -/
def notifyOne (s : St α) (w : Option Nat) : Option (St α) :=
  match w with
  | none => if s.pcs.any PC.asleep then none else some s
  | some i => match s.pcs[i]? with
    | some .pSleep => some (s.goto i .pLock)
    | _ => none

/-- Acquire the mutex if it is free, then continue at `pc` (exchange_channel.hpp:59, 85, 125, 143). -/
def acquire (s : St α) (t : Nat) (pc : PC α) : Option (St α) :=
  match s.owner with
  | none => some ({ s with owner := some t }.goto t pc)
  | some _ => none

/-- Release the mutex and continue at `pc` (exchange_channel.hpp:61, 92, 136, 149). -/
def release (s : St α) (t : Nat) (pc : PC α) : St α := { s with owner := none }.goto t pc

/-- The next action of thread `t` at `pc`, in the order of the code (exchange_channel.hpp:53-149). -/
def stepAt (s : St α) (t : Nat) (w : Option Nat) : PC α → Option (St α)
  | .idle => none
  -- emplace, exchange_channel.hpp:79-96
  | .eFast v =>
    if s.closed then some ((s.log (.lin t (.push v) (.bool false))).goto t (.done (.push v) (.bool false)))
    else some (s.goto t (.eLock v))
  | .eLock v => acquire s t (.eBody v)
  | .eBody v =>
    if s.closed then some ((s.log (.lin t (.push v) (.bool false))).goto t (.relRet (.push v) (.bool false)))
    else some (({ s with slot := some v }.log (.lin t (.push v) (.bool true))).goto t (.sUnlock (.push v)))
  | .sUnlock op => some (release s t (.sNotify op))
  | .sNotify op => (notifyOne s w).map (fun s => s.goto t (.done op (.bool true)))
  -- pop, exchange_channel.hpp:124-136
  | .pLock => acquire s t .pCheck
  | .pCheck =>
    if s.slot ≠ none ∨ s.closed = true then some (s.goto t .pBody)
    else some (release s t .pSleep)
  | .pSleep => none
  | .pBody =>
    match s.slot with
    | none => some ((s.log (.lin t .pop (.val none))).goto t (.relRet .pop (.val none)))
    | some x => some (({ s with slot := none }.log (.lin t .pop (.val (some x)))).goto t (.rMove .pop x))
  -- try_pop, exchange_channel.hpp:142-149
  | .qLock => acquire s t .qBody
  | .qBody =>
    match s.slot with
    | none => some ((s.log (.lin t .tryPop (.val none))).goto t (.relRet .tryPop (.val none)))
    | some x => some (({ s with slot := none }.log (.lin t .tryPop (.val (some x)))).goto t (.rMove .tryPop x))
  | .rMove op x => some (s.goto t (.relRet op (.val (some x))))
  | .relRet op r => some (release s t (.done op r))
  -- close, exchange_channel.hpp:53-63
  | .cLock => acquire s t .cSet
  | .cSet => some (({ s with closed := true }.log (.lin t .close .unit)).goto t .cUnlock)
  | .cUnlock => some (release s t .cNotify)
  | .cNotify => some ({ s with pcs := s.pcs.map wake }.goto t (.done .close .unit))
  -- closed, exchange_channel.hpp:68-70
  | .kRead => some ((s.log (.lin t .isClosed (.bool s.closed))).goto t (.done .isClosed (.bool s.closed)))
  | .done _ r => some ((s.log (.ret t r)).goto t .idle)

/-- The element operation at the current position throws: construction in `std::optional::emplace`
(exchange_channel.hpp:91; the previous value has been destroyed by then, [optional.assign]), the move inside
`std::exchange` (135,148; the slot keeps its value), the move into the returned optional (135,148; the value is gone). -/
def throwAt (cfg : Cfg) (s : St α) (t : Nat) : PC α → Option (St α)
  | .eBody v =>
    if cfg.ctorThrow = true ∧ s.closed = false then
      some (({ s with slot := none }.log (.lin t (.push v) .threw)).goto t (.relRet (.push v) .threw))
    else none
  | .pBody =>
    if cfg.moveThrow = true ∧ s.slot ≠ none then some ((s.log (.lin t .pop .threw)).goto t (.relRet .pop .threw))
    else none
  | .qBody =>
    if cfg.moveThrow = true ∧ s.slot ≠ none then some ((s.log (.lin t .tryPop .threw)).goto t (.relRet .tryPop .threw))
    else none
  | .rMove op _ => if cfg.moveThrow = true then some (s.goto t (.relRet op .threw)) else none
  | _ => none

open Verif.Channel (Act)

/-- One scheduler action; `none` if it is not enabled. Spurious wakeups at exchange_channel.hpp:126, stale reads at
exchange_channel.hpp:80. -/
def next (cfg : Cfg) (s : St α) : Act α → Option (St α)
  | .call t op => match s.pcs[t]? with
    | some .idle => (entry op).map (fun pc => (s.log (.call t op)).goto t pc)
    | _ => none
  | .step t w => match s.pcs[t]? with
    | some pc => stepAt s t w pc
    | none => none
  | .throw t => match s.pcs[t]? with
    | some pc => throwAt cfg s t pc
    | none => none
  | .spurious t => match s.pcs[t]? with
    | some .pSleep => some (s.goto t .pLock)
    | _ => none
  | .stale t => match s.pcs[t]? with
    | some (.eFast v) => some (s.goto t (.eLock v))
    | _ => none

/-- Run a list of scheduler actions (executions of exchange_channel.hpp:53-149). -/
def run (cfg : Cfg) : St α → List (Act α) → Option (St α)
  | s, [] => some s
  | s, a :: as => (next cfg s a).bind (fun s' => run cfg s' as)

/-- States reachable by some execution with `n` threads (executions of exchange_channel.hpp:53-149). -/
def Reachable (cfg : Cfg) (n : Nat) (s : St α) : Prop := ∃ acts, run cfg (init α n) acts = some s

end Verif.Exchange
