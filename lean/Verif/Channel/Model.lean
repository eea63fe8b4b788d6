import Verif.Channel.Spec

/-!
Model of `include/dice/template-library/channel.hpp`: any number of threads execute the member functions, interleaved
at the granularity of the individual accesses to shared state.

Memory orders: the tests of `closed_` without the mutex at the start of `emplace` and `try_emplace` (channel.hpp:86,115)
may read an older value of the flag (action `stale`). The tests with the mutex held read the current value, because the
flag is only written with the mutex held; `HB/Model.lean` has loads that may give any value that is coherent, and `HB.chan_weak` shows that this
makes no difference.

Simplifications: `closed()` reads the current value of the flag (it may be older, see `HB.chan_closed` and `HB.chan_closed_late`); the element constructor and move constructor are atomic and
either succeed or throw without other effect; running out of memory in `std::deque` is a case of `ctorThrow`.
-/
namespace Verif.Channel

/-- Parameters of a channel object: its capacity (channel.hpp:31,40) and whether constructing an element from the
arguments (channel.hpp:100,126) or moving one out (channel.hpp:188,193,206,211) may throw. -/
structure Cfg where
  cap : Nat
  ctorThrow : Bool := false
  moveThrow : Bool := false

/-- Program counter of a thread. Lock-holding positions are listed in `PC.holds` (channel.hpp:58-212, lines given at each position). -/
inductive PC (α : Type) where
  /-- not inside any member function -/
  | idle
  /-- `emplace`, about to evaluate the fast path test, channel.hpp:86 -/
  | eFast (v : α)
  /-- `emplace`, about to (re)acquire the mutex, channel.hpp:91 or inside `wait` at channel.hpp:92 -/
  | eLock (v : α)
  /-- `emplace`, mutex held, about to evaluate the wait predicate, channel.hpp:92 -/
  | eCheck (v : α)
  /-- `emplace`, asleep on `queue_not_full_`, channel.hpp:92 -/
  | eSleep (v : α)
  /-- `emplace`, mutex held, `wait` has returned, about to run channel.hpp:94-100 -/
  | eBody (v : α)
  /-- `try_emplace`, about to evaluate the fast path test, channel.hpp:115 -/
  | tFast (v : α)
  /-- `try_emplace`, about to acquire the mutex, channel.hpp:120 -/
  | tLock (v : α)
  /-- `try_emplace`, mutex held, about to run channel.hpp:121-126 -/
  | tBody (v : α)
  /-- element inserted, mutex held, about to release it, channel.hpp:101,127; `op` is the running call (ghost) -/
  | sUnlock (op : Op α)
  /-- about to call `queue_not_empty_.notify_one()`, channel.hpp:103,129 -/
  | sNotify (op : Op α)
  /-- `pop`, about to (re)acquire the mutex, channel.hpp:180 or inside `wait` at channel.hpp:181 -/
  | pLock
  /-- `pop`, mutex held, about to evaluate the wait predicate, channel.hpp:181 -/
  | pCheck
  /-- `pop`, asleep on `queue_not_empty_`, channel.hpp:181 -/
  | pSleep
  /-- `pop`, mutex held, `wait` has returned, about to run channel.hpp:183-189 -/
  | pBody
  /-- `try_pop`, about to acquire the mutex, channel.hpp:201 -/
  | qLock
  /-- `try_pop`, mutex held, about to run channel.hpp:202-207 -/
  | qBody
  /-- element taken, mutex held, about to unlock, channel.hpp:191,209 -/
  | rUnlock (op : Op α) (x : α)
  /-- about to call `queue_not_full_.notify_one()`, channel.hpp:192,210 -/
  | rNotify (op : Op α) (x : α)
  /-- about to return the element, channel.hpp:193,211 -/
  | rRet (op : Op α) (x : α)
  /-- mutex held, leaving the function with the given result: the `unique_lock` destructor releases the mutex
  (channel.hpp:97,123,185,203 and stack unwinding) -/
  | relRet (op : Op α) (r : Res α)
  /-- `close`, about to acquire the mutex, channel.hpp:64 -/
  | cLock
  /-- `close`, mutex held, about to set the flag, channel.hpp:65 -/
  | cSet
  /-- `close`, mutex held, about to release it, channel.hpp:66 -/
  | cUnlock
  /-- `close`, about to call `queue_not_empty_.notify_all()`, channel.hpp:67 -/
  | cNotifyE
  /-- `close`, about to call `queue_not_full_.notify_all()`, channel.hpp:68 -/
  | cNotifyF
  /-- `closed`, about to read the flag, channel.hpp:75 -/
  | kRead
  /-- about to return to the caller -/
  | done (op : Op α) (r : Res α)
  deriving DecidableEq, Repr

/-- Positions at which the thread owns `queue_mutex_` (channel.hpp:35): between the lock acquisitions at
channel.hpp:64,91,120,180,201 and the corresponding releases. -/
def PC.holds {α} : PC α → Bool
  | .eCheck _ | .eBody _ | .tBody _ | .sUnlock _ | .pCheck | .pBody | .qBody | .rUnlock _ _ | .relRet _ _
  | .cSet | .cUnlock => true
  | _ => false

/-- The channel object (channel.hpp:31-37) and its threads. `hist` is ghost: no step reads it. The sleepers of the two
condition variables are the threads at `pSleep` and `eSleep`. -/
structure St (α : Type) where
  /-- `queue_`, channel.hpp:32 -/
  q : List α
  /-- `closed_`, channel.hpp:34 -/
  closed : Bool
  /-- owner of `queue_mutex_`, channel.hpp:35 -/
  owner : Option Nat
  pcs : List (PC α)
  hist : List (Ev α)
  deriving DecidableEq, Repr

/-- A freshly constructed channel (channel.hpp:40) with `n` threads. -/
def init (α : Type) (n : Nat) : St α :=
  { q := [], closed := false, owner := none, pcs := List.replicate n .idle, hist := [] }

/-- Scheduler choices (calls and the nondeterminism of channel.hpp:58-212). -/
inductive Act (α : Type) where
  /-- idle thread `t` calls an operation -/
  | call (t : Nat) (op : Op α)
  /-- thread `t` executes its next action; `wake` is the sleeper a `notify_one` wakes -/
  | step (t : Nat) (wake : Option Nat)
  /-- the element operation thread `t` is about to perform throws -/
  | throw (t : Nat)
  /-- sleeping thread `t` wakes up spuriously -/
  | spurious (t : Nat)
  /-- the test of the flag without the mutex by thread `t` reads the value from before a `close` -/
  | stale (t : Nat)
  deriving DecidableEq, Repr

variable {α : Type}

/-- Entry of each member function: first program counter of channel.hpp:85, 114, 179, 200, 58, 74. `push` forwards to
`emplace` (139-141,159-161), `try_push` to `try_emplace` (149-151,169-171). -/
def entry : Op α → PC α
  | .push v => .eFast v
  | .tryPush v => .tFast v
  | .pop => .pLock
  | .tryPop => .qLock
  | .close => .cLock
  | .isClosed => .kRead

/-- `s` with thread `t` moved to `pc` (control flow in channel.hpp:58-212). -/
def St.goto (s : St α) (t : Nat) (pc : PC α) : St α := { s with pcs := s.pcs.set t pc }

/-- Record a ghost event (ghost, for channel.hpp:58-212). -/
def St.log (s : St α) (e : Ev α) : St α := { s with hist := s.hist ++ [e] }

/-- `notify_one` on the condition variable whose sleepers are the threads at a position `sl`, which resume at the
position `wk` (C++ [thread.condition.condvar]: if any thread is blocked, one of them is unblocked) (channel.hpp:103, 129, 192, 210). -/
def notifyOne (sl : PC α → Option (PC α)) (s : St α) (wake : Option Nat) : Option (St α) :=
  match wake with
  | none => if s.pcs.any (fun p => (sl p).isSome) then none else some s
  | some i => match s.pcs[i]? with
    | none => none
    | some p => match sl p with
      | none => none
      | some p' => some (s.goto i p')

/-- Sleepers of `queue_not_empty_` and where they continue (re-acquiring the mutex inside `wait`, channel.hpp:181). -/
def wakeE : PC α → Option (PC α)
  | .pSleep => some .pLock
  | _ => none

/-- Sleepers of `queue_not_full_` and where they continue (channel.hpp:92). -/
def wakeF : PC α → Option (PC α)
  | .eSleep v => some (.eLock v)
  | _ => none

/-- `notify_all` (channel.hpp:67,68). -/
def notifyAll (sl : PC α → Option (PC α)) (s : St α) : St α :=
  { s with pcs := s.pcs.map (fun p => (sl p).getD p) }

/-- Acquire the mutex if it is free, then continue at `pc` (channel.hpp:64, 91, 120, 180, 201). -/
def acquire (s : St α) (t : Nat) (pc : PC α) : Option (St α) :=
  match s.owner with
  | none => some ({ s with owner := some t }.goto t pc)
  | some _ => none

/-- Release the mutex and continue at `pc` (channel.hpp:66, 101, 127, 191, 209). -/
def release (s : St α) (t : Nat) (pc : PC α) : St α := { s with owner := none }.goto t pc

/-- The next action of thread `t` when it is at `pc`. One clause per position, in the order of the code (channel.hpp:58-212). -/
def stepAt (cfg : Cfg) (s : St α) (t : Nat) (wake : Option Nat) : PC α → Option (St α)
  | .idle => none
  -- emplace, channel.hpp:85-105
  | .eFast v =>
    if s.closed then some ((s.log (.lin t (.push v) (.bool false))).goto t (.done (.push v) (.bool false)))
    else some (s.goto t (.eLock v))
  | .eLock v => acquire s t (.eCheck v)
  | .eCheck v =>
    if s.q.length < cfg.cap ∨ s.closed = true then some (s.goto t (.eBody v))
    else some (release s t (.eSleep v))
  | .eSleep _ => none
  | .eBody v =>
    if s.closed then some ((s.log (.lin t (.push v) (.bool false))).goto t (.relRet (.push v) (.bool false)))
    else some (({ s with q := s.q ++ [v] }.log (.lin t (.push v) (.bool true))).goto t (.sUnlock (.push v)))
  -- try_emplace, channel.hpp:114-131
  | .tFast v =>
    if s.closed then some ((s.log (.lin t (.tryPush v) (.bool false))).goto t (.done (.tryPush v) (.bool false)))
    else some (s.goto t (.tLock v))
  | .tLock v => acquire s t (.tBody v)
  | .tBody v =>
    if cfg.cap ≤ s.q.length ∨ s.closed = true then
      some ((s.log (.lin t (.tryPush v) (.bool false))).goto t (.relRet (.tryPush v) (.bool false)))
    else some (({ s with q := s.q ++ [v] }.log (.lin t (.tryPush v) (.bool true))).goto t (.sUnlock (.tryPush v)))
  | .sUnlock op => some (release s t (.sNotify op))
  | .sNotify op => (notifyOne wakeE s wake).map (fun s => s.goto t (.done op (.bool true)))
  -- pop, channel.hpp:179-194
  | .pLock => acquire s t .pCheck
  | .pCheck =>
    if s.q ≠ [] ∨ s.closed = true then some (s.goto t .pBody)
    else some (release s t .pSleep)
  | .pSleep => none
  | .pBody =>
    match s.q with
    | [] => some ((s.log (.lin t .pop (.val none))).goto t (.relRet .pop (.val none)))
    | x :: q => some (({ s with q := q }.log (.lin t .pop (.val (some x)))).goto t (.rUnlock .pop x))
  -- try_pop, channel.hpp:200-212
  | .qLock => acquire s t .qBody
  | .qBody =>
    match s.q with
    | [] => some ((s.log (.lin t .tryPop (.val none))).goto t (.relRet .tryPop (.val none)))
    | x :: q => some (({ s with q := q }.log (.lin t .tryPop (.val (some x)))).goto t (.rUnlock .tryPop x))
  | .rUnlock op x => some (release s t (.rNotify op x))
  | .rNotify op x => (notifyOne wakeF s wake).map (fun s => s.goto t (.rRet op x))
  | .rRet op x => some (s.goto t (.done op (.val (some x))))
  | .relRet op r => some (release s t (.done op r))
  -- close, channel.hpp:58-69
  | .cLock => acquire s t .cSet
  | .cSet => some (({ s with closed := true }.log (.lin t .close .unit)).goto t .cUnlock)
  | .cUnlock => some (release s t .cNotifyE)
  | .cNotifyE => some ((notifyAll wakeE s).goto t .cNotifyF)
  | .cNotifyF => some ((notifyAll wakeF s).goto t (.done .close .unit))
  -- closed, channel.hpp:74-76
  | .kRead => some ((s.log (.lin t .isClosed (.bool s.closed))).goto t (.done .isClosed (.bool s.closed)))
  | .done _ r => some ((s.log (.ret t r)).goto t .idle)

/-- The element operation at the current position throws: construction inside `emplace_back` (channel.hpp:100,126,
strong guarantee of `std::deque`), moving the front element out (channel.hpp:188,206; the element stays), moving the
result into the returned optional (channel.hpp:193,211; the element is already gone). -/
def throwAt (cfg : Cfg) (s : St α) (t : Nat) : PC α → Option (St α)
  | .eBody v =>
    if cfg.ctorThrow = true ∧ s.closed = false then
      some ((s.log (.lin t (.push v) .threw)).goto t (.relRet (.push v) .threw))
    else none
  | .tBody v =>
    if cfg.ctorThrow = true ∧ s.closed = false ∧ s.q.length < cfg.cap then
      some ((s.log (.lin t (.tryPush v) .threw)).goto t (.relRet (.tryPush v) .threw))
    else none
  | .pBody =>
    if cfg.moveThrow = true ∧ s.q ≠ [] then some ((s.log (.lin t .pop .threw)).goto t (.relRet .pop .threw))
    else none
  | .qBody =>
    if cfg.moveThrow = true ∧ s.q ≠ [] then some ((s.log (.lin t .tryPop .threw)).goto t (.relRet .tryPop .threw))
    else none
  | .rRet op _ => if cfg.moveThrow = true then some (s.goto t (.done op .threw)) else none
  | _ => none

/-- One scheduler action; `none` if it is not enabled. Spurious wakeups are those permitted for
`std::condition_variable::wait` (channel.hpp:92,181). A stale read at channel.hpp:86,115 finds the channel open. -/
def next (cfg : Cfg) (s : St α) : Act α → Option (St α)
  | .call t op => match s.pcs[t]? with
    | some .idle => some ((s.log (.call t op)).goto t (entry op))
    | _ => none
  | .step t wake => match s.pcs[t]? with
    | some pc => stepAt cfg s t wake pc
    | none => none
  | .throw t => match s.pcs[t]? with
    | some pc => throwAt cfg s t pc
    | none => none
  | .spurious t => match s.pcs[t]? with
    | some .pSleep => some (s.goto t .pLock)
    | some (.eSleep v) => some (s.goto t (.eLock v))
    | _ => none
  | .stale t => match s.pcs[t]? with
    | some (.eFast v) => some (s.goto t (.eLock v))
    | some (.tFast v) => some (s.goto t (.tLock v))
    | _ => none

/-- Run a list of scheduler actions (executions of channel.hpp:58-212). -/
def run (cfg : Cfg) : St α → List (Act α) → Option (St α)
  | s, [] => some s
  | s, a :: as => (next cfg s a).bind (fun s' => run cfg s' as)

/-- States reachable by some execution of a channel with `n` threads (executions of channel.hpp:58-212). -/
def Reachable (cfg : Cfg) (n : Nat) (s : St α) : Prop := ∃ acts, run cfg (init α n) acts = some s

end Verif.Channel
