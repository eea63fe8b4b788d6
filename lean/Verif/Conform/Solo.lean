import Verif.Channel.Props
import Verif.Exchange.Props

/-!
A channel (`include/dice/template-library/channel.hpp`) and an exchange channel
(`include/dice/template-library/exchange_channel.hpp`) used by one thread alone, as in the sequential tests of
`tests/tests_channel.cpp` and `tests/tests_exchange_channel.cpp`: for every sequence of calls the results are those of a
plain bounded queue, respectively of a plain optional, up to the first call that blocks.
-/
namespace Verif.Conform.Solo

open Verif.Channel (Op Res Ev Act)

variable {α : Type}

/-! ### Specification: the objects as containers -/

/-- The results of calls on a bounded queue with contents `q` (a reference for channel.hpp:58-212); `none` for a call that
would have to wait for another thread, after which nothing happens. -/
def queueRef (cap : Nat) : List α → Bool → List (Op α) → List (Option (Res α))
  | _, _, [] => []
  | q, c, .push v :: ops =>
    if c then some (.bool false) :: queueRef cap q c ops
    else if q.length < cap then some (.bool true) :: queueRef cap (q ++ [v]) c ops
    else [none]
  | q, c, .tryPush v :: ops =>
    if c = false ∧ q.length < cap then some (.bool true) :: queueRef cap (q ++ [v]) c ops
    else some (.bool false) :: queueRef cap q c ops
  | x :: q, c, .pop :: ops => some (.val (some x)) :: queueRef cap q c ops
  | [], c, .pop :: ops => if c then some (.val none) :: queueRef cap [] c ops else [none]
  | x :: q, c, .tryPop :: ops => some (.val (some x)) :: queueRef cap q c ops
  | [], c, .tryPop :: ops => some (.val none) :: queueRef cap [] c ops
  | q, _, .close :: ops => some .unit :: queueRef cap q true ops
  | q, c, .isClosed :: ops => some (.bool c) :: queueRef cap q c ops

/-- The results of calls on an optional value that a push replaces (a reference for exchange_channel.hpp:53-149); `none` for
a call that would have to wait for another thread. There is no `try_push`. -/
def slotRef : Option α → Bool → List (Op α) → List (Option (Res α))
  | _, _, [] => []
  | o, c, .push v :: ops =>
    if c then some (.bool false) :: slotRef o c ops else some (.bool true) :: slotRef (some v) c ops
  | _, _, .tryPush _ :: _ => [none]
  | some x, c, .pop :: ops => some (.val (some x)) :: slotRef none c ops
  | none, c, .pop :: ops => if c then some (.val none) :: slotRef none c ops else [none]
  | o, c, .tryPop :: ops => some (.val o) :: slotRef none c ops
  | o, _, .close :: ops => some .unit :: slotRef o true ops
  | o, c, .isClosed :: ops => some (.bool c) :: slotRef o c ops

/-! ### The models run by one thread -/

/-- The result of the last call that has returned (channel.hpp:58-212, exchange_channel.hpp:53-149). -/
def lastRet (h : List (Ev α)) : Option (Res α) :=
  match h.getLast? with
  | some (.ret _ r) => some r
  | _ => none

/-- The only thread goes on until it is outside of all member functions (channel.hpp:58-212); `none` if it cannot. -/
def chanFinish (cfg : Channel.Cfg) : Nat → Channel.St α → Option (Channel.St α)
  | 0, _ => none
  | n + 1, s =>
    match s.pcs with
    | [.idle] => some s
    | _ => (Channel.next cfg s (.step 0 none)).bind (chanFinish cfg n)

/-- One thread makes the calls one after the other (channel.hpp:58-212). No call takes more than eight steps. -/
def chanSolo (cfg : Channel.Cfg) : Channel.St α → List (Op α) → List (Option (Res α))
  | _, [] => []
  | s, op :: ops =>
    match (Channel.next cfg s (.call 0 op)).bind (chanFinish cfg 9) with
    | none => [none]
    | some s' => lastRet s'.hist :: chanSolo cfg s' ops

/-- The only thread goes on until it is outside of all member functions (exchange_channel.hpp:53-149); `none` if it
cannot. -/
def exchFinish (cfg : Exchange.Cfg) : Nat → Exchange.St α → Option (Exchange.St α)
  | 0, _ => none
  | n + 1, s =>
    match s.pcs with
    | [.idle] => some s
    | _ => (Exchange.next cfg s (.step 0 none)).bind (exchFinish cfg n)

/-- One thread makes the calls one after the other (exchange_channel.hpp:53-149). -/
def exchSolo (cfg : Exchange.Cfg) : Exchange.St α → List (Op α) → List (Option (Res α))
  | _, [] => []
  | s, op :: ops =>
    match (Exchange.next cfg s (.call 0 op)).bind (exchFinish cfg 9) with
    | none => [none]
    | some s' => lastRet s'.hist :: exchSolo cfg s' ops

/-- A channel between two calls of its only thread (channel.hpp:31-37). -/
def calm (q : List α) (c : Bool) (h : List (Ev α)) : Channel.St α :=
  { q := q, closed := c, owner := none, pcs := [.idle], hist := h }

/-- An exchange channel between two calls of its only thread (exchange_channel.hpp:31-35). -/
def calmE (o : Option α) (c : Bool) (h : List (Ev α)) : Exchange.St α :=
  { slot := o, closed := c, owner := none, pcs := [.idle], hist := h }

theorem lastRet_calm (q : List α) (c : Bool) (h : List (Ev α)) (a b : Ev α) (t : Nat) (r : Res α) :
    lastRet (calm q c (h ++ [a, b, .ret t r])).hist = some r := by simp [lastRet, calm]

theorem lastRet_calmE (o : Option α) (c : Bool) (h : List (Ev α)) (a b : Ev α) (t : Nat) (r : Res α) :
    lastRet (calmE o c (h ++ [a, b, .ret t r])).hist = some r := by simp [lastRet, calmE]

/-- What one call does to a channel that nobody else uses. -/
theorem chan_call (cfg : Channel.Cfg) (q : List α) (c : Bool) (h : List (Ev α)) (op : Op α) :
    (Channel.next cfg (calm q c h) (.call 0 op)).bind (chanFinish cfg 9) =
      match op with
      | .push v =>
        if c then some (calm q c (h ++ [.call 0 op, .lin 0 op (.bool false), .ret 0 (.bool false)]))
        else if q.length < cfg.cap then
          some (calm (q ++ [v]) c (h ++ [.call 0 op, .lin 0 op (.bool true), .ret 0 (.bool true)]))
        else none
      | .tryPush v =>
        if c = false ∧ q.length < cfg.cap then
          some (calm (q ++ [v]) c (h ++ [.call 0 op, .lin 0 op (.bool true), .ret 0 (.bool true)]))
        else some (calm q c (h ++ [.call 0 op, .lin 0 op (.bool false), .ret 0 (.bool false)]))
      | .pop =>
        match q with
        | x :: q => some (calm q c (h ++ [.call 0 op, .lin 0 op (.val (some x)), .ret 0 (.val (some x))]))
        | [] =>
          if c then some (calm [] c (h ++ [.call 0 op, .lin 0 op (.val none), .ret 0 (.val none)])) else none
      | .tryPop =>
        match q with
        | x :: q => some (calm q c (h ++ [.call 0 op, .lin 0 op (.val (some x)), .ret 0 (.val (some x))]))
        | [] => some (calm [] c (h ++ [.call 0 op, .lin 0 op (.val none), .ret 0 (.val none)]))
      | .close => some (calm q true (h ++ [.call 0 op, .lin 0 op .unit, .ret 0 .unit]))
      | .isClosed => some (calm q c (h ++ [.call 0 op, .lin 0 op (.bool c), .ret 0 (.bool c)])) := by
  cases op with
  | push v =>
    cases c
    · by_cases hq : q.length < cfg.cap
      · simp [calm, Channel.next, Channel.entry, Channel.St.goto, Channel.St.log, chanFinish, Channel.stepAt, Channel.acquire,
          Channel.release, Channel.notifyOne, Channel.wakeE, hq]
      · simp [calm, Channel.next, Channel.entry, Channel.St.goto, Channel.St.log, chanFinish, Channel.stepAt, Channel.acquire,
          Channel.release, hq]
    · simp [calm, Channel.next, Channel.entry, Channel.St.goto, Channel.St.log, chanFinish, Channel.stepAt]
  | tryPush v =>
    cases c
    · by_cases hq : q.length < cfg.cap
      · simp [calm, Channel.next, Channel.entry, Channel.St.goto, Channel.St.log, chanFinish, Channel.stepAt, Channel.acquire,
          Channel.release, Channel.notifyOne, Channel.wakeE, hq, Nat.not_le.mpr hq]
      · simp [calm, Channel.next, Channel.entry, Channel.St.goto, Channel.St.log, chanFinish, Channel.stepAt, Channel.acquire,
          Channel.release, hq, Nat.le_of_not_lt hq]
    · simp [calm, Channel.next, Channel.entry, Channel.St.goto, Channel.St.log, chanFinish, Channel.stepAt]
  | pop =>
    cases q with
    | cons x q =>
      simp [calm, Channel.next, Channel.entry, Channel.St.goto, Channel.St.log, chanFinish, Channel.stepAt, Channel.acquire,
        Channel.release, Channel.notifyOne, Channel.wakeF]
    | nil =>
      cases c <;>
      simp [calm, Channel.next, Channel.entry, Channel.St.goto, Channel.St.log, chanFinish, Channel.stepAt, Channel.acquire,
        Channel.release]
  | tryPop =>
    cases q with
    | cons x q =>
      simp [calm, Channel.next, Channel.entry, Channel.St.goto, Channel.St.log, chanFinish, Channel.stepAt, Channel.acquire,
        Channel.release, Channel.notifyOne, Channel.wakeF]
    | nil =>
      simp [calm, Channel.next, Channel.entry, Channel.St.goto, Channel.St.log, chanFinish, Channel.stepAt, Channel.acquire,
        Channel.release]
  | close =>
    simp [calm, Channel.next, Channel.entry, Channel.St.goto, Channel.St.log, chanFinish, Channel.stepAt, Channel.acquire,
      Channel.release, Channel.notifyAll, Channel.wakeE, Channel.wakeF]
  | isClosed =>
    simp [calm, Channel.next, Channel.entry, Channel.St.goto, Channel.St.log, chanFinish, Channel.stepAt]

theorem chan_solo_calm (cfg : Channel.Cfg) (ops : List (Op α)) : ∀ (q : List α) (c : Bool) (h : List (Ev α)),
    chanSolo cfg (calm q c h) ops = queueRef cfg.cap q c ops := by
  induction ops with
  | nil => intros; simp [chanSolo, queueRef]
  | cons op ops ih =>
    intro q c h
    rw [chanSolo, chan_call]
    cases op with
    | push v =>
      cases c
      · by_cases hq : q.length < cfg.cap <;> simp [queueRef, hq, ih, lastRet_calm]
      · simp [queueRef, ih, lastRet_calm]
    | tryPush v =>
      cases c
      · by_cases hq : q.length < cfg.cap <;> simp [queueRef, hq, ih, lastRet_calm]
      · simp [queueRef, ih, lastRet_calm]
    | pop => cases q <;> cases c <;> simp [queueRef, ih, lastRet_calm]
    | tryPop => cases q <;> simp [queueRef, ih, lastRet_calm]
    | close => simp [queueRef, ih, lastRet_calm]
    | isClosed => simp [queueRef, ih, lastRet_calm]

/-- C112. Used by one thread, a channel gives for every capacity and every sequence of calls the results of a bounded queue
(`queueRef`), and a call blocks exactly when the queue would have to wait. -/
theorem channel_solo (cfg : Channel.Cfg) (ops : List (Op α)) :
    chanSolo cfg (Channel.init α 1) ops = queueRef cfg.cap [] false ops :=
  chan_solo_calm cfg ops [] false []

/-- What one call does to an exchange channel that nobody else uses. -/
theorem exch_call (cfg : Exchange.Cfg) (o : Option α) (c : Bool) (h : List (Ev α)) (op : Op α) :
    (Exchange.next cfg (calmE o c h) (.call 0 op)).bind (exchFinish cfg 9) =
      match op with
      | .push v =>
        if c then some (calmE o c (h ++ [.call 0 op, .lin 0 op (.bool false), .ret 0 (.bool false)]))
        else some (calmE (some v) c (h ++ [.call 0 op, .lin 0 op (.bool true), .ret 0 (.bool true)]))
      | .tryPush _ => none
      | .pop =>
        match o with
        | some x => some (calmE none c (h ++ [.call 0 op, .lin 0 op (.val (some x)), .ret 0 (.val (some x))]))
        | none => if c then some (calmE none c (h ++ [.call 0 op, .lin 0 op (.val none), .ret 0 (.val none)])) else none
      | .tryPop => some (calmE none c (h ++ [.call 0 op, .lin 0 op (.val o), .ret 0 (.val o)]))
      | .close => some (calmE o true (h ++ [.call 0 op, .lin 0 op .unit, .ret 0 .unit]))
      | .isClosed => some (calmE o c (h ++ [.call 0 op, .lin 0 op (.bool c), .ret 0 (.bool c)])) := by
  cases op with
  | push v =>
    cases c <;>
    simp [calmE, Exchange.next, Exchange.entry, Exchange.St.goto, Exchange.St.log, exchFinish, Exchange.stepAt,
      Exchange.acquire, Exchange.release, Exchange.notifyOne, Exchange.PC.asleep]
  | tryPush v => simp [calmE, Exchange.next, Exchange.entry]
  | pop =>
    cases o <;> cases c <;>
    simp [calmE, Exchange.next, Exchange.entry, Exchange.St.goto, Exchange.St.log, exchFinish, Exchange.stepAt,
      Exchange.acquire, Exchange.release]
  | tryPop =>
    cases o <;>
    simp [calmE, Exchange.next, Exchange.entry, Exchange.St.goto, Exchange.St.log, exchFinish, Exchange.stepAt,
      Exchange.acquire, Exchange.release]
  | close =>
    simp [calmE, Exchange.next, Exchange.entry, Exchange.St.goto, Exchange.St.log, exchFinish, Exchange.stepAt,
      Exchange.acquire, Exchange.release, Exchange.wake]
  | isClosed =>
    simp [calmE, Exchange.next, Exchange.entry, Exchange.St.goto, Exchange.St.log, exchFinish, Exchange.stepAt]

theorem exch_solo_calm (cfg : Exchange.Cfg) (ops : List (Op α)) : ∀ (o : Option α) (c : Bool) (h : List (Ev α)),
    exchSolo cfg (calmE o c h) ops = slotRef o c ops := by
  induction ops with
  | nil => intros; simp [exchSolo, slotRef]
  | cons op ops ih =>
    intro o c h
    rw [exchSolo, exch_call]
    cases op with
    | push v => cases c <;> simp [slotRef, ih, lastRet_calmE]
    | tryPush v => simp [slotRef]
    | pop => cases o <;> cases c <;> simp [slotRef, ih, lastRet_calmE]
    | tryPop => simp [slotRef, ih, lastRet_calmE]
    | close => simp [slotRef, ih, lastRet_calmE]
    | isClosed => simp [slotRef, ih, lastRet_calmE]

/-- C112. Used by one thread, an exchange channel gives for every sequence of calls the results of a slot for one value
(`slotRef`), and a call blocks exactly when the slot would have to wait. -/
theorem exchange_solo (cfg : Exchange.Cfg) (ops : List (Op α)) :
    exchSolo cfg (Exchange.init α 1) ops = slotRef none false ops :=
  exch_solo_calm cfg ops none false []

/-! ### The sequential tests -/

/-- "sanity check" (tests_channel.cpp:22-48). -/
example : chanSolo { cap := 3 } (Channel.init String 1)
    [.isClosed, .tryPop, .push "a", .push "b", .push "c", .tryPush "a", .tryPush "b", .tryPush "c", .close, .isClosed,
      .pop, .pop, .pop, .pop, .pop, .tryPop, .tryPop] =
    [some (.bool false), some (.val none), some (.bool true), some (.bool true), some (.bool true), some (.bool false),
      some (.bool false), some (.bool false), some .unit, some (.bool true), some (.val (some "a")), some (.val (some "b")),
      some (.val (some "c")), some (.val none), some (.val none), some (.val none), some (.val none)] := by
  rw [channel_solo]; decide +kernel

/-- "iter" (tests_channel.cpp:68-80): the loop calls `pop` until there is nothing. -/
example : chanSolo { cap := 8 } (Channel.init String 1) [.push "a", .push "b", .close, .pop, .pop, .pop] =
    [some (.bool true), some (.bool true), some .unit, some (.val (some "a")), some (.val (some "b")), some (.val none)] := by
  rw [channel_solo]; decide +kernel

/-- "closed push" (tests_channel.cpp:82-98). -/
example : chanSolo { cap := 8 } (Channel.init String 1)
    [.close, .isClosed, .push "a", .tryPush "a", .push "a", .tryPush "a", .push "a", .pop, .tryPop] =
    [some .unit, some (.bool true), some (.bool false), some (.bool false), some (.bool false), some (.bool false),
      some (.bool false), some (.val none), some (.val none)] := by
  rw [channel_solo]; decide +kernel

/-- A push into a full channel and a pop from an empty one never return. -/
example : chanSolo { cap := 1 } (Channel.init Nat 1) [.push 1, .push 2, .pop] = [some (.bool true), none] ∧
    chanSolo { cap := 1 } (Channel.init Nat 1) [.pop, .push 2] = [none] := by
  rw [channel_solo, channel_solo]; decide

/-- "sanity check" (tests_exchange_channel.cpp:10-25). -/
example : exchSolo {} (Exchange.init Nat 1)
    [.push 1, .pop, .tryPop, .push 2, .push 3, .pop, .tryPop, .close, .pop, .tryPop] =
    [some (.bool true), some (.val (some 1)), some (.val none), some (.bool true), some (.bool true), some (.val (some 3)),
      some (.val none), some .unit, some (.val none), some (.val none)] := by
  rw [exchange_solo]; decide

/-- "push and emplace return false after close", "closed() reflects state" (tests_exchange_channel.cpp:27-39). -/
example : exchSolo {} (Exchange.init Nat 1) [.isClosed, .close, .isClosed, .push 1, .push 2] =
    [some (.bool false), some .unit, some (.bool true), some (.bool false), some (.bool false)] := by
  rw [exchange_solo]; decide

/-- "pop and try_pop drain pending value after close", "emplace constructs in-place" (tests_exchange_channel.cpp:41-62). -/
example : exchSolo {} (Exchange.init Nat 1) [.push 42, .close, .tryPop, .tryPop] =
      [some (.bool true), some .unit, some (.val (some 42)), some (.val none)] ∧
    exchSolo {} (Exchange.init Nat 1) [.push 42, .close, .pop, .pop] =
      [some (.bool true), some .unit, some (.val (some 42)), some (.val none)] ∧
    exchSolo {} (Exchange.init (Nat × Nat) 1) [.push (1, 2), .pop] = [some (.bool true), some (.val (some (1, 2)))] := by
  rw [exchange_solo, exchange_solo, exchange_solo]; decide

end Verif.Conform.Solo
