/-!
Specification of a channel, independent of its implementation: the operations, what they may return, an atomic
bounded FIFO queue with a close flag, and what it means for a concurrent history to be explained by it.
-/
namespace Verif.Channel

/-- The operations of the interface. `push` stands for `push`/`emplace`, `tryPush` for `try_push`/`try_emplace` (channel.hpp:58-212). -/
inductive Op (α : Type) where
  | push (v : α)
  | tryPush (v : α)
  | pop
  | tryPop
  | close
  | isClosed
  deriving DecidableEq, Repr

/-- What a call can produce: a truth value, an optional element, nothing (`void`), or an exception (channel.hpp:58-212). -/
inductive Res (α : Type) where
  | bool (b : Bool)
  | val (o : Option α)
  | unit
  | threw
  deriving DecidableEq, Repr

/-- Events of a history. `call` and `ret` are the observable invocation and return of an operation by a thread;
`lin` marks the instant at which the operation takes effect and with which result (specification of channel.hpp:58-212). -/
inductive Ev (α : Type) where
  | call (t : Nat) (op : Op α)
  | lin (t : Nat) (op : Op α) (r : Res α)
  | ret (t : Nat) (r : Res α)
  deriving DecidableEq, Repr

/-- The thread an event belongs to (specification of channel.hpp:58-212). -/
def Ev.tid {α} : Ev α → Nat
  | .call t _ => t
  | .lin t _ _ => t
  | .ret t _ => t

/-- One atomic operation of a bounded FIFO queue with a close flag. `(q, c)` is the content and the flag (specification of channel.hpp:58-212). -/
inductive Atomic {α : Type} (cap : Nat) : List α × Bool → Op α → Res α → List α × Bool → Prop where
  | pushOk {q v} : q.length < cap → Atomic cap (q, false) (.push v) (.bool true) (q ++ [v], false)
  | pushClosed {q v} : Atomic cap (q, true) (.push v) (.bool false) (q, true)
  | pushThrew {q v} : Atomic cap (q, false) (.push v) .threw (q, false)
  | tryPushOk {q v} : q.length < cap → Atomic cap (q, false) (.tryPush v) (.bool true) (q ++ [v], false)
  | tryPushClosed {q v} : Atomic cap (q, true) (.tryPush v) (.bool false) (q, true)
  | tryPushFull {q v} : cap ≤ q.length → Atomic cap (q, false) (.tryPush v) (.bool false) (q, false)
  | tryPushThrew {q v} : Atomic cap (q, false) (.tryPush v) .threw (q, false)
  | popOk {x q c} : Atomic cap (x :: q, c) .pop (.val (some x)) (q, c)
  | popClosed : Atomic cap ([], true) .pop (.val none) ([], true)
  | popThrew {x q c} : Atomic cap (x :: q, c) .pop .threw (x :: q, c)
  | tryPopOk {x q c} : Atomic cap (x :: q, c) .tryPop (.val (some x)) (q, c)
  | tryPopEmpty {c} : Atomic cap ([], c) .tryPop (.val none) ([], c)
  | tryPopThrew {x q c} : Atomic cap (x :: q, c) .tryPop .threw (x :: q, c)
  | close {q c} : Atomic cap (q, c) .close .unit (q, true)
  | isClosed {q c} : Atomic cap (q, c) .isClosed (.bool c) (q, c)

/-- The effects of a history, taken in the order of their `lin` events, are a run of the atomic queue from empty and
open to the given state (specification of channel.hpp:58-212). -/
inductive Explains {α : Type} (cap : Nat) : List (Ev α) → List α × Bool → Prop where
  | nil : Explains cap [] ([], false)
  | call {h s t op} : Explains cap h s → Explains cap (h ++ [.call t op]) s
  | ret {h s t r} : Explains cap h s → Explains cap (h ++ [.ret t r]) s
  | lin {h s s' t op r} : Explains cap h s → Atomic cap s op r s' → Explains cap (h ++ [.lin t op r]) s'

/-- Where a thread is in its current operation, as far as the history tells (specification of channel.hpp:58-212). -/
inductive Phase (α : Type) where
  | idle
  | called (op : Op α)
  | lined (op : Op α) (r : Res α)
  deriving DecidableEq, Repr

/-- The events of thread `t` in the history are calls, each followed by exactly one `lin` event for the called
operation, followed by a return with exactly the result of that `lin` event; the last call may be incomplete.
`lossy` additionally permits that a pop that took effect with a value ends with an exception instead of returning it
(an element type whose move constructor throws) (specification of channel.hpp:58-212). -/
inductive ThreadRun {α : Type} (lossy : Bool) (t : Nat) : List (Ev α) → Phase α → Prop where
  | nil : ThreadRun lossy t [] .idle
  | other {h p e} : ThreadRun lossy t h p → e.tid ≠ t → ThreadRun lossy t (h ++ [e]) p
  | call {h op} : ThreadRun lossy t h .idle → ThreadRun lossy t (h ++ [.call t op]) (.called op)
  | lin {h op r} : ThreadRun lossy t h (.called op) → ThreadRun lossy t (h ++ [.lin t op r]) (.lined op r)
  | ret {h op r} : ThreadRun lossy t h (.lined op r) → ThreadRun lossy t (h ++ [.ret t r]) .idle
  | retLost {h op x} : lossy = true → ThreadRun lossy t h (.lined op (.val (some x))) →
      ThreadRun lossy t (h ++ [.ret t .threw]) .idle

/-- Values inserted, in order of insertion (specification of channel.hpp:84-171). -/
def inserted {α} : List (Ev α) → List α
  | [] => []
  | .lin _ (.push v) (.bool true) :: h => v :: inserted h
  | .lin _ (.tryPush v) (.bool true) :: h => v :: inserted h
  | _ :: h => inserted h

/-- Values removed, in order of removal (specification of channel.hpp:179-212). -/
def removed {α} : List (Ev α) → List α
  | [] => []
  | .lin _ _ (.val (some x)) :: h => x :: removed h
  | _ :: h => removed h

end Verif.Channel
