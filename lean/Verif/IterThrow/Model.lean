import Verif.Channel.Iter
import Verif.Exchange.Iter

/-!
`for (auto &x : chan)` when moving elements can throw (C102).

The iterator keeps the value it shows in `std::optional<T> buf_`; `advance()` is `buf_ = chan_->pop();`. The call of `pop`
may end with an exception (a move constructor throws), and so may the assignment: it move constructs the value in an
empty `buf_` and move assigns it to a full one. Assigning an empty optional destroys the value in `buf_` and does not
throw. In `channel` all of `advance`, the constructor, `++` and `begin` are `noexcept` (channel.hpp:228-235, 280-287,
300); in `exchange_channel` they are `noexcept(std::is_nothrow_move_constructible_v<T>)` (exchange_channel.hpp:165-173,
220-227, 242).

The channel itself is the model of `Channel/Model.lean` and `Exchange/Model.lean`: what `pop` did is read off the history
of an execution.
-/
namespace Verif.IterThrow

open Verif.Channel (Ev Iter)

variable {α : Type}

/-- What one `advance()` did: it put the result of `pop()` in `buf_`, or it ended with an exception (channel.hpp:228-230,
exchange_channel.hpp:165-167). -/
inductive Fetch (α : Type) where
  | got (r : Option α)
  | threw
  deriving DecidableEq, Repr

/-- The calls of `advance()` by thread `c` whose `pop()` has returned in the history; `faults` says which of the
assignments of a value to `buf_` throw (none once the list is used up) (channel.hpp:228-230, exchange_channel.hpp:165-167). -/
def fetches (c : Nat) : List (Ev α) → List Bool → List (Fetch α)
  | [], _ => []
  | .ret t (.val none) :: h, fs => if t = c then .got none :: fetches c h fs else fetches c h fs
  | .ret t (.val (some x)) :: h, fs =>
    if t = c then (if fs.headD false then .threw else .got (some x)) :: fetches c h fs.tail else fetches c h fs
  | .ret t .threw :: h, fs => if t = c then .threw :: fetches c h fs else fetches c h fs
  | _ :: h, fs => fetches c h fs

/-- How far a loop has got: the elements its body has seen and whether it goes on, has ended, has dereferenced an
iterator at the end, has been left by an exception, or has ended the program with `std::terminate` (channel.hpp:214-306,
exchange_channel.hpp:151-248). -/
inductive Out (α : Type) where
  | running (seen : List α)
  | ended (seen : List α)
  | ub
  | threw (seen : List α)
  | terminated (seen : List α)
  deriving DecidableEq, Repr

/-- `for (it = begin(); it != end(); ++it) body(*it);`, given what the calls of `advance()` did; `noexc`: these calls are
`noexcept` (channel.hpp:232-235, 280-291, 300-306, exchange_channel.hpp:170-173, 220-231, 242-248). -/
def iterate (noexc : Bool) (seen : List α) : List (Fetch α) → Out α
  | [] => .running seen
  | .threw :: _ => if noexc then .terminated seen else .threw seen
  | .got r :: rs =>
    let it := Iter.advance r
    if it.atEnd then .ended seen
    else match it.deref with
      | none => .ub
      | some x => iterate noexc (seen ++ [x]) rs

/-- A loop over a `channel` (channel.hpp:228-235, 280-287, 300: `noexcept` whatever the element type). -/
def channelLoop (c : Nat) (h : List (Ev α)) (faults : List Bool) : Out α := iterate true [] (fetches c h faults)

/-- A loop over an `exchange_channel` whose elements' move constructor may throw iff `moveThrow` (exchange_channel.hpp:165,
170, 220, 225, 242). -/
def exchangeLoop (moveThrow : Bool) (c : Nat) (h : List (Ev α)) (faults : List Bool) : Out α :=
  iterate (!moveThrow) [] (fetches c h faults)

end Verif.IterThrow
