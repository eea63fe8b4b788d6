import Verif.Channel.Spec

/-!
Specification of an exchange channel: a single slot with a close flag. Operations, results, events, `ThreadRun`,
`inserted` and `removed` are those of `Verif.Channel.Spec`; `tryPush` does not exist here.
-/
namespace Verif.Exchange

open Verif.Channel (Op Res Ev)

/-- One atomic operation on a slot with a close flag. `pushThrew` records that an insertion that throws empties the
slot (see C08) (specification of exchange_channel.hpp:53-149). -/
inductive Atomic {α : Type} : Option α × Bool → Op α → Res α → Option α × Bool → Prop where
  | pushOk {o v} : Atomic (o, false) (.push v) (.bool true) (some v, false)
  | pushClosed {o v} : Atomic (o, true) (.push v) (.bool false) (o, true)
  | pushThrew {o v} : Atomic (o, false) (.push v) .threw (none, false)
  | popOk {x c} : Atomic (some x, c) .pop (.val (some x)) (none, c)
  | popClosed : Atomic (none, true) .pop (.val none) (none, true)
  | popThrew {x c} : Atomic (some x, c) .pop .threw (some x, c)
  | tryPopOk {x c} : Atomic (some x, c) .tryPop (.val (some x)) (none, c)
  | tryPopEmpty {c} : Atomic (none, c) .tryPop (.val none) (none, c)
  | tryPopThrew {x c} : Atomic (some x, c) .tryPop .threw (some x, c)
  | close {o c} : Atomic (o, c) .close .unit (o, true)
  | isClosed {o c} : Atomic (o, c) .isClosed (.bool c) (o, c)

/-- The effects of a history, in the order of their `lin` events, are a run of the atomic slot (specification of exchange_channel.hpp:53-149). -/
inductive Explains {α : Type} : List (Ev α) → Option α × Bool → Prop where
  | nil : Explains [] (none, false)
  | call {h s t op} : Explains h s → Explains (h ++ [.call t op]) s
  | ret {h s t r} : Explains h s → Explains (h ++ [.ret t r]) s
  | lin {h s s' t op r} : Explains h s → Atomic s op r s' → Explains (h ++ [.lin t op r]) s'

end Verif.Exchange
