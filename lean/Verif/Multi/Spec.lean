import Verif.Multi.Model

/-!
Specification: the same programs on queues whose operations take effect at once, one call at a time. Nothing here mentions
mutexes, condition variables or the steps of a call.
-/
namespace Verif.Multi

open Verif.Channel

variable {α : Type}

/-- What an operation returns and leaves of a queue and its close flag, or nothing if it has to wait (specification of channel.hpp:58-212). -/
def would (cap : Nat) (q : List α) (c : Bool) : Op α → Option (Res α × List α × Bool)
  | .push v => if c then some (.bool false, q, c) else if q.length < cap then some (.bool true, q ++ [v], c) else none
  | .tryPush v => if c ∨ cap ≤ q.length then some (.bool false, q, c) else some (.bool true, q ++ [v], c)
  | .pop => match q with
    | x :: q' => some (.val (some x), q', c)
    | [] => if c then some (.val none, [], c) else none
  | .tryPop => match q with
    | x :: q' => some (.val (some x), q', c)
    | [] => some (.val none, [], c)
  | .close => some (.unit, q, true)
  | .isClosed => some (.bool c, q, c)

/-- The same, with elements that may throw. If their constructors do (channel.hpp:100,126), an operation that would insert does
nothing and throws. If their move constructors do, an operation that would remove an element throws, and the element stays
(channel.hpp:188,206) or is lost (channel.hpp:193,211). -/
def Effect (cfg : Cfg) (q : List α) (c : Bool) (op : Op α) (r : Res α) (q' : List α) (c' : Bool) : Prop :=
  would cfg.cap q c op = some (r, q', c') ∨
  (cfg.ctorThrow = true ∧ r = .threw ∧ q' = q ∧ c' = c ∧ ∃ v, (op = .push v ∨ op = .tryPush v) ∧
    would cfg.cap q c op = some (.bool true, q ++ [v], c)) ∨
  (cfg.moveThrow = true ∧ r = .threw ∧ c' = c ∧ (op = .pop ∨ op = .tryPop) ∧ ∃ x rest, q = x :: rest ∧ (q' = q ∨ q' = rest))

/-- Queues and flags (channel.hpp:32,34), and the results of the threads. -/
structure ASys (α : Type) where
  q : Nat → List α
  closed : Nat → Bool
  res : Nat → List (Res α)

/-- Nothing done yet (channels as made at channel.hpp:40). -/
def astart : ASys α := ⟨fun _ => [], fun _ => false, fun _ => []⟩

/-- One of the threads makes its next call, which takes effect at once (specification of channel.hpp:58-212). -/
inductive AStep (p : Prog α) (A : ASys α) : ASys α → Prop where
  | call {i k op r q' c'} : i < p.n → p.code i (A.res i) = some (k, op) → Effect (p.cfg k) (A.q k) (A.closed k) op r q' c' →
      AStep p A ⟨set A.q k q', set A.closed k c', set A.res i (A.res i ++ [r])⟩

/-- All that can happen (specification of channel.hpp:58-212). -/
inductive AReach (p : Prog α) : ASys α → Prop where
  | start : AReach p astart
  | step {A B} : AReach p A → AStep p A B → AReach p B

end Verif.Multi
