import Verif.MultiX.Model

/-!
Specification: the same programs on single places whose operations take effect at once, one call at a time. Nothing here mentions
mutexes, condition variables or the steps of a call.
-/
namespace Verif.MultiX

open Verif.Exchange
open Verif.Channel (Op Res Ev Act)
open Verif.Multi (Thr set MAct)

variable {α : Type}

/-- What an operation returns and leaves of the value and the close flag, or nothing if it has to wait (specification of
exchange_channel.hpp:53-149). `push` replaces the value. There is no `try_push`. -/
def would (q : Option α) (c : Bool) : Op α → Option (Res α × Option α × Bool)
  | .push v => if c then some (.bool false, q, c) else some (.bool true, some v, c)
  | .tryPush _ => none
  | .pop => match q with
    | some x => some (.val (some x), none, c)
    | none => if c then some (.val none, none, c) else none
  | .tryPop => some (.val q, none, c)
  | .close => some (.unit, q, true)
  | .isClosed => some (.bool c, q, c)

/-- The same, with elements that may throw. If their constructors do (exchange_channel.hpp:91), `push` into an open channel throws,
and the old value is gone. If their move constructors do, an operation that would remove a value throws, and the value stays or is
lost (exchange_channel.hpp:135,148). -/
def Effect (cfg : Cfg) (q : Option α) (c : Bool) (op : Op α) (r : Res α) (q' : Option α) (c' : Bool) : Prop :=
  would q c op = some (r, q', c') ∨
  (cfg.ctorThrow = true ∧ r = .threw ∧ c = false ∧ q' = none ∧ c' = c ∧ ∃ v, op = .push v) ∨
  (cfg.moveThrow = true ∧ r = .threw ∧ c' = c ∧ (op = .pop ∨ op = .tryPop) ∧ ∃ x, q = some x ∧ (q' = q ∨ q' = none))

/-- Values and flags (exchange_channel.hpp:32,34), and the results of the threads. -/
structure ASys (α : Type) where
  slot : Nat → Option α
  closed : Nat → Bool
  res : Nat → List (Res α)

/-- Nothing done yet (channels as made at exchange_channel.hpp:38). -/
def astart : ASys α := ⟨fun _ => none, fun _ => false, fun _ => []⟩

/-- One of the threads makes its next call, which takes effect at once (specification of exchange_channel.hpp:53-149). -/
inductive AStep (p : Prog α) (A : ASys α) : ASys α → Prop where
  | call {i k op r q' c'} : i < p.n → p.code i (A.res i) = some (k, op) → Effect (p.cfg k) (A.slot k) (A.closed k) op r q' c' →
      AStep p A ⟨set A.slot k q', set A.closed k c', set A.res i (A.res i ++ [r])⟩

/-- All that can happen (specification of exchange_channel.hpp:53-149). -/
inductive AReach (p : Prog α) : ASys α → Prop where
  | start : AReach p astart
  | step {A B} : AReach p A → AStep p A B → AReach p B

/-- No call can take effect any more (specification of exchange_channel.hpp:53-149). -/
def AStuck (p : Prog α) (A : ASys α) : Prop := ∀ B, ¬ AStep p A B

end Verif.MultiX
