import Verif.Mixed.Model

/-!
Specification: the same programs on bounded queues and on places for one value, whose operations take effect at once, one call at a
time (`Multi/Spec.lean`, `MultiX/Spec.lean`).
-/
namespace Verif.Mixed

open Verif.Channel (Op Res Act)
open Verif.Multi (Thr set MAct)

variable {α : Type}

/-- What is in an object (channel.hpp:32, exchange_channel.hpp:32). -/
inductive OVal (α : Type) where
  | queue (q : List α)
  | slot (v : Option α)

/-- A call that takes effect at once (specification of channel.hpp:58-212, exchange_channel.hpp:53-149). -/
def OEffect : OCfg → OVal α → Bool → Op α → Res α → OVal α → Bool → Prop
  | .chan c, .queue q, b, op, r, .queue q', b' => Multi.Effect c q b op r q' b'
  | .exch c, .slot v, b, op, r, .slot v', b' => MultiX.Effect c v b op r v' b'
  | _, _, _, _, _, _, _ => False

/-- Empty (channel.hpp:40, exchange_channel.hpp:38). -/
def OVal.empty (α : Type) : OCfg → OVal α
  | .chan _ => .queue []
  | .exch _ => .slot none

/-- Contents and flags (channel.hpp:32,34, exchange_channel.hpp:32,34), and the results of the threads. -/
structure ASys (α : Type) where
  val : Nat → OVal α
  closed : Nat → Bool
  res : Nat → List (Res α)

/-- Nothing done yet (channel.hpp:40, exchange_channel.hpp:38). -/
def astart (p : Prog α) : ASys α := ⟨fun k => .empty α (p.cfg k), fun _ => false, fun _ => []⟩

/-- One of the threads makes its next call, which takes effect at once (specification of channel.hpp:58-212,
exchange_channel.hpp:53-149). -/
inductive AStep (p : Prog α) (A : ASys α) : ASys α → Prop where
  | call {i k op r q' c'} : i < p.n → p.code i (A.res i) = some (k, op) → OEffect (p.cfg k) (A.val k) (A.closed k) op r q' c' →
      AStep p A ⟨set A.val k q', set A.closed k c', set A.res i (A.res i ++ [r])⟩

/-- All that can happen (specification of channel.hpp:58-212, exchange_channel.hpp:53-149). -/
inductive AReach (p : Prog α) : ASys α → Prop where
  | start : AReach p (astart p)
  | step {A B} : AReach p A → AStep p A B → AReach p B

/-- No call can take effect any more (specification of channel.hpp:58-212, exchange_channel.hpp:53-149). -/
def AStuck (p : Prog α) (A : ASys α) : Prop := ∀ B, ¬ AStep p A B

end Verif.Mixed
