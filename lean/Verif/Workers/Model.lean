import Verif.Pipeline.Bound

/-!
Layers of worker threads joined by channels (`include/dice/template-library/channel.hpp`): several threads push to the same
channel and several threads loop over it. Every worker in the middle runs

    for (auto &x : in) for (auto &y : body(x)) out.push(y);
    if (--active == 0) out.close();

where `active` is the number of workers of the layer that have not finished yet (an atomic counter of the caller), so that
the last one to finish closes the output. The workers of the first layer push their own lists, the workers of the last layer
only consume. The channel between layer `k` and layer `k + 1` is the channel of `Channel/Model.lean`; its threads are the
workers of layer `k`, followed by those of layer `k + 1`. The elements do not throw.
-/
namespace Verif.Workers

open Verif.Channel
open Verif.Pipeline (upd)

variable {α : Type}

/-- What the workers are to do: the number of layers between the first and the last, the number of workers of each layer,
the capacities of the channels (channel.hpp:40), the lists of the workers of the first layer, the loop bodies. -/
structure Plan (α : Type) where
  inner : Nat
  width : Nat → Nat
  cap : Nat → Nat
  source : Nat → List α
  body : Nat → α → List α

/-- The parameters of channel `k` (channel.hpp:31,40). -/
def Plan.cfg (p : Plan α) (k : Nat) : Cfg := { cap := p.cap k }

/-- The number of threads of channel `k` (users of channel.hpp:31-37). -/
def Plan.users (p : Plan α) (k : Nat) : Nat := p.width k + p.width (k + 1)

/-- Where a worker is between and in the calls of the member functions of channel.hpp:58-194. -/
inductive Pos where
  | loop
  | inPop
  | inPush
  | ended
  | inClose
  | over
  deriving DecidableEq, Repr

/-- A worker: the elements its loop has seen (channel.hpp:179), the elements it has yet to push (channel.hpp:139), where
it is, and the number of calls it has made (ghost). -/
structure Worker (α : Type) where
  got : List α
  todo : List α
  pos : Pos
  calls : Nat
  deriving DecidableEq, Repr

/-- The channels (channel.hpp:31-37), the workers of each layer, and the callers' counters of the workers of each layer
that have not finished. -/
structure Sys (α : Type) where
  chan : Nat → St α
  worker : Nat → Nat → Worker α
  active : Nat → Nat

/-- Replace the state of worker `j` of layer `i` (users of channel.hpp:31-37). -/
def Sys.setWorker (s : Sys α) (i j : Nat) (w : Worker α) : Sys α :=
  { s with worker := upd s.worker i (upd (s.worker i) j w) }

/-- Replace the state of channel `k` (channel.hpp:31-37). -/
def Sys.setChan (s : Sys α) (k : Nat) (c : St α) : Sys α := { s with chan := upd s.chan k c }

/-- All channels new (channel.hpp:40). -/
def start (p : Plan α) : Sys α where
  chan k := init α (p.users k)
  worker i j := ⟨[], if i = 0 then p.source j else [], .loop, 0⟩
  active i := p.width i

/-- Which channel and which of its threads worker `j` of layer `i` is inside of (channel.hpp:58,85,179). -/
def place (p : Plan α) (i j : Nat) : Pos → Option (Nat × Nat)
  | .inPop => some (i - 1, p.width (i - 1) + j)
  | .inPush => some (i, j)
  | .inClose => some (i, j)
  | _ => none

/-- Worker `j` of layer `i` starts the call `op` as thread `t` of channel `k` (channel.hpp:58,85,179). -/
def Sys.call (p : Plan α) (s : Sys α) (i j k t : Nat) (op : Op α) (pos : Pos) : Option (Sys α) :=
  (next (p.cfg k) (s.chan k) (.call t op)).map (fun c =>
    (s.setChan k c).setWorker i j { s.worker i j with pos := pos, calls := (s.worker i j).calls + 1 })

/-- A worker has finished its loop: it counts down, and the last one of its layer closes the output (channel.hpp:58). -/
def Sys.finish (p : Plan α) (s : Sys α) (i j : Nat) : Option (Sys α) :=
  if s.active i = 1 ∧ i ≤ p.inner then
    { s with active := upd s.active i (s.active i - 1) }.call p i j i j .close .inClose
  else
    some ({ s with active := upd s.active i (s.active i - 1) }.setWorker i j
      { s.worker i j with pos := .over, calls := (s.worker i j).calls + 1 })

/-- Worker `j` of layer `i` makes its next call (channel.hpp:58,85,179; loop channel.hpp:214-291). -/
def Sys.begin (p : Plan α) (s : Sys α) (i j : Nat) : Option (Sys α) :=
  match (s.worker i j).pos, (s.worker i j).todo with
  | .loop, y :: _ => if i ≤ p.inner then s.call p i j i j (.push y) .inPush else none
  | .loop, [] => if i = 0 then s.finish p i j else s.call p i j (i - 1) (p.width (i - 1) + j) .pop .inPop
  | .ended, _ => s.finish p i j
  | _, _ => none

/-- A worker goes on with the result of its call: an element for the loop body, the end of the loop (channel.hpp:185,193),
that the element was handed over (channel.hpp:97,104), or that the channel is closed (channel.hpp:69). -/
def deliver (p : Plan α) (i : Nat) (w : Worker α) (r : Res α) : Worker α :=
  match w.pos, r with
  | .inPop, .val (some x) =>
    { w with got := w.got ++ [x], todo := if i ≤ p.inner then p.body i x else [], pos := .loop }
  | .inPop, _ => { w with pos := .ended }
  | .inPush, _ => { w with todo := w.todo.tail, pos := .loop }
  | .inClose, _ => { w with pos := .over }
  | _, _ => w

/-- Scheduler choices, as for a pipeline, for worker `j` of layer `i` (channel.hpp:86,92,181). -/
inductive WAct where
  | begin (i j : Nat)
  | run (i j : Nat) (wake : Option Nat)
  | spurious (i j : Nat)
  | stale (i j : Nat)
  deriving DecidableEq, Repr

/-- Worker `j` of layer `i` does `a` inside its call (channel.hpp:58-194). -/
def Sys.inside (p : Plan α) (s : Sys α) (i j : Nat) (a : Nat → Act α) : Option (Sys α) :=
  match place p i j (s.worker i j).pos with
  | none => none
  | some (k, t) =>
    (next (p.cfg k) (s.chan k) (a t)).map (fun c =>
      match (s.chan k).pcs[t]? with
      | some (.done _ r) => (s.setChan k c).setWorker i j (deliver p i (s.worker i j) r)
      | _ => s.setChan k c)

/-- There is such a worker (users of channel.hpp:31-37). -/
def Plan.has (p : Plan α) (i j : Nat) : Prop := i ≤ p.inner + 1 ∧ j < p.width i

instance (p : Plan α) (i j : Nat) : Decidable (p.has i j) := inferInstanceAs (Decidable (_ ∧ _))

/-- One scheduler action (channel.hpp:58-194). -/
def step (p : Plan α) (s : Sys α) : WAct → Option (Sys α)
  | .begin i j => if p.has i j then s.begin p i j else none
  | .run i j wake => if p.has i j then s.inside p i j (fun t => .step t wake) else none
  | .spurious i j => if p.has i j then s.inside p i j (fun t => .spurious t) else none
  | .stale i j => if p.has i j then s.inside p i j (fun t => .stale t) else none

/-- A list of scheduler actions (channel.hpp:58-194). -/
def exec (p : Plan α) : Sys α → List WAct → Option (Sys α)
  | s, [] => some s
  | s, a :: l => (step p s a).bind (fun s' => exec p s' l)

/-- The states of the executions (channel.hpp:58-194). -/
def Reach (p : Plan α) (s : Sys α) : Prop := ∃ acts, exec p (start p) acts = some s

/-- No worker can make a call or go on with one (channel.hpp:58-194). -/
def Stuck (p : Plan α) (s : Sys α) : Prop := ∀ i j w, step p s (.begin i j) = none ∧ step p s (.run i j w) = none

/-! ### Specification: what the workers compute, up to order -/

/-- The lists of the first `n` indices, one after the other (lists of the users of channel.hpp:31-37). -/
def concat : Nat → (Nat → List α) → List α
  | 0, _ => []
  | n + 1, f => concat n f ++ f n

/-- The elements that layer `k` is to push (bodies of loops over channel.hpp:214-291), in some order. -/
def stream (p : Plan α) : Nat → List α
  | 0 => concat (p.width 0) p.source
  | k + 1 => (stream p k).flatMap (p.body (k + 1))

/-- All elements that the loops of layer `i` have seen (channel.hpp:214-291). -/
def seen (p : Plan α) (s : Sys α) (i : Nat) : List α := concat (p.width i) (fun j => (s.worker i j).got)

end Verif.Workers
