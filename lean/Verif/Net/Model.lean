import Verif.Pipeline.Lemmas

/-!
Networks of threads joined by channels (`include/dice/template-library/channel.hpp`): any number of threads, each of which
runs any deterministic program that calls `push`, `pop` and `close`, and any number of channels, each with one thread that
pushes and closes and one that pops (they may be the same). The graph may have cycles, programs may go on for ever.

Every channel is the channel of `Channel/Model.lean` with two threads, so that all steps of the member functions of all
threads interleave. The elements do not throw.
-/
namespace Verif.Net

open Verif.Channel
open Verif.Pipeline (upd cls Cls)

variable {α : Type}

/-- What a thread does next: one of the calls of channel.hpp:58, 85 (139), 179 on channel `k`, or nothing any more. -/
inductive Req (α : Type) where
  | pop (k : Nat)
  | push (k : Nat) (x : α)
  | close (k : Nat)
  | stop
  deriving DecidableEq, Repr

/-- The network: the capacities of the channels (channel.hpp:40), the thread that pushes into a channel and the one that pops,
and the programs of the threads: what a thread does next may depend on the results of all its calls so far (callers of
channel.hpp:58-194). -/
structure Plan (α : Type) where
  cap : Nat → Nat
  prod : Nat → Nat
  cons : Nat → Nat
  prog : Nat → List (Res α) → Req α

/-- The parameters of channel `k` (channel.hpp:31,40). -/
def Plan.cfg (p : Plan α) (k : Nat) : Cfg := { cap := p.cap k }

/-- Only its producer pushes into a channel or closes it, only its consumer pops (a rule for the callers of
channel.hpp:58-194). -/
def Plan.Owned (p : Plan α) : Prop :=
  ∀ i rs, (∀ k, p.prog i rs = .pop k → p.cons k = i) ∧ (∀ k x, p.prog i rs = .push k x → p.prod k = i) ∧
    ∀ k, p.prog i rs = .close k → p.prod k = i

/-- A thread: the results of its calls so far (channel.hpp:69,97,104,185,193), and whether it is inside the next one. -/
structure Thr (α : Type) where
  res : List (Res α)
  inside : Bool
  deriving DecidableEq, Repr

/-- The channels and the threads (channel.hpp:31-37). -/
structure Sys (α : Type) where
  chan : Nat → St α
  thr : Nat → Thr α

/-- All channels new (channel.hpp:40), no call made. -/
def start (α : Type) : Sys α := ⟨fun _ => init α 2, fun _ => ⟨[], false⟩⟩

/-- As which thread of channel `k` thread `i` calls (the two threads of each object of channel.hpp:31-37). -/
def Plan.side (p : Plan α) (i k : Nat) : Nat := if i = p.prod k then 0 else 1

/-- The channel, the thread of the channel and the member function (channel.hpp:58,85,179). -/
def Plan.callOf (p : Plan α) (i : Nat) : Req α → Option (Nat × Nat × Op α)
  | .pop k => some (k, p.side i k, .pop)
  | .push k x => some (k, p.side i k, .push x)
  | .close k => some (k, p.side i k, .close)
  | .stop => none

/-- Thread `i` makes its next call (channel.hpp:58,85,179). -/
def Sys.begin (p : Plan α) (s : Sys α) (i : Nat) : Option (Sys α) :=
  match (s.thr i).inside, p.callOf i (p.prog i (s.thr i).res) with
  | false, some (k, t, op) => (next (p.cfg k) (s.chan k) (.call t op)).map fun c =>
      ⟨upd s.chan k c, upd s.thr i ⟨(s.thr i).res, true⟩⟩
  | _, _ => none

/-- Thread `i` does `a` inside its call; when the call returns it has one more result (channel.hpp:58-194). -/
def Sys.run (p : Plan α) (s : Sys α) (i : Nat) (a : Nat → Act α) : Option (Sys α) :=
  match (s.thr i).inside, p.callOf i (p.prog i (s.thr i).res) with
  | true, some (k, t, _) => (next (p.cfg k) (s.chan k) (a t)).map fun c =>
      match (s.chan k).pcs[t]? with
      | some (.done _ r) => ⟨upd s.chan k c, upd s.thr i ⟨(s.thr i).res ++ [r], false⟩⟩
      | _ => { s with chan := upd s.chan k c }
  | _, _ => none

/-- Scheduler choices: a thread makes its next call, executes the next action of its call (`wake` as in `Act.step`), wakes up
spuriously or reads an older value of the flag (channel.hpp:86,92,181). -/
inductive NAct where
  | begin (i : Nat)
  | run (i : Nat) (wake : Option Nat)
  | spurious (i : Nat)
  | stale (i : Nat)
  deriving DecidableEq, Repr

/-- One scheduler action (channel.hpp:58-194). -/
def step (p : Plan α) (s : Sys α) : NAct → Option (Sys α)
  | .begin i => s.begin p i
  | .run i wake => s.run p i (fun t => .step t wake)
  | .spurious i => s.run p i (fun t => .spurious t)
  | .stale i => s.run p i (fun t => .stale t)

/-- A list of scheduler actions (channel.hpp:58-194). -/
def exec (p : Plan α) : Sys α → List NAct → Option (Sys α)
  | s, [] => some s
  | s, a :: l => (step p s a).bind fun s' => exec p s' l

/-- The states of the executions of the network (channel.hpp:58-194). -/
def Reach (p : Plan α) (s : Sys α) : Prop := ∃ acts, exec p (start α) acts = some s

/-- No thread can make a call or go on with one (channel.hpp:58-194). -/
def Stuck (p : Plan α) (s : Sys α) : Prop := ∀ i w, step p s (.begin i) = none ∧ step p s (.run i w) = none

/-! ### Traces -/

/-- Everything that `g` gives for the results of a trace, each with those before it (traces of calls of channel.hpp:58-194). -/
def collect {β : Type} (g : List (Res α) → Res α → List β) : List (Res α) → List (Res α) → List β
  | _, [] => []
  | pre, r :: rs => g pre r ++ collect g (pre ++ [r]) rs

/-- A call of `push` that returned true (channel.hpp:104). -/
def oneSent (f : List (Res α) → Req α) (k : Nat) (pre : List (Res α)) (r : Res α) : List α :=
  match f pre, r with
  | .push k' x, .bool true => if k' = k then [x] else []
  | _, _ => []

/-- A call of `pop` that returned an element (channel.hpp:193). -/
def oneGot (f : List (Res α) → Req α) (k : Nat) (pre : List (Res α)) (r : Res α) : List α :=
  match f pre, r with
  | .pop k', .val (some x) => if k' = k then [x] else []
  | _, _ => []

/-- A call of `close` (channel.hpp:58-69). -/
def oneShut (f : List (Res α) → Req α) (k : Nat) (pre : List (Res α)) (_ : Res α) : List Unit :=
  match f pre with
  | .close k' => if k' = k then [()] else []
  | _ => []

/-- What the producer has pushed into channel `k`, by the results of the threads' calls (channel.hpp:104). -/
def sent (p : Plan α) (A : Nat → List (Res α)) (k : Nat) : List α := collect (oneSent (p.prog (p.prod k)) k) [] (A (p.prod k))

/-- What the consumer has popped from channel `k` (channel.hpp:193). -/
def got (p : Plan α) (A : Nat → List (Res α)) (k : Nat) : List α := collect (oneGot (p.prog (p.cons k)) k) [] (A (p.cons k))

/-- The producer has closed channel `k` (channel.hpp:58-69). -/
def shut (p : Plan α) (A : Nat → List (Res α)) (k : Nat) : List Unit := collect (oneShut (p.prog (p.prod k)) k) [] (A (p.prod k))

end Verif.Net
