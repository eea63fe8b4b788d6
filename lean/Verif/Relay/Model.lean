import Verif.Exchange.Lemmas
import Verif.Pipeline.Bound

/-!
A relay of threads joined by exchange channels (`include/dice/template-library/exchange_channel.hpp`), as for a value that is
refreshed often and of which only the newest counts. Thread 0 pushes the elements of a list into channel 0 and closes it.
Thread `i` in the middle runs

    for (auto &x : in) { out.push(body(x)); }
    out.close();

with `in` channel `i - 1` and `out` channel `i`, the last thread only consumes. Every channel is the exchange channel of
`Exchange/Model.lean` with two threads, the producer as its thread 0 and the consumer as its thread 1, so that all steps of
the member functions of all threads interleave. The elements do not throw.
-/
namespace Verif.Relay

open Verif.Exchange
open Verif.Channel (Op Res Ev Act)
open Verif.Pipeline (upd)

variable {α : Type}

/-- What the threads are to do: the number of threads between the first and the last, the list to push
(exchange_channel.hpp:104) and the loop bodies (around exchange_channel.hpp:151-245). -/
structure Plan (α : Type) where
  inner : Nat
  source : List α
  body : Nat → α → α

/-- Where a thread is between and in the calls of the member functions of exchange_channel.hpp:53-136 (the loop is
exchange_channel.hpp:151-245, where `begin` and `++` call `pop`). -/
inductive Pos where
  | loop
  | inPop
  | inPush
  | shut
  | inClose
  | over
  deriving DecidableEq, Repr

/-- A thread of the relay: the elements its loop has seen (exchange_channel.hpp:124), the elements it has yet to push
(exchange_channel.hpp:104), where it is; ghost: the number of calls it has made. -/
structure Stage (α : Type) where
  got : List α
  todo : List α
  pos : Pos
  calls : Nat
  deriving DecidableEq, Repr

/-- The channels and the threads (exchange_channel.hpp:31-35). -/
structure Sys (α : Type) where
  chan : Nat → St α
  stage : Nat → Stage α

/-- All channels new (exchange_channel.hpp:38), the first thread has everything to push. -/
def start (p : Plan α) : Sys α where
  chan _ := init α 2
  stage i := ⟨[], if i = 0 then p.source else [], .loop, 0⟩

/-- Which channel and which of its threads a stage is inside of (exchange_channel.hpp:53,79,124). -/
def place (i : Nat) : Pos → Option (Nat × Nat)
  | .inPop => some (i - 1, 1)
  | .inPush => some (i, 0)
  | .inClose => some (i, 0)
  | _ => none

/-- Stage `i` starts the call `op` as thread `t` of channel `k` (exchange_channel.hpp:53,79,124) and is then at `pos`. -/
def Sys.call (s : Sys α) (i k t : Nat) (op : Op α) (pos : Pos) : Option (Sys α) :=
  (next {} (s.chan k) (.call t op)).map (fun c =>
    ⟨upd s.chan k c, upd s.stage i { s.stage i with pos := pos, calls := (s.stage i).calls + 1 }⟩)

/-- Stage `i` closes its output (exchange_channel.hpp:53); the last one has none. -/
def Sys.closeOut (p : Plan α) (s : Sys α) (i : Nat) : Option (Sys α) :=
  if i ≤ p.inner then s.call i i 0 .close .inClose
  else some { s with stage := upd s.stage i { s.stage i with pos := .over, calls := (s.stage i).calls + 1 } }

/-- Stage `i` makes its next call (exchange_channel.hpp:53,79,124; loop exchange_channel.hpp:151-245). -/
def Sys.begin (p : Plan α) (s : Sys α) (i : Nat) : Option (Sys α) :=
  match (s.stage i).pos, (s.stage i).todo with
  | .loop, y :: _ => if i ≤ p.inner then s.call i i 0 (.push y) .inPush else none
  | .loop, [] => if i = 0 then s.closeOut p i else s.call i (i - 1) 1 .pop .inPop
  | .shut, _ => s.closeOut p i
  | _, _ => none

/-- Stage `i` goes on with the result of its call: an element for the loop body, the end of the loop
(exchange_channel.hpp:132,135), or nothing of interest (exchange_channel.hpp:62,95; the result of `push` is not
looked at). -/
def deliver (p : Plan α) (i : Nat) (st : Stage α) (r : Res α) : Stage α :=
  match st.pos, r with
  | .inPop, .val (some x) =>
    { st with got := st.got ++ [x], todo := if i ≤ p.inner then [p.body i x] else [], pos := .loop }
  | .inPop, _ => { st with pos := .shut }
  | .inPush, _ => { st with todo := st.todo.tail, pos := .loop }
  | .inClose, _ => { st with pos := .over }
  | _, _ => st

/-- Scheduler choices: a stage makes its next call, executes the next action of its call (`wake` as in `Act.step`), wakes
up spuriously or reads an older value of the flag (exchange_channel.hpp:80,126). -/
inductive RAct where
  | begin (i : Nat)
  | run (i : Nat) (wake : Option Nat)
  | spurious (i : Nat)
  | stale (i : Nat)
  deriving DecidableEq, Repr

/-- Stage `i` does `a` inside its call (exchange_channel.hpp:53-136). -/
def Sys.inside (p : Plan α) (s : Sys α) (i : Nat) (a : Nat → Act α) : Option (Sys α) :=
  match place i (s.stage i).pos with
  | none => none
  | some (k, t) =>
    (next {} (s.chan k) (a t)).map (fun c =>
      match (s.chan k).pcs[t]? with
      | some (.done _ r) => ⟨upd s.chan k c, upd s.stage i (deliver p i (s.stage i) r)⟩
      | _ => { s with chan := upd s.chan k c })

/-- One scheduler action (exchange_channel.hpp:53-136); there are `inner + 2` stages. -/
def step (p : Plan α) (s : Sys α) : RAct → Option (Sys α)
  | .begin i => if i ≤ p.inner + 1 then s.begin p i else none
  | .run i wake => if i ≤ p.inner + 1 then s.inside p i (fun t => .step t wake) else none
  | .spurious i => if i ≤ p.inner + 1 then s.inside p i (fun t => .spurious t) else none
  | .stale i => if i ≤ p.inner + 1 then s.inside p i (fun t => .stale t) else none

/-- A list of scheduler actions (exchange_channel.hpp:53-136). -/
def exec (p : Plan α) : Sys α → List RAct → Option (Sys α)
  | s, [] => some s
  | s, a :: l => (step p s a).bind (fun s' => exec p s' l)

/-- The states of the executions of the relay (exchange_channel.hpp:53-136). -/
def Reach (p : Plan α) (s : Sys α) : Prop := ∃ acts, exec p (start p) acts = some s

/-- Thread `i` can neither make a call nor go on with one (exchange_channel.hpp:53-136). -/
def Blocked (p : Plan α) (s : Sys α) (i : Nat) : Prop :=
  step p s (.begin i) = none ∧ ∀ w, step p s (.run i w) = none

/-! ### Specification: what the relay computes -/

/-- What the threads `1` to `k` make of an element one after the other (composition of the bodies of loops over
exchange_channel.hpp:151-245). -/
def through (p : Plan α) : Nat → α → α
  | 0, x => x
  | k + 1, x => p.body (k + 1) (through p k x)

end Verif.Relay
