import Verif.Channel.Progress

/-!
A pipeline of threads joined by channels (`include/dice/template-library/channel.hpp`). Thread 0 pushes the elements of a
list into channel 0 and closes it. Thread `i` in the middle runs

    for (auto &x : in) { for (auto &y : body(x)) if (!out.push(y)) { in.close(); out.close(); return; }
                         if (++seen == quota) { in.close(); out.close(); return; } }
    out.close();

with `in` channel `i - 1` and `out` channel `i`, the last thread only consumes. Every channel is the channel of
`Channel/Model.lean` with two threads, the producer as its thread 0 and the consumer as its thread 1, so that all steps of
the member functions of all threads interleave. The elements do not throw.
-/
namespace Verif.Pipeline

open Verif.Channel

variable {α : Type}

/-- What the threads are to do: the number of threads between the first and the last, the capacities of the channels
(channel.hpp:40), the list to push, the loop bodies and after how many elements a thread stops reading. -/
structure Plan (α : Type) where
  inner : Nat
  cap : Nat → Nat
  source : List α
  body : Nat → α → List α
  quota : Nat → Option Nat := fun _ => none

/-- The parameters of channel `k` (channel.hpp:31,40). -/
def Plan.cfg (p : Plan α) (k : Nat) : Cfg := { cap := p.cap k }

/-- Where a thread is between and in the calls of the member functions of channel.hpp:58-194 (the loop is
channel.hpp:214-291, where `begin` and `++` call `pop`). -/
inductive Pos where
  | loop
  | inPop
  | inPush
  | shutIn
  | inCloseIn
  | shutOut
  | inCloseOut
  | over
  deriving DecidableEq, Repr

/-- A thread of the pipeline: the elements its loop has seen (channel.hpp:179), the elements it has yet to push
(channel.hpp:139), where it is; ghosts: whether a push was refused (channel.hpp:97), whether it has decided to leave its
loop before the end, and the number of calls it has made. -/
structure Stage (α : Type) where
  got : List α
  todo : List α
  pos : Pos
  rej : Bool
  left : Bool
  calls : Nat
  deriving DecidableEq, Repr

/-- The channels and the threads (channel.hpp:31-37). -/
structure Sys (α : Type) where
  chan : Nat → St α
  stage : Nat → Stage α

/-- Replace the value of a function at one index (states of several objects of channel.hpp:31-37). -/
def upd {β : Type} (f : Nat → β) (k : Nat) (b : β) : Nat → β := fun j => if j = k then b else f j

/-- All channels new (channel.hpp:40), the first thread has everything to push. -/
def start (p : Plan α) : Sys α where
  chan _ := init α 2
  stage i := ⟨[], if i = 0 then p.source else [], .loop, false, false, 0⟩

/-- The stage has seen as many elements as it wants (the caller's condition around channel.hpp:214-291). -/
def Plan.enough (p : Plan α) (i : Nat) (got : List α) : Bool :=
  match p.quota i with
  | none => false
  | some n => decide (n ≤ got.length)

/-- Which channel and which of its threads a stage is inside of (channel.hpp:58,85,179). -/
def place (i : Nat) : Pos → Option (Nat × Nat)
  | .inPop => some (i - 1, 1)
  | .inCloseIn => some (i - 1, 1)
  | .inPush => some (i, 0)
  | .inCloseOut => some (i, 0)
  | _ => none

/-- Stage `i` starts the call `op` as thread `t` of channel `k` (channel.hpp:58,85,179) and is then at `pos`. -/
def Sys.call (p : Plan α) (s : Sys α) (i k t : Nat) (op : Op α) (st : Stage α) : Option (Sys α) :=
  (next (p.cfg k) (s.chan k) (.call t op)).map (fun c => ⟨upd s.chan k c, upd s.stage i st⟩)

/-- Stage `i` closes its output (channel.hpp:58); the last one has none. -/
def Sys.closeOut (p : Plan α) (s : Sys α) (i : Nat) : Option (Sys α) :=
  if i ≤ p.inner then
    s.call p i i 0 .close { s.stage i with pos := .inCloseOut, calls := (s.stage i).calls + 1 }
  else some { s with stage := upd s.stage i { s.stage i with pos := .over, calls := (s.stage i).calls + 1 } }

/-- Stage `i` leaves its loop early: it closes its input (channel.hpp:58); the first one has none. -/
def Sys.leave (p : Plan α) (s : Sys α) (i : Nat) : Option (Sys α) :=
  if i = 0 then s.closeOut p i
  else s.call p i (i - 1) 1 .close
    { s.stage i with pos := .inCloseIn, left := true, calls := (s.stage i).calls + 1 }

/-- Stage `i` makes its next call (channel.hpp:58,85,179; loop channel.hpp:214-291). -/
def Sys.begin (p : Plan α) (s : Sys α) (i : Nat) : Option (Sys α) :=
  match (s.stage i).pos, (s.stage i).todo with
  | .loop, y :: _ =>
    if i ≤ p.inner then
      s.call p i i 0 (.push y) { s.stage i with pos := .inPush, calls := (s.stage i).calls + 1 }
    else none
  | .loop, [] =>
    if i = 0 then s.closeOut p i
    else if p.enough i (s.stage i).got then s.leave p i
    else s.call p i (i - 1) 1 .pop { s.stage i with pos := .inPop, calls := (s.stage i).calls + 1 }
  | .shutIn, _ => s.leave p i
  | .shutOut, _ => s.closeOut p i
  | _, _ => none

/-- Stage `i` goes on with the result of its call: an element for the loop body, the end of the loop (channel.hpp:185,
193), whether the element was taken (channel.hpp:97,104), or that the channel is closed (channel.hpp:69). -/
def deliver (p : Plan α) (i : Nat) (st : Stage α) (r : Res α) : Stage α :=
  match st.pos, r with
  | .inPop, .val (some x) =>
    { st with got := st.got ++ [x], todo := if i ≤ p.inner then p.body i x else [], pos := .loop }
  | .inPop, _ => { st with pos := .shutOut }
  | .inPush, .bool true => { st with todo := st.todo.tail, pos := .loop }
  | .inPush, _ => { st with pos := .shutIn, rej := true, left := true }
  | .inCloseIn, _ => { st with pos := .shutOut }
  | .inCloseOut, _ => { st with pos := .over }
  | _, _ => st

/-- Scheduler choices: a stage makes its next call, executes the next action of its call (`wake` as in `Act.step`), wakes
up spuriously or reads an older value of the flag (channel.hpp:86,92,181). -/
inductive PAct where
  | begin (i : Nat)
  | run (i : Nat) (wake : Option Nat)
  | spurious (i : Nat)
  | stale (i : Nat)
  deriving DecidableEq, Repr

/-- Stage `i` does `a` inside its call (channel.hpp:58-194). -/
def Sys.inside (p : Plan α) (s : Sys α) (i : Nat) (a : Nat → Act α) : Option (Sys α) :=
  match place i (s.stage i).pos with
  | none => none
  | some (k, t) =>
    (next (p.cfg k) (s.chan k) (a t)).map (fun c =>
      match (s.chan k).pcs[t]? with
      | some (.done _ r) => ⟨upd s.chan k c, upd s.stage i (deliver p i (s.stage i) r)⟩
      | _ => { s with chan := upd s.chan k c })

/-- One scheduler action (channel.hpp:58-194); there are `inner + 2` stages. -/
def step (p : Plan α) (s : Sys α) : PAct → Option (Sys α)
  | .begin i => if i ≤ p.inner + 1 then s.begin p i else none
  | .run i wake => if i ≤ p.inner + 1 then s.inside p i (fun t => .step t wake) else none
  | .spurious i => if i ≤ p.inner + 1 then s.inside p i (fun t => .spurious t) else none
  | .stale i => if i ≤ p.inner + 1 then s.inside p i (fun t => .stale t) else none

/-- A list of scheduler actions (channel.hpp:58-194). -/
def exec (p : Plan α) : Sys α → List PAct → Option (Sys α)
  | s, [] => some s
  | s, a :: l => (step p s a).bind (fun s' => exec p s' l)

/-- The states of the executions of the pipeline (channel.hpp:58-194). -/
def Reach (p : Plan α) (s : Sys α) : Prop := ∃ acts, exec p (start p) acts = some s

/-- No thread can make a call or go on with one (channel.hpp:58-194). -/
def Stuck (p : Plan α) (s : Sys α) : Prop := ∀ i w, step p s (.begin i) = none ∧ step p s (.run i w) = none

/-! ### Specification: what the pipeline computes -/

/-- At most as many elements as the quota allows (the caller's condition around channel.hpp:214-291). -/
def takeQ (q : Option Nat) (l : List α) : List α :=
  match q with
  | none => l
  | some n => l.take n

/-- The elements that stage `k` is to push (composition of the bodies of loops over channel.hpp:214-291). -/
def stream (p : Plan α) : Nat → List α
  | 0 => p.source
  | k + 1 => (takeQ (p.quota (k + 1)) (stream p k)).flatMap (p.body (k + 1))

/-- The number of calls that stage `i` may need: pops, pushes and the calls of `close` (channel.hpp:58,85,179). -/
def callBound (p : Plan α) : Nat → Nat
  | 0 => p.source.length + 3
  | i + 1 => (stream p i).length + (if i + 1 ≤ p.inner then (stream p (i + 1)).length else 0) + 3

end Verif.Pipeline
