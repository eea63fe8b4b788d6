import Verif.Channel.Props

/-!
Programs of any number of threads that use any number of channels (`include/dice/template-library/channel.hpp`) in any way: every
thread may call every member function of every channel, what it calls next may depend on the results of all its calls so far.

Every channel is the channel of `Channel/Model.lean`, so that all steps of the member functions of all threads interleave.
-/
namespace Verif.Multi

open Verif.Channel

variable {α : Type}

/-- The program: the number of threads, the parameters of the channels (channel.hpp:31,40), and for every thread the next call, a
channel and a member function (channel.hpp:58-212), or nothing any more. -/
structure Prog (α : Type) where
  n : Nat
  cfg : Nat → Cfg
  code : Nat → List (Res α) → Option (Nat × Op α)

/-- A thread: the results of its calls so far, and whether it is inside the next one (callers of channel.hpp:58-212). -/
structure Thr (α : Type) where
  res : List (Res α)
  inside : Bool
  deriving DecidableEq, Repr

/-- The channels (channel.hpp:31-37) and the threads. -/
structure Sys (α : Type) where
  chan : Nat → St α
  thr : Nat → Thr α

/-- `f` with another value at `i` (for channel.hpp:31-37). -/
def set {γ : Type} (f : Nat → γ) (i : Nat) (x : γ) : Nat → γ := fun j => if j = i then x else f j

/-- All channels new (channel.hpp:40), no call made. -/
def start (p : Prog α) : Sys α := ⟨fun _ => init α p.n, fun _ => ⟨[], false⟩⟩

/-- Thread `i` makes its next call (channel.hpp:58,74,85,114,179,200). -/
def Sys.begin (p : Prog α) (s : Sys α) (i : Nat) : Option (Sys α) :=
  match (s.thr i).inside, p.code i (s.thr i).res with
  | false, some (k, op) => (next (p.cfg k) (s.chan k) (.call i op)).map fun c => ⟨set s.chan k c, set s.thr i ⟨(s.thr i).res, true⟩⟩
  | _, _ => none

/-- Thread `i` does `a` inside its call; when the call returns, or ends with an exception, it has one more result
(channel.hpp:58-212). -/
def Sys.run (p : Prog α) (s : Sys α) (i : Nat) (a : Act α) : Option (Sys α) :=
  match (s.thr i).inside, p.code i (s.thr i).res with
  | true, some (k, _) => (next (p.cfg k) (s.chan k) a).map fun c =>
      match (s.chan k).pcs[i]? with
      | some (.done _ r) => ⟨set s.chan k c, set s.thr i ⟨(s.thr i).res ++ [r], false⟩⟩
      | _ => { s with chan := set s.chan k c }
  | _, _ => none

/-- Scheduler choices: a thread makes its next call, executes the next action of its call (`wake` as in `Act.step`), the element
operation there throws, the thread wakes up spuriously, or it reads an older value of the flag (channel.hpp:58-212). -/
inductive MAct where
  | begin (i : Nat)
  | run (i : Nat) (wake : Option Nat)
  | throw (i : Nat)
  | spurious (i : Nat)
  | stale (i : Nat)
  deriving DecidableEq, Repr

/-- One scheduler action (channel.hpp:58-212). -/
def step (p : Prog α) (s : Sys α) : MAct → Option (Sys α)
  | .begin i => s.begin p i
  | .run i wake => s.run p i (.step i wake)
  | .throw i => s.run p i (.throw i)
  | .spurious i => s.run p i (.spurious i)
  | .stale i => s.run p i (.stale i)

/-- A list of scheduler actions (channel.hpp:58-212). -/
def exec (p : Prog α) : Sys α → List MAct → Option (Sys α)
  | s, [] => some s
  | s, a :: l => (step p s a).bind fun s' => exec p s' l

/-- The states of the executions (channel.hpp:58-212). -/
def Reach (p : Prog α) (s : Sys α) : Prop := ∃ acts, exec p (start p) acts = some s

/-- No thread can make a call or go on with one (channel.hpp:58-212). -/
def Stuck (p : Prog α) (s : Sys α) : Prop := ∀ i w, step p s (.begin i) = none ∧ step p s (.run i w) = none

end Verif.Multi
