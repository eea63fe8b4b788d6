import Verif.Exchange.Props
import Verif.Multi.Model

/-!
Programs of any number of threads that use any number of exchange channels (`include/dice/template-library/exchange_channel.hpp`) in
any way: every thread may call every member function of every channel, what it calls next may depend on the results of all its
calls so far.

Every channel is the one of `Exchange/Model.lean`, so that all steps of the member functions of all threads interleave.
-/
namespace Verif.MultiX

open Verif.Exchange
open Verif.Channel (Op Res Ev Act)
open Verif.Multi (Thr set MAct)

variable {α : Type}

/-- The program: the number of threads, the parameters of the channels (exchange_channel.hpp:31,38), and for every thread the next
call, a channel and a member function (exchange_channel.hpp:53-149), or nothing any more. There is no `try_push`: a thread that
wants to call it cannot go on. -/
structure Prog (α : Type) where
  n : Nat
  cfg : Nat → Cfg
  code : Nat → List (Res α) → Option (Nat × Op α)

/-- The channels (exchange_channel.hpp:31-35) and the threads. -/
structure Sys (α : Type) where
  chan : Nat → St α
  thr : Nat → Thr α

/-- All channels new (exchange_channel.hpp:38), no call made. -/
def start (p : Prog α) : Sys α := ⟨fun _ => init α p.n, fun _ => ⟨[], false⟩⟩

/-- Thread `i` makes its next call (exchange_channel.hpp:53,68,79,124,142). -/
def Sys.begin (p : Prog α) (s : Sys α) (i : Nat) : Option (Sys α) :=
  match (s.thr i).inside, p.code i (s.thr i).res with
  | false, some (k, op) => (next (p.cfg k) (s.chan k) (.call i op)).map fun c => ⟨set s.chan k c, set s.thr i ⟨(s.thr i).res, true⟩⟩
  | _, _ => none

/-- Thread `i` does `a` inside its call; when the call returns, or ends with an exception, it has one more result
(exchange_channel.hpp:53-149). -/
def Sys.run (p : Prog α) (s : Sys α) (i : Nat) (a : Act α) : Option (Sys α) :=
  match (s.thr i).inside, p.code i (s.thr i).res with
  | true, some (k, _) => (next (p.cfg k) (s.chan k) a).map fun c =>
      match (s.chan k).pcs[i]? with
      | some (.done _ r) => ⟨set s.chan k c, set s.thr i ⟨(s.thr i).res ++ [r], false⟩⟩
      | _ => { s with chan := set s.chan k c }
  | _, _ => none

/-- One scheduler action (exchange_channel.hpp:53-149). -/
def step (p : Prog α) (s : Sys α) : MAct → Option (Sys α)
  | .begin i => s.begin p i
  | .run i wake => s.run p i (.step i wake)
  | .throw i => s.run p i (.throw i)
  | .spurious i => s.run p i (.spurious i)
  | .stale i => s.run p i (.stale i)

/-- A list of scheduler actions (exchange_channel.hpp:53-149). -/
def exec (p : Prog α) : Sys α → List MAct → Option (Sys α)
  | s, [] => some s
  | s, a :: l => (step p s a).bind fun s' => exec p s' l

/-- The states of the executions (exchange_channel.hpp:53-149). -/
def Reach (p : Prog α) (s : Sys α) : Prop := ∃ acts, exec p (start p) acts = some s

/-- No thread can make a call or go on with one (exchange_channel.hpp:53-149). -/
def Stuck (p : Prog α) (s : Sys α) : Prop := ∀ i w, step p s (.begin i) = none ∧ step p s (.run i w) = none

end Verif.MultiX
