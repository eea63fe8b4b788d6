import Verif.Multi.EndProps
import Verif.MultiX.EndProps

/-!
Programs of any number of threads that use any number of channels and exchange channels together
(`include/dice/template-library/channel.hpp`, `include/dice/template-library/exchange_channel.hpp`): every thread may call every member
function of every one of them, what it calls next may depend on the results of all its calls so far.
-/
namespace Verif.Mixed

open Verif.Channel (Op Res Act)
open Verif.Multi (Thr set MAct)

variable {α : Type}

/-- The parameters of an object: a channel (channel.hpp:31,40) or an exchange channel (exchange_channel.hpp:31,38). -/
inductive OCfg where
  | chan (c : Channel.Cfg)
  | exch (c : Exchange.Cfg)

/-- The object: a channel (channel.hpp:31-37) or an exchange channel (exchange_channel.hpp:31-35). -/
inductive Obj (α : Type) where
  | chan (s : Channel.St α)
  | exch (s : Exchange.St α)

/-- A new object (channel.hpp:40, exchange_channel.hpp:38), `n` threads. -/
def fresh (α : Type) (n : Nat) : OCfg → Obj α
  | .chan _ => .chan (Channel.init α n)
  | .exch _ => .exch (Exchange.init α n)

/-- One action in an object (channel.hpp:58-212, exchange_channel.hpp:53-149). -/
def onext : OCfg → Obj α → Act α → Option (Obj α)
  | .chan c, .chan s, a => (Channel.next c s a).map .chan
  | .exch c, .exch s, a => (Exchange.next c s a).map .exch
  | _, _, _ => none

/-- The result that thread `i` is about to return (channel.hpp:58-212, exchange_channel.hpp:53-149). -/
def doneAt (o : Obj α) (i : Nat) : Option (Res α) :=
  match o with
  | .chan s => match s.pcs[i]? with
    | some (.done _ r) => some r
    | _ => none
  | .exch s => match s.pcs[i]? with
    | some (.done _ r) => some r
    | _ => none

/-- The program: the number of threads, the objects, and for every thread the next call, an object and a member function
(channel.hpp:58-212, exchange_channel.hpp:53-149), or nothing any more. An exchange channel has no `try_push`. -/
structure Prog (α : Type) where
  n : Nat
  cfg : Nat → OCfg
  code : Nat → List (Res α) → Option (Nat × Op α)

/-- The objects (channel.hpp:31-37, exchange_channel.hpp:31-35) and the threads. -/
structure Sys (α : Type) where
  obj : Nat → Obj α
  thr : Nat → Thr α

/-- All objects new (channel.hpp:40, exchange_channel.hpp:38), no call made. -/
def start (p : Prog α) : Sys α := ⟨fun k => fresh α p.n (p.cfg k), fun _ => ⟨[], false⟩⟩

/-- Thread `i` makes its next call (channel.hpp:58,74,85,114,179,200, exchange_channel.hpp:53,68,79,124,142). -/
def Sys.begin (p : Prog α) (s : Sys α) (i : Nat) : Option (Sys α) :=
  match (s.thr i).inside, p.code i (s.thr i).res with
  | false, some (k, op) => (onext (p.cfg k) (s.obj k) (.call i op)).map fun c => ⟨set s.obj k c, set s.thr i ⟨(s.thr i).res, true⟩⟩
  | _, _ => none

/-- Thread `i` does `a` inside its call; when the call returns, or ends with an exception, it has one more result
(channel.hpp:58-212, exchange_channel.hpp:53-149). -/
def Sys.run (p : Prog α) (s : Sys α) (i : Nat) (a : Act α) : Option (Sys α) :=
  match (s.thr i).inside, p.code i (s.thr i).res with
  | true, some (k, _) => (onext (p.cfg k) (s.obj k) a).map fun c =>
      match doneAt (s.obj k) i with
      | some r => ⟨set s.obj k c, set s.thr i ⟨(s.thr i).res ++ [r], false⟩⟩
      | none => { s with obj := set s.obj k c }
  | _, _ => none

/-- One scheduler action (channel.hpp:58-212, exchange_channel.hpp:53-149). -/
def step (p : Prog α) (s : Sys α) : MAct → Option (Sys α)
  | .begin i => s.begin p i
  | .run i wake => s.run p i (.step i wake)
  | .throw i => s.run p i (.throw i)
  | .spurious i => s.run p i (.spurious i)
  | .stale i => s.run p i (.stale i)

/-- A list of scheduler actions (channel.hpp:58-212, exchange_channel.hpp:53-149). -/
def exec (p : Prog α) : Sys α → List MAct → Option (Sys α)
  | s, [] => some s
  | s, a :: l => (step p s a).bind fun s' => exec p s' l

/-- The states of the executions (channel.hpp:58-212, exchange_channel.hpp:53-149). -/
def Reach (p : Prog α) (s : Sys α) : Prop := ∃ acts, exec p (start p) acts = some s

/-- No thread can make a call or go on with one (channel.hpp:58-212, exchange_channel.hpp:53-149). -/
def Stuck (p : Prog α) (s : Sys α) : Prop := ∀ i w, step p s (.begin i) = none ∧ step p s (.run i w) = none

end Verif.Mixed
