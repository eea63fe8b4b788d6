import Verif.Channel.Model
import Verif.Exchange.Model

/-!
Happens-before for `channel.hpp` and `exchange_channel.hpp`. The models in `Channel/Model.lean` and `Exchange/Model.lean` say what the threads do; here each
of their steps gets the effect it has in the C++ memory model ([intro.races], [atomics.order], [thread.mutex.requirements]):
unlocking a mutex synchronizes with every later lock; a load with acquire order of the flag synchronizes with the stores with release order whose
release sequence it reads from; every load of the flag, also those with the mutex held and the one in `closed()`, may give any value that
coherence allows. What threads know is kept as the set of the log entries that happen before.

Simplifications: the flag and the mutex are the only means of synchronization inside of the channels (notifications of condition variables do not synchronize);
synchronization of the threads outside of the channel is the action `sync`; all other memory of the program is represented by log entries `user`.
`closed()` is a single load, so it is one action here, and the program counter `kRead` is not used.
-/
namespace Verif.HB

open Verif.Channel (Op Res Ev Act)

/-- What a thread, a mutex or a store carries: the log entries that happen before, and the oldest store to the flag that may still be read
(C++ memory model, for channel.hpp:34-35, exchange_channel.hpp:31-34). -/
structure View where
  know : List Nat
  seen : Nat
  deriving DecidableEq, Repr

/-- Both (C++ memory model, for channel.hpp:34-35, exchange_channel.hpp:31-34). -/
def View.join (a b : View) : View := ⟨a.know ++ b.know, max a.seen b.seen⟩

/-- What a log entry is about: an event of the history of the channel, a call of `closed()` with its result (channel.hpp:74-76,
exchange_channel.hpp:68-70), or any access to other memory by the program. -/
inductive What (α : Type) where
  | ev (e : Ev α)
  | closed (b : Bool)
  | user
  deriving DecidableEq, Repr

/-- A log entry: the thread, what it did, and the positions in the log of all entries that happen before it, and its own (for
channel.hpp:58-212, exchange_channel.hpp:53-149). -/
structure Entry (α : Type) where
  tid : Nat
  what : What α
  know : List Nat
  deriving DecidableEq, Repr

variable {α : Type}

/-- The state of the memory: the views of the threads, the view left by the last unlock of the mutex, the stores to the flag in modification
order, starting with its initialization, with the view each carries, and the log (channel.hpp:34-35, exchange_channel.hpp:31-34). -/
structure Mem (α : Type) where
  view : Nat → View
  mtx : View
  writes : List View
  log : List (Entry α)

/-- Before anything happens (channel.hpp:34-35, exchange_channel.hpp:31-34). -/
def Mem.init (α : Type) : Mem α := ⟨fun _ => ⟨[], 0⟩, ⟨[], 0⟩, [⟨[], 0⟩], []⟩

/-- Change the view of thread `t` (C++ memory model, for channel.hpp:58-212). -/
def Mem.setView (m : Mem α) (t : Nat) (v : View) : Mem α := { m with view := fun u => if u = t then v else m.view u }

/-- `lock`: what happened before earlier unlocks happens before what follows (channel.hpp:64, 91, 120, 180, 201, and at the end of waiting, 92, 181;
exchange_channel.hpp:59, 85, 125, 143, 126). -/
def Mem.lock (m : Mem α) (t : Nat) : Mem α := m.setView t ((m.view t).join m.mtx)

/-- `unlock` (channel.hpp:66, 101, 127, 191, 209, and at the beginning of waiting, 92, 181; exchange_channel.hpp:61, 92, 136, 149, 126). -/
def Mem.unlock (m : Mem α) (t : Nat) : Mem α := { m with mtx := m.mtx.join (m.view t) }

/-- Coherence: a load reads a store that is not older than any store that happens before it or was read before it
(loads at channel.hpp:75, 86, 92, 94, 115, 121, 181; exchange_channel.hpp:69, 80, 86, 127). -/
def Mem.canRead (m : Mem α) (t i : Nat) : Bool := (m.view t).seen ≤ i && i < m.writes.length

/-- `closed_.test(order)` reading store number `i`; `acq`: with acquire order (channel.hpp:75, 86, 92, 94, 115, 121, 181;
exchange_channel.hpp:69, 80, 86, 127). -/
def Mem.load (m : Mem α) (acq : Bool) (t i : Nat) : Mem α :=
  m.setView t (((m.view t).join ⟨[], i⟩).join (match acq with
    | true => m.writes.getD i ⟨[], 0⟩
    | false => ⟨[], 0⟩))

/-- The value of store number `i`: only the initialization is `false` (channel.hpp:34, 65; exchange_channel.hpp:34, 60). -/
def flagAt (i : Nat) : Bool := decide (0 < i)

/-- `closed_.test_and_set(order)`; `rel`: with release order. A read-modify-write, so it continues the release sequences of earlier stores
(channel.hpp:65; exchange_channel.hpp:60). -/
def Mem.store (m : Mem α) (rel : Bool) (t : Nat) : Mem α :=
  let v : View := (m.view t).join ⟨[], m.writes.length⟩
  let carried : View := match rel with
    | true => v
    | false => ⟨[], 0⟩
  { m.setView t v with writes := m.writes ++ [carried.join (m.writes.getLastD ⟨[], 0⟩)] }

/-- Thread `t` does something that is logged (for channel.hpp:58-212, exchange_channel.hpp:53-149). -/
def Mem.record (m : Mem α) (t : Nat) (x : What α) : Mem α :=
  { m.setView t ⟨m.log.length :: (m.view t).know, (m.view t).seen⟩ with
    log := m.log ++ [⟨t, x, m.log.length :: (m.view t).know⟩] }

/-- Synchronization of threads outside of the channel, such as joining a thread: what happened before in `t` happens before what follows in `t'`
(C++ memory model; no line of channel.hpp:58-212 or exchange_channel.hpp:53-149 is involved). -/
def Mem.sync (m : Mem α) (t t' : Nat) : Mem α := m.setView t' ((m.view t').join (m.view t))

/-- The parts of a model that the memory is concerned with (channel.hpp:58-212, exchange_channel.hpp:53-149). -/
structure Machine (S α : Type) where
  next : S → Act α → Option S
  closed : S → Bool
  setClosed : S → Bool → S
  owner : S → Option Nat
  hist : S → List (Ev α)
  /-- does the action load the flag, and with acquire order? -/
  load : S → Act α → Option Bool
  /-- does the action store to the flag? -/
  sets : S → Act α → Bool
  /-- is the thread outside of all member functions? -/
  idle : S → Nat → Bool
  /-- does the load in `closed()` have acquire order? -/
  closedAcq : Bool
  /-- does the store in `close()` have release order? -/
  setRel : Bool

/-- The thread of an action (for channel.hpp:58-212, exchange_channel.hpp:53-149). -/
def tid : Act α → Nat
  | .call t _ => t
  | .step t _ => t
  | .throw t => t
  | .spurious t => t
  | .stale t => t

/-- A channel together with the memory (channel.hpp:31-37, exchange_channel.hpp:31-35). -/
structure W (S α : Type) where
  s : S
  m : Mem α

/-- Actions of the program (for channel.hpp:58-212, exchange_channel.hpp:53-149). -/
inductive WAct (α : Type) where
  /-- an action of the model; if it loads the flag, it reads store number `i` -/
  | act (a : Act α) (i : Nat)
  /-- `closed()`, reading store number `i` -/
  | closed (t i : Nat)
  /-- an access to other memory -/
  | user (t : Nat)
  /-- synchronization outside of the channel -/
  | sync (t t' : Nat)

/-- Actions that the model offers and that are replaced here: loads that give an old value are explicit, and `closed()` is an action of its own (for
channel.hpp:74-76, 86, 115; exchange_channel.hpp:68-70, 80). -/
def replaced : Act α → Bool
  | .stale _ => true
  | .call _ .isClosed => true
  | _ => false

variable {S : Type}

/-- The effect on the memory of a step from `s` to `s'` after the load, if any: the log, the store, then the mutex (channel.hpp:58-212,
exchange_channel.hpp:53-149). -/
def effect (M : Machine S α) (s s' : S) (a : Act α) (m : Mem α) : Mem α :=
  let m1 := ((M.hist s').drop (M.hist s).length).foldl (fun m e => m.record (tid a) (.ev e)) m
  let m2 := match M.sets s a with
    | true => m1.store M.setRel (tid a)
    | false => m1
  match M.owner s, M.owner s' with
  | none, some t => m2.lock t
  | some t, none => m2.unlock t
  | _, _ => m2

/-- One action; `none` if it is not possible (channel.hpp:58-212, exchange_channel.hpp:53-149). -/
def wnext (M : Machine S α) (w : W S α) : WAct α → Option (W S α)
  | .act a i => match replaced a, M.load w.s a with
    | true, _ => none
    | false, none => (M.next w.s a).map fun s' => ⟨s', effect M w.s s' a w.m⟩
    | false, some acq => match w.m.canRead (tid a) i with
      | false => none
      | true => (M.next (M.setClosed w.s (flagAt i)) a).map fun s' =>
          ⟨M.setClosed s' (M.closed w.s), effect M w.s s' a (w.m.load acq (tid a) i)⟩
  | .closed t i => match M.idle w.s t, w.m.canRead t i with
    | true, true => some ⟨w.s, (w.m.load M.closedAcq t i).record t (.closed (flagAt i))⟩
    | _, _ => none
  | .user t => match M.idle w.s t with
    | true => some ⟨w.s, w.m.record t .user⟩
    | false => none
  | .sync t t' => match M.idle w.s t, M.idle w.s t' with
    | true, true => some ⟨w.s, w.m.sync t t'⟩
    | _, _ => none

/-- A list of actions (for channel.hpp:58-212, exchange_channel.hpp:53-149). -/
def wrun (M : Machine S α) : W S α → List (WAct α) → Option (W S α)
  | w, [] => some w
  | w, a :: as => (wnext M w a).bind fun w' => wrun M w' as

/-- What can be reached from `s` (for channel.hpp:58-212, exchange_channel.hpp:53-149). -/
def WReachable (M : Machine S α) (s : S) (w : W S α) : Prop := ∃ as, wrun M ⟨s, .init α⟩ as = some w

/-- The history of the channel in the log (for channel.hpp:58-212, exchange_channel.hpp:53-149). -/
def histOf (l : List (Entry α)) : List (Ev α) := l.filterMap fun e => match e.what with
  | .ev e => some e
  | _ => none

/-! ### Instances -/

/-- Loads of the flag in channel.hpp by position: with acquire order at 86 and 115, relaxed at 92, 94, 121 and 181. The tests at 92, 121 and 181 are
not reached if the first half of the condition decides. -/
def chanLoad (cap : Nat) (q : List α) : Channel.PC α → Option Bool
  | .eFast _ => some true
  | .tFast _ => some true
  | .eCheck _ => if q.length < cap then none else some false
  | .eBody _ => some false
  | .tBody _ => if cap ≤ q.length then none else some false
  | .pCheck => if q ≠ [] then none else some false
  | _ => none

/-- `channel` (channel.hpp:31-212). -/
def chan (α : Type) (cfg : Channel.Cfg) : Machine (Channel.St α) α where
  next := Channel.next cfg
  closed := (·.closed)
  setClosed s b := { s with closed := b }
  owner := (·.owner)
  hist := (·.hist)
  load s a := match a with
    | .step t _ => (s.pcs[t]?).bind (chanLoad cfg.cap s.q)
    | .throw t => (s.pcs[t]?).bind (chanLoad cfg.cap s.q)
    | _ => none
  sets s a := match a with
    | .step t _ => match s.pcs[t]? with
      | some .cSet => true
      | _ => false
    | _ => false
  idle s t := match s.pcs[t]? with
    | some .idle => true
    | _ => false
  closedAcq := true
  setRel := true

/-- Loads of the flag in exchange_channel.hpp by position: with acquire order at 80, relaxed at 86 and 127. The test at 127 is not reached if there
is a value. -/
def exchLoad (slot : Option α) : Exchange.PC α → Option Bool
  | .eFast _ => some true
  | .eBody _ => some false
  | .pCheck => match slot with
    | some _ => none
    | none => some false
  | _ => none

/-- `exchange_channel` (exchange_channel.hpp:31-149). -/
def exch (α : Type) (cfg : Exchange.Cfg) : Machine (Exchange.St α) α where
  next := Exchange.next cfg
  closed := (·.closed)
  setClosed s b := { s with closed := b }
  owner := (·.owner)
  hist := (·.hist)
  load s a := match a with
    | .step t _ => (s.pcs[t]?).bind (exchLoad s.slot)
    | .throw t => (s.pcs[t]?).bind (exchLoad s.slot)
    | _ => none
  sets s a := match a with
    | .step t _ => match s.pcs[t]? with
      | some .cSet => true
      | _ => false
    | _ => false
  idle s t := match s.pcs[t]? with
    | some .idle => true
    | _ => false
  closedAcq := true
  setRel := true

end Verif.HB
