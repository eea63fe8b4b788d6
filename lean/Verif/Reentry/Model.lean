/-!
Element types whose constructors, moves and destructors use channels themselves (channel.hpp:68-212, exchange_channel.hpp:53-149), and programs
that use channels while they have guards of a `mutex` (mutex.hpp:111-129).

The member functions of both channels run code of the element type: with their mutex locked, or after they have released it. Here
that code consists of calls of members of channels, the elements of which again run code. Any number of threads do this at the
same time.

Simplifications: values other than this code are left out. Between the start of a section with the mutex and its end, `buf` is not
seen by anyone else, so an element that is taken out is removed from it at the start of the section. A thread that has to wait
cannot make a step; that it is woken up when it need not wait any more is C05 and C09. A mutex is free or owned by a thread; locking
a `std::mutex` that the thread owns itself is undefined in C++, here (as with POSIX threads) it waits. Nothing throws. A guard lives as long as a block; guards that are moved
or outlive others are in C10 and C114. `try_lock` fails only if the mutex is locked. Results of
`pop` are destroyed by the caller at once, that code is the second part of `d2`.
-/
namespace Verif.Reentry

/-- Calls of members of channel number `c`. `emplace` and `push` (and `try_…`, if not `wait`) come with the code of the element: what is
called by its construction in the channel (`make`), by the move out of the buffer (`m1`), the destruction in the buffer (`d1`),
the move to the result (`m2`) and the destruction of the local variable (`d2`) (channel.hpp:59-212, exchange_channel.hpp:53-149). -/
inductive Call
  | closed (c : Nat)
  | close (c : Nat)
  | emplace (wait : Bool) (c : Nat) (make m1 d1 m2 d2 : List Call)
  | pop (wait : Bool) (c : Nat)
  /-- `{ auto guard = m.lock(); body }`, or `if (auto guard = m.try_lock()) { body }` if not `wait` (mutex.hpp:111-129) -/
  | guard (wait : Bool) (c : Nat) (body : List Call)

/-- An element in a buffer: the code it will run (channel.hpp:188-193, exchange_channel.hpp:91, 135). -/
structure Elem where
  m1 : List Call
  d1 : List Call
  m2 : List Call
  d2 : List Call

/-- A `channel`, or (`exch`) an `exchange_channel`, or a `mutex` (for which only the owner matters), with the thread that owns its mutex
(channel.hpp:30-37, exchange_channel.hpp:30-35, mutex.hpp:79-80). -/
structure Chan where
  exch : Bool
  cap : Nat
  buf : List Elem
  closed : Bool
  owner : Option Nat

/-- What a thread has to do: call a member, go on with `emplace` after its first test (channel.hpp:90, 119, exchange_channel.hpp:84), put the
new element into the buffer, release the mutex (channel.hpp:59-212). -/
inductive Instr
  | call (x : Call)
  | inside (x : Call)
  | add (c : Nat) (e : Elem)
  | unlock (c : Nat)

/-- Channels and threads (state for channel.hpp:20-212, exchange_channel.hpp:20-149). -/
structure State where
  chans : List Chan
  thr : List (List Instr)

/-- Calls of element code (channel.hpp:100, 126, 188-193, exchange_channel.hpp:91, 135, 148). -/
def calls (l : List Call) : List Instr := l.map .call

/-- What a call does that need not wait, in thread `i`; `rest` is what comes after it. The result is the channel and what is to be
done; `none` if it has to wait for the mutex, for an element, or for space (channel.hpp:70-212, exchange_channel.hpp:60-149). -/
def enter (i : Nat) (rest : List Instr) (ch : Chan) : Call → Option (Chan × List Instr)
  -- channel.hpp:75-77, exchange_channel.hpp:69-71: without the mutex
  | .closed _ => some (ch, rest)
  -- channel.hpp:59-70, exchange_channel.hpp:53-64
  | .close _ => if ch.owner = none then some ({ ch with closed := true }, rest) else none
  | .emplace wait c make m1 d1 m2 d2 =>
    if ch.owner ≠ none then none
    -- channel.hpp:94-98, 121-124, exchange_channel.hpp:86-89
    else if ch.closed then some (ch, rest)
    else if ch.exch then
      -- exchange_channel.hpp:84-92: the old value is destroyed, the new one is constructed
      some ({ ch with owner := some i, buf := [] },
        calls ((ch.buf.map (·.d1)).flatten ++ make) ++ .add c ⟨m1, d1, m2, d2⟩ :: .unlock c :: rest)
    else if ch.buf.length < ch.cap then
      -- channel.hpp:100-101, 126-127
      some ({ ch with owner := some i }, calls make ++ .add c ⟨m1, d1, m2, d2⟩ :: .unlock c :: rest)
    -- channel.hpp:92, 121-124
    else if wait then none else some (ch, rest)
  | .pop wait c =>
    if ch.owner ≠ none then none
    else match ch.buf with
    | e :: es =>
      if ch.exch then
        -- exchange_channel.hpp:135-136, 148-149: everything with the mutex
        some ({ ch with owner := some i, buf := es }, calls (e.m1 ++ e.d1 ++ e.m2 ++ e.d2) ++ .unlock c :: rest)
      else
        -- channel.hpp:188-193, 206-211: the result is made after the mutex is released
        some ({ ch with owner := some i, buf := es }, calls (e.m1 ++ e.d1) ++ .unlock c :: (calls (e.m2 ++ e.d2) ++ rest))
    -- channel.hpp:181-186, 202-204, exchange_channel.hpp:126-133, 144-146
    | [] => if ch.closed || !wait then some (ch, rest) else none
  -- mutex.hpp:111-113, 122-129, and the end of the guard (mutex.hpp:34)
  | .guard wait c body =>
    if ch.owner ≠ none then (if wait then none else some (ch, rest))
    else some ({ ch with owner := some i }, calls body ++ .unlock c :: rest)

/-- The channel of a call (channel.hpp:59-212). -/
def Call.chan : Call → Nat
  | .closed c => c
  | .close c => c
  | .emplace _ c .. => c
  | .pop _ c => c
  | .guard _ c _ => c

/-- One step of thread `i`; `none` if it has nothing to do or has to wait (channel.hpp:59-212, exchange_channel.hpp:53-149). -/
def step (s : State) (i : Nat) : Option State :=
  match s.thr[i]? with
  | some (.call x :: rest) =>
    match s.chans[x.chan]? with
    | some ch => match x with
      -- channel.hpp:86-88, 115-117, exchange_channel.hpp:80-82: the first test, without the mutex
      | .emplace .. => some ⟨s.chans, s.thr.set i (if ch.closed then rest else .inside x :: rest)⟩
      | _ => (enter i rest ch x).map fun r => ⟨s.chans.set x.chan r.1, s.thr.set i r.2⟩
    | none => none
  | some (.inside x :: rest) =>
    match s.chans[x.chan]? with
    | some ch => (enter i rest ch x).map fun r => ⟨s.chans.set x.chan r.1, s.thr.set i r.2⟩
    | none => none
  -- channel.hpp:100, 126, exchange_channel.hpp:91
  | some (.add c e :: rest) => some ⟨s.chans.modify c fun ch => { ch with buf := ch.buf ++ [e] }, s.thr.set i rest⟩
  -- channel.hpp:101, 127, 191, 209, exchange_channel.hpp:92, 136, 149
  | some (.unlock c :: rest) => some ⟨s.chans.modify c fun ch => { ch with owner := none }, s.thr.set i rest⟩
  | _ => none

/-- An execution: the threads that make the steps (schedule of channel.hpp:59-212). -/
def exec (s : State) : List Nat → Option State
  | [] => some s
  | i :: is => (step s i).bind fun t => exec t is

/-- Channels without elements and threads that begin their programs (channel.hpp:40-43, exchange_channel.hpp:30-38); a channel is given by its
kind and capacity. -/
def start (cs : List (Bool × Nat)) (progs : List (List Call)) : State :=
  ⟨cs.map fun c => ⟨c.1, c.2, [], false, none⟩, progs.map calls⟩

end Verif.Reentry
