/-!
Model of what `channel` (channel.hpp) and `exchange_channel` (exchange_channel.hpp) do with the element objects: which objects are constructed, moved from, assigned and
destroyed by each member function and by the iterators, in which order, with or without the mutex, and what happens if one of these operations throws.

The functions run one after another here; that the bodies of concurrent calls do not overlap is C64, and that their results are those of some order is C06 and C08. A call that has to wait does
nothing with elements until its wait is over; it is the outcome `waits`.

Simplifications: the objects a program owns itself (arguments, results) are numbered like the ones in the channel. `std::optional` is engaged iff it has an object. The local
variable of `std::exchange` is the returned object (its copy is elided, as compilers do). Elements are swapped by `std::swap`, with three moves. Running out of memory in `std::deque` is a fault of
the construction. That a function that is `noexcept` terminates the program is modelled for `channel::iterator::advance` only; the others are treated in C86.
-/
namespace Verif.Elements

/-- What an element operation does that may throw (channel.hpp:100, 188, 193; exchange_channel.hpp:91, 135): it succeeds, or throws and leaves its source as it was, or throws and leaves its source
moved from. -/
inductive Fault
  | ok
  | intact
  | gutted
deriving DecidableEq, Repr

/-- Element operations (performed by channel.hpp:100-282 and exchange_channel.hpp:91-222). -/
inductive Act (V : Type)
  /-- construction from arguments of `emplace` -/
  | make (new : Nat) (v : V)
  /-- copies also record the value -/
  | copyC (src new : Nat) (v : Option V)
  | moveC (src new : Nat)
  | copyA (dst src : Nat) (v : Option V)
  | moveA (dst src : Nat)
  /-- destruction, and the value the object still held -/
  | dtor (i : Nat) (held : Option V)
  /-- a throwing operation took the value of its source with it, or an assignment replaced the value of its target -/
  | lost (v : V)
deriving DecidableEq, Repr

/-- `channel` with its capacity, or `exchange_channel` (channel.hpp:20-37, exchange_channel.hpp:20-35). -/
inductive Kind
  | queue (cap : Nat)
  | exch
deriving DecidableEq, Repr

/-- A channel: its elements (for `exchange_channel` at most one), the flag, and whether the channel still exists (channel.hpp:30-37, 51; exchange_channel.hpp:30-35, 46). -/
structure Chan where
  kind : Kind
  buf : List Nat
  closed : Bool
  gone : Bool
deriving DecidableEq, Repr

/-- An iterator: which channel, and its buffer (channel.hpp:225-226, exchange_channel.hpp:162-163). -/
structure It where
  chan : Nat
  buf : Option Nat
deriving DecidableEq, Repr

/-- The program: objects by number (`none` once destroyed, `some none` when moved from), what was done with them and whether with the mutex, the faults to come, whether the mutex is held,
the channels, the objects the program owns itself, the iterators (state for channel.hpp:20-307 and exchange_channel.hpp:20-247). -/
structure W (V : Type) where
  cells : List (Option (Option V))
  log : List (Bool × Act V)
  faults : List Fault
  locked : Bool
  chans : List Chan
  mine : List Nat
  its : List (Option It)

/-- Outcomes of the calls in channel.hpp:84-308 and exchange_channel.hpp:78-250: `ub` if a destroyed object is used, `illegal` if the program does something a
program must not do. -/
inductive Out (V α : Type)
  | ok (a : α) (w : W V)
  | threw (w : W V)
  | terminated
  | waits
  | ub
  | illegal

variable {V α β : Type}

/-- Sequencing of statements (channel.hpp:84-307). -/
def Out.bind : Out V α → (α → W V → Out V β) → Out V β
  | .ok a w, f => f a w
  | .threw w, _ => .threw w
  | .terminated, _ => .terminated
  | .waits, _ => .waits
  | .ub, _ => .ub
  | .illegal, _ => .illegal

/-- Stack unwinding: if a statement throws, `f` is run before the exception goes on (`unique_lock` and local objects in channel.hpp:91, 120, 180, 188 and exchange_channel.hpp:85, 125, 135). -/
def Out.unwind : Out V α → (W V → Out V Unit) → Out V α
  | .threw w, f => (f w).bind fun _ w => .threw w
  | o, _ => o

/-- Calls the continuation, or fails if there is nothing (a check whether the program is allowed to do this; channel.hpp:40-307). -/
def legal (o : Option α) (f : α → Out V β) : Out V β :=
  match o with
  | some a => f a
  | none => .illegal

/-! ### Element operations -/

/-- Next fault (operations of channel.hpp:100-282 that may throw). -/
def W.fault (w : W V) : Fault := w.faults.head?.getD .ok

/-- Records an operation (done by channel.hpp:100-282). -/
def W.act (w : W V) (a : Act V) : W V := { w with log := w.log ++ [(w.locked, a)] }

/-- `T{args...}` (channel.hpp:100, 126; exchange_channel.hpp:91). -/
def make (v : V) (w : W V) : Out V Nat :=
  let w' := { w with faults := w.faults.tail }
  match w.fault with
  | .ok => .ok w.cells.length ({ w' with cells := w.cells ++ [some (some v)] }.act (.make w.cells.length v))
  | _ => .threw w'

/-- `T{src}` (channel.hpp:100, 126, 239; exchange_channel.hpp:91, 177). -/
def copyC (src : Nat) (w : W V) : Out V Nat :=
  match w.cells[src]? with
  | some (some x) =>
    let w' := { w with faults := w.faults.tail }
    match w.fault with
    | .ok => .ok w.cells.length ({ w' with cells := w.cells ++ [some x] }.act (.copyC src w.cells.length x))
    | _ => .threw w'
  | _ => .ub

/-- A throwing operation leaves its source as it was or moved from (channel.hpp:100, 188, 193, 229, 260; exchange_channel.hpp:91, 135, 166, 198). -/
def gut (src : Nat) (x : Option V) (f : Fault) (w : W V) : W V :=
  match f, x with
  | .gutted, some v => { w with cells := w.cells.set src (some none) }.act (.lost v)
  | _, _ => w

/-- `T{std::move(src)}` (channel.hpp:100, 126, 188, 193, 206, 211, 229, 254, 260; exchange_channel.hpp:91, 135, 148, 166, 192, 198). -/
def moveC (src : Nat) (w : W V) : Out V Nat :=
  match w.cells[src]? with
  | some (some x) =>
    let w' := { w with faults := w.faults.tail }
    match w.fault with
    | .ok => .ok w.cells.length ({ w' with cells := w.cells.set src (some none) ++ [some x] }.act (.moveC src w.cells.length))
    | f => .threw (gut src x f w')
  | _ => .ub

/-- The value an assignment overwrites is recorded (channel.hpp:229, 248, 260; exchange_channel.hpp:166, 186, 198). -/
def overwrite (y : Option V) (w : W V) : W V :=
  match y with
  | some v => w.act (.lost v)
  | none => w

/-- `dst = src` (channel.hpp:248, exchange_channel.hpp:186). -/
def copyA (dst src : Nat) (w : W V) : Out V Unit :=
  match w.cells[dst]?, w.cells[src]? with
  | some (some y), some (some x) =>
    let w' := { w with faults := w.faults.tail }
    match w.fault with
    | .ok => .ok () ((overwrite y { w' with cells := w.cells.set dst (some x) }).act (.copyA dst src x))
    | _ => .threw w'
  | _, _ => .ub

/-- `dst = std::move(src)` for different objects (channel.hpp:229, 260; exchange_channel.hpp:166, 198). -/
def moveA (dst src : Nat) (w : W V) : Out V Unit :=
  match w.cells[dst]?, w.cells[src]? with
  | some (some y), some (some x) =>
    let w' := { w with faults := w.faults.tail }
    match w.fault with
    | .ok => .ok () ((overwrite y { w' with cells := (w.cells.set dst (some x)).set src (some none) }).act (.moveA dst src))
    | f => .threw (gut src x f w')
  | _, _ => .ub

/-- `~T()` (channel.hpp:51, 189, 193, 207, 211, 229, 260; exchange_channel.hpp:46, 91, 135, 148, 166, 198). -/
def dtor (i : Nat) (w : W V) : Out V Unit :=
  match w.cells[i]? with
  | some (some x) => .ok () ({ w with cells := w.cells.set i none }.act (.dtor i x))
  | _ => .ub

/-- Destroys several objects (`~deque`, channel.hpp:51; `~optional`, exchange_channel.hpp:46). -/
def dtors : List Nat → W V → Out V Unit
  | [], w => .ok () w
  | i :: is, w => (dtor i w).bind fun _ w => dtors is w

/-! ### Mutex and members -/

/-- `std::unique_lock lock{mutex}` (channel.hpp:91, 120, 180, 201; exchange_channel.hpp:85, 125, 143). -/
def W.lock (w : W V) : W V := { w with locked := true }

/-- `lock.unlock()` or its destructor (channel.hpp:101, 127, 191, 209; exchange_channel.hpp:92, 136, 149). -/
def W.unlock (w : W V) : W V := { w with locked := false }

/-- Runs with the mutex; it is released also if something throws (channel.hpp:90-101, 119-127; exchange_channel.hpp:84-92, 125-136, 143-149). -/
def withLock (p : W V → Out V α) (w : W V) : Out V α :=
  ((p w.lock).unwind fun w => .ok () w.unlock).bind fun a w => .ok a w.unlock

/-- `queue_` or `value_` has other elements (channel.hpp:100, 189; exchange_channel.hpp:91, 135). -/
def W.setBuf (w : W V) (c : Nat) (b : List Nat) : W V :=
  { w with chans := w.chans.modify c fun ch => { ch with buf := b } }

/-- A channel that exists (channel.hpp:40-51, exchange_channel.hpp:38-46). -/
def W.chan? (w : W V) (c : Nat) : Option Chan :=
  match w.chans[c]? with
  | some ch => if ch.gone then none else some ch
  | none => none

/-- An iterator that exists (channel.hpp:214-226, exchange_channel.hpp:151-163). -/
def W.it? (w : W V) (i : Nat) : Option It :=
  match w.its[i]? with
  | some (some it) => some it
  | _ => none

/-- The buffer of an iterator changes (channel.hpp:229, 248, 260; exchange_channel.hpp:166, 186, 198). -/
def W.setItBuf (w : W V) (i : Nat) (b : Option Nat) : W V :=
  { w with its := w.its.modify i fun o => o.map fun it => { it with buf := b } }

/-- The channel of an iterator changes (channel.hpp:247, 259; exchange_channel.hpp:185, 197). -/
def W.setItChan (w : W V) (i : Nat) (c : Nat) : W V :=
  { w with its := w.its.modify i fun o => o.map fun it => { it with chan := c } }

/-- The arguments of `emplace` and `push` (channel.hpp:85, 139, 159; exchange_channel.hpp:79, 104, 114). -/
inductive Arg (V : Type)
  /-- `push(T const &)` -/
  | copy (i : Nat)
  /-- `push(T &&)` -/
  | move (i : Nat)
  /-- `emplace(args...)` -/
  | args (v : V)
deriving DecidableEq, Repr

/-- Constructs the element from the arguments (channel.hpp:100, 126; exchange_channel.hpp:91). -/
def construct : Arg V → W V → Out V Nat
  | .copy i => copyC i
  | .move i => moveC i
  | .args v => make v

/-- `queue_.emplace_back(args...)` (channel.hpp:100, 126), `value_.emplace(args...)` (exchange_channel.hpp:91), which destroys the old value first. -/
def store (c : Nat) (ch : Chan) (a : Arg V) (w : W V) : Out V Unit :=
  match ch.kind with
  | .queue _ => (construct a w).bind fun n w => .ok () (w.setBuf c (ch.buf ++ [n]))
  | .exch =>
    (dtors ch.buf (w.setBuf c [])).bind fun _ w =>
    (construct a w).bind fun n w => .ok () (w.setBuf c [n])

/-- Is there room (channel.hpp:92, 121)? `exchange_channel` always has room. -/
def Chan.full (ch : Chan) : Bool :=
  match ch.kind with
  | .queue cap => decide (cap ≤ ch.buf.length)
  | .exch => false

/-- `emplace` and `push` (channel.hpp:85-105, 139, 159; exchange_channel.hpp:79-96, 104, 114). -/
def push (c : Nat) (a : Arg V) (w : W V) : Out V Bool :=
  legal (w.chan? c) fun ch =>
    if ch.closed then .ok false w
    else if ch.full then .waits
    else (withLock (store c ch a) w).bind fun _ w => .ok true w

/-- `try_emplace` and `try_push` (channel.hpp:114-131, 149, 169). -/
def tryPush (c : Nat) (a : Arg V) (w : W V) : Out V Bool :=
  legal (w.chan? c) fun ch =>
    if ch.kind = .exch then .illegal
    else if ch.closed then .ok false w
    else withLock (fun w => if ch.full then .ok false w else (store c ch a w).bind fun _ w => .ok true w) w

/-- The rest of `pop` and `try_pop` of `channel` for a first element `f` (channel.hpp:188-193, 206-211). -/
def takeFront (c f : Nat) (rest : List Nat) (w : W V) : Out V Nat :=
  ((moveC f w.lock).unwind fun w => .ok () w.unlock).bind fun ret w =>
  (dtor f (w.setBuf c rest)).bind fun _ w =>
  ((moveC ret w.unlock).unwind (dtor ret)).bind fun r w =>
  (dtor ret w).bind fun _ w => .ok r w

/-- `return *std::exchange(value_, std::nullopt)` (exchange_channel.hpp:135, 148). -/
def takeSlot (c f : Nat) (w : W V) : Out V Nat :=
  withLock (fun w =>
    (moveC f w).bind fun tmp w =>
    (dtor f (w.setBuf c [])).bind fun _ w =>
    ((moveC tmp w).unwind (dtor tmp)).bind fun r w =>
    (dtor tmp w).bind fun _ w => .ok r w) w

/-- Takes the first element; `none` if there is none (channel.hpp:183-193, 202-211; exchange_channel.hpp:130-135, 144-148). -/
def take (c : Nat) (ch : Chan) (w : W V) : Out V (Option Nat) :=
  match ch.kind, ch.buf with
  | _, [] => .ok none w
  | .queue _, f :: rest => (takeFront c f rest w).bind fun r w => .ok (some r) w
  | .exch, f :: _ => (takeSlot c f w).bind fun r w => .ok (some r) w

/-- `pop` (channel.hpp:179-194, exchange_channel.hpp:124-136); the result is a new object. -/
def pop (c : Nat) (w : W V) : Out V (Option Nat) :=
  legal (w.chan? c) fun ch =>
    if ch.buf = [] ∧ ch.closed = false then .waits else take c ch w

/-- `try_pop` (channel.hpp:200-212, exchange_channel.hpp:142-149). -/
def tryPop (c : Nat) (w : W V) : Out V (Option Nat) :=
  legal (w.chan? c) fun ch => take c ch w

/-! ### Iterators -/

/-- Assignment of the temporary `std::optional` with object `r` to the buffer, and the end of the temporary (channel.hpp:229, exchange_channel.hpp:166). -/
def assignBuf (i : Nat) (b r : Option Nat) (w : W V) : Out V Unit :=
  match b, r with
  | none, none => .ok () w
  | some b, none => (dtor b (w.setItBuf i none)).bind fun _ w => .ok () w
  | none, some r => ((moveC r w).unwind (dtor r)).bind fun n w => dtor r (w.setItBuf i (some n))
  | some b, some r => ((moveA b r w).unwind (dtor r)).bind fun _ w => dtor r w

/-- `advance` of `channel::iterator` is `noexcept`: an exception terminates the program (channel.hpp:228). That of `exchange_channel::iterator` lets it pass (exchange_channel.hpp:165), for
elements whose move constructor may throw. -/
def guardNoexcept (k : Kind) : Out V α → Out V α
  | .threw w => match k with
    | .queue _ => .terminated
    | .exch => .threw w
  | o => o

/-- `advance` (channel.hpp:228-230, exchange_channel.hpp:165-167) for iterator `i`. -/
def advance (i : Nat) (w : W V) : Out V Unit :=
  legal (w.it? i) fun it =>
  legal (w.chan? it.chan) fun ch =>
  guardNoexcept ch.kind ((pop it.chan w).bind fun r w => assignBuf i it.buf r w)

/-- An iterator under construction is gone after an exception (channel.hpp:233-235, exchange_channel.hpp:170-173). -/
def W.dropLast (w : W V) : W V := { w with its := w.its.dropLast }

/-- `begin()`: a new iterator, at the end of the list (channel.hpp:233-235, 300-302; exchange_channel.hpp:170-173, 240-242). -/
def begin_ (c : Nat) (w : W V) : Out V Unit :=
  (advance w.its.length { w with its := w.its ++ [some ⟨c, none⟩] }).unwind fun w => .ok () w.dropLast

/-- Copy construction of the buffer: `buf_{other.buf_}` (channel.hpp:237-240, exchange_channel.hpp:175-178). -/
def copyBuf (b : Option Nat) (w : W V) : Out V (Option Nat) :=
  match b with
  | none => .ok none w
  | some b => (copyC b w).bind fun n w => .ok (some n) w

/-- Move construction of the buffer: `buf_{std::move(other.buf_)}`; the other stays engaged (channel.hpp:252-255, exchange_channel.hpp:190-193). -/
def moveBuf (b : Option Nat) (w : W V) : Out V (Option Nat) :=
  match b with
  | none => .ok none w
  | some b => (moveC b w).bind fun n w => .ok (some n) w

/-- Copy constructor (channel.hpp:237-240, exchange_channel.hpp:175-178). -/
def itCopy (j : Nat) (w : W V) : Out V Unit :=
  legal (w.it? j) fun it => (copyBuf it.buf w).bind fun b w => .ok () { w with its := w.its ++ [some ⟨it.chan, b⟩] }

/-- Move constructor (channel.hpp:252-255, exchange_channel.hpp:190-193). -/
def itMove (j : Nat) (w : W V) : Out V Unit :=
  legal (w.it? j) fun it => (moveBuf it.buf w).bind fun b w => .ok () { w with its := w.its ++ [some ⟨it.chan, b⟩] }

/-- `buf_ = other.buf_` (channel.hpp:248, exchange_channel.hpp:186). -/
def copyAssignBuf (i : Nat) (a b : Option Nat) (w : W V) : Out V Unit :=
  match a, b with
  | none, none => .ok () w
  | some a, none => (dtor a (w.setItBuf i none)).bind fun _ w => .ok () w
  | none, some b => (copyC b w).bind fun n w => .ok () (w.setItBuf i (some n))
  | some a, some b => copyA a b w

/-- Copy assignment (channel.hpp:242-250, exchange_channel.hpp:180-188). -/
def itCopyAssign (i j : Nat) (w : W V) : Out V Unit :=
  legal (w.it? i) fun a => legal (w.it? j) fun b =>
    if i = j then .ok () w
    else copyAssignBuf i a.buf b.buf (w.setItChan i b.chan)

/-- `std::swap(buf_, other.buf_)` (channel.hpp:260, exchange_channel.hpp:198). -/
def swapBuf (i j : Nat) (a b : Option Nat) (w : W V) : Out V Unit :=
  match a, b with
  | none, none => .ok () w
  | some a, none => (moveC a w).bind fun n w => dtor a ((w.setItBuf j (some n)).setItBuf i none)
  | none, some b => (moveC b w).bind fun n w => dtor b ((w.setItBuf i (some n)).setItBuf j none)
  | some a, some b =>
    (moveC a w).bind fun t w =>
    (((moveA a b w).bind fun _ w => moveA b t w).unwind (dtor t)).bind fun _ w => dtor t w

/-- Move assignment: the iterators are swapped; an iterator must not be moved to itself (channel.hpp:257-262, exchange_channel.hpp:195-200). -/
def itMoveAssign (i j : Nat) (w : W V) : Out V Unit :=
  legal (w.it? i) fun a => legal (w.it? j) fun b =>
    if i = j then .illegal
    else swapBuf i j a.buf b.buf ((w.setItChan i b.chan).setItChan j a.chan)

/-- The implicit destructor of an iterator (channel.hpp:214, exchange_channel.hpp:151). -/
def itDestroy (i : Nat) (w : W V) : Out V Unit :=
  legal (w.it? i) fun it => dtors it.buf.toList { w with its := w.its.set i none }

/-- `T x = std::move(*it)` (channel.hpp:264-278, exchange_channel.hpp:203-218). -/
def itTake (i : Nat) (w : W V) : Out V Nat :=
  legal (w.it? i) fun it => legal it.buf fun b => moveC b w

/-! ### Programs -/

/-- What a program does (calls of channel.hpp:40-307 and exchange_channel.hpp:38-247). -/
inductive Op (V : Type)
  | newChan (k : Kind)
  /-- `T x{v}` -/
  | create (v : V)
  /-- the end of an object of the program -/
  | drop (i : Nat)
  | push (c : Nat) (a : Arg V)
  | tryPush (c : Nat) (a : Arg V)
  | pop (c : Nat)
  | tryPop (c : Nat)
  | close (c : Nat)
  | dropChan (c : Nat)
  | begin_ (c : Nat)
  | inc (i : Nat)
  | itTake (i : Nat)
  | itCopy (i : Nat)
  | itMove (i : Nat)
  | itCopyAssign (i j : Nat)
  | itMoveAssign (i j : Nat)
  | itDestroy (i : Nat)
deriving DecidableEq, Repr

/-- Results of the calls in channel.hpp:84-308 and exchange_channel.hpp:78-250. -/
inductive Res
  | unit
  | bool (b : Bool)
  | val (i : Option Nat)
deriving DecidableEq, Repr

/-- The arguments are objects of the program (channel.hpp:85, 139, 159). -/
def Arg.ok (a : Arg V) (w : W V) : Bool :=
  match a with
  | .copy i => decide (i ∈ w.mine)
  | .move i => decide (i ∈ w.mine)
  | .args _ => true

/-- Executes one operation; objects that are returned become objects of the program (channel.hpp:40-307, exchange_channel.hpp:38-247). -/
def step (w : W V) : Op V → Out V Res
  | .newChan k => .ok .unit { w with chans := w.chans ++ [⟨k, [], false, false⟩] }
  | .create v => (make v w).bind fun n w => .ok .unit { w with mine := n :: w.mine }
  | .drop i => if i ∈ w.mine then (dtor i { w with mine := w.mine.erase i }).bind fun _ w => .ok .unit w else .illegal
  | .push c a => if a.ok w then (push c a w).bind fun b w => .ok (.bool b) w else .illegal
  | .tryPush c a => if a.ok w then (tryPush c a w).bind fun b w => .ok (.bool b) w else .illegal
  | .pop c => (pop c w).bind fun r w => .ok (.val r) { w with mine := r.toList ++ w.mine }
  | .tryPop c => (tryPop c w).bind fun r w => .ok (.val r) { w with mine := r.toList ++ w.mine }
  | .close c => legal (w.chan? c) fun _ => .ok .unit { w with chans := w.chans.modify c fun ch => { ch with closed := true } }
  | .dropChan c => legal (w.chan? c) fun ch =>
    (dtors ch.buf { w with chans := w.chans.modify c fun ch => { ch with buf := [], gone := true } }).bind fun _ w => .ok .unit w
  | .begin_ c => (begin_ c w).bind fun _ w => .ok .unit w
  | .inc i => (advance i w).bind fun _ w => .ok .unit w
  | .itTake i => (itTake i w).bind fun r w => .ok (.val (some r)) { w with mine := r :: w.mine }
  | .itCopy i => (itCopy i w).bind fun _ w => .ok .unit w
  | .itMove i => (itMove i w).bind fun _ w => .ok .unit w
  | .itCopyAssign i j => (itCopyAssign i j w).bind fun _ w => .ok .unit w
  | .itMoveAssign i j => (itMoveAssign i j w).bind fun _ w => .ok .unit w
  | .itDestroy i => (itDestroy i w).bind fun _ w => .ok .unit w

/-- The program at its start, with the faults that will happen (before channel.hpp:40). -/
def init (faults : List Fault) : W V := ⟨[], [], faults, false, [], [], []⟩

/-- Runs a program. Exceptions are caught by it after each operation (histories of channel.hpp:40-307 and exchange_channel.hpp:38-247). -/
def run : W V → List (Op V) → Out V Unit
  | w, [] => .ok () w
  | w, o :: os => match step w o with
    | .ok _ w => run w os
    | .threw w => run w os
    | .terminated => .terminated
    | .waits => .waits
    | .ub => .ub
    | .illegal => .illegal

end Verif.Elements
