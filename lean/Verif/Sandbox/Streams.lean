import Verif.Sandbox.Model

/-!
What a sandboxed function does to output, memory, locks and global objects (sandbox.hpp:62-72, 88-116, 153-157).

`Sandbox/Model.lean` is about the result; this is about everything else `fork` copies or shares: the child has a copy of the
memory of the parent, with the buffers of all streams and all locked mutexes, but shares its files. The buffers of C streams
and of `std::cout` and `std::cerr` are known to `flush_all_streams`; those of other streams (`std::ofstream`, or `std::clog`
after `sync_with_stdio(false)`) are not.

Simplifications: while the child runs, the parent and its other threads write nothing (the parent waits, and other threads are
excluded by the precondition in sandbox.hpp:153-154, except that they may hold locks); writing a buffer to a file does not fail;
no stream is opened or closed in the child; mutexes are not recursive.
-/
namespace Verif.Sandbox

/-- Streams with buffers: `std::cout`, `std::cerr`, C streams, and others (sandbox.hpp:62-72). -/
inductive Stream
  | cout | cerr
  | cfile (n : Nat)
  | other (n : Nat)
deriving DecidableEq, Repr

/-- Does `flush_all_streams` flush the stream? (sandbox.hpp:66-69) -/
def Stream.known : Stream → Bool
  | .other _ => false
  | _ => true

/-- The files: what was written, with the stream it came from. They are shared by parent and child (sandbox.hpp:96). -/
abbrev Files := Nat → List (Stream × Nat)

/-- The memory of a process, copied by `fork` (sandbox.hpp:96): buffers of streams, open C streams, variables, and which
thread owns which mutex. -/
structure Proc where
  buf : Stream → List Nat
  cfiles : List Nat
  var : Nat → Int
  lock : Nat → Option Nat

/-- `f` with another value at `k` (helper for sandbox.hpp:62-116). -/
def set {κ β : Type} [DecidableEq κ] (f : κ → β) (k : κ) (b : β) : κ → β := fun j => if j = k then b else f j

/-- The buffer of a stream is written to its file (sandbox.hpp:66, 67, 69); `tgt` tells the file of a stream. -/
def flush1 (tgt : Stream → Nat) (w : Files × Proc) (s : Stream) : Files × Proc :=
  (set w.1 (tgt s) (w.1 (tgt s) ++ (w.2.buf s).map fun x => (s, x)), { w.2 with buf := set w.2.buf s [] })

/-- `flush_all_streams()` (sandbox.hpp:62-72). -/
def flushAll (tgt : Stream → Nat) (w : Files × Proc) : Files × Proc :=
  w.2.cfiles.foldl (fun v n => flush1 tgt v (.cfile n)) (flush1 tgt (flush1 tgt w .cout) .cerr)

/-- What the function does (sandbox.hpp:109): print to a stream, flush one (explicitly, or the implementation does it because
the buffer is full or a line has ended), change a variable, lock and unlock a mutex. -/
inductive Op
  | print (s : Stream) (x : Nat)
  | flush (s : Stream)
  | assign (v : Nat) (n : Int)
  | lock (m : Nat)
  | unlock (m : Nat)
deriving DecidableEq, Repr

/-- One of these in a process whose only running thread is number 0, the one that called `fork` (sandbox.hpp:96, 109); `none` if it
waits for ever, since nobody else will unlock the mutex. -/
def op1 (tgt : Stream → Nat) (w : Files × Proc) : Op → Option (Files × Proc)
  | .print s x => some (w.1, { w.2 with buf := set w.2.buf s (w.2.buf s ++ [x]) })
  | .flush s => some (flush1 tgt w s)
  | .assign v n => some (w.1, { w.2 with var := set w.2.var v n })
  | .lock m => match w.2.lock m with
    | none => some (w.1, { w.2 with lock := set w.2.lock m (some 0) })
    | some _ => none
  | .unlock m => some (w.1, { w.2 with lock := set w.2.lock m none })

/-- All of them (sandbox.hpp:109). -/
def ops (tgt : Stream → Nat) (w : Files × Proc) : List Op → Option (Files × Proc)
  | [] => some w
  | o :: os => (op1 tgt w o).bind fun v => ops tgt v os

/-- How the function ends: it returns, it throws or is killed by a signal (then the process just ends), it calls `_exit`, or
`std::exit` (sandbox.hpp:109-115, 156-157). -/
inductive End
  | returns
  | dies
  | underscoreExit
  | stdExit
deriving DecidableEq, Repr

/-- The child process (sandbox.hpp:101-116): what it leaves in the files, and whether destructors of global objects were run in
it; `globals` is what these do. -/
def childRun (tgt : Stream → Nat) (w : Files × Proc) (body : List Op) (e : End) (globals : List Op) : Option (Files × Bool) :=
  (ops tgt w body).bind fun v => match e with
    | .returns => some ((flushAll tgt v).1, false)
    | .dies => some (v.1, false)
    | .underscoreExit => some (v.1, false)
    | .stdExit => (ops tgt v globals).map fun u => ((flushAll tgt u).1, true)

/-- `SandBox{} + func` as far as files and memory are concerned (sandbox.hpp:88-142): files and memory of the parent afterwards,
and whether destructors of global objects were run in the child; `none` if it never returns. -/
def sandboxIO (tgt : Stream → Nat) (w : Files × Proc) (body : List Op) (e : End) (globals : List Op) :
    Option (Files × Proc × Bool) :=
  let v := flushAll tgt w
  (childRun tgt v body e globals).map fun r => (r.1, v.2, r.2)

end Verif.Sandbox
