/-!
Model of sandbox.hpp: the child process, the status the kernel reports about it, and what the parent makes of it.

The kernel is modelled as far as `fork`, `sigaction`, `sigprocmask`, `_exit` and `waitpid` are concerned, as POSIX and Linux describe them.
Flushing of streams (sandbox.hpp:62-72, 94, 112) is modelled in `Sandbox/Streams.lean`.
-/
namespace Verif.Sandbox

/-- Signal numbers as on Linux (used in sandbox.hpp:26-31). -/
def SIGINT : Nat := 2
/-- One value of the result (sandbox.hpp:27). -/
def SIGILL : Nat := 4
/-- One value of the result (sandbox.hpp:28). -/
def SIGABRT : Nat := 6
/-- One value of the result (sandbox.hpp:29). -/
def SIGFPE : Nat := 8
/-- One value of the result (sandbox.hpp:30). -/
def SIGSEGV : Nat := 11
/-- One value of the result (sandbox.hpp:31). -/
def SIGTERM : Nat := 15
/-- `_NSIG` on Linux (sandbox.hpp:36-44). -/
def NSIG : Nat := 65

/-- How a process ends (the child of sandbox.hpp:96). -/
inductive Fate
  /-- by `_exit(code)`; `code` is an `int` -/
  | exited (code : Int)
  /-- killed by a signal, possibly dumping core -/
  | killed (sig : Nat) (core : Bool)
deriving DecidableEq, Repr

/-- How a signal is handled (sandbox.hpp:52-58). -/
inductive Disposition
  | default | ignore | handler
deriving DecidableEq, Repr

/-- The part of a process' state that is inherited by `fork` (sandbox.hpp:96). -/
structure Process where
  dispositions : Nat → Disposition
  blocked : Nat → Bool
  /-- what a handler installed by `std::set_terminate` does; `none` is the default, `std::abort` -/
  terminateHandler : Option Fate

/-- `sigaction(i, &sa, nullptr)` with `SIG_DFL` (sandbox.hpp:52-58): fails for `SIGKILL` (9) and `SIGSTOP` (19), which always have the default
disposition. -/
def resetAction (p : Process) (i : Nat) : Process :=
  if i = 9 ∨ i = 19 then p else { p with dispositions := fun j => if j = i then .default else p.dispositions j }

/-- The loop `for (int i = 1; i < max_sig; ++i)` (sandbox.hpp:57-59); `n` is the number of remaining iterations. -/
def resetLoop (p : Process) (i : Nat) : Nat → Process
  | 0 => p
  | n + 1 => resetLoop (resetAction p i) (i + 1) n

/-- `clear_all_signal_handlers()` (sandbox.hpp:35-60). -/
def clearAllSignalHandlers (p : Process) : Process := resetLoop { p with blocked := fun _ => false } 1 (NSIG - 1)

/-- What calling the function does, in a process with the given state (`func` in sandbox.hpp:89). -/
inductive Result
  | returnedVoid
  | returnedInt (code : Int)
  | threw
  /-- the process is killed while the function runs, by a signal that is not blocked, ignored or handled -/
  | killed (sig : Nat) (core : Bool)
  /-- the process ends in another way, e.g. `_exit` -/
  | exited (code : Int)
deriving DecidableEq, Repr

/-- `std::terminate()` (caused by the `noexcept` in sandbox.hpp:77) -/
def terminate (p : Process) : Fate := match p.terminateHandler with
  | none => .killed SIGABRT true
  | some f => f

/-- `invoke_like_main(func)` (sandbox.hpp:74-84) and then `_exit` (115). -/
def invokeLikeMain (p : Process) (r : Result) : Fate := match r with
  | .returnedVoid => .exited 0
  | .returnedInt c => .exited c
  | .threw => terminate p
  | .killed s core => .killed s core
  | .exited c => .exited c

/-- The child's part of `operator+` (sandbox.hpp:101-116). -/
def child (parent : Process) (func : Process → Result) : Fate :=
  let p := clearAllSignalHandlers parent
  invokeLikeMain p (func p)

/-! ## The wait status -/

/-- The status word the kernel makes of it (`wstatus` in sandbox.hpp:123). -/
def status : Fate → Nat
  | .exited code => (code % 256).toNat * 256
  | .killed sig core => sig + (if core then 128 else 0)

/-- `WIFEXITED(w)`: `(w & 0x7f) == 0` (sandbox.hpp:130) -/
def wifexited (w : Nat) : Bool := w % 128 = 0

/-- `WEXITSTATUS(w)`: `(w & 0xff00) >> 8` (sandbox.hpp:131) -/
def wexitstatus (w : Nat) : Nat := w / 256 % 256

/-- `WIFSIGNALED(w)`: `((signed char) ((w & 0x7f) + 1) >> 1) > 0` (sandbox.hpp:136) -/
def wifsignaled (w : Nat) : Bool :=
  let c : Int := w % 128 + 1
  let c := if 128 ≤ c then c - 256 else c
  c / 2 > 0

/-- `WTERMSIG(w)`: `w & 0x7f` (sandbox.hpp:137) -/
def wtermsig (w : Nat) : Nat := w % 128

/-! ## The parent -/

/-- Something that happens while the parent is in `waitpid` or about to call it (sandbox.hpp:122-124). -/
inductive Event
  /-- a signal handler runs in the parent: `waitpid` is interrupted -/
  | interrupt
  /-- the child is stopped or continued; not reported, since neither `WUNTRACED` nor `WCONTINUED` is given -/
  | stopped | continued
  /-- the child terminates -/
  | terminated (f : Fate)
deriving DecidableEq, Repr

/-- `SubProcessResult` (sandbox.hpp:23-32): an enumeration with underlying type `int`, so all `int`s are values. -/
abbrev SubProcessResult := Int
/-- One value of the result (sandbox.hpp:24). -/
def ExitSuccess : SubProcessResult := -1
/-- One value of the result (sandbox.hpp:25). -/
def ExitFailure : SubProcessResult := -2
/-- One value of the result (sandbox.hpp:28). -/
def Aborted : SubProcessResult := SIGABRT

/-- What `operator+` does in the parent (sandbox.hpp:88-142). -/
inductive Outcome
  | result (r : SubProcessResult)
  | threwSystemError
  | threwRuntimeError
  /-- it is still waiting -/
  | waiting
deriving DecidableEq, Repr

/-- The result for a status (sandbox.hpp:130-141). -/
def report (w : Nat) : Outcome :=
  match wifexited w with
  | true => match decide (wexitstatus w = 0) with
    | true => .result ExitSuccess
    | false => .result ExitFailure
  | false => match wifsignaled w with
    | true => .result (wtermsig w)
    | false => .threwRuntimeError

/-- The loop around `waitpid` and what follows (sandbox.hpp:120-141). If the parent ignores `SIGCHLD`, terminated children leave no status
and `waitpid` fails with `ECHILD`. -/
def wait (sigchldIgnored : Bool) : List Event → Outcome
  | [] => .waiting
  | .interrupt :: es => wait sigchldIgnored es
  | .stopped :: es => wait sigchldIgnored es
  | .continued :: es => wait sigchldIgnored es
  | .terminated f :: _ => match sigchldIgnored with
    | true => .threwSystemError
    | false => report (status f)

/-- `SandBox{} + func` (sandbox.hpp:88-142). `forks` says whether `fork` succeeds; the events before the child terminates are given. -/
def sandbox (forks : Bool) (parent : Process) (func : Process → Result) (before : List Event) : Outcome :=
  match forks with
  | false => .threwSystemError
  | true => wait (decide (parent.dispositions 17 = .ignore)) (before ++ [.terminated (child parent func)])

end Verif.Sandbox
