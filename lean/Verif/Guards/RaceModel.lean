import Verif.Guards.Model

/-!
Happens-before for `mutex.hpp` and `shared_mutex.hpp`: the operations of `Guards/Model.lean` are performed by threads, and each gets the effect it has in
the C++ memory model. `unlock()` synchronizes with the later `lock()`, `try_lock()` that succeed and `lock_shared()`, `try_lock_shared()` that succeed;
`unlock_shared()` synchronizes with the later `lock()`, `try_lock()` that succeed ([thread.mutex.requirements.mutex],
[thread.sharedmutex.requirements]). A `try_lock()` that fails does not synchronize. Other synchronization of the threads is the action `sync`.

What a thread knows is the list of the log entries that happen before. The thread that acquired what a guard owns is kept, because `unlock()` requires that
the calling thread owns the mutex.
-/
namespace Verif.Guards

variable {α : Type}

/-- A log entry: the operation, its result, the thread, the guards that it uses or creates, the entries that happen before, and if it
is an access through a guard that owns the mutex of the value, that mutex and whether it is a write; if it releases a mutex, how that was
locked, the mutex, and the thread that acquired it (programs using mutex.hpp:41-130, shared_mutex.hpp:43-159). -/
structure Ent (α : Type) where
  thread : Nat
  op : Op α
  res : Res α
  touches : List Nat
  know : List Nat
  access : Option (Nat × Bool)
  releases : Option (Kind × Nat × Nat)
  deriving DecidableEq, Repr

/-- An execution so far: objects, log, what each thread knows, what `unlock()` and `unlock_shared()` of each mutex have published, and for each guard
the thread that acquired what it owns (mutex.hpp:26-130, shared_mutex.hpp:27-159 in the C++ memory model). -/
structure W (α : Type) where
  st : St α
  log : List (Ent α)
  view : Nat → List Nat
  rel : Nat → List Nat
  relS : Nat → List Nat
  acq : Nat → Nat

/-- What threads do: an operation (mutex.hpp:41-130, shared_mutex.hpp:43-159), or `src` lets `dst` know what it knows by other means. -/
inductive WAct (α : Type) where
  | op (t : Nat) (o : Op α)
  | sync (src dst : Nat)
  deriving DecidableEq, Repr

/-- Fresh mutex objects (mutex.hpp:83,91-102, shared_mutex.hpp:85,93-104). -/
def winit (vs : List α) : W α :=
  { st := init vs, log := [], view := fun _ => [], rel := fun _ => [], relS := fun _ => [], acq := fun _ => 0 }

/-- The function changed at one argument (no code of its own; used for the tables of `W`, programs using mutex.hpp:41-130, shared_mutex.hpp:43-159). -/
def upd {β : Type} (f : Nat → β) (i : Nat) (v : β) : Nat → β := fun j => if j = i then v else f j

/-- What the operation learns from the mutex (mutex.hpp:112,123, shared_mutex.hpp:114,125,141,152: constructors of `std::unique_lock` and
`std::shared_lock`). -/
def W.learns (w : W α) : Op α → Res α → List Nat
  | .lock m, _ => w.rel m ++ w.relS m
  | .tryLock m _, .bool true => w.rel m ++ w.relS m
  | .lockShared m, _ => w.rel m
  | .tryLockShared m _, .bool true => w.rel m
  | _, _ => []

/-- The guards that the operation uses or creates; a new guard has the next number (mutex.hpp:45-55,111-129, shared_mutex.hpp:47-57,113-158). -/
def touched (s : St α) : Op α → Res α → List Nat
  | .lock _, _ => [s.guards.length]
  | .tryLock _ _, .bool true => [s.guards.length]
  | .lockShared _, _ => [s.guards.length]
  | .tryLockShared _ _, .bool true => [s.guards.length]
  | .moveCtor i, _ => [i, s.guards.length]
  | .moveAssign d i, _ => [d, i]
  | .destroy i, _ => [i]
  | .read i, _ => [i]
  | .write i _, _ => [i]
  | _, _ => []

/-- The guard whose `lock_` releases what it owns in the operation (mutex.hpp:46-47, shared_mutex.hpp:48-49). -/
def releaser : Op α → Option Nat
  | .destroy i => some i
  | .moveAssign d _ => some d
  | _ => none

/-- What the operation releases: kind and mutex (mutex.hpp:46-47, shared_mutex.hpp:48-49). -/
def released (s : St α) (o : Op α) : Option (Kind × Nat) :=
  match releaser o with
  | none => none
  | some i => match s.guards[i]? with
    | some (some g) => g.owns.map (fun m => (g.kind, m))
    | _ => none

/-- If the operation accesses a value through a guard that owns its mutex: the mutex, and whether it is a write (mutex.hpp:49-55,
shared_mutex.hpp:51-57). -/
def accessOf (s : St α) : Op α → Option (Nat × Bool)
  | .read i => match s.guards[i]? with
    | some (some g) => if g.owns = some g.ptr then some (g.ptr, false) else none
    | _ => none
  | .write i _ => match s.guards[i]? with
    | some (some g) => if g.owns = some g.ptr then some (g.ptr, true) else none
    | _ => none
  | _ => none

/-- The thread that acquired what each guard owns, after the operation of thread `t` (mutex.hpp:45-46,111-129, shared_mutex.hpp:47-48,113-158). -/
def W.acq' (w : W α) (t : Nat) : Op α → Res α → Nat → Nat
  | .lock _, _ => upd w.acq w.st.guards.length t
  | .tryLock _ _, .bool true => upd w.acq w.st.guards.length t
  | .lockShared _, _ => upd w.acq w.st.guards.length t
  | .tryLockShared _ _, .bool true => upd w.acq w.st.guards.length t
  | .moveCtor i, _ => upd w.acq w.st.guards.length (w.acq i)
  | .moveAssign d i, _ => upd w.acq d (w.acq i)
  | _, _ => w.acq

/-- One action; `none` if the operation blocks or is not a well-formed program step (mutex.hpp:41-130, shared_mutex.hpp:43-159 in the C++ memory model). -/
def wstep (w : W α) : WAct α → Option (W α)
  | .sync src dst => some { w with view := upd w.view dst (w.view src ++ w.view dst) }
  | .op t o => (step w.st o).bind fun r =>
    let n := w.log.length
    let know := w.view t ++ w.learns o r.2
    let publ := n :: know
    some {
      st := r.1
      log := w.log ++ [⟨t, o, r.2, touched w.st o r.2, know, accessOf w.st o,
        (released w.st o).bind fun km => (releaser o).map fun i => (km.1, km.2, w.acq i)⟩]
      view := upd w.view t publ
      rel := fun m => if released w.st o = some (.excl, m) then publ ++ w.rel m else w.rel m
      relS := fun m => if released w.st o = some (.shrd, m) then publ ++ w.relS m else w.relS m
      acq := w.acq' t o r.2 }

/-- A sequence of actions of the threads (programs using mutex.hpp:41-130, shared_mutex.hpp:43-159). -/
def wrun : W α → List (WAct α) → Option (W α)
  | w, [] => some w
  | w, a :: as => (wstep w a).bind fun w' => wrun w' as

end Verif.Guards
