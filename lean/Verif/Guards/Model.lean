/-!
Model of `mutex.hpp` and `shared_mutex.hpp`: mutex objects holding a value and the guards that give access to it.

Any number of mutex objects and guards; an execution is a sequence of operations, each atomic (acquiring and releasing
a mutex are atomic; an access to a value is one read or one write). A blocking `lock` is enabled only when it can
succeed. Simplifications: which thread performs an operation is not recorded here (see
`RaceModel.lean`; locking twice from one thread is just blocked, and releasing from another thread than the locking one is allowed); `std::system_error` is not modelled; the
friend `swap` (mutex.hpp:57-61, shared_mutex.hpp:59-63) cannot be instantiated (it swaps members of const references)
and has no counterpart.
-/
namespace Verif.Guards

/-- A `mutex` or `shared_mutex` object: state of `mutex_` and `value_` (mutex.hpp:79-80, shared_mutex.hpp:81-82).
For `mutex`, `readers` is always 0. -/
structure Lk (α : Type) where
  writer : Bool
  readers : Nat
  value : α
  deriving DecidableEq, Repr

/-- `mutex_guard<T>` and `shared_mutex_guard<T>` hold a `std::unique_lock` (exclusive), `shared_mutex_guard<T const>`
holds a `std::shared_lock` (mutex.hpp:34, shared_mutex.hpp:30). -/
inductive Kind where
  | excl
  | shrd
  deriving DecidableEq, Repr

/-- A guard (mutex.hpp:33-34, shared_mutex.hpp:35-36): `ptr` identifies the mutex object whose value `value_ptr_` points
to; `owns` is the mutex owned by `lock_`, if any. -/
structure Guard where
  kind : Kind
  ptr : Nat
  owns : Option Nat
  deriving DecidableEq, Repr

/-- All mutex objects and all guards ever created; a destroyed guard is `none` (mutex.hpp:26-130, shared_mutex.hpp:27-159). -/
structure St (α : Type) where
  locks : List (Lk α)
  guards : List (Option Guard)
  deriving DecidableEq, Repr

/-- The operations of a program (mutex.hpp:41-130, shared_mutex.hpp:43-159). -/
inductive Op (α : Type) where
  | lock (m : Nat)
  /-- `spurious`: the attempt fails although the mutex is free, [thread.mutex.requirements.mutex] -/
  | tryLock (m : Nat) (spurious : Bool)
  | lockShared (m : Nat)
  | tryLockShared (m : Nat) (spurious : Bool)
  | moveCtor (g : Nat)
  | moveAssign (dst src : Nat)
  | destroy (g : Nat)
  | read (g : Nat)
  | write (g : Nat) (v : α)
  deriving DecidableEq, Repr

/-- What an operation returns (mutex.hpp:41-130, shared_mutex.hpp:43-159). -/
inductive Res (α : Type) where
  | unit
  | bool (b : Bool)
  | val (v : α)
  deriving DecidableEq, Repr

variable {α : Type}

/-- Freshly constructed mutex objects with the given values (mutex.hpp:83,91-102, shared_mutex.hpp:85,93-104). -/
def init (vs : List α) : St α := { locks := vs.map (fun v => ⟨false, 0, v⟩), guards := [] }

/-- Acquire mutex `m` exclusively and return a guard (mutex.hpp:111-113, shared_mutex.hpp:113-115). -/
def St.acquire (s : St α) (m : Nat) (l : Lk α) : St α :=
  { locks := s.locks.set m { l with writer := true }, guards := s.guards ++ [some ⟨.excl, m, some m⟩] }

/-- Acquire mutex `m` shared and return a guard (shared_mutex.hpp:140-142). -/
def St.acquireShared (s : St α) (m : Nat) (l : Lk α) : St α :=
  { locks := s.locks.set m { l with readers := l.readers + 1 }, guards := s.guards ++ [some ⟨.shrd, m, some m⟩] }

/-- `unlock()` / `unlock_shared()` by the lock object of guard `g`, if it owns a mutex; it owns nothing afterwards (by the members of mutex.hpp:34,
shared_mutex.hpp:36). -/
def St.unlock (s : St α) (i : Nat) (g : Guard) : St α :=
  match g.owns with
  | none => s
  | some m => match s.locks[m]? with
    | none => s
    | some l => match g.kind with
      | .excl => { locks := s.locks.set m { l with writer := false }, guards := s.guards.set i (some { g with owns := none }) }
      | .shrd => { locks := s.locks.set m { l with readers := l.readers - 1 },
                   guards := s.guards.set i (some { g with owns := none }) }

/-- One operation; `none` if it blocks or is not a well-formed program step (unknown object, destroyed guard, guards of
different types) (mutex.hpp:45-129, shared_mutex.hpp:47-158, lines given at each case). -/
def step (s : St α) : Op α → Option (St α × Res α)
  -- mutex.hpp:111-113, shared_mutex.hpp:113-115
  | .lock m => match s.locks[m]? with
    | none => none
    | some l => if l.writer = false ∧ l.readers = 0 then some (s.acquire m l, .unit) else none
  -- mutex.hpp:122-129, shared_mutex.hpp:124-131
  | .tryLock m spurious => match s.locks[m]? with
    | none => none
    | some l =>
      if l.writer = false ∧ l.readers = 0 ∧ spurious = false then some (s.acquire m l, .bool true)
      else some (s, .bool false)
  -- shared_mutex.hpp:140-142
  | .lockShared m => match s.locks[m]? with
    | none => none
    | some l => if l.writer = false then some (s.acquireShared m l, .unit) else none
  -- shared_mutex.hpp:151-158
  | .tryLockShared m spurious => match s.locks[m]? with
    | none => none
    | some l =>
      if l.writer = false ∧ spurious = false then some (s.acquireShared m l, .bool true) else some (s, .bool false)
  -- defaulted move constructor, mutex.hpp:45, shared_mutex.hpp:47: `value_ptr_` is copied, `lock_` is moved
  | .moveCtor i => match s.guards[i]? with
    | some (some g) =>
      some ({ s with guards := s.guards.set i (some { g with owns := none }) ++ [some g] }, .unit)
    | _ => none
  -- defaulted move assignment, mutex.hpp:46, shared_mutex.hpp:48: copies `value_ptr_`, then move-assigns `lock_`, which
  -- releases what it owns and takes over what the source owns ([thread.lock.unique.cons])
  | .moveAssign d i => match s.guards[d]?, s.guards[i]? with
    | some (some gd), some (some gs) =>
      if gd.kind = gs.kind then
        let s1 := s.unlock d gd
        match s1.guards[i]? with
        | some (some gs') =>
          some ({ s1 with guards := (s1.guards.set i (some { gs' with owns := none })).set d
                                      (some ⟨gd.kind, gs.ptr, gs'.owns⟩) }, .unit)
        | _ => none
      else none
    | _, _ => none
  -- defaulted destructor, mutex.hpp:47, shared_mutex.hpp:49
  | .destroy i => match s.guards[i]? with
    | some (some g) =>
      let s1 := s.unlock i g
      some ({ s1 with guards := s1.guards.set i none }, .unit)
    | _ => none
  -- operator* / operator->, mutex.hpp:49-55, shared_mutex.hpp:51-57
  | .read i => match s.guards[i]? with
    | some (some g) => match s.locks[g.ptr]? with
      | some l => some (s, .val l.value)
      | none => none
    | _ => none
  -- the same through a guard of non-const type
  | .write i v => match s.guards[i]? with
    | some (some g) => match g.kind, s.locks[g.ptr]? with
      | .excl, some l => some ({ s with locks := s.locks.set g.ptr { l with value := v } }, .unit)
      | _, _ => none
    | _ => none

/-- Run a sequence of operations (programs using mutex.hpp:41-130, shared_mutex.hpp:43-159). -/
def run : St α → List (Op α) → Option (St α)
  | s, [] => some s
  | s, o :: os => (step s o).bind (fun r => run r.1 os)

/-- States reachable from fresh mutex objects with values `vs` (programs using mutex.hpp:41-130, shared_mutex.hpp:43-159). -/
def Reachable (vs : List α) (s : St α) : Prop := ∃ ops, run (init vs) ops = some s

end Verif.Guards
