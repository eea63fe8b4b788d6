/-! Model of `inplace_polymorphic<Base, Ts...>` (include/dice/template-library/inplace_polymorphic.hpp).

A derived class is named by its position in `Ts...`. The user-provided virtual functions `copy_to(dst)`/`move_to(dst)` are
modelled by their contract: placement-new at `dst` of an object of the dynamic type of the source with the value of the source
(`move_to` leaves a moved-from value behind), or throw without having created an object. That `Base` is the first subobject
of every derived class, so that the storage address is the address of the `Base` (inplace_polymorphic.hpp:89-95 relies on it),
is assumed. -/
namespace Verif.Inplace

/-- What must not happen (in inplace_polymorphic.hpp:78-262). -/
inductive Err where
  /-- a failed `assert` (only without NDEBUG) -/
  | assertion
  /-- a member function is called on storage without a live object -/
  | deadAccess
  /-- an object is created over a live one whose destructor is not trivial -/
  | overwriteLive
  /-- a live object with non-trivial destructor is in the storage when the storage goes away -/
  | leak
  /-- an exception leaves a `noexcept` function -/
  | terminate
  deriving DecidableEq, Repr

/-- Build and type configuration (`NDEBUG`, and the traits in inplace_polymorphic.hpp:72-73, 79). -/
structure Cfg where
  /-- all `Ts` are trivially destructible (inplace_polymorphic.hpp:79) -/
  trivDtor : Bool
  /-- assertions are compiled out -/
  ndebug : Bool
  /-- `noexcept_copy` (inplace_polymorphic.hpp:72) -/
  noexceptCopy : Bool
  /-- `noexcept_move` (inplace_polymorphic.hpp:73) -/
  noexceptMove : Bool
  /-- `std::is_nothrow_constructible_v<T, Args...>` of the `T` with the given position (inplace_polymorphic.hpp:127,142,228) -/
  noexceptCtor : Nat → Bool

/-- inplace_polymorphic.hpp:75-76: the storage with the object alive in it (dynamic type and value), if any, and the flag. -/
structure Obj (V : Type) where
  store : Option (Nat × V)
  valueless : Bool
  deriving DecidableEq, Repr

/-- inplace_polymorphic.hpp:75-76: members before the constructor body runs. -/
def fresh {V : Type} : Obj V := ⟨none, true⟩

variable {V : Type}

/-- Placement-new of a `T` into the storage; when the constructor throws no object is alive there afterwards (the storage of
the former object has been reused) (inplace_polymorphic.hpp:127, 142, 228). -/
def placeNew (cfg : Cfg) (o : Obj V) (k : Nat) (v : V) (thr : Bool) : Except Err (Obj V × Bool) :=
  match o.store, cfg.trivDtor with
  | some _, false => .error .overwriteLive
  | _, _ => .ok (if thr then ({ o with store := none }, true) else ({ o with store := some (k, v) }, false))

/-- inplace_polymorphic.hpp:13-25: the macro `DICE_TEMPLATELIBRARY_DETAIL_INPLACEPOLY_TRY` around a placement-new. The boolean
of the result tells whether the exception is rethrown. -/
def tryNew (cfg : Cfg) (noexceptSpec : Bool) (o : Obj V) (k : Nat) (v : V) (thr : Bool) : Except Err (Obj V × Bool) :=
  (placeNew cfg o k v thr).bind fun p => match p with
    | (o, false) => .ok ({ o with valueless := false }, false)
    | (o, true) => match noexceptSpec with
      | true => .error .terminate
      | false => .ok ({ o with valueless := true }, true)

/-- inplace_polymorphic.hpp:78-87: `drop`. -/
def drop (cfg : Cfg) (o : Obj V) : Except Err (Obj V) :=
  match cfg.trivDtor with
  | true => .ok o
  | false => match o.valueless with
    | true => .ok o
    | false => match o.store with
      | none => .error .deadAccess
      | some _ => .ok ⟨none, true⟩

/-- inplace_polymorphic.hpp:98,110,202: `assert`. -/
def assert (cfg : Cfg) (b : Bool) : Except Err Unit :=
  match b, cfg.ndebug with
  | false, false => .error .assertion
  | _, _ => .ok ()

/-- inplace_polymorphic.hpp:97-107: `copy_from` for `this != &other`. -/
def copyFrom (cfg : Cfg) (o other : Obj V) (thr : Bool) : Except Err (Obj V × Bool) :=
  (assert cfg o.valueless).bind fun _ =>
  match other.valueless with
  | true => .ok (o, false)
  | false => match other.store with
    | none => .error .deadAccess
    | some (k, v) => tryNew cfg cfg.noexceptCopy o k v thr

/-- inplace_polymorphic.hpp:109-119: `move_from` for `this != &other`; the source keeps an object with a moved-from value. -/
def moveFrom (cfg : Cfg) (movedFrom : Nat → V → V) (o other : Obj V) (thr : Bool) : Except Err (Obj V × Obj V × Bool) :=
  (assert cfg o.valueless).bind fun _ =>
  match other.valueless with
  | true => .ok (o, other, false)
  | false => match other.store with
    | none => .error .deadAccess
    | some (k, v) => (tryNew cfg cfg.noexceptMove o k v thr).bind fun p =>
      .ok (p.1, { other with store := some (k, movedFrom k v) }, p.2)

/-- inplace_polymorphic.hpp:126-130 (the default constructor, position 0) and 138-145 (`in_place_type`). -/
def create (cfg : Cfg) (k : Nat) (v : V) (thr : Bool) : Except Err (Obj V × Bool) :=
  tryNew cfg (cfg.noexceptCtor k) fresh k v thr

/-- inplace_polymorphic.hpp:154-156: copy constructor. -/
def copyCtor (cfg : Cfg) (other : Obj V) (thr : Bool) : Except Err (Obj V × Bool) := copyFrom cfg fresh other thr

/-- inplace_polymorphic.hpp:165-167: move constructor. -/
def moveCtor (cfg : Cfg) (movedFrom : Nat → V → V) (other : Obj V) (thr : Bool) : Except Err (Obj V × Obj V × Bool) :=
  moveFrom cfg movedFrom fresh other thr

/-- inplace_polymorphic.hpp:185-187: copy assignment after the self check. -/
def copyAssign (cfg : Cfg) (o other : Obj V) (thr : Bool) : Except Err (Obj V × Bool) :=
  (drop cfg o).bind fun o => copyFrom cfg o other thr

/-- inplace_polymorphic.hpp:204-206: move assignment from a different object. -/
def moveAssign (cfg : Cfg) (movedFrom : Nat → V → V) (o other : Obj V) (thr : Bool) : Except Err (Obj V × Obj V × Bool) :=
  (drop cfg o).bind fun o => moveFrom cfg movedFrom o other thr

/-- inplace_polymorphic.hpp:201-207 with `this == &other`: without assertions `drop` destroys the value; trivially destructible
values are moved onto themselves, which uses an object after its storage was reused. -/
def selfMove (cfg : Cfg) (o : Obj V) : Except Err (Obj V) :=
  (assert cfg false).bind fun _ => (drop cfg o).bind fun o =>
  match o.valueless with
  | true => .ok o
  | false => .error .deadAccess

/-- inplace_polymorphic.hpp:222-231: `emplace`. -/
def emplace (cfg : Cfg) (o : Obj V) (k : Nat) (v : V) (thr : Bool) : Except Err (Obj V × Bool) :=
  (drop cfg o).bind fun o => tryNew cfg (cfg.noexceptCtor k) o k v thr

/-- inplace_polymorphic.hpp:209-211: destructor; afterwards the storage is gone. -/
def dtor (cfg : Cfg) (o : Obj V) : Except Err Unit :=
  (drop cfg o).bind fun o => match o.store, cfg.trivDtor with
    | some _, false => .error .leak
    | _, _ => .ok ()

/-- inplace_polymorphic.hpp:236-238: `valueless_by_exception`. -/
def valuelessByException (o : Obj V) : Bool := o.valueless

/-- What an access returns: a live object, the exception, or undefined behaviour (inplace_polymorphic.hpp:244-262). -/
inductive Res (V : Type) where
  | obj (k : Nat) (v : V)
  | badVariantAccess
  | ub
  deriving DecidableEq, Repr

/-- inplace_polymorphic.hpp:244-262 (`get`), 268-294 (`operator*`, `operator->`). -/
def get (o : Obj V) : Res V :=
  match o.valueless with
  | true => .badVariantAccess
  | false => match o.store with
    | none => .ub
    | some (k, v) => .obj k v

/-- Operations of a program on numbered objects; `thr` tells whether the element operation throws, if one is executed
(inplace_polymorphic.hpp:121-262). -/
inductive Op (V : Type) where
  | create (d k : Nat) (v : V) (thr : Bool)
  | copyCtor (d i : Nat) (thr : Bool)
  | moveCtor (d i : Nat) (thr : Bool)
  | copyAssign (i j : Nat) (thr : Bool)
  | moveAssign (i j : Nat) (thr : Bool)
  | emplace (i k : Nat) (v : V) (thr : Bool)
  /-- change the value through the reference returned by `get` -/
  | modify (i : Nat) (v : V)
  | destroy (i : Nat)

/-- The objects of the program (of inplace_polymorphic.hpp:75-76). -/
abbrev State (V : Type) := Nat → Option (Obj V)

/-- Overwrite one entry (used for inplace_polymorphic.hpp:121-262). -/
def upd {β : Type} (f : Nat → β) (i : Nat) (x : β) : Nat → β := fun j => if j = i then x else f j

/-- One operation; operations on objects that do not exist and constructions of objects that do are skipped. The boolean of the
result tells whether an exception was thrown. A constructor that throws leaves no object (inplace_polymorphic.hpp:121-262). -/
def step (cfg : Cfg) (movedFrom : Nat → V → V) (σ : State V) : Op V → Except Err (State V × Bool)
  | .create d k v thr => match σ d with
    | some _ => .ok (σ, false)
    | none => (create cfg k v thr).bind fun p => .ok (if p.2 then (σ, true) else (upd σ d (some p.1), false))
  | .copyCtor d i thr => match σ d, σ i with
    | none, some s => (copyCtor cfg s thr).bind fun p => .ok (if p.2 then (σ, true) else (upd σ d (some p.1), false))
    | _, _ => .ok (σ, false)
  | .moveCtor d i thr => match σ d, σ i with
    | none, some s => (moveCtor cfg movedFrom s thr).bind fun p =>
      .ok (if p.2.2 then (upd σ i (some p.2.1), true) else (upd (upd σ i (some p.2.1)) d (some p.1), false))
    | _, _ => .ok (σ, false)
  | .copyAssign i j thr => match σ i, σ j with
    | some o, some s =>
      if i = j then .ok (σ, false)
      else (copyAssign cfg o s thr).bind fun p => .ok (upd σ i (some p.1), p.2)
    | _, _ => .ok (σ, false)
  | .moveAssign i j thr => match σ i, σ j with
    | some o, some s =>
      if i = j then (selfMove cfg o).bind fun o => .ok (upd σ i (some o), false)
      else (moveAssign cfg movedFrom o s thr).bind fun p => .ok (upd (upd σ i (some p.1)) j (some p.2.1), p.2.2)
    | _, _ => .ok (σ, false)
  | .emplace i k v thr => match σ i with
    | none => .ok (σ, false)
    | some o => (emplace cfg o k v thr).bind fun p => .ok (upd σ i (some p.1), p.2)
  | .modify i v => match σ i with
    | none => .ok (σ, false)
    | some o => match get o with
      | .obj k _ => .ok (upd σ i (some { o with store := some (k, v) }), false)
      | .badVariantAccess => .ok (σ, true)
      | .ub => .error .deadAccess
  | .destroy i => match σ i with
    | none => .ok (σ, false)
    | some o => (dtor cfg o).bind fun _ => .ok (upd σ i none, false)

/-- A history (programs using inplace_polymorphic.hpp:121-262). -/
def run (cfg : Cfg) (movedFrom : Nat → V → V) (σ : State V) : List (Op V) → Except Err (State V)
  | [] => .ok σ
  | op :: ops => (step cfg movedFrom σ op).bind fun p => run cfg movedFrom p.1 ops

end Verif.Inplace
