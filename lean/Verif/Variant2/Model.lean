/-!
Model of `variant2.hpp`. The union is modelled with the object that is really alive in it (`store`), independent of what the
discriminant says; touching anything else is an error outcome.

Simplified: destructors of the elements do not throw; arguments do not alias the variant; comparison operators and hashes of
the elements are pure functions; a value of either alternative is a `V`, which alternative it belongs to is kept separately.
-/
namespace Verif.Variant2

/-- The two alternatives: `a` is `T` / `a_`, `b` is `U` / `b_` (variant2.hpp:192-195). -/
inductive Alt where
  | a
  | b
  deriving DecidableEq, Repr

/-- `discriminant_type` (variant2.hpp:186-190). -/
inductive Disc where
  | first
  | second
  | valueless
  deriving DecidableEq, Repr

/-- variant2.hpp:192-196 -/
structure Var (V : Type) where
  disc : Disc
  store : Option (Alt × V)
  deriving DecidableEq, Repr

/-- Undefined behaviour (lifetime errors), failed assertions and calls of `std::terminate` (in variant2.hpp:199-776). -/
inductive Err where
  /-- a member that is not alive is read or assigned -/
  | readDead
  /-- a member that is not alive is destroyed -/
  | destroyDead
  /-- an object is created in, or bits are copied over, storage in which an object lives -/
  | overwriteLive
  /-- the storage goes away although an object with a non-trivial destructor lives in it -/
  | leak
  | assertion
  | terminate
  deriving DecidableEq, Repr

/-- What the element types decide. The constructors are called with braces, `T{x}`, which for some types (those with an
`initializer_list` constructor) is not a copy of `x` (of the types in variant2.hpp:192-195). -/
structure Env (V : Type) where
  /-- the value of `T{x}` / `U{x}` for `x` an lvalue of the same type -/
  copyNew : Alt → V → V
  /-- the value of `T{std::move(x)}` -/
  moveNew : Alt → V → V
  /-- what is left in the source of a move (also if it throws) -/
  movedFrom : Alt → V → V
  /-- what is left in the target of an assignment that throws -/
  broken : Alt → V → V

/-- The properties of the element types the code dispatches on (the traits in variant2.hpp:204-327, 329-332, 420-423). -/
structure Cfg where
  /-- `std::is_trivially_copy_constructible_v<T> && ...<U>`, and so on -/
  trivCopyCtor : Bool
  trivMoveCtor : Bool
  trivCopyAssign : Bool
  trivMoveAssign : Bool
  trivDtor : Bool
  /-- `std::is_nothrow_copy_constructible_v` -/
  nothrowCopy : Alt → Bool

variable {V : Type}

/-- Read member `x` (variant2.hpp:192-195). -/
def readAs (x : Alt) (s : Option (Alt × V)) : Except Err V :=
  match s with
  | none => .error .readDead
  | some (y, v) => if x = y then .ok v else .error .readDead

/-- `a_.~T()` / `b_.~U()` (e.g. variant2.hpp:303-327). -/
def destroyAs (x : Alt) (s : Option (Alt × V)) : Except Err (Option (Alt × V)) :=
  match s with
  | none => .error .destroyDead
  | some (y, _) => if x = y then .ok none else .error .destroyDead

/-- `new (&a_) T{...}` / `new (&b_) U{...}`; `none` in the result: the constructor threw (e.g. variant2.hpp:204-301). -/
def constructAs (x : Alt) (v : V) (thr : Bool) (s : Option (Alt × V)) : Except Err (Option (Option (Alt × V))) :=
  match s with
  | some _ => .error .overwriteLive
  | none => if thr then .ok none else .ok (some (some (x, v)))

/-- `a_ = ...` / `b_ = ...`; the `Bool` tells whether the assignment threw (variant2.hpp:329-631). -/
def assignAs (env : Env V) (x : Alt) (v : V) (thr : Bool) (s : Option (Alt × V)) : Except Err (Option (Alt × V) × Bool) :=
  match s with
  | none => .error .readDead
  | some (y, old) =>
    if x ≠ y then .error .readDead
    else if thr then .ok (some (x, env.broken x old), true) else .ok (some (x, v), false)

/-- The discriminant of an alternative (variant2.hpp:186-190). -/
def Alt.disc : Alt → Disc
  | .a => .first
  | .b => .second

/-- A constructor whose body is `new (&a_) T{...}` (variant2.hpp:199-202,259-301); `none`: it threw. -/
def newVar (x : Alt) (v : V) (thr : Bool) : Except Err (Option (Var V)) :=
  (constructAs x v thr none).bind fun r => .ok (r.map fun s => ⟨x.disc, s⟩)

/-- Construct with `DICE_TEMPLATELIBRARY_DETAIL_VARIANT2_TRY`: on an exception become valueless (variant2.hpp:14-24); then set
the discriminant. -/
def tryConstruct (x : Alt) (v : V) (thr : Bool) (s : Option (Alt × V)) : Except Err (Var V × Bool) :=
  (constructAs x v thr s).bind fun r => match r with
    | none => .ok (⟨.valueless, s⟩, true)
    | some s' => .ok (⟨x.disc, s'⟩, false)

/-- Construct without the `try`, when the discriminant is already `ValuelessByException` (variant2.hpp:204-257). -/
def rawConstruct (d : Disc) (x : Alt) (v : V) (thr : Bool) (s : Option (Alt × V)) : Except Err (Var V × Bool) :=
  (constructAs x v thr s).bind fun r => match r with
    | none => .ok (⟨d, s⟩, true)
    | some s' => .ok (⟨x.disc, s'⟩, false)

/-- Copy constructor (variant2.hpp:204-230). `none`: it threw. -/
def copyCtor (cfg : Cfg) (env : Env V) (o : Var V) (thr : Bool) : Except Err (Option (Var V)) :=
  if cfg.trivCopyCtor then .ok (some o)
  else match o.disc with
    | .first => (readAs .a o.store).bind fun v => newVar .a (env.copyNew .a v) thr
    | .second => (readAs .b o.store).bind fun v => newVar .b (env.copyNew .b v) thr
    | .valueless => .ok (some ⟨.valueless, none⟩)

/-- Replace the value of the source of a move (variant2.hpp:232-257, 420-511). -/
def moveOut (env : Env V) (x : Alt) (o : Var V) : Var V :=
  match o.store with
  | none => o
  | some (y, v) => if x = y then { o with store := some (y, env.movedFrom y v) } else o

/-- Move constructor (variant2.hpp:232-257); also returns the source. -/
def moveCtor (cfg : Cfg) (env : Env V) (o : Var V) (thr : Bool) : Except Err (Option (Var V) × Var V) :=
  if cfg.trivMoveCtor then .ok (some o, o)
  else match o.disc with
    | .first => (readAs .a o.store).bind fun v => (newVar .a (env.moveNew .a v) thr).bind fun r => .ok (r, moveOut env .a o)
    | .second => (readAs .b o.store).bind fun v => (newVar .b (env.moveNew .b v) thr).bind fun r => .ok (r, moveOut env .b o)
    | .valueless => .ok (some ⟨.valueless, none⟩, o)

/-- Destructor (variant2.hpp:303-327). -/
def dtor (cfg : Cfg) (s : Var V) : Except Err Unit :=
  if cfg.trivDtor then .ok ()
  else
    (match s.disc with
      | .first => destroyAs .a s.store
      | .second => destroyAs .b s.store
      | .valueless => .ok s.store).bind fun st =>
    match st with
    | none => .ok ()
    | some _ => .error .leak

/-- Defaulted assignment (variant2.hpp:329-331,420-422): copies the bits and the discriminant. Between different alternatives
that ends one lifetime and starts another one, which is fine only if neither the destructor nor the constructor does
anything. -/
def bitwiseAssign (trivLife : Bool) (s o : Var V) : Except Err (Var V × Bool) :=
  if s.disc = o.disc ∨ trivLife then .ok (o, false) else .error .overwriteLive

/-- Copy assignment from a different object (variant2.hpp:329-418). The `Bool` tells whether it threw. -/
def copyAssign (cfg : Cfg) (env : Env V) (s o : Var V) (thr : Bool) : Except Err (Var V × Bool) :=
  if cfg.trivCopyAssign then bitwiseAssign (cfg.trivDtor && cfg.trivCopyCtor) s o
  else match s.disc, o.disc with
    | .first, .first => (readAs .a o.store).bind fun v =>
        (assignAs env .a v thr s.store).bind fun r => .ok (⟨.first, r.1⟩, r.2)
    | .first, .second => (destroyAs .a s.store).bind fun st => (readAs .b o.store).bind fun v =>
        tryConstruct .b (env.copyNew .b v) thr st
    | .first, .valueless => (destroyAs .a s.store).bind fun st => .ok (⟨.valueless, st⟩, false)
    | .second, .first => (destroyAs .b s.store).bind fun st => (readAs .a o.store).bind fun v =>
        tryConstruct .a (env.copyNew .a v) thr st
    | .second, .second => (readAs .b o.store).bind fun v =>
        (assignAs env .b v thr s.store).bind fun r => .ok (⟨.second, r.1⟩, r.2)
    | .second, .valueless => (destroyAs .b s.store).bind fun st => .ok (⟨.valueless, st⟩, false)
    | .valueless, .first => (readAs .a o.store).bind fun v => rawConstruct .valueless .a (env.copyNew .a v) thr s.store
    | .valueless, .second => (readAs .b o.store).bind fun v => rawConstruct .valueless .b (env.copyNew .b v) thr s.store
    | .valueless, .valueless => .ok (⟨.valueless, s.store⟩, false)

/-- Move assignment from a different object (variant2.hpp:420-511). -/
def moveAssign (cfg : Cfg) (env : Env V) (s o : Var V) (thr : Bool) : Except Err (Var V × Var V × Bool) :=
  if cfg.trivMoveAssign then (bitwiseAssign (cfg.trivDtor && cfg.trivMoveCtor) s o).bind fun r => .ok (r.1, o, r.2)
  else match s.disc, o.disc with
    | .first, .first => (readAs .a o.store).bind fun v =>
        (assignAs env .a v thr s.store).bind fun r => .ok (⟨.first, r.1⟩, moveOut env .a o, r.2)
    | .first, .second => (destroyAs .a s.store).bind fun st => (readAs .b o.store).bind fun v =>
        (tryConstruct .b (env.moveNew .b v) thr st).bind fun r => .ok (r.1, moveOut env .b o, r.2)
    | .first, .valueless => (destroyAs .a s.store).bind fun st => .ok (⟨.valueless, st⟩, o, false)
    | .second, .first => (destroyAs .b s.store).bind fun st => (readAs .a o.store).bind fun v =>
        (tryConstruct .a (env.moveNew .a v) thr st).bind fun r => .ok (r.1, moveOut env .a o, r.2)
    | .second, .second => (readAs .b o.store).bind fun v =>
        (assignAs env .b v thr s.store).bind fun r => .ok (⟨.second, r.1⟩, moveOut env .b o, r.2)
    | .second, .valueless => (destroyAs .b s.store).bind fun st => .ok (⟨.valueless, st⟩, o, false)
    | .valueless, .first => (readAs .a o.store).bind fun v =>
        (rawConstruct .valueless .a (env.moveNew .a v) thr s.store).bind fun r => .ok (r.1, moveOut env .a o, r.2)
    | .valueless, .second => (readAs .b o.store).bind fun v =>
        (rawConstruct .valueless .b (env.moveNew .b v) thr s.store).bind fun r => .ok (r.1, moveOut env .b o, r.2)
    | .valueless, .valueless => .ok (⟨.valueless, s.store⟩, o, false)

/-- `v = value` for a value of alternative `x` (variant2.hpp:513-631). `w` is the value `T{value}` (or `T{std::move(value)}`)
makes, `v` the value assignment transfers. -/
def assignValue (env : Env V) (s : Var V) (x : Alt) (v w : V) (thr : Bool) : Except Err (Var V × Bool) :=
  match x, s.disc with
  | .a, .first => (assignAs env .a v thr s.store).bind fun r => .ok (⟨.first, r.1⟩, r.2)
  | .a, .second => (destroyAs .b s.store).bind fun st => tryConstruct .a w thr st
  | .a, .valueless => rawConstruct .valueless .a w thr s.store
  | .b, .first => (destroyAs .a s.store).bind fun st => tryConstruct .b w thr st
  | .b, .second => (assignAs env .b v thr s.store).bind fun r => .ok (⟨.second, r.1⟩, r.2)
  | .b, .valueless => rawConstruct .valueless .b w thr s.store

/-- `emplace` (variant2.hpp:649-716): the whole body is in a `try` block. -/
def emplace (s : Var V) (x : Alt) (v : V) (thr : Bool) : Except Err (Var V × Bool) :=
  match x, s.disc with
  | .a, .first => (destroyAs .a s.store).bind fun st => tryConstruct .a v thr st
  | .a, .second => (destroyAs .b s.store).bind fun st => tryConstruct .a v thr st
  | .a, .valueless => tryConstruct .a v thr s.store
  | .b, .first => (destroyAs .a s.store).bind fun st => tryConstruct .b v thr st
  | .b, .second => (destroyAs .b s.store).bind fun st => tryConstruct .b v thr st
  | .b, .valueless => tryConstruct .b v thr s.store

/-- `swap` of two different objects (variant2.hpp:718-722); `t1`, `t2`, `t3` tell whether the three moves throw. The temporary
is destroyed on every path. `swap` is `noexcept` if move assignment is; the defaulted one is although the move constructor
may throw. -/
def swap (cfg : Cfg) (env : Env V) (l r : Var V) (t1 t2 t3 : Bool) : Except Err (Var V × Var V × Bool) :=
  (moveCtor cfg env l t1).bind fun p => match p with
    | (none, l) => if cfg.trivMoveAssign then .error .terminate else .ok (l, r, true)
    | (some tmp, l) => (moveAssign cfg env l r t2).bind fun p => match p with
      | (l, r, true) => (dtor cfg tmp).bind fun _ => .ok (l, r, true)
      | (l, r, false) => (moveAssign cfg env r tmp t3).bind fun p => match p with
        | (r, tmp, t) => (dtor cfg tmp).bind fun _ => .ok (l, r, t)

/-! ### Histories over several variants -/

/-- How a variant is constructed from a value (variant2.hpp:199-202, 259-301). -/
inductive Kind where
  | copy
  | move
  | inplace
  deriving DecidableEq, Repr

/-- The operations of a program (variant2.hpp:199-722). -/
inductive Op (V : Type) where
  /-- variant2.hpp:199-202 (`inplace`, alternative `a`), 259-262,269-272 (`copy`), 264-267,274-277 (`move`), 279-301 -/
  | new (d : Nat) (k : Kind) (x : Alt) (v : V) (thr : Bool)
  | copyCtor (d i : Nat) (thr : Bool)
  | moveCtor (d i : Nat) (thr : Bool)
  | copyAssign (i j : Nat) (thr : Bool)
  | moveAssign (i j : Nat) (thr : Bool)
  | set (i : Nat) (k : Kind) (x : Alt) (v : V) (thr : Bool)
  | emplace (i : Nat) (x : Alt) (v : V) (thr : Bool)
  | swap (i j : Nat) (t1 t2 t3 : Bool)
  | destroy (i : Nat)

/-- The variants of the program, by number (variant2.hpp:192-196). -/
abbrev State (V : Type) := Nat → Option (Var V)

/-- Overwrite one entry; used for variant2.hpp:199-722. -/
def upd {β : Type} (f : Nat → β) (i : Nat) (x : β) : Nat → β := fun j => if j = i then x else f j

/-- The value `T{...}` makes, per kind of source (variant2.hpp:199-202, 259-301). -/
def Kind.made (env : Env V) : Kind → Alt → V → V
  | .copy, x, v => env.copyNew x v
  | .move, x, v => env.moveNew x v
  | .inplace, _, v => v

/-- One operation; the `Bool` tells whether it threw. Operations on variants that do not exist do nothing (variant2.hpp:199-722). -/
def step (cfg : Cfg) (env : Env V) (σ : State V) : Op V → Except Err (State V × Bool)
  | .new d k x v thr => match σ d with
    | some _ => .ok (σ, false)
    | none =>
      -- the constructor from `T &&` is `noexcept` if *copying* is (variant2.hpp:264,274)
      if k = .move ∧ thr ∧ cfg.nothrowCopy x then .error .terminate
      else (newVar x (k.made env x v) thr).bind fun r => match r with
        | none => .ok (σ, true)
        | some s => .ok (upd σ d (some s), false)
  | .copyCtor d i thr => match σ d, σ i with
    | none, some o => (copyCtor cfg env o thr).bind fun r => match r with
      | none => .ok (σ, true)
      | some s => .ok (upd σ d (some s), false)
    | _, _ => .ok (σ, false)
  | .moveCtor d i thr => match σ d, σ i with
    | none, some o => (moveCtor cfg env o thr).bind fun r => match r with
      | (none, o) => .ok (upd σ i (some o), true)
      | (some s, o) => .ok (upd (upd σ i (some o)) d (some s), false)
    | _, _ => .ok (σ, false)
  | .copyAssign i j thr => match σ i, σ j with
    | some s, some o =>
      if i = j then .ok (σ, false)
      else (copyAssign cfg env s o thr).bind fun r => .ok (upd σ i (some r.1), r.2)
    | _, _ => .ok (σ, false)
  | .moveAssign i j thr => match σ i, σ j with
    | some s, some o =>
      if i = j then (if cfg.trivMoveAssign then .ok (σ, false) else .error .assertion)
      else (moveAssign cfg env s o thr).bind fun r => .ok (upd (upd σ i (some r.1)) j (some r.2.1), r.2.2)
    | _, _ => .ok (σ, false)
  | .set i k x v thr => match σ i with
    | none => .ok (σ, false)
    | some s => (assignValue env s x v (k.made env x v) thr).bind fun r => .ok (upd σ i (some r.1), r.2)
  | .emplace i x v thr => match σ i with
    | none => .ok (σ, false)
    | some s => (emplace s x v thr).bind fun r => .ok (upd σ i (some r.1), r.2)
  | .swap i j t1 t2 t3 => match σ i, σ j with
    | some l, some r =>
      -- `lhs = std::move(lhs)` fails the assertion of the non-trivial move assignment (variant2.hpp:430)
      if i = j then (moveCtor cfg env l t1).bind fun p => match p with
        | (none, l) => if cfg.trivMoveAssign then .error .terminate else .ok (upd σ i (some l), true)
        | (some tmp, _) =>
          if cfg.trivMoveAssign then (dtor cfg tmp).bind fun _ => .ok (upd σ i (some tmp), false) else .error .assertion
      else (swap cfg env l r t1 t2 t3).bind fun p => .ok (upd (upd σ i (some p.1)) j (some p.2.1), p.2.2)
    | _, _ => .ok (σ, false)
  | .destroy i => match σ i with
    | none => .ok (σ, false)
    | some s => (dtor cfg s).bind fun _ => .ok (upd σ i none, false)

/-- A history of operations (variant2.hpp:199-722). -/
def run (cfg : Cfg) (env : Env V) : State V → List (Op V) → Except Err (State V)
  | σ, [] => .ok σ
  | σ, op :: ops => (step cfg env σ op).bind fun r => run cfg env r.1 ops

/-! ### Observers -/

/-- `index()` (variant2.hpp:637-647); `none` is `variant_npos`. -/
def index (s : Var V) : Option Nat :=
  match s.disc with
  | .first => some 0
  | .second => some 1
  | .valueless => none

/-- `valueless_by_exception()` (variant2.hpp:633-635). -/
def valuelessByException (s : Var V) : Bool := decide (s.disc = .valueless)

/-- What an access gives (variant2.hpp:96-163). -/
inductive Res (β : Type) where
  | ok (x : β)
  | badAccess
  | ub
  deriving DecidableEq, Repr

/-- `get<ix>` / `get<X>` (variant2.hpp:117-139). -/
def get (s : Var V) (x : Alt) : Res V :=
  match x with
  | .a => if s.disc ≠ .first then .badAccess else match readAs .a s.store with | .ok v => .ok v | .error _ => .ub
  | .b => if s.disc ≠ .second then .badAccess else match readAs .b s.store with | .ok v => .ok v | .error _ => .ub

/-- `get_if` (variant2.hpp:141-163,818-...): `.ok none` is a null pointer. -/
def getIf (s : Option (Var V)) (x : Alt) : Res (Option V) :=
  match s with
  | none => .ok none
  | some s => match x with
    | .a => if s.disc ≠ .first then .ok none else match readAs .a s.store with | .ok v => .ok (some v) | .error _ => .ub
    | .b => if s.disc ≠ .second then .ok none else match readAs .b s.store with | .ok v => .ok (some v) | .error _ => .ub

/-- `holds_alternative` (variant2.hpp:788-795). -/
def holds (s : Var V) : Alt → Bool
  | .a => decide (index s = some 0)
  | .b => decide (index s = some 1)

/-- `visit` (variant2.hpp:96-115): the log of visitor calls is the second component. -/
def visit {β : Type} (s : Var V) (f : Alt → V → β) : Res β × List (Alt × V) :=
  match s.disc with
  | .first => match readAs .a s.store with | .ok v => (.ok (f .a v), [(.a, v)]) | .error _ => (.ub, [])
  | .second => match readAs .b s.store with | .ok v => (.ok (f .b v), [(.b, v)]) | .error _ => (.ub, [])
  | .valueless => (.badAccess, [])

/-- Results of `<=>` (variant2.hpp:746-776). -/
inductive Cmp where
  | less
  | equal
  | greater
  | unordered
  deriving DecidableEq, Repr

/-- The numeric order of the discriminants (variant2.hpp:186-190, 746-776). -/
def Disc.num : Disc → Nat
  | .first => 0
  | .second => 1
  | .valueless => 2

/-- `==` (variant2.hpp:724-744). -/
def eq (e : Alt → V → V → Bool) (s o : Var V) : Res Bool :=
  if s.disc ≠ o.disc then .ok false
  else match s.disc with
    | .first => match readAs .a s.store, readAs .a o.store with | .ok u, .ok v => .ok (e .a u v) | _, _ => .ub
    | .second => match readAs .b s.store, readAs .b o.store with | .ok u, .ok v => .ok (e .b u v) | _, _ => .ub
    | .valueless => .ok true

/-- `<=>` (variant2.hpp:746-776). -/
def cmp (c : Alt → V → V → Cmp) (s o : Var V) : Res Cmp :=
  if s.disc ≠ o.disc then
    if s.disc = .valueless then .ok .less
    else if o.disc = .valueless then .ok .greater
    else .ok (if s.disc.num < o.disc.num then .less else .greater)
  else match s.disc with
    | .first => match readAs .a s.store, readAs .a o.store with | .ok u, .ok v => .ok (c .a u v) | _, _ => .ub
    | .second => match readAs .b s.store, readAs .b o.store with | .ok u, .ok v => .ok (c .b u v) | _, _ => .ub
    | .valueless => .ok .equal

/-- `std::hash` (variant2.hpp:41-53), modulo `2^64`. The call operator is `noexcept`: if `visit` throws, the program
terminates. -/
def hash (hsz : Nat → Nat) (h : Alt → V → Nat) (s : Var V) : Except Err Nat :=
  match (visit s fun x v => ((hsz (match x with | .a => 0 | .b => 1)) + h x v) % 2 ^ 64).1 with
  | .ok n => .ok n
  | .badAccess => .error .terminate
  | .ub => .error .readDead

end Verif.Variant2
