import Verif.FlexArray.Model

/-!
Model of `flex_array` as a value (flex_array.hpp:280-285, 417-421) and of its element access (flex_array.hpp:374-413): copies, moves,
assignments and swaps of several arrays of the same type, with throwing element operations and failing allocations; iterators, spans and
subscripts.

The elements that an operation copies or moves are numbered from 0; the operation is given the number of the one that throws, if any.
The small-buffer vector (flex_array.hpp:157-226) is taken to move like `std::vector`: by exchanging buffers. Copying the bits of a scalar
that was never initialised is taken to give another such scalar.
-/
namespace Verif.FlexArray

variable {α : Type}

/-- What the element type does: the value left in the source of a move (flex_array.hpp:282, 284). -/
structure Elem (α : Type) where
  movedFrom : α → α

/-- Outcomes other than a value: all operations here are `noexcept` (flex_array.hpp:280-285, 419-421). -/
inductive Fatal where
  | terminate
  deriving DecidableEq, Repr

/-- Copy the elements of an array or a vector; element number `thr` throws, `oom`: the allocation of a vector fails
(flex_array.hpp:281, 283: `noexcept`, so an exception terminates). -/
def copyCells (m : Mode) (a : FA α) (thr : Option Nat) (oom : Bool) : Except Fatal (FA α) :=
  match thr with
  | some k => if k < a.data.length then .error .terminate else
    match m, oom with
    | .dynamic, true => .error .terminate
    | _, _ => .ok a
  | none =>
    match m, oom with
    | .dynamic, true => .error .terminate
    | _, _ => .ok a

/-- Move the elements (flex_array.hpp:282, 284): arrays move element by element and keep their size, a vector gives away its buffer.
Returns the new array and the source. -/
def moveCells (el : Elem α) (m : Mode) (a : FA α) (thr : Option Nat) : Except Fatal (FA α × FA α) :=
  match m with
  | .dynamic => .ok (a, ⟨0, []⟩)
  | _ => match thr with
    | some k => if k < a.data.length then .error .terminate else .ok (a, { a with data := a.data.map (Option.map el.movedFrom) })
    | none => .ok (a, { a with data := a.data.map (Option.map el.movedFrom) })

/-- Operations on the arrays of a program (flex_array.hpp:281-285, 417-421). `put`: an array made or changed by one of the other
functions of the class, which are modelled in `Model.lean`. -/
inductive Op (α : Type) where
  | put (d : Nat) (a : FA α)
  | copyCtor (d i : Nat) (thr : Option Nat) (oom : Bool)
  | moveCtor (d i : Nat) (thr : Option Nat)
  | copyAssign (d i : Nat) (thr : Option Nat) (oom : Bool)
  | moveAssign (d i : Nat) (thr : Option Nat)
  | swap (i j : Nat) (t1 t2 t3 : Option Nat)
  | destroy (i : Nat)

/-- The arrays of the program, by number (flex_array.hpp:276-277). -/
abbrev Arrays (α : Type) := Nat → Option (FA α)

/-- Replace one array (flex_array.hpp:276-277). -/
def set (σ : Nat → Option β) (i : Nat) (x : Option β) : Nat → Option β := fun j => if j = i then x else σ j

/-- `d = std::move(i)` (flex_array.hpp:284): if they are the same object, every element is moved to itself, and a vector loses its
elements. -/
def moveAssignTo (el : Elem α) (m : Mode) (σ : Arrays α) (d i : Nat) (a : FA α) (thr : Option Nat) : Except Fatal (Arrays α) :=
  (moveCells el m a thr).bind fun r => .ok (if d = i then set σ i (some r.2) else set (set σ i (some r.2)) d (some r.1))

/-- One operation (flex_array.hpp:281-285, 417-421). `swap` is `std::swap` of the representations. -/
def step (el : Elem α) (m : Mode) (σ : Arrays α) : Op α → Except Fatal (Arrays α)
  | .put d a => .ok (set σ d (some a))
  | .copyCtor d i thr oom => match σ d, σ i with
    | none, some a => (copyCells m a thr oom).bind fun r => .ok (set σ d (some r))
    | _, _ => .ok σ
  | .moveCtor d i thr => match σ d, σ i with
    | none, some a => (moveCells el m a thr).bind fun r => .ok (set (set σ i (some r.2)) d (some r.1))
    | _, _ => .ok σ
  | .copyAssign d i thr oom => match σ d, σ i with
    | some _, some a => (copyCells m a thr oom).bind fun r => .ok (set σ d (some r))
    | _, _ => .ok σ
  | .moveAssign d i thr => match σ d, σ i with
    | some _, some a => moveAssignTo el m σ d i a thr
    | _, _ => .ok σ
  | .swap i j t1 t2 t3 => match σ i, σ j with
    | some a, some _ =>
      -- T tmp = std::move(x); x = std::move(y); y = std::move(tmp);
      (moveCells el m a t1).bind fun r =>
      let σ₁ := set σ i (some r.2)
      (match σ₁ j with
        | some b => moveAssignTo el m σ₁ i j b t2
        | none => .ok σ₁).bind fun σ₂ =>
      (moveCells el m r.1 t3).bind fun r' => .ok (set σ₂ j (some r'.1))
    | _, _ => .ok σ
  | .destroy i => .ok (set σ i none)

/-- A program (flex_array.hpp:276-421). -/
def exec (el : Elem α) (m : Mode) : Arrays α → List (Op α) → Except Fatal (Arrays α)
  | σ, [] => .ok σ
  | σ, op :: ops => (step el m σ op).bind fun σ' => exec el m σ' ops

/-! ### Element access -/

/-- Position of `begin()`, `cbegin()`, `data()` (flex_array.hpp:396-404). Positions count elements from the start of the buffer. -/
def beginPos (_ : FA α) : Nat := 0

/-- Position of `end()`, `cend()`: `std::next(begin(), size())` (flex_array.hpp:400, 402, 404). -/
def endPos (a : FA α) : Nat := beginPos a + a.size

/-- What a dereferenced pointer reads (flex_array.hpp:396-413); `none`: outside the buffer. -/
def deref (a : FA α) (p : Nat) : Option (Option α) := a.data[p]?

/-- What a dereferenced reverse iterator with base `p` reads: the element before `p` (flex_array.hpp:405-410). -/
def rderef (a : FA α) (p : Nat) : Option (Option α) := match p with
  | 0 => none
  | p + 1 => deref a p

/-- Walk from one iterator to another one (flex_array.hpp:399-404); `none`: an element outside the buffer was read. -/
def walk (a : FA α) (p : Nat) : Nat → Option (List (Option α))
  | 0 => some []
  | n + 1 => (deref a p).bind fun x => (walk a (p + 1) n).map (x :: ·)

/-- Walk with reverse iterators from base `p` (flex_array.hpp:405-410). -/
def rwalk (a : FA α) (p : Nat) : Nat → Option (List (Option α))
  | 0 => some []
  | n + 1 => (rderef a p).bind fun x => (rwalk a (p - 1) n).map (x :: ·)

/-- `for (auto &x : a)` (flex_array.hpp:399-402) -/
def traverse (a : FA α) : Option (List (Option α)) := walk a (beginPos a) (endPos a - beginPos a)

/-- From `rbegin()` to `rend()` (flex_array.hpp:405-410) -/
def rtraverse (a : FA α) : Option (List (Option α)) := rwalk a (endPos a) (endPos a - beginPos a)

/-- The elements of the span an array converts to: for a static extent the whole `std::array`, else `size_` elements from `data()`
(flex_array.hpp:46-52, 74-80, 140-146, 168-174, 374-380). -/
def toSpan (m : Mode) (a : FA α) : Option (List (Option α)) := match m with
  | .static n => walk a 0 n
  | .limited _ => walk a 0 a.size
  | .dynamic => walk a 0 a.data.length

/-- `a[i]` (flex_array.hpp:412-413); `none`: undefined behaviour. -/
def subscript (a : FA α) (i : Nat) : Option (Option α) := deref a i

end Verif.FlexArray
