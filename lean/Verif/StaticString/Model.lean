/-!
Model of `static_string.hpp`: strings by name, a byte-addressed heap of buffers, allocators by identity (two allocators are
equal iff they have the same identity).

A byte that was never written is `none`. Not modelled: `constexpr`, fancy pointers, allocators whose moved-from state
differs (see `Verif.Limit.Handles`), stream output.
-/
namespace Verif.StaticString

/-- A byte, `none` if uninitialised (memory behind static_string.hpp:33). -/
abbrev Cell := Option Nat

/-- A heap buffer: which allocator made it, for how many characters, and its bytes (behind static_string.hpp:33). -/
structure Buf where
  alloc : Nat
  n : Nat
  bytes : List Cell
  deriving DecidableEq, Repr

/-- `data_`, `size_`, `alloc_` (static_string.hpp:33-35). -/
structure Str where
  data : Option Nat
  size : Nat
  alloc : Nat
  deriving DecidableEq, Repr

/-- Strings by number and the heap (static_string.hpp:33-35). -/
structure State where
  heap : Nat → Option Buf
  next : Nat
  strs : Nat → Option Str

/-- Overwrite one entry; used for static_string.hpp:43-122. -/
def upd {β : Type} (f : Nat → β) (i : Nat) (x : β) : Nat → β := fun j => if j = i then x else f j

/-- No strings and no buffers (static_string.hpp:33-35). -/
def init : State := ⟨fun _ => none, 0, fun _ => none⟩

/-- The template parameters: allocator traits and `sizeof(Char)` (static_string.hpp:17-24). -/
structure Traits where
  pocca : Bool
  pocma : Bool
  alwaysEqual : Bool
  w : Nat

/-- Undefined behaviour and failed assertions (in static_string.hpp:43-122). -/
inductive Err where
  | nullFree
  | doubleFree
  | wrongAllocator
  | wrongSize
  | badRead
  | assertion
  deriving DecidableEq, Repr

/-- `allocator_traits::deallocate(a, p, n)` (static_string.hpp:45, 118-122). -/
def free (heap : Nat → Option Buf) (a : Nat) (p : Option Nat) (n : Nat) : Except Err (Nat → Option Buf) :=
  match p with
  | none => .error .nullFree
  | some p => match heap p with
    | none => .error .doubleFree
    | some b =>
      if b.alloc ≠ a then .error .wrongAllocator
      else if b.n ≠ n then .error .wrongSize
      else .ok (upd heap p none)

/-- The bytes a string's view covers (static_string.hpp:124-126); `none` if reading them is undefined behaviour. -/
def read (w : Nat) (heap : Nat → Option Buf) (s : Str) : Option (List Cell) :=
  match s.data with
  | none => if s.size = 0 then some [] else none
  | some p => match heap p with
    | none => none
    | some b => if s.size * w ≤ b.bytes.length then some (b.bytes.take (s.size * w)) else none

/-- The contents of a fresh buffer of `n` characters after `memcpy(buf, src, n)`, which copies `n` *bytes*
(static_string.hpp:52,72). -/
def memcpyFresh (w n : Nat) (src : List Cell) : List Cell := src.take n ++ List.replicate (n * w - n) none

/-- `~basic_static_string` (static_string.hpp:118-122). -/
def destroyStr (heap : Nat → Option Buf) (s : Str) : Except Err (Nat → Option Buf) :=
  match s.data with
  | none => .ok heap
  | some p => free heap s.alloc (some p) s.size

/-- The view constructor (static_string.hpp:63-73). `none`: the allocation threw, there is no new string. -/
def mkView (t : Traits) (heap : Nat → Option Buf) (next : Nat) (src : List Cell) (a : Nat) (fail : Bool) :
    Option ((Nat → Option Buf) × Nat × Str) :=
  let n := src.length / t.w
  if n = 0 then some (heap, next, ⟨none, 0, a⟩)
  else if fail then none
  else some (upd heap next (some ⟨a, n, memcpyFresh t.w n src⟩), next + 1, ⟨some next, n, a⟩)

/-- `copy_assign_from_other` (static_string.hpp:43-56), `s` and `o` are `*this` and `other`. When the allocation throws, the
members stay as they are at that point. -/
def copyAssignFrom (t : Traits) (heap : Nat → Option Buf) (next : Nat) (s o : Str) (fail : Bool) :
    Except Err ((Nat → Option Buf) × Nat × Str) :=
  match (if s.size = 0 then .ok heap else free heap s.alloc s.data s.size) with
  | .error e => .error e
  | .ok heap =>
    if o.size = 0 then .ok (heap, next, ⟨none, 0, s.alloc⟩)
    else if fail then .ok (heap, next, ⟨s.data, o.size, s.alloc⟩)
    else match read t.w heap o with
      | none => .error .badRead
      | some src => .ok (upd heap next (some ⟨s.alloc, o.size, memcpyFresh t.w o.size src⟩), next + 1,
          ⟨some next, o.size, s.alloc⟩)

/-- Copy assignment (static_string.hpp:78-89), for distinct objects. -/
def copyAssign (t : Traits) (heap : Nat → Option Buf) (next : Nat) (s o : Str) (fail : Bool) :
    Except Err ((Nat → Option Buf) × Nat × Str) :=
  if t.pocca then copyAssignFrom t heap next { s with alloc := o.alloc } o fail
  else copyAssignFrom t heap next s o fail

/-- Move assignment (static_string.hpp:96-116), for distinct objects; returns both strings. -/
def moveAssign (t : Traits) (heap : Nat → Option Buf) (next : Nat) (s o : Str) (fail : Bool) :
    Except Err ((Nat → Option Buf) × Nat × Str × Str) :=
  if t.pocma then .ok (heap, next, o, s)
  else if t.alwaysEqual ∨ s.alloc = o.alloc then .ok (heap, next, { o with alloc := s.alloc }, { s with alloc := o.alloc })
  else match copyAssignFrom t heap next s o fail with
    | .error e => .error e
    | .ok (heap, next, s) => .ok (heap, next, s, o)

/-- The operations of a client. `fail`: an allocation made by this operation throws (static_string.hpp:59-126, 215-220). -/
inductive Op where
  | empty (d a : Nat)
  | view (d : Nat) (src : List Nat) (a : Nat) (fail : Bool)
  | copy (d i : Nat) (fail : Bool)
  | copyAssign (i j : Nat) (fail : Bool)
  | move (d i : Nat)
  | moveAssign (i j : Nat) (fail : Bool)
  | swap (i j : Nat)
  | write (i k x : Nat)
  | destroy (i : Nat)
  deriving DecidableEq, Repr

/-- One operation. Operations on strings that do not exist (or construct one that does) do nothing (static_string.hpp:59-126, 215-220, lines given
at each case). -/
def step (t : Traits) (σ : State) : Op → Except Err State
  -- static_string.hpp:59-61
  | .empty d a => match σ.strs d with
    | some _ => .ok σ
    | none => .ok { σ with strs := upd σ.strs d (some ⟨none, 0, a⟩) }
  | .view d src a fail => match σ.strs d with
    | some _ => .ok σ
    | none => match mkView t σ.heap σ.next (src.map some) a fail with
      | none => .ok σ
      | some (h, n, s) => .ok ⟨h, n, upd σ.strs d (some s)⟩
  -- static_string.hpp:75-76
  | .copy d i fail => match σ.strs d, σ.strs i with
    | none, some o => match read t.w σ.heap o with
      | none => .error .badRead
      | some src => match mkView t σ.heap σ.next src o.alloc fail with
        | none => .ok σ
        | some (h, n, s) => .ok ⟨h, n, upd σ.strs d (some s)⟩
    | _, _ => .ok σ
  | .copyAssign i j fail => match σ.strs i, σ.strs j with
    | some s, some o =>
      if i = j then .ok σ
      else match copyAssign t σ.heap σ.next s o fail with
        | .error e => .error e
        | .ok (h, n, s) => .ok ⟨h, n, upd σ.strs i (some s)⟩
    | _, _ => .ok σ
  -- static_string.hpp:91-94
  | .move d i => match σ.strs d, σ.strs i with
    | none, some o => .ok { σ with strs := upd (upd σ.strs d (some o)) i (some ⟨none, 0, o.alloc⟩) }
    | _, _ => .ok σ
  | .moveAssign i j fail => match σ.strs i, σ.strs j with
    | some s, some o =>
      if i = j then .error .assertion
      else match moveAssign t σ.heap σ.next s o fail with
        | .error e => .error e
        | .ok (h, n, s, o) => .ok ⟨h, n, upd (upd σ.strs i (some s)) j (some o)⟩
    | _, _ => .ok σ
  -- static_string.hpp:215-220
  | .swap i j => match σ.strs i, σ.strs j with
    | some s, some o => .ok { σ with strs := upd (upd σ.strs i (some o)) j (some s) }
    | _, _ => .ok σ
  -- writing byte `k` of the contents through `operator[]`, `data()` or an iterator (static_string.hpp:131-192)
  | .write i k x => match σ.strs i with
    | none => .ok σ
    | some s =>
      if ¬ k < s.size * t.w then .error .assertion
      else match s.data with
        | none => .error .badRead
        | some p => match σ.heap p with
          | none => .error .badRead
          | some b => .ok { σ with heap := upd σ.heap p (some { b with bytes := b.bytes.set k (some x) }) }
  | .destroy i => match σ.strs i with
    | none => .ok σ
    | some s => match destroyStr σ.heap s with
      | .error e => .error e
      | .ok h => .ok { σ with heap := h, strs := upd σ.strs i none }

/-- A history of operations (static_string.hpp:59-126, 215-220). -/
def run (t : Traits) : State → List Op → Except Err State
  | σ, [] => .ok σ
  | σ, op :: ops => match step t σ op with
    | .error e => .error e
    | .ok σ' => run t σ' ops

/-- What a client sees: the bytes of each existing string; inner `none` if looking at them is undefined behaviour (static_string.hpp:124-126). -/
def view (w : Nat) (σ : State) (i : Nat) : Option (Option (List Cell)) := (σ.strs i).map (read w σ.heap)

end Verif.StaticString
