/-!
Containers that use `pool_allocator`, `limit_allocator`, or wrappers of them (`polymorphic_allocator`, `offset_ptr_stl_allocator`).

The allocators are modelled as in the code: an object with a `std::shared_ptr` to its pool or budget, which moving from it empties. The
containers are not part of the repository; they do what [container.alloc.reqmts] of the standard says, in the order libstdc++ does it. Simplifications: a
container has at most one block, and copying into it always gets a new one; sizes are in bytes and `n * sizeof(T)` does not wrap (see C13, C15); assignment of a container to itself does nothing.
`PolyAlloc/Model.lean` has containers over allocators that conform to the standard, in particular those that moving leaves unchanged.
-/
namespace Verif.Containers

/-- Where memory comes from: the pool of `pool_allocator`, or the control block of `limit_allocator` (pool_allocator.hpp:148, limit_allocator.hpp:95). -/
abbrev Src := Nat

/-- The allocator of a container: its alternative, for `polymorphic_allocator`, and the pool or control block, empty after it was moved from
(pool_allocator.hpp:148, limit_allocator.hpp:95-96, polymorphic_allocator.hpp:135-136). -/
structure Handle where
  alt : Nat
  src : Option Src
  deriving DecidableEq, Repr

/-- What is left in an allocator after moving it: the `shared_ptr` is empty (pool_allocator.hpp:163, 165, limit_allocator.hpp:112, 114; the alternative stays,
polymorphic_allocator.hpp:173-174). -/
def Handle.movedFrom (h : Handle) : Handle := ⟨h.alt, none⟩

/-- `propagate_on_container_copy_assignment`, `..._move_assignment`, `..._swap`. `is_always_equal` is `false_type`
(pool_allocator.hpp:133-136, limit_allocator.hpp:81-84). -/
structure Traits where
  pocca : Bool
  pocma : Bool
  pocs : Bool
  deriving DecidableEq, Repr

/-- pool_allocator.hpp:133-135 -/
def poolTraits : Traits := ⟨true, true, true⟩

/-- `std::allocator`, the default for limit_allocator.hpp:69. -/
def stdTraits : Traits := ⟨false, true, false⟩

/-- limit_allocator.hpp:81-83 -/
def limitTraits (upstream : Traits) : Traits := ⟨upstream.pocca, upstream.pocma, upstream.pocs⟩

/-- For at least two alternatives (polymorphic_allocator.hpp:121-123). -/
def polyTraits (ts : List Traits) : Traits := ⟨ts.all (·.pocca), ts.all (·.pocma), ts.all (·.pocs)⟩

/-- What kind of container, and the traits of its allocator (pool_allocator.hpp:133-135, limit_allocator.hpp:81-83). `sentinel`: it owns memory even if it was
moved from, like `std::deque` of libstdc++. -/
structure Config where
  traits : Traits
  sentinel : Bool
  deriving DecidableEq, Repr

/-- A block: where it was obtained and how large it is (pool_allocator.hpp:175-177, limit_allocator.hpp:139-148). -/
structure Blk where
  src : Src
  bytes : Nat
  deriving DecidableEq, Repr

/-- A container (client of pool_allocator.hpp:125-200 and limit_allocator.hpp:70-173). -/
structure Cont where
  h : Handle
  blk : Option Blk
  deriving DecidableEq, Repr

/-- `left`: bytes each source can still give, `conts`: places for containers (client of pool_allocator.hpp:125-200 and limit_allocator.hpp:70-173). -/
structure St where
  left : List Nat
  conts : List (Option Cont)
  deriving DecidableEq, Repr

/-- Result of an operation on containers (client of pool_allocator.hpp:175-181, limit_allocator.hpp:139-153). -/
inductive Res where
  | ok (s : St)
  /-- `bad_alloc` from the allocator left the operation -/
  | threw (s : St)
  /-- undefined behaviour: `pool_` or `control_block_` is dereferenced and empty -/
  | nullUse
  /-- undefined behaviour: memory given to a source that it is not from -/
  | illegalFree
  /-- precondition of the standard violated, or no such container -/
  | excluded
  deriving DecidableEq, Repr

/-- Result of obtaining memory (pool_allocator.hpp:175-177, limit_allocator.hpp:139-148). -/
inductive Got where
  | ok (left : List Nat) (b : Option Blk)
  | refused
  | nullUse
  deriving DecidableEq, Repr

/-- Obtain `n` bytes; containers do not call `allocate` for nothing. `up`: whether the memory behind the budget or pool is available
(pool_allocator.hpp:175-177, limit_allocator.hpp:139-148). -/
def get (left : List Nat) (h : Handle) (n : Nat) (up : Bool) : Got :=
  if n = 0 then .ok left none else
  match h.src with
  | none => .nullUse
  | some c => match left[c]? with
    | none => .nullUse
    | some l => if n ≤ l ∧ up = true then .ok (left.set c (l - n)) (some ⟨c, n⟩) else .refused

/-- Result of returning memory (pool_allocator.hpp:179-181, limit_allocator.hpp:150-153). -/
inductive Put where
  | ok (left : List Nat)
  | nullUse
  | illegalFree
  deriving DecidableEq, Repr

/-- Return a block, if there is one (pool_allocator.hpp:179-181, limit_allocator.hpp:150-153). -/
def put (left : List Nat) (h : Handle) : Option Blk → Put
  | none => .ok left
  | some b => match h.src with
    | none => .nullUse
    | some c => if c = b.src then .ok (left.set c (left[c]?.getD 0 + b.bytes)) else .illegalFree

/-- Bytes of a block (allocated at pool_allocator.hpp:170-177, limit_allocator.hpp:139-148). -/
def size : Option Blk → Nat
  | none => 0
  | some b => b.bytes

/-- What programs do with containers (client of pool_allocator.hpp:125-200 and limit_allocator.hpp:70-173). -/
inductive Op where
  /-- construct at `i` with an allocator and space for `n` bytes -/
  | construct (i : Nat) (h : Handle) (n : Nat) (up : Bool)
  | copyConstruct (i j : Nat) (up : Bool)
  /-- `n`: what a container that always owns memory needs -/
  | moveConstruct (i j n : Nat) (up : Bool)
  | copyAssign (i j : Nat) (up : Bool)
  | moveAssign (i j : Nat) (up : Bool)
  | swap (i j : Nat)
  /-- e.g. `reserve`, `push_back`, `shrink_to_fit`: get a new block, then return the old one -/
  | reallocate (i n : Nat) (up : Bool)
  | destroy (i : Nat)
  deriving DecidableEq, Repr

/-- Copy construction: `select_on_container_copy_construction` copies the allocator (pool_allocator.hpp:183-185, limit_allocator.hpp:155-157). -/
def selectOnCopy (h : Handle) : Handle := h

/-- The pool or control block exists, or the allocator was moved from (pool_allocator.hpp:148, limit_allocator.hpp:95). -/
def Handle.valid (h : Handle) (n : Nat) : Bool := match h.src with
  | none => true
  | some c => decide (c < n)

/-- One operation (client of pool_allocator.hpp:125-200 and limit_allocator.hpp:70-173). -/
def step (cfg : Config) (s : St) : Op → Res
  | .construct i h n up => match s.conts[i]?, h.valid s.left.length with
    | some none, true => match get s.left h n up with
      | .ok l b => .ok ⟨l, s.conts.set i (some ⟨h, b⟩)⟩
      | .refused => .threw s
      | .nullUse => .nullUse
    | _, _ => .excluded
  | .copyConstruct i j up => match s.conts[i]?, s.conts[j]? with
    | some none, some (some c) => match get s.left (selectOnCopy c.h) (size c.blk) up with
      | .ok l b => .ok ⟨l, s.conts.set i (some ⟨selectOnCopy c.h, b⟩)⟩
      | .refused => .threw s
      | .nullUse => .nullUse
    | _, _ => .excluded
  | .moveConstruct i j n up => match s.conts[i]?, s.conts[j]? with
    | some none, some (some c) =>
      match cfg.sentinel with
      | false => .ok ⟨s.left, (s.conts.set j (some ⟨c.h.movedFrom, none⟩)).set i (some c)⟩
      -- the allocator is moved first, then memory obtained with it
      | true => match get s.left c.h n up with
        | .ok l b => .ok ⟨l, (s.conts.set j (some ⟨c.h.movedFrom, b⟩)).set i (some c)⟩
        | .refused => .threw ⟨s.left, s.conts.set j (some ⟨c.h.movedFrom, c.blk⟩)⟩
        | .nullUse => .nullUse
    | _, _ => .excluded
  | .copyAssign i j up => match s.conts[i]?, s.conts[j]? with
    | some (some d), some (some c) =>
      if i = j then .ok s
      else if cfg.traits.pocca = true ∧ d.h ≠ c.h then
        -- memory of the old allocator has to be returned first
        match put s.left d.h d.blk with
        | .ok l => match get l c.h (size c.blk) up with
          | .ok l b => .ok ⟨l, s.conts.set i (some ⟨c.h, b⟩)⟩
          | .refused => .threw ⟨l, s.conts.set i (some ⟨c.h, none⟩)⟩
          | .nullUse => .nullUse
        | .nullUse => .nullUse
        | .illegalFree => .illegalFree
      else match get s.left d.h (size c.blk) up with
        | .ok l b => match put l d.h d.blk with
          | .ok l => .ok ⟨l, s.conts.set i (some ⟨d.h, b⟩)⟩
          | .nullUse => .nullUse
          | .illegalFree => .illegalFree
        | .refused => .threw s
        | .nullUse => .nullUse
    | _, _ => .excluded
  | .moveAssign i j up => match s.conts[i]?, s.conts[j]? with
    | some (some d), some (some c) =>
      if cfg.sentinel = true then .excluded
      else if i = j then .ok s
      else if cfg.traits.pocma = true then
        match put s.left d.h d.blk with
        | .ok l => .ok ⟨l, (s.conts.set j (some ⟨c.h.movedFrom, none⟩)).set i (some c)⟩
        | .nullUse => .nullUse
        | .illegalFree => .illegalFree
      else if d.h = c.h then
        match put s.left d.h d.blk with
        | .ok l => .ok ⟨l, (s.conts.set j (some ⟨c.h, none⟩)).set i (some ⟨d.h, c.blk⟩)⟩
        | .nullUse => .nullUse
        | .illegalFree => .illegalFree
      else match get s.left d.h (size c.blk) up with
        | .ok l b => match put l d.h d.blk with
          | .ok l => .ok ⟨l, s.conts.set i (some ⟨d.h, b⟩)⟩
          | .nullUse => .nullUse
          | .illegalFree => .illegalFree
        | .refused => .threw s
        | .nullUse => .nullUse
    | _, _ => .excluded
  | .swap i j => match s.conts[i]?, s.conts[j]? with
    | some (some d), some (some c) =>
      if cfg.traits.pocs = true then .ok ⟨s.left, (s.conts.set i (some c)).set j (some d)⟩
      else if d.h = c.h then .ok ⟨s.left, (s.conts.set i (some ⟨d.h, c.blk⟩)).set j (some ⟨c.h, d.blk⟩)⟩
      else .excluded
    | _, _ => .excluded
  | .reallocate i n up => match s.conts[i]? with
    | some (some d) => match get s.left d.h n up with
      | .ok l b => match put l d.h d.blk with
        | .ok l => .ok ⟨l, s.conts.set i (some ⟨d.h, b⟩)⟩
        | .nullUse => .nullUse
        | .illegalFree => .illegalFree
      | .refused => .threw s
      | .nullUse => .nullUse
    | _ => .excluded
  | .destroy i => match s.conts[i]? with
    | some (some d) => match put s.left d.h d.blk with
      | .ok l => .ok ⟨l, s.conts.set i none⟩
      | .nullUse => .nullUse
      | .illegalFree => .illegalFree
    | _ => .excluded

/-- A program; it catches exceptions and carries on (client of pool_allocator.hpp:125-200 and limit_allocator.hpp:70-173). -/
def run (cfg : Config) : St → List Op → Res
  | s, [] => .ok s
  | s, o :: os => match step cfg s o with
    | .ok s' => run cfg s' os
    | .threw s' => run cfg s' os
    | r => r

/-- Sources with the given limits and `n` places for containers (pool_allocator.hpp:154-156, limit_allocator.hpp:105-109). -/
def init (limits : List Nat) (n : Nat) : St := ⟨limits, List.replicate n none⟩

end Verif.Containers
