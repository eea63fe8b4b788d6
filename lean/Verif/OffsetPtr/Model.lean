/-!
Model of `offset_ptr_stl_allocator` (polymorphic_allocator.hpp:327-410): a wrapper around an allocator with raw pointers, giving
`boost::interprocess::offset_ptr`s instead.
-/
namespace Verif.OffsetPtr

/-- Addresses, for the pointers of polymorphic_allocator.hpp:327-410. -/
abbrev Addr := BitVec 64

/-- A `boost::interprocess::offset_ptr` object: where it lies in memory, and the difference to where it points; the difference 1 stands for
the null pointer (documentation of boost.interprocess) (`pointer` of polymorphic_allocator.hpp:330-338). -/
structure OPtr where
  self : Addr
  off : BitVec 64
deriving DecidableEq, Repr

/-- An `offset_ptr` at address `self` made from a raw pointer (used in polymorphic_allocator.hpp:383). -/
def OPtr.make (self p : Addr) : OPtr := ⟨self, if p = 0 then 1 else p - self⟩

/-- `std::to_address(ptr)` (polymorphic_allocator.hpp:387). -/
def OPtr.get (ptr : OPtr) : Addr := if ptr.off = 1 then 0 else ptr.self + ptr.off

/-- A copy of an `offset_ptr` at another address (for the pointers of polymorphic_allocator.hpp:382-388). -/
def OPtr.copyTo (ptr : OPtr) (self : Addr) : OPtr := .make self ptr.get

/-- The same bytes at another address: a segment of memory mapped elsewhere (for the pointers of polymorphic_allocator.hpp:382-388). -/
def OPtr.relocate (ptr : OPtr) (δ : BitVec 64) : OPtr := ⟨ptr.self + δ, ptr.off⟩

/-- The traits the wrapper takes over (polymorphic_allocator.hpp:339-342). -/
structure Traits where
  pocca : Bool
  pocma : Bool
  pocs : Bool
  alwaysEqual : Bool
deriving DecidableEq, Repr

/-- The wrapped allocator type. `A` are its values (`inner_`, polymorphic_allocator.hpp:352). -/
structure Upstream (A : Type) where
  eqv : A → A → Bool
  /-- where memory comes from and has to be returned to -/
  src : A → Nat
  /-- conversion to the allocator for another value type -/
  conv : A → A
  socc : A → A
  /-- the value of an allocator after it was moved from -/
  movedFrom : A → A
  traits : Traits
  /-- `is_nothrow_copy_constructible`, `is_nothrow_move_constructible` -/
  nothrowCopy : Bool
  nothrowMove : Bool
  /-- does copying / moving this value throw? -/
  copyThrows : A → Bool
  moveThrows : A → Bool

variable {A : Type}

/-- Blocks handed out by the wrapped allocators and not returned (polymorphic_allocator.hpp:382-388). -/
abbrev Heap := Addr → Option (Nat × Nat)

/-- The wrapper: only the wrapped allocator (polymorphic_allocator.hpp:352). -/
structure Alloc (A : Type) where
  inner : A
deriving DecidableEq, Repr

/-- How a constructor ends (polymorphic_allocator.hpp:355-380). -/
inductive Outcome (α : Type)
  | ok (a : α)
  | threw
  | terminated
deriving DecidableEq, Repr

/-- A function with a `noexcept` specification (polymorphic_allocator.hpp:355-380). -/
def guarded {α : Type} (isNoexcept throws : Bool) (a : α) : Outcome α := match throws, isNoexcept with
  | false, _ => .ok a
  | true, false => .threw
  | true, true => .terminated

/-- The copy constructor (polymorphic_allocator.hpp:356): `noexcept` if *moving* the wrapped allocator is. -/
def copyCtor (U : Upstream A) (a : Alloc A) : Outcome (Alloc A) := guarded U.nothrowMove (U.copyThrows a.inner) ⟨a.inner⟩

/-- The move constructor (polymorphic_allocator.hpp:357): `noexcept` if *copying* the wrapped allocator is. The second component is the
source afterwards. -/
def moveCtor (U : Upstream A) (a : Alloc A) : Outcome (Alloc A × Alloc A) :=
  guarded U.nothrowCopy (U.moveThrows a.inner) (⟨a.inner⟩, ⟨U.movedFrom a.inner⟩)

/-- Construction from the wrapped allocator (polymorphic_allocator.hpp:369-371). -/
def fromUpstream (U : Upstream A) (a : A) : Outcome (Alloc A) := guarded U.nothrowCopy (U.copyThrows a) ⟨a⟩

/-- Construction by moving the wrapped allocator (polymorphic_allocator.hpp:373-375). -/
def fromUpstreamMove (U : Upstream A) (a : A) : Outcome (Alloc A) := guarded U.nothrowMove (U.moveThrows a) ⟨a⟩

/-- The converting constructor (polymorphic_allocator.hpp:363-367). -/
def convert (U : Upstream A) (a : Alloc A) : Alloc A := ⟨U.conv a.inner⟩

/-- `allocate(n)` (polymorphic_allocator.hpp:382-384): the wrapped allocator hands out the block at `p` (not null, not in use), the result is made
an `offset_ptr` at `self`. `none`: the wrapped allocator does not do that. -/
def allocate (U : Upstream A) (a : Alloc A) (n : Nat) (p self : Addr) (h : Heap) : Option (Heap × OPtr) :=
  if p = 0 ∨ (h p).isSome then none
  else some ((fun x => if x = p then some (U.src a.inner, n) else h x), .make self p)

/-- `deallocate(ptr, n)` (polymorphic_allocator.hpp:386-388). `none`: the wrapped allocator did not hand out that block with that size. -/
def deallocate (U : Upstream A) (a : Alloc A) (ptr : OPtr) (n : Nat) (h : Heap) : Option Heap :=
  if h ptr.get = some (U.src a.inner, n) then some fun x => if x = ptr.get then none else h x else none

/-- `select_on_container_copy_construction` (polymorphic_allocator.hpp:390-392). -/
def selectOnCopy (U : Upstream A) (a : Alloc A) : Alloc A := ⟨U.socc a.inner⟩

/-- `upstream_allocator()` (polymorphic_allocator.hpp:394-400). -/
def upstreamAllocator (a : Alloc A) : A := a.inner

/-- `swap` (polymorphic_allocator.hpp:402-407). -/
def swap (a b : Alloc A) : Alloc A × Alloc A := (⟨b.inner⟩, ⟨a.inner⟩)

/-- `operator==` (polymorphic_allocator.hpp:409). -/
def eq (U : Upstream A) (a b : Alloc A) : Bool := U.eqv a.inner b.inner

/-- The traits of the wrapper (polymorphic_allocator.hpp:339-342). -/
def traits (U : Upstream A) : Traits := ⟨U.traits.pocca, U.traits.pocma, U.traits.pocs, U.traits.alwaysEqual⟩

end Verif.OffsetPtr
