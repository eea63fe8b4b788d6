/-!
What containers can ask of the allocators that wrap other allocators: `limit_allocator`, `polymorphic_allocator` and `offset_ptr_stl_allocator`.

Containers use allocators through `std::allocator_traits`, which replaces members that an allocator class does not have: types by deduced ones, `construct` by a
placement new, `max_size` by what the size type permits. So a member that a wrapper does not declare is silently replaced although the wrapped allocator has
it. Modelled are the members the classes declare, what `allocator_traits` makes of them, and the arguments that reach the wrapped allocator, for any nesting
of the wrappers. That memory is returned where it is from is in `PolyAlloc`, `Limit`, `Containers`; what moving does to the wrappers in `Containers`.
-/
namespace Verif.AllocIface

/-- `allocator_traits::pointer` (limit_allocator.hpp:74, polymorphic_allocator.hpp:116, 228, 330). `fancy k bits`: a class number `k`, whose `difference_type` has `bits` bits. -/
inductive Ptr
  | raw
  | fancy (k bits : Nat)
deriving DecidableEq, Repr

/-- Bits of the unsigned type for `pointer_traits<pointer>::difference_type`, the default for `size_type` (used because polymorphic_allocator.hpp:115-119 has no `size_type`). -/
def Ptr.bits : Ptr → Nat
  | .raw => 64
  | .fancy _ b => b

/-- What the class of an allocator declares: the allocator that is wrapped (the parameter `Allocator` of limit_allocator.hpp:69, polymorphic_allocator.hpp:108, 225, 327).
`none`: it has no such member. -/
structure Decl where
  /-- which class it is -/
  id : Nat
  ptr : Ptr
  /-- bits of `size_type` -/
  sizeBits : Option Nat
  pocca : Option Bool
  pocma : Option Bool
  pocs : Option Bool
  alwaysEqual : Option Bool
  /-- `std::is_empty` -/
  empty : Bool
  maxSize : Option Nat
  /-- what `construct` does with an element; the number stands for any function -/
  construct : Option Nat
  destroy : Option Nat
  /-- has `allocate(n, hint)` -/
  hint : Bool
  defaultCtor : Bool
  /-- can be made from the same allocator for other objects -/
  converts : Bool
  /-- `select_on_container_copy_construction`, if there is one, compiles -/
  selects : Bool
deriving DecidableEq, Repr

/-- `std::allocator` (the default at limit_allocator.hpp:69, polymorphic_allocator.hpp:327). -/
def std : Decl := ⟨0, .raw, some 64, none, some true, none, some true, true, none, none, none, false, true, true, true⟩

/-- An allocator: a class of the user, or one of the wrappers around an allocator (limit_allocator.hpp:69-170, polymorphic_allocator.hpp:108-223, 225-319, 327-411).
`poly before a after`: it holds an `a`, and the classes before and behind it in the list of `Allocators`; `poly [] a []` is the version for one allocator. -/
inductive Al
  | base (d : Decl)
  | limit (sync : Bool) (a : Al)
  | poly (before : List Decl) (a : Al) (after : List Decl)
  | offset (a : Al)
deriving Repr

/-! ## Types -/

/-- The type `pointer`: forwarded (limit_allocator.hpp:74, polymorphic_allocator.hpp:116, 228), or `offset_ptr` with `ptrdiff_t` (330, 335). -/
def ptr : Al → Ptr
  | .base d => d.ptr
  | .limit _ a => ptr a
  | .poly _ a _ => ptr a
  | .offset _ => .fancy 0 64

/-- Bits of `allocator_traits::size_type` of a class of the user (for limit_allocator.hpp:78, polymorphic_allocator.hpp:179-189, 284-290, 334). -/
def Decl.bits (d : Decl) : Nat := d.sizeBits.getD d.ptr.bits

/-- Bits of `allocator_traits::size_type`: forwarded (limit_allocator.hpp:78), not declared (polymorphic_allocator.hpp:115-124, 227-236), or `size_t` (334). -/
def bits : Al → Nat
  | .base d => d.bits
  | .limit _ a => bits a
  | .poly _ a _ => (ptr a).bits
  | .offset _ => 64

/-- `same_type<Ts...>::type` (polymorphic_allocator.hpp:41-53); `none`: a `static_assert` fails or there is no definition. -/
def sameType {τ : Type} [DecidableEq τ] : List τ → Option τ
  | [] => none
  | [t] => some t
  | t1 :: t2 :: ts => if t1 = t2 then sameType (t2 :: ts) else none

/-- The class can be instantiated with `pointer` of all allocators the same (polymorphic_allocator.hpp:115-119), and its functions with what `offset_ptr` can be
made of (polymorphic_allocator.hpp:382-388: `pointer{...}` and `to_address` work with raw pointers). -/
def wellFormed : Al → Bool
  | .base _ => true
  | .limit _ a => wellFormed a
  | .poly bs a as => wellFormed a && (sameType (bs.map (·.ptr) ++ ptr a :: as.map (·.ptr))).isSome
  | .offset a => wellFormed a && ptr a == .raw

/-! ## Propagation -/

/-- The traits for propagation, after `allocator_traits` (limit_allocator.hpp:81-83, polymorphic_allocator.hpp:121-123, 233-235, 338-340). -/
structure Poc where
  copy : Bool
  move : Bool
  swap : Bool
deriving DecidableEq, Repr

/-- `allocator_traits` of a class of the user: `false_type` if missing (for limit_allocator.hpp:81-83, polymorphic_allocator.hpp:121-123, 233-235, 338-340). -/
def Decl.poc (d : Decl) : Poc := ⟨d.pocca.getD false, d.pocma.getD false, d.pocs.getD false⟩

/-- The traits (limit_allocator.hpp:81-83, polymorphic_allocator.hpp:121-123, 233-235, 338-340): forwarded, for several allocators only if all have them. -/
def poc : Al → Poc
  | .base d => d.poc
  | .limit _ a => poc a
  | .poly bs a as =>
    ⟨(poc a).copy && (bs ++ as).all (·.poc.copy), (poc a).move && (bs ++ as).all (·.poc.move), (poc a).swap && (bs ++ as).all (·.poc.swap)⟩
  | .offset a => poc a

/-- `allocator_traits::is_always_equal`: `is_empty` if missing (for polymorphic_allocator.hpp:236, 341). -/
def Decl.always (d : Decl) : Bool := d.alwaysEqual.getD d.empty

/-- `is_always_equal` (limit_allocator.hpp:84, polymorphic_allocator.hpp:124, 236, 341). -/
def always : Al → Bool
  | .base d => d.always
  | .limit _ _ => false
  | .poly [] a [] => always a
  | .poly _ _ _ => false
  | .offset a => always a

/-! ## Memory -/

/-- The member `allocate(size_t)` (limit_allocator.hpp:139-148, polymorphic_allocator.hpp:179-183, 284-286, 382-384). It calls `allocator_traits::allocate` of the wrapped allocator, whose parameter has
its `size_type`. The result is the number of objects that the innermost allocator is asked for. -/
def member : Al → Nat → Nat
  | .base _, n => n
  | .limit _ a, n => member a (n % 2 ^ 64 % 2 ^ bits a)
  | .poly _ a _, n => member a (n % 2 ^ 64 % 2 ^ bits a)
  | .offset a, n => member a (n % 2 ^ 64 % 2 ^ bits a)

/-- `allocator_traits::allocate(a, n)` (called at limit_allocator.hpp:143, polymorphic_allocator.hpp:181, 285, 383, and by containers). -/
def allocate (a : Al) (n : Nat) : Nat := member a (n % 2 ^ bits a)

/-- `allocator_traits::max_size` for objects of `size` bytes: the wrappers have no `max_size`, so it is what the size type permits (limit_allocator.hpp:70-170, polymorphic_allocator.hpp:108-223,
226-319, 328-411). -/
def maxSize (size : Nat) : Al → Nat
  | .base d => d.maxSize.getD ((2 ^ d.bits - 1) / size) % 2 ^ d.bits
  | a => (2 ^ bits a - 1) / size

/-- The result of obtaining memory for `n` objects in a container like `std::vector` (client of limit_allocator.hpp:139-148, polymorphic_allocator.hpp:179-183, 284-286, 382-384). -/
inductive Got
  /-- `std::length_error` -/
  | tooLong
  /-- a block for that many objects -/
  | block (n : Nat)
deriving DecidableEq, Repr

/-- `reserve(n)` of a vector of objects of `size` bytes: it checks `max_size`, then allocates (client of limit_allocator.hpp:139-148, polymorphic_allocator.hpp:179-183, 284-286, 382-384). -/
def reserve (size : Nat) (a : Al) (n : Nat) : Got :=
  if n ≤ min ((2 ^ 63 - 1) / size) (maxSize size a) then .block (allocate a n) else .tooLong

/-- Whether a hint given to `allocator_traits::allocate(a, n, hint)` reaches the innermost allocator: the wrappers have no such member
(limit_allocator.hpp:139, polymorphic_allocator.hpp:179, 284, 382). -/
def hinted : Al → Bool
  | .base d => d.hint
  | _ => false

/-! ## Elements -/

/-- How a container makes or destroys an element: with the function of the allocator, or with placement new and the destructor (client of limit_allocator.hpp:70-170,
polymorphic_allocator.hpp:108-223, 226-319, 328-411). -/
inductive Way
  | byAllocator (f : Nat)
  | plain
deriving DecidableEq, Repr

/-- The function of a class of the user, if there is one (for limit_allocator.hpp:70-170, polymorphic_allocator.hpp:108-223, 226-319, 328-411). -/
def way : Option Nat → Way
  | some f => .byAllocator f
  | none => .plain

/-- `allocator_traits::construct`: the wrappers have no `construct` (limit_allocator.hpp:70-170, polymorphic_allocator.hpp:108-223, 226-319, 328-411). -/
def construct : Al → Way
  | .base d => way d.construct
  | _ => .plain

/-- `allocator_traits::destroy`: the wrappers have no `destroy` (limit_allocator.hpp:70-170, polymorphic_allocator.hpp:108-223, 226-319, 328-411). -/
def destroy : Al → Way
  | .base d => way d.destroy
  | _ => .plain

/-! ## Constructors -/

/-- What becomes of an initialization (limit_allocator.hpp:118-122, polymorphic_allocator.hpp:160-168, 271-274, 363-367). -/
inductive Init
  | ok
  /-- no constructor fits -/
  | noConstructor
  /-- a constructor is selected, but its definition does not compile -/
  | broken
deriving DecidableEq, Repr

/-- Making a `limit_allocator<T, A, dst>` from a `limit_allocator<U, A, src>` const. `same`: `T` is `U`. The template has `limit_allocator<U, Allocator>` as parameter, that is `sync`
(limit_allocator.hpp:68-69, 111, 118-122); its body copies the pointer to the control block, of type `limit_allocator_control_block<syncness>` (28-58, 95). `inner`: the upstream
allocator can be made. -/
def limitFrom (same src dst inner : Bool) : Init :=
  if same && src == dst then .ok
  else if src then (if dst && inner then .ok else .broken)
  else .noConstructor

/-- Can an allocator be made from the same one for other objects? Containers like `std::list` and `std::map` do that (limit_allocator.hpp:118-122,
polymorphic_allocator.hpp:160-168, 271-274, 363-367). For `polymorphic_allocator`, the visitor is instantiated for all alternatives. -/
def converts : Al → Bool
  | .base d => d.converts
  | .limit sync a => limitFrom false sync sync (converts a) == .ok
  | .poly bs a as => converts a && (bs ++ as).all (·.converts)
  | .offset a => converts a

/-- `std::is_default_constructible` (limit_allocator.hpp:97-116 has no default constructor, polymorphic_allocator.hpp:143, 251, 355). For several allocators the first is constructed. -/
def defaultCtor : Al → Bool
  | .base d => d.defaultCtor
  | .limit _ _ => false
  | .poly [] a _ => defaultCtor a
  | .poly (b :: _) _ _ => b.defaultCtor
  | .offset a => defaultCtor a

/-- Does `allocator_traits::select_on_container_copy_construction` compile? Copying a container calls it. `limit_allocator` uses a private constructor that requires a
default constructible upstream allocator (limit_allocator.hpp:98-102, 155-157); polymorphic_allocator.hpp:200-206, 301-303, 390-392. -/
def selects : Al → Bool
  | .base d => d.selects
  | .limit _ a => defaultCtor a && selects a
  | .poly bs a as => selects a && (bs ++ as).all (·.selects)
  | .offset a => selects a

/-! ## Lookups -/

/-- `holds_allocator<X>()` for an allocator with the classes `types`, holding number `held` (polymorphic_allocator.hpp:211-222, 308-319). One: comparison of types; two: `holds_alternative` of
`variant2` (variant2.hpp:788-795, selected at polymorphic_allocator.hpp:86-93); more: that of `std::variant`, which demands that `X` occurs once. `none`: ill-formed. -/
def holdsAllocator {τ : Type} [DecidableEq τ] (types : List τ) (held : Nat) (x : τ) : Option Bool := match types with
  | [] => none
  | [t] => some (x = t)
  | [t, u] => some (if x = t ∨ x = u then held == (if x = t then 0 else 1) else false)
  | ts => if ts.count x = 1 then some (held == ts.idxOf x) else none

/-! ## Swapping containers -/

/-- Two containers may be swapped if the trait says that their allocators are swapped too, or the allocators are equal ([container.alloc.reqmts]; client of
limit_allocator.hpp:83, polymorphic_allocator.hpp:123, 235, 340). -/
def maySwap (propagates equal : Bool) : Bool := propagates || equal

end Verif.AllocIface
