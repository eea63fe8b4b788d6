import Verif.Layout.Model
import Verif.Inplace.LayoutModel

/-!
Model of the size and the member offsets of the classes variant2, static_string, flex_array, inplace_polymorphic, limit_allocator,
offset_ptr_stl_allocator, pointer_tag_pair, mutex and mutex_guard, from their member declarations by the layout rules of the Itanium C++ ABI on
a 64 bit platform. Simplified: a nonempty `[[no_unique_address]]` member counts with its whole `sizeof` (it is the last member in all these
classes, so that nothing could be put into its tail padding), and an empty one never has to be displaced from offset 0 (that happens only if
the first member begins with an object of the same type).
-/
namespace Verif.Layout.Size

/-- A member declaration: the `sizeof` and `alignof` of its type, and whether it is an empty class declared `[[no_unique_address]]`
(static_string.hpp:33-35, limit_allocator.hpp:95-96, variant2.hpp:192-196). -/
structure Member where
  ty : Elem
  free : Bool
deriving DecidableEq, Repr

/-- A member that takes up space (static_string.hpp:33). -/
def plain (t : Elem) : Member := ⟨t, false⟩

/-- A `[[no_unique_address]]` member of the type `t`; `empty` is `std::is_empty_v<t>` (static_string.hpp:35, limit_allocator.hpp:96,
polymorphic_allocator.hpp:352). -/
def nua (t : Elem) (empty : Bool) : Member := ⟨t, empty⟩

/-- The offsets of the members if `d` bytes are in use already, and the bytes in use afterwards (layout rule for variant2.hpp:192-196,
static_string.hpp:33-35, flex_array.hpp:62-63). -/
def place (d : Nat) : List Member → List Nat × Nat
  | [] => ([], d)
  | m :: ms =>
    if m.free then ((0 :: (place d ms).1), (place d ms).2)
    else
      let o := alignUp d m.ty.align
      ((o :: (place (o + m.ty.size) ms).1), (place (o + m.ty.size) ms).2)

/-- The offsets of the members (layout rule for variant2.hpp:192-196, static_string.hpp:33-35, flex_array.hpp:62-63). -/
def offsets (ms : List Member) : List Nat := (place 0 ms).1

/-- `alignof` the class (layout rule for variant2.hpp:192-196, static_string.hpp:33-35, flex_array.hpp:62-63). -/
def alignOf (ms : List Member) : Nat := (ms.map fun m => m.ty.align).foldr max 1

/-- `sizeof` the class: the bytes in use, and not less than an empty member needs at offset 0 (layout rule for variant2.hpp:192-196,
static_string.hpp:33-35, flex_array.hpp:62-63). -/
def sizeOf (ms : List Member) : Nat :=
  alignUp (max (max 1 (place 0 ms).2) ((ms.map fun m => if m.free then m.ty.size else 0).foldr max 0)) (alignOf ms)

/-- `sizeof` and `alignof` the class (layout rule for variant2.hpp:192-196, static_string.hpp:33-35, flex_array.hpp:62-63). -/
def cls (ms : List Member) : Elem := ⟨sizeOf ms, alignOf ms⟩

/-- A machine word: a pointer, `size_t`, `uintptr_t` (static_string.hpp:33-34, pointer_tag_pair.hpp:47). -/
def word : Elem := ⟨8, 8⟩

/-- A one byte enumeration or `bool` (variant2.hpp:186, inplace_polymorphic.hpp:76). -/
def byte : Elem := ⟨1, 1⟩

/-- The anonymous union of `a_` and `b_` (variant2.hpp:192-195). -/
def union (t u : Elem) : Elem := ⟨alignUp (max t.size u.size) (max t.align u.align), max t.align u.align⟩

/-- The members of `variant2<T, U>` (variant2.hpp:192-196). -/
def variant2 (t u : Elem) : List Member := [plain (union t u), plain byte]

/-- The members of `basic_static_string` with an allocator with raw pointers (static_string.hpp:33-35). -/
def staticString (alloc : Elem) (empty : Bool) : List Member := [plain word, plain word, nua alloc empty]

/-- `std::array<T, n>`; for `n = 0` it is an empty class (flex_array.hpp:40, 63). -/
def array (t : Elem) (n : Nat) : Elem := if n = 0 then ⟨1, 1⟩ else ⟨n * t.size, t.align⟩

/-- The members of `flex_array<T, n>` (flex_array.hpp:39-40, 277; `inner_` is the only member of the outer class). -/
def flexStatic (t : Elem) (n : Nat) : List Member := [plain (array t n)]

/-- The members of `flex_array<T, dynamic_extent, n>` (flex_array.hpp:62-63, 277). -/
def flexLimited (t : Elem) (n : Nat) : List Member := [plain word, plain (array t n)]

/-- The members of `inplace_polymorphic<Base, Ts...>` (inplace_polymorphic.hpp:75-76). `Elem.size` of the storage need not be a multiple of
its alignment, which comes from `alignas`. -/
def inplace (ts : List Inplace.Cls) : List Member := [plain ⟨Inplace.storageSize ts, Inplace.storageAlign ts⟩, plain byte]

/-- The members of `limit_allocator` (limit_allocator.hpp:95-96); a `std::shared_ptr` is two words. -/
def limitAllocator (inner : Elem) (empty : Bool) : List Member := [plain ⟨16, 8⟩, nua inner empty]

/-- The members of `offset_ptr_stl_allocator` (polymorphic_allocator.hpp:352). -/
def offsetPtrAllocator (inner : Elem) (empty : Bool) : List Member := [nua inner empty]

/-- The members of `pointer_tag_pair` (pointer_tag_pair.hpp:47). -/
def pointerTagPair : List Member := [plain word]

/-- The members of `mutex<T, Mutex>` (mutex.hpp:79-80). -/
def mutex (t m : Elem) : List Member := [plain t, plain m]

/-- The members of `mutex_guard` (mutex.hpp:33-34); a `std::unique_lock` is a pointer and a `bool`. -/
def mutexGuard : List Member := [plain word, plain (cls [plain word, plain byte])]

end Verif.Layout.Size
