import Verif.PtrTag.Model

/-!
Model of the typed side of `pointer_tag_pair.hpp`: construction from pointers of another type (pointer_tag_pair.hpp:18-19, 67-82), `bool` as
the type of the tag (21-22, 96-98), and decomposition with `get` (107-145).
-/
namespace Verif.PtrTag

/-- The implicit conversion of pointers of type `P` to `T *` (pointer_tag_pair.hpp:19: `std::convertible_to<Pointer, T *>`). `off p` is the
offset of the `T` in the object at address `p`: 0 for the same type up to qualifiers, for `void` and for the first base class; not
necessarily for other base classes; for virtual ones it depends on the object. -/
structure Conv where
  off : Word → Word

/-- The conversion: null pointers stay null (what pointer_tag_pair.hpp:19 asks for). -/
def Conv.apply (c : Conv) (p : Word) : Word := if p = 0 then 0 else p + c.off p

/-- `pointer_tag_pair{pointer, tag}` and `from_overaligned` for a pointer of type `P` (pointer_tag_pair.hpp:67-82): the bits of the pointer as it was given
are stored, it is not converted to `T *` before. -/
def mkFrom {k : Nat} (b : Nat) (_ : Conv) (p : Word) (t : BitVec k) : Option Pair := mk b p t

/-- Is the constructor available for pointees aligned to `align` (pointer_tag_pair.hpp:67-68, 75-76)? -/
def accepts (b align : Nat) : Bool := decide (b ≤ countrZero align)

/-- `static_cast<uintptr_t>(tag)` for `bool` (pointer_tag_pair.hpp:63, 70, 81). -/
def boolWord (t : Bool) : Word := if t then 1 else 0

/-- Construction with a `bool` as the tag (pointer_tag_pair.hpp:67-82). -/
def mkBool (b : Nat) (p : Word) (t : Bool) : Option Pair :=
  if p &&& tagMask b = 0 ∧ boolWord t ≤ tagMask b then some ⟨p ||| boolWord t⟩ else none

/-- `tag()` for `bool`: any non-zero value is `true` (pointer_tag_pair.hpp:96-98). -/
def tagBool (b : Nat) (v : Pair) : Bool := (v.value &&& tagMask b) != 0

/-- The parts of a decomposed pair (pointer_tag_pair.hpp:107-115). -/
inductive Part (k : Nat)
  | ptr (p : Word)
  | tag (t : BitVec k)
deriving DecidableEq

/-- `get<I>` (pointer_tag_pair.hpp:107-115); `none`: ill-formed, since `tuple_element` has only two elements (128-145). -/
def get (k b i : Nat) (v : Pair) : Option (Part k) := match i with
  | 0 => some (.ptr (pointer b v))
  | 1 => some (.tag (tag k b v))
  | _ => none

/-- `std::tuple_size` (pointer_tag_pair.hpp:118-125). -/
def tupleSize : Nat := 2

/-- `auto [a, b, ...] = pair;` (pointer_tag_pair.hpp:107-145). -/
def decompose (k b : Nat) (v : Pair) : List (Option (Part k)) := (List.range tupleSize).map fun i => get k b i v

end Verif.PtrTag
