/-!
Model of `pointer_tag_pair.hpp`. Pointers are 64-bit addresses, `reinterpret_cast` between pointers and `uintptr_t` is the
identity. `b` is `BitsRequested`, `k` the width of the tag type (an unsigned integer, or an enumeration over one).
`bool` as the tag type and pointers to derived classes are modelled in `TypedModel.lean`.
-/
namespace Verif.PtrTag

/-- `uintptr_t` (pointer_tag_pair.hpp:47). -/
abbrev Word := BitVec 64

/-- pointer_tag_pair.hpp:43 -/
def ptrMask (b : Nat) : Word := BitVec.allOnes 64 <<< b

/-- pointer_tag_pair.hpp:44 -/
def tagMask (b : Nat) : Word := ((1 : Word) <<< b) - 1

/-- `std::countr_zero` as used by `taggable_bits_available` (pointer_tag_pair.hpp:24-35), for an alignment `≠ 0`. -/
def countrZero (a : Nat) : Nat :=
  if h : a ≠ 0 ∧ a % 2 = 0 then countrZero (a / 2) + 1 else 0
  termination_by a
  decreasing_by omega

/-- A pair; its only member is `value_` (pointer_tag_pair.hpp:47). -/
structure Pair where
  value : Word
  deriving DecidableEq, Repr

/-- pointer_tag_pair.hpp:60 -/
def dflt : Pair := ⟨0⟩

/-- `static_cast<uintptr_t>(tag)` (pointer_tag_pair.hpp:63, 70, 81). -/
def tagWord {k : Nat} (t : BitVec k) : Word := t.setWidth 64

/-- pointer_tag_pair.hpp:62-65; `none`: an assertion fails. -/
def mkNull {k : Nat} (b : Nat) (t : BitVec k) : Option Pair :=
  if tagWord t ≤ tagMask b then some ⟨tagWord t⟩ else none

/-- The pointer/tag constructor and `from_overaligned` (pointer_tag_pair.hpp:67-82). -/
def mk {k : Nat} (b : Nat) (p : Word) (t : BitVec k) : Option Pair :=
  if p &&& tagMask b = 0 ∧ tagWord t ≤ tagMask b then some ⟨p ||| tagWord t⟩ else none

/-- pointer_tag_pair.hpp:84-86 -/
def fromTagged (p : Word) : Pair := ⟨p⟩

/-- pointer_tag_pair.hpp:88-90 -/
def taggedPointer (v : Pair) : Word := v.value

/-- pointer_tag_pair.hpp:92-94 and `get<0>` (107-112) -/
def pointer (b : Nat) (v : Pair) : Word := v.value &&& ptrMask b

/-- pointer_tag_pair.hpp:96-98 and `get<1>` (107-115) -/
def tag (k b : Nat) (v : Pair) : BitVec k := (v.value &&& tagMask b).setWidth k

/-- pointer_tag_pair.hpp:100-102 -/
def swap (x y : Pair) : Pair × Pair := (y, x)

/-- The defaulted `<=>` and the `==` it implies (pointer_tag_pair.hpp:104). -/
def cmp (x y : Pair) : Ordering :=
  if x.value < y.value then .lt else if y.value < x.value then .gt else .eq

/-- `operator==`, implied by the defaulted `<=>` (pointer_tag_pair.hpp:104). -/
def eq (x y : Pair) : Bool := x.value == y.value

end Verif.PtrTag
