/-! Model of the literal suffixes of `stdint.hpp`. -/
namespace Verif.StdInt

/-- The target types; `usize`/`uptr` and `isize`/`iptr` have the width of `size_t`/`uintptr_t` on a 64-bit platform (stdint.hpp:9-67). -/
inductive Ty where
  | u8 | i8 | u16 | i16 | u32 | i32 | u64 | i64 | usize | isize | uptr | iptr
  deriving DecidableEq, Repr

/-- Is the return type signed? (stdint.hpp:9-67) -/
def Ty.signed : Ty → Bool
  | .i8 | .i16 | .i32 | .i64 | .isize | .iptr => true
  | _ => false

/-- Width of the return type. (stdint.hpp:9-67) -/
def Ty.width : Ty → Nat
  | .u8 | .i8 => 8
  | .u16 | .i16 => 16
  | .u32 | .i32 => 32
  | _ => 64

/-- `static_cast<Ty>(value)` of an `unsigned long long` (stdint.hpp:10,18,22,30,34,38,42,46,50,58,62,66): keep the low bits
and read them in the target type. -/
def lit (t : Ty) (value : BitVec 64) : Int :=
  let bits : BitVec t.width := value.setWidth t.width
  if t.signed then bits.toInt else bits.toNat

end Verif.StdInt
