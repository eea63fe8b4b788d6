import Verif.StdInt.Model

/-! Property C26 of the literal suffixes. -/
namespace Verif.StdInt

/-- The least and the greatest value of each type, written out. -/
def minVal : Ty → Int
  | .u8 | .u16 | .u32 | .u64 | .usize | .uptr => 0
  | .i8 => -128
  | .i16 => -32768
  | .i32 => -2147483648
  | .i64 | .isize | .iptr => -9223372036854775808

def maxVal : Ty → Int
  | .u8 => 255
  | .u16 => 65535
  | .u32 => 4294967295
  | .u64 | .usize | .uptr => 18446744073709551615
  | .i8 => 127
  | .i16 => 32767
  | .i32 => 2147483647
  | .i64 | .isize | .iptr => 9223372036854775807

/-- The values of a type. -/
def InRange (t : Ty) (x : Int) : Prop := minVal t ≤ x ∧ x ≤ maxVal t

/-- How many values the type has. -/
def card (t : Ty) : Int := maxVal t - minVal t + 1

/-- **C26.** The result is a value of the target type and congruent to the literal modulo the number of values of the
type. -/
theorem lit_congruent (t : Ty) (v : BitVec 64) : InRange t (lit t v) ∧ (lit t v - v.toNat) % card t = 0 := by
  have hv := v.isLt
  cases t <;> simp only [lit, InRange, card, minVal, maxVal, Ty.signed, Ty.width, if_true, if_false, Bool.false_eq_true,
    BitVec.toInt_eq_toNat_bmod, BitVec.toNat_setWidth, Int.bmod_def] <;> refine ⟨?_, ?_⟩ <;> (try split) <;> simp at * <;> omega

example : lit .i8 200#64 = -56 := by simp [lit, Ty.signed, Ty.width]

/-- **C26.** That determines it: any value of the type congruent to the literal is the result. -/
theorem lit_unique (t : Ty) (v : BitVec 64) {x : Int} (hx : InRange t x) (hc : (x - v.toNat) % card t = 0) :
    lit t v = x := by
  obtain ⟨h1, h2⟩ := lit_congruent t v
  generalize lit t v = y at *
  cases t <;> simp [InRange, card, minVal, maxVal] at * <;> omega

example : InRange .i8 (-56) ∧ ((-56 : Int) - (200#64).toNat) % card .i8 = 0 := by
  simp [InRange, minVal, maxVal, Ty.signed, Ty.width, card]

/-- **C26.** A literal whose value is representable is unchanged. -/
theorem lit_representable (t : Ty) (v : BitVec 64) (h : InRange t v.toNat) : lit t v = v.toNat :=
  lit_unique t v h (by simp)

example : InRange .i8 (127#64).toNat ∧ InRange .u16 (65535#64).toNat ∧ lit .i8 200#64 = -56 ∧ lit .u8 300#64 = 44 := by
  simp [InRange, minVal, maxVal, Ty.signed, Ty.width, lit]

end Verif.StdInt
