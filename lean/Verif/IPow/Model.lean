/-!
Model of `include/dice/template-library/ipow.hpp`.

Values of a C++ integer type are represented by the mathematical integer they denote; a value of type `ty` is an
`Int` for which `ty.inRange` holds.
-/
namespace Verif.IPow

/-- A C++ integer type: width in bits and signedness (two's complement). Models the `std::integral` type parameters
of ipow.hpp:18. Simplified: `bool` and character types (for which the function does not compile) are not included. -/
structure IntTy where
  width : Nat
  signed : Bool
  deriving DecidableEq, Repr

/-- Least value of the type (C++ `std::numeric_limits<T>::min()`), used by `__builtin_mul_overflow` in ipow.hpp:39. -/
def IntTy.lo (ty : IntTy) : Int := if ty.signed then -(2 ^ (ty.width - 1)) else 0

/-- Greatest value of the type (C++ `std::numeric_limits<T>::max()`), used by `__builtin_mul_overflow` in ipow.hpp:39. -/
def IntTy.hi (ty : IntTy) : Int := if ty.signed then 2 ^ (ty.width - 1) - 1 else 2 ^ ty.width - 1

/-- `x` is a value of the type (ipow.hpp:18, parameters `base`, `exp`). -/
def IntTy.inRange (ty : IntTy) (x : Int) : Prop := ty.lo ≤ x ∧ x ≤ ty.hi

instance (ty : IntTy) (x : Int) : Decidable (ty.inRange x) := inferInstanceAs (Decidable (_ ∧ _))

/-- The two exceptions of ipow.hpp:41 and ipow.hpp:43. -/
inductive Err where
  | underflow
  | overflow
  deriving DecidableEq, Repr

/-- ipow.hpp:37-46, the lambda `safe_mul`. `base` and `exp` are the captured *original* arguments. The GCC builtin
returns the exact product iff it is representable in the type of `out`. `exp % 2 != 0` is C++ truncated remainder. -/
def safeMul (ty : IntTy) (base exp : Int) (a b : Int) : Except Err Int :=
  if ty.inRange (a * b) then .ok (a * b)
  else if base < 0 ∧ exp.tmod 2 ≠ 0 then .error .underflow
  else .error .overflow

/-- ipow.hpp:51-63, the loop, with `result`, `acc` and the running exponent `e` as loop variables. The running
exponent is a natural number here because the loop is only reached with `exp >= 0` (negative exponents return at
ipow.hpp:23-33, and an unsigned `exp` cannot be negative). -/
def loop (ty : IntTy) (base exp : Int) (result acc : Int) (e : Nat) : Except Err Int :=
  if h : 0 < e then
    (if e % 2 = 1 then safeMul ty base exp result acc else .ok result).bind fun result' =>
    let e' := e / 2
    (if 0 < e' then safeMul ty base exp acc acc else .ok acc).bind fun acc' =>
    loop ty base exp result' acc' e'
  else .ok result
termination_by e
decreasing_by omega

/-- ipow.hpp:18-66, the function `ipow`, for a base of type `bty` and an exponent of type `ety`. -/
def ipow (bty ety : IntTy) (base exp : Int) : Except Err Int :=
  if ety.signed && decide (exp < 0) then
    if base = 1 then .ok 1
    else if bty.signed && decide (base = -1) then .ok (if exp.tmod 2 ≠ 0 then -1 else 1)
    else .ok 0
  else loop bty base exp 1 base exp.toNat

end Verif.IPow
