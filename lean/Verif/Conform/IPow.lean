import Verif.IPow.Props

/-!
The randomised test of `ipow` in tests/tests_ipow.cpp compares it with a naive reference on ten thousand random arguments. Here the
reference and the body of the test are modelled, and it is proved that the body passes for all arguments, hence for all seeds.
-/
namespace Verif.Conform.IPow

open Verif.IPow

/-- `ref_ipow_result` (tests/tests_ipow.cpp:45-51): outcome and value; the value only exists if the outcome is `representable`. -/
inductive Outcome where
  | representable (value : Int)
  | overflows
  | underflows
  deriving DecidableEq, Repr

/-- The loop of `ref_ipow` (tests/tests_ipow.cpp:90-96) with `n` steps to go, in `unsigned __int128`; `none` is the early return. -/
def refLoop (abs bound : Nat) : Nat → Nat → Option Nat
  | 0, magnitude => some magnitude
  | n + 1, magnitude =>
    let m := magnitude * abs % 2 ^ 128
    if bound < m then none else refLoop abs bound n m

/-- `ref_ipow` (tests/tests_ipow.cpp:65-102). Simplified: `exp` is not limited to 64 bits. -/
def refIPow (ty : IntTy) (base exp : Int) : Outcome :=
  if exp < 0 then
    if base = 1 then .representable 1
    else if ty.signed && decide (base = -1) then .representable (if exp.tmod 2 ≠ 0 then -1 else 1)
    else .representable 0
  else
    let negative := ty.signed && decide (base < 0) && decide (exp.tmod 2 ≠ 0)
    let bound := if negative then (-ty.lo).toNat else ty.hi.toNat
    match refLoop base.natAbs bound exp.toNat 1 with
    | none => if negative then .underflows else .overflows
    | some m => .representable (if negative then -(m : Int) else m)

/-- One round of `check_random` (tests/tests_ipow.cpp:137-165) for a given base and exponent: do all `REQUIRE`s hold? `int` is the type of
the exponent, `unsigned` the type it is cast to (for a negative exponent the value wraps). -/
def roundPasses (ty : IntTy) (base exp : Int) : Bool :=
  match refIPow ty base exp with
  | .representable v =>
    decide (ipow ty ⟨32, true⟩ base exp = .ok v) && (decide (exp < 0) || decide (ipow ty ⟨32, false⟩ base (exp % 2 ^ 32) = .ok v))
  | .overflows => decide (ipow ty ⟨32, true⟩ base exp = .error .overflow) && decide (ipow ty ⟨32, false⟩ base (exp % 2 ^ 32) = .error .overflow)
  | .underflows => decide (ipow ty ⟨32, true⟩ base exp = .error .underflow) && decide (ipow ty ⟨32, false⟩ base (exp % 2 ^ 32) = .error .underflow)

theorem refLoop_eq (a b : Nat) (h : b * a < 2 ^ 128) (n m : Nat) (hm : m ≤ b) :
    refLoop a b n m = if b < m * a ^ n then none else some (m * a ^ n) := by
  induction n generalizing m with
  | zero => simp [refLoop, Nat.not_lt.2 hm]
  | succ n ih =>
    have h1 : m * a < 2 ^ 128 := lt_of_le_of_lt (Nat.mul_le_mul_right a hm) h
    simp only [refLoop, Nat.mod_eq_of_lt h1]
    have h2 : m * a ^ (n + 1) = m * a * a ^ n := by ring
    by_cases h3 : b < m * a
    · have h4 : 0 < a := Nat.pos_of_ne_zero fun e => by subst e; omega
      have h5 : m * a ≤ m * a * a ^ n := Nat.le_mul_of_pos_right _ (Nat.pow_pos h4)
      rw [if_pos h3, if_pos (by rw [h2]; omega)]
    · rw [if_neg h3, ih _ (by omega), h2]

/-- For every integer type of at most 64 bits, every base and every exponent, `ipow` returns exactly what the naive reference of the test suite
computes: the same value, or the exception of the same direction. -/
theorem ipow_eq_reference (ty ety : IntTy) (h2 : 2 ≤ ty.width) (h64 : ty.width ≤ 64) (base exp : Int)
    (hb : ty.lo ≤ base ∧ base ≤ ty.hi) (he : exp < 0 → ety.signed = true) :
    ipow ty ety base exp = match refIPow ty base exp with
      | .representable v => .ok v
      | .overflows => .error .overflow
      | .underflows => .error .underflow := by
  by_cases hn : exp < 0
  · simp only [refIPow, ipow, hn, he hn, if_true, decide_true, Bool.and_true]
    split
    · rfl
    · split <;> rfl
  · obtain ⟨e, rfl⟩ : ∃ e : Nat, exp = e := ⟨exp.toNat, by omega⟩
    rw [ipow_exact_or_error ty ety h2 base e hb]
    have hmod : (e : Int).tmod 2 = ((e % 2 : Nat) : Int) := rfl
    have hlo : -ty.lo ≤ 2 ^ 63 := by
      simp only [IntTy.lo]; split
      · have : (2 : Int) ^ (ty.width - 1) ≤ 2 ^ 63 := pow_le_pow_right₀ (by norm_num) (by omega)
        omega
      · norm_num
    have hhi : ty.hi < 2 ^ 64 := by
      simp only [IntTy.hi]; split
      · have : (2 : Int) ^ (ty.width - 1) ≤ 2 ^ 63 := pow_le_pow_right₀ (by norm_num) (by omega)
        omega
      · have : (2 : Int) ^ ty.width ≤ 2 ^ 64 := pow_le_pow_right₀ (by norm_num) h64
        omega
    have hlo0 := lo_nonpos ty
    have hhi0 := hi_nonneg ty
    have hsg : base < 0 → ty.signed = true := fun h => by
      by_contra hc
      have : ty.lo = 0 := by simp [IntTy.lo, hc]
      omega
    have habs : base.natAbs < 2 ^ 64 := by omega
    have hhi1 : 1 ≤ ty.hi := by
      simp only [IntTy.hi]; split
      · have : (2 : Int) ^ 1 ≤ 2 ^ (ty.width - 1) := pow_le_pow_right₀ (by norm_num) (by omega)
        omega
      · have : (2 : Int) ^ 2 ≤ 2 ^ ty.width := pow_le_pow_right₀ (by norm_num) h2
        omega
    have hcast : ((base.natAbs ^ e : Nat) : Int) = |base ^ e| := by rw [← Int.natAbs_pow]; simp
    simp only [refIPow, hn, if_false, Int.toNat_natCast]
    by_cases hneg : base < 0 ∧ e % 2 = 1
    · have ho : Odd e := Nat.odd_iff.2 hneg.2
      have hp : base ^ e < 0 := ho.pow_neg hneg.1
      have hlo1 : 1 ≤ -ty.lo := by omega
      have hN : (ty.signed && decide (base < 0) && decide ((e : Int).tmod 2 ≠ 0)) = true := by
        simp [hsg hneg.1, hneg.1, hmod, hneg.2]
      simp only [hN, if_true]
      rw [refLoop_eq _ _ (by
        calc (-ty.lo).toNat * base.natAbs ≤ 2 ^ 63 * base.natAbs := Nat.mul_le_mul_right _ (by omega)
          _ < 2 ^ 63 * 2 ^ 64 := by omega
          _ < 2 ^ 128 := by norm_num) _ _ (by omega), one_mul]
      rw [abs_of_neg hp] at hcast
      by_cases hx : (-ty.lo).toNat < base.natAbs ^ e
      · have : base ^ e < ty.lo := by omega
        simp [hx, this]
      · have : ¬ base ^ e < ty.lo := by omega
        have h' : ¬ ty.hi < base ^ e := by omega
        simp only [hx, this, h', if_false, hcast, neg_neg]
    · have hp : 0 ≤ base ^ e := by
        by_cases h0 : base < 0
        · have : Even e := Nat.even_iff.2 (by have := fun h => hneg ⟨h0, h⟩; omega)
          exact this.pow_nonneg base
        · exact pow_nonneg (by omega) e
      have hN : (ty.signed && decide (base < 0) && decide ((e : Int).tmod 2 ≠ 0)) = false := by
        rw [hmod]
        by_cases h0 : base < 0
        · have : e % 2 = 0 := by have := fun h => hneg ⟨h0, h⟩; omega
          simp [this]
        · simp [h0]
      simp only [hN, Bool.false_eq_true, if_false]
      rw [refLoop_eq _ _ (by
        have h1 : ty.hi.toNat ≤ 2 ^ 64 - 1 := by omega
        have h2 : base.natAbs ≤ 2 ^ 64 - 1 := by omega
        calc ty.hi.toNat * base.natAbs ≤ (2 ^ 64 - 1) * (2 ^ 64 - 1) := Nat.mul_le_mul h1 h2
          _ < 2 ^ 128 := by norm_num) _ _ (by omega), one_mul]
      rw [abs_of_nonneg hp] at hcast
      have : ¬ base ^ e < ty.lo := by omega
      by_cases hx : ty.hi.toNat < base.natAbs ^ e
      · have h' : ty.hi < base ^ e := by omega
        simp [hx, this, h']
      · have h' : ¬ ty.hi < base ^ e := by omega
        simp only [hx, this, h', if_false, hcast]

example : refIPow ⟨8, true⟩ (-2) 7 = .representable (-128) ∧ refIPow ⟨8, true⟩ (-2) 8 = .overflows ∧
    refIPow ⟨8, true⟩ (-3) 5 = .underflows ∧ refIPow ⟨64, false⟩ 3 40 = .representable 12157665459056928801 := by decide +kernel

/-- The randomised test passes whatever base and exponent are drawn, for every type it is instantiated with. -/
theorem random_test_passes (ty : IntTy) (h2 : 2 ≤ ty.width) (h64 : ty.width ≤ 64) (base exp : Int) (hb : ty.lo ≤ base ∧ base ≤ ty.hi)
    (he : exp < 2 ^ 31) : roundPasses ty base exp = true := by
  have hs := ipow_eq_reference ty ⟨32, true⟩ h2 h64 base exp hb (fun _ => rfl)
  have hu : ¬ exp < 0 → ipow ty ⟨32, false⟩ base (exp % 2 ^ 32) = ipow ty ⟨32, true⟩ base exp := fun hn => by
    rw [Int.emod_eq_of_lt (by omega) (by omega), hs]
    exact ipow_eq_reference ty ⟨32, false⟩ h2 h64 base exp hb (fun h => absurd h hn)
  have hneg : exp < 0 → ∃ v, refIPow ty base exp = .representable v := fun hn => by
    simp only [refIPow, hn, if_true]
    split
    · exact ⟨_, rfl⟩
    · split <;> exact ⟨_, rfl⟩
  unfold roundPasses
  cases hr : refIPow ty base exp with
  | representable v =>
    rw [hr] at hs
    by_cases hn : exp < 0
    · simp [hs, hn]
    · simp only [hu hn, hs]; simp
  | overflows =>
    rw [hr] at hs
    have hn : ¬ exp < 0 := fun h => by obtain ⟨v, hv⟩ := hneg h; rw [hv] at hr; cases hr
    simp only [hu hn, hs]; simp
  | underflows =>
    rw [hr] at hs
    have hn : ¬ exp < 0 := fun h => by obtain ⟨v, hv⟩ := hneg h; rw [hv] at hr; cases hr
    simp only [hu hn, hs]; simp

example : (2 : Nat) ≤ (⟨8, true⟩ : IntTy).width ∧ (⟨8, true⟩ : IntTy).lo ≤ -3 ∧ roundPasses ⟨8, true⟩ (-3) 130 = true ∧
    roundPasses ⟨8, true⟩ (-3) (-8) = true := by decide +kernel

/-! The remaining cases of tests/tests_ipow.cpp, run through the model. -/

/-- The arguments of `check` (tests/tests_ipow.cpp:15-43) for unsigned and signed types, with the expected values. -/
def table : List (Int × Int × Int) :=
  [(5, 2, 25), (255, 2, 65025), (255, 3, 16581375), (127, 2, 16129), (127, 3, 2048383), (0, 0, 1), (0, 1, 0), (1, 0, 1), (2, 0, 1), (0, 2, 0), (2, 1, 2)]

/-- The further arguments for signed types (tests/tests_ipow.cpp:30-37). -/
def signedTable : List (Int × Int × Int) := [(-1, 0, 1), (1, -1, 1), (-1, 2, 1), (-1, 3, -1), (1, -2, 1), (2, -2, 0)]

-- tests_ipow.cpp:183-190
example : ∀ ty ∈ [(⟨64, false⟩ : IntTy), ⟨32, false⟩, ⟨32, true⟩, ⟨64, true⟩], ∀ r ∈ table, ipow ty ⟨32, true⟩ r.1 r.2.1 = .ok r.2.2 := by decide +kernel

example : ∀ ty ∈ [(⟨32, true⟩ : IntTy), ⟨64, true⟩], ∀ r ∈ signedTable, ipow ty ⟨32, true⟩ r.1 r.2.1 = .ok r.2.2 := by decide +kernel

-- tests_ipow.cpp:192-203
example : ipow ⟨32, true⟩ ⟨32, true⟩ 99999 2 = .error .overflow ∧ ipow ⟨32, true⟩ ⟨32, true⟩ (-99999) 2 = .error .overflow ∧
    ipow ⟨32, true⟩ ⟨32, true⟩ (-9999) 3 = .error .underflow ∧ ipow ⟨32, true⟩ ⟨32, true⟩ (-100) 9 = .error .underflow ∧
    ipow ⟨32, true⟩ ⟨32, true⟩ (-1000) 4 = .error .overflow ∧ ipow ⟨64, true⟩ ⟨32, true⟩ (-2000000) 5 = .error .underflow ∧
    ipow ⟨64, false⟩ ⟨32, true⟩ 9999999999 2 = .error .overflow := by decide +kernel

end Verif.Conform.IPow
