import Verif.IPow.Lemmas

/-!
Property C25: `ipow` returns the exact power or the right error.
-/
namespace Verif.IPow

/-- The bounds used in the statements below are those of the type: `x` lies between them iff some pattern of `width` bits,
read as a two's complement number if the type is signed and as a binary number otherwise, has the value `x`. -/
theorem range_exact (ty : IntTy) (hw : 1 ≤ ty.width) (x : Int) :
    (ty.lo ≤ x ∧ x ≤ ty.hi) ↔ ∃ b : BitVec ty.width, x = if ty.signed then b.toInt else b.toNat := by
  obtain ⟨w, s⟩ := ty
  obtain ⟨v, rfl⟩ : ∃ v, w = v + 1 := ⟨w - 1, by simp at hw; omega⟩
  have h2 : (2 : Int) ^ (v + 1) = 2 * 2 ^ v := by ring
  have hp : (0 : Int) < 2 ^ v := by positivity
  cases s
  · simp only [IntTy.lo, IntTy.hi, Bool.false_eq_true, if_false]
    constructor
    · rintro ⟨h, h'⟩
      refine ⟨BitVec.ofInt (v + 1) x, ?_⟩
      rw [BitVec.toNat_ofInt]
      have : x % ((2 ^ (v + 1) : Nat) : Int) = x := Int.emod_eq_of_lt h (by push_cast; omega)
      rw [this]; omega
    · rintro ⟨b, rfl⟩
      have := b.isLt
      have h3 : ((b.toNat : Nat) : Int) < ((2 ^ (v + 1) : Nat) : Int) := by exact_mod_cast this
      push_cast at h3
      exact ⟨by omega, by omega⟩
  · simp only [IntTy.lo, IntTy.hi, if_true, Nat.add_sub_cancel]
    constructor
    · rintro ⟨h, h'⟩
      refine ⟨BitVec.ofInt (v + 1) x, ?_⟩
      rw [BitVec.toInt_ofInt, Int.bmod_eq_of_le] <;> push_cast <;> omega
    · rintro ⟨b, rfl⟩
      have h3 := b.le_toInt
      have h4 := b.toInt_lt
      simp only [Nat.add_sub_cancel] at h3 h4
      exact ⟨by omega, by omega⟩

example : 1 ≤ (⟨8, true⟩ : IntTy).width ∧ (⟨8, true⟩ : IntTy).lo = -128 ∧ (⟨8, true⟩ : IntTy).hi = 127 := by decide

/-- C25. For a non-negative exponent the result is exactly the mathematical power if the base type can represent it;
`underflow_error` iff the true power is below the minimum, `overflow_error` iff it is above the maximum. -/
theorem ipow_exact_or_error (bty ety : IntTy) (hw : 2 ≤ bty.width) (base : Int) (e : Nat)
    (hb : bty.lo ≤ base ∧ base ≤ bty.hi) :
    ipow bty ety base (e : Int) =
      if base ^ e < bty.lo then .error .underflow
      else if bty.hi < base ^ e then .error .overflow
      else .ok (base ^ e) := by
  have hneg : ¬ ((e : Int) < 0) := by omega
  rw [ipow, if_neg (by simp [hneg]), Int.toNat_natCast]
  have h := loop_spec bty hw base e hb e 0 1 (le_refl _) (by simpa using inRange_one bty hw) (by rw [pow_one]; exact hb)
  simp only [pow_zero, pow_one, zero_add, one_mul] at h
  rw [h]
  have hlo := lo_nonpos bty
  have hhi := hi_nonneg bty
  have hmod : (e : Int).tmod 2 = ((e % 2 : Nat) : Int) := rfl
  by_cases h1 : base ^ e < bty.lo
  · have hp : base ^ e < 0 := by linarith
    have hb0 : base < 0 := by
      by_contra hc
      push Not at hc
      have : 0 ≤ base ^ e := pow_nonneg hc e
      linarith
    have hodd : e % 2 = 1 := by
      by_contra hc
      have hev : Even e := Nat.even_iff.mpr (by omega)
      have : 0 ≤ base ^ e := hev.pow_nonneg base
      linarith
    have h3 : ¬ bty.inRange (base ^ e) := by intro hh; linarith [hh.1]
    rw [if_pos h1, if_neg h3, if_pos ⟨hb0, by rw [hmod, hodd]; decide⟩]
  · by_cases h2 : bty.hi < base ^ e
    · have h3 : ¬ bty.inRange (base ^ e) := by intro hh; linarith [hh.2]
      rw [if_neg h1, if_pos h2, if_neg h3, if_neg]
      rintro ⟨hb0, hm⟩
      have hodd : Odd e := by
        rw [hmod] at hm
        rcases Nat.mod_two_eq_zero_or_one e with h | h
        · rw [h] at hm; exact absurd rfl hm
        · exact Nat.odd_iff.mpr h
      have : base ^ e < 0 := hodd.pow_neg hb0
      linarith
    · have h3 : bty.inRange (base ^ e) := ⟨by linarith, by linarith⟩
      rw [if_neg h1, if_neg h2, if_pos h3]

/-- C25, negative exponents: the result is `1 / base^|exp|` truncated towards zero; base 0 gives 0. -/
theorem ipow_negative_exponent (bty ety : IntTy) (base : Int) (n : Nat) (hn : 0 < n)
    (hb : bty.lo ≤ base ∧ base ≤ bty.hi) (he : ety.lo ≤ -(n : Int) ∧ -(n : Int) ≤ ety.hi) :
    ipow bty ety base (-(n : Int)) = .ok (if base = 0 then 0 else Int.tdiv 1 (base ^ n)) := by
  have hs : ety.signed = true := by
    by_contra hc
    have : ety.lo = 0 := by simp [IntTy.lo, hc]
    omega
  rw [ipow, if_pos (by simp [hs, hn])]
  by_cases h1 : base = 1
  · simp [h1]
  rw [if_neg h1]
  by_cases h2 : base = -1
  · subst h2
    have hbs : bty.signed = true := by
      by_contra hc
      have : bty.lo = 0 := by simp [IntTy.lo, hc]
      omega
    rw [if_pos (by simp [hbs])]
    simp only [show ¬ ((-1 : Int) = 0) by decide, if_false]
    have hm : (-(n : Int)).tmod 2 = -((n % 2 : Nat) : Int) := by
      rw [Int.neg_tmod]; rfl
    rw [hm]
    rcases Nat.mod_two_eq_zero_or_one n with h | h
    · rw [h, (Nat.even_iff.mpr h).neg_one_pow]; rfl
    · rw [h, (Nat.odd_iff.mpr h).neg_one_pow]; rfl
  · rw [if_neg (by simp [h2])]
    by_cases h3 : base = 0
    · rw [if_pos h3]
    · rw [if_neg h3]
      have h4 : 2 ≤ |base| := by
        rcases abs_cases base with ⟨h, _⟩ | ⟨h, _⟩ <;> omega
      have h5 : 2 ≤ |base ^ n| := by
        have := pow_abs_mono (b := base) (by linarith) (show 1 ≤ n from hn)
        rw [pow_one] at this
        linarith
      congr 1
      symm
      rcases abs_cases (base ^ n) with ⟨h, _⟩ | ⟨h, _⟩
      · exact Int.tdiv_eq_zero_of_lt (by norm_num) (by omega)
      · have := Int.tdiv_eq_zero_of_lt (a := 1) (b := -(base ^ n)) (by norm_num) (by omega)
        rw [Int.tdiv_neg] at this
        omega

example : (⟨8, true⟩ : IntTy).inRange (-2) ∧ (⟨32, true⟩ : IntTy).inRange ((7 : Nat) : Int) ∧
    ipow ⟨8, true⟩ ⟨32, true⟩ (-2) 7 = .ok (-128) ∧ ipow ⟨8, true⟩ ⟨32, true⟩ (-2) 8 = .error .overflow ∧
    ipow ⟨8, true⟩ ⟨32, true⟩ (-2) 9 = .error .underflow := by
  refine ⟨by decide, by decide, ?_, ?_, ?_⟩ <;> simp [ipow, loop, safeMul, IntTy.inRange, IntTy.lo, IntTy.hi] <;> rfl

example : (⟨8, true⟩ : IntTy).inRange (-1) ∧ (⟨32, true⟩ : IntTy).inRange (-((3 : Nat) : Int)) ∧
    ipow ⟨8, true⟩ ⟨32, true⟩ (-1) (-3) = .ok (-1) := by
  refine ⟨by decide, by decide, ?_⟩; simp [ipow]

end Verif.IPow
