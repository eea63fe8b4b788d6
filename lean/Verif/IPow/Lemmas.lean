import Verif.IPow.Model
import Mathlib.Algebra.Order.Ring.Abs
import Mathlib.Algebra.Order.Group.Unbundled.Int
import Mathlib.Tactic.Ring
import Mathlib.Tactic.Linarith
import Mathlib.Tactic.Positivity

namespace Verif.IPow

theorem pow_abs_mono {b : Int} (hb : 1 ≤ |b|) {m n : Nat} (h : m ≤ n) : |b ^ m| ≤ |b ^ n| := by
  rw [abs_pow, abs_pow]; exact pow_le_pow_right₀ hb h

theorem pow_abs_small {b : Int} (hb : |b| ≤ 1) (m : Nat) : |b ^ m| ≤ 1 := by
  rw [abs_pow]; exact pow_le_one₀ (abs_nonneg _) hb

theorem pow_abs_double {b : Int} (hb : 2 ≤ |b|) {m n : Nat} (h : m < n) : 2 * |b ^ m| ≤ |b ^ n| := by
  rw [abs_pow, abs_pow]
  calc 2 * |b| ^ m ≤ |b| * |b| ^ m := by
        apply mul_le_mul_of_nonneg_right hb; positivity
    _ = |b| ^ (m + 1) := by ring
    _ ≤ |b| ^ n := pow_le_pow_right₀ (by linarith) h

/-- Once a power leaves the range of the type, all higher powers do. -/
theorem out_mono (ty : IntTy) (hw : 2 ≤ ty.width) {b : Int} (hb : ty.inRange b) {m n : Nat} (hmn : m ≤ n)
    (ho : ¬ ty.inRange (b ^ m)) : ¬ ty.inRange (b ^ n) := by
  rcases Nat.eq_or_lt_of_le hmn with rfl | hlt
  · exact ho
  obtain ⟨w, s⟩ := ty
  obtain ⟨v, rfl⟩ : ∃ v, w = v + 2 := ⟨w - 2, by simp at hw; omega⟩
  have hM : (2 : Int) ≤ 2 ^ (v + 1) := by
    calc (2:Int) = 2 ^ 1 := by norm_num
      _ ≤ 2 ^ (v + 1) := pow_le_pow_right₀ (by norm_num) (by omega)
  have hM2 : (2:Int) ^ (v + 2) = 2 * 2 ^ (v + 1) := by ring
  cases s
  · simp only [IntTy.inRange, IntTy.lo, IntTy.hi, Bool.false_eq_true, if_false] at *
    have hbn : 0 ≤ b := hb.1
    have hpm : 0 ≤ b ^ m := by positivity
    have : 2 ≤ b := by
      by_contra hc
      have h1 := pow_abs_small (b := b) (by rw [abs_of_nonneg hbn]; omega) m
      rw [abs_of_nonneg hpm] at h1
      exact ho ⟨hpm, by linarith⟩
    have h2 := pow_abs_mono (b := b) (by rw [abs_of_nonneg hbn]; omega) hmn
    rw [abs_of_nonneg hpm, abs_of_nonneg (by positivity)] at h2
    rintro ⟨_, h3⟩
    exact ho ⟨hpm, by linarith⟩
  · simp only [IntTy.inRange, IntTy.lo, IntTy.hi, if_true,
      show v + 2 - 1 = v + 1 from rfl] at *
    have habs : (2:Int) ^ (v+1) ≤ |b ^ m| := by
      by_contra hc
      push Not at hc
      rw [abs_lt] at hc
      exact ho ⟨by linarith [hc.1], by linarith [hc.2]⟩
    have : 2 ≤ |b| := by
      by_contra hc
      have h1 := pow_abs_small (b := b) (by omega) m
      linarith
    have h2 := pow_abs_double this hlt
    rintro ⟨h3, h4⟩
    have : |b ^ n| ≤ 2 ^ (v+1) := abs_le.mpr ⟨by linarith, by linarith⟩
    linarith

theorem loop_spec (ty : IntTy) (hw : 2 ≤ ty.width) (base exp : Int) (hb : ty.inRange base) (e : Nat) :
    ∀ (i k : Nat), 1 ≤ k → ty.inRange (base ^ i) → ty.inRange (base ^ k) →
      loop ty base exp (base ^ i) (base ^ k) e =
        if ty.inRange (base ^ (i + k * e)) then .ok (base ^ (i + k * e))
        else if base < 0 ∧ exp.tmod 2 ≠ 0 then .error .underflow else .error .overflow := by
  induction e using Nat.strongRecOn with
  | _ e ih =>
    intro i k hk hi hkr
    rw [loop]
    by_cases h0 : 0 < e
    · rw [dif_pos h0]
      have key : ∀ (j : Nat) , ty.inRange (base ^ j) → j + 2 * k * (e / 2) = i + k * e →
          ((if 0 < e / 2 then safeMul ty base exp (base ^ k) (base ^ k) else .ok (base ^ k)).bind fun acc =>
            loop ty base exp (base ^ j) acc (e / 2)) =
          if ty.inRange (base ^ (i + k * e)) then .ok (base ^ (i + k * e))
          else if base < 0 ∧ exp.tmod 2 ≠ 0 then .error .underflow else .error .overflow := by
        intro j hj hje
        by_cases h2 : 0 < e / 2
        · rw [if_pos h2]
          simp only [safeMul, ← pow_add]
          by_cases hr : ty.inRange (base ^ (k + k))
          · rw [if_pos hr]
            simp only [Except.bind]
            rw [ih (e / 2) (by omega) j (k + k) (by omega) hj hr]
            rw [show j + (k + k) * (e / 2) = i + k * e by rw [← hje]; ring]
          · rw [if_neg hr]
            have : ¬ ty.inRange (base ^ (i + k * e)) := by
              refine out_mono ty hw hb ?_ hr
              rw [← hje]
              have : k * 1 ≤ k * (e / 2) := Nat.mul_le_mul_left k h2
              have h3 : 2 * k * (e / 2) = 2 * (k * (e / 2)) := by ring
              omega
            rw [if_neg this]
            split <;> rfl
        · rw [if_neg h2]
          simp only [Except.bind]
          have he : e / 2 = 0 := by omega
          rw [ih (e / 2) (by omega) j k hk hj hkr]
          rw [he] at hje ⊢
          simp only [Nat.mul_zero, Nat.add_zero] at hje ⊢
          rw [hje]
      by_cases hodd : e % 2 = 1
      · rw [if_pos hodd]
        rw [show safeMul ty base exp (base ^ i) (base ^ k) = _ from rfl, safeMul, ← pow_add]
        have hsum : (i + k) + 2 * k * (e / 2) = i + k * e := by
          have : e = 2 * (e / 2) + 1 := by omega
          conv_rhs => rw [this]
          ring
        by_cases hr : ty.inRange (base ^ (i + k))
        · rw [if_pos hr]
          exact key (i + k) hr hsum
        · rw [if_neg hr]
          have : ¬ ty.inRange (base ^ (i + k * e)) := by
            refine out_mono ty hw hb ?_ hr
            have : k * 1 ≤ k * e := Nat.mul_le_mul_left k h0
            omega
          rw [if_neg this]
          split <;> rfl
      · rw [if_neg hodd]
        refine key i hi ?_
        have : e = 2 * (e / 2) := by omega
        conv_rhs => rw [this]
        ring
    · rw [dif_neg h0]
      have : e = 0 := by omega
      subst this
      simp [hi]

theorem inRange_one (ty : IntTy) (hw : 2 ≤ ty.width) : ty.inRange 1 := by
  obtain ⟨w, s⟩ := ty
  obtain ⟨v, rfl⟩ : ∃ v, w = v + 2 := ⟨w - 2, by simp at hw; omega⟩
  have hM : (2 : Int) ≤ 2 ^ (v + 1) := by
    calc (2:Int) = 2 ^ 1 := by norm_num
      _ ≤ 2 ^ (v + 1) := pow_le_pow_right₀ (by norm_num) (by omega)
  have hM2 : (2:Int) ^ (v + 2) = 2 * 2 ^ (v + 1) := by ring
  cases s <;> simp only [IntTy.inRange, IntTy.lo, IntTy.hi, Bool.false_eq_true, if_false, if_true,
      show v + 2 - 1 = v + 1 from rfl] <;> constructor <;> linarith

theorem lo_nonpos (ty : IntTy) : ty.lo ≤ 0 := by
  unfold IntTy.lo
  split
  · have : (0:Int) < 2 ^ (ty.width - 1) := by positivity
    linarith
  · exact le_refl _

theorem hi_nonneg (ty : IntTy) : 0 ≤ ty.hi := by
  have h1 : (1:Int) ≤ 2 ^ (ty.width - 1) := one_le_pow₀ (by norm_num)
  have h2 : (1:Int) ≤ 2 ^ (ty.width) := one_le_pow₀ (by norm_num)
  unfold IntTy.hi
  split <;> linarith

end Verif.IPow
