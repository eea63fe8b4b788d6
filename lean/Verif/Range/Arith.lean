/-! C++ integer arithmetic as far as `ranges.hpp` uses it: fixed-width types, conversions, integral promotion, usual arithmetic
conversions, wrap-around of unsigned and undefined overflow of signed arithmetic (two's complement, `int` has 32 bits,
`size_t` 64; these are the ABI assumptions of the model). -/
namespace Verif.Range

/-- A C++ integer type (the types in ranges.hpp:340-479, integral_sequence.hpp:25-109). -/
structure ITy where
  bits : Nat
  signed : Bool
  deriving DecidableEq, Repr

/-- The widths of the standard integer types (of the types in ranges.hpp:340-479). -/
def ITy.Wf (t : ITy) : Prop := t.bits = 8 ∨ t.bits = 16 ∨ t.bits = 32 ∨ t.bits = 64

instance (t : ITy) : Decidable t.Wf := inferInstanceAs (Decidable (_ ∨ _))

/-- The least value of the type (ranges.hpp:340-479). -/
def ITy.min (t : ITy) : Int := if t.signed then -(2 ^ (t.bits - 1)) else 0

/-- The greatest value of the type (ranges.hpp:340-479). -/
def ITy.max (t : ITy) : Int := if t.signed then 2 ^ (t.bits - 1) - 1 else 2 ^ t.bits - 1

/-- Is the value representable? (ranges.hpp:340-479) -/
def ITy.Has (t : ITy) (x : Int) : Prop := t.min ≤ x ∧ x ≤ t.max

instance (t : ITy) (x : Int) : Decidable (t.Has x) := inferInstanceAs (Decidable (_ ∧ _))

/-- Conversion to the type (C++20: modulo 2^bits, also to signed types) (language rule for ranges.hpp:371-449). -/
def ITy.conv (t : ITy) (x : Int) : Int :=
  let r := x % 2 ^ t.bits
  if t.signed = true ∧ 2 ^ (t.bits - 1) ≤ r then r - 2 ^ t.bits else r

/-- `int` (ranges.hpp:371-449) -/
def int : ITy := ⟨32, true⟩

/-- `size_t` (ranges.hpp:385-418) -/
def sizeT : ITy := ⟨64, false⟩

/-- Integral promotion (language rule for ranges.hpp:371-449). -/
def ITy.promote (t : ITy) : ITy := if t.bits < 32 then int else t

/-- Usual arithmetic conversions (language rule for ranges.hpp:371-449). -/
def common (a b : ITy) : ITy :=
  let a := a.promote
  let b := b.promote
  if a.signed = b.signed then (if b.bits ≤ a.bits then a else b)
  else if a.signed then (if b.bits < a.bits then a else b)
  else (if a.bits < b.bits then b else a)

/-- Result of evaluating an expression: a value, or undefined behaviour (of expressions in ranges.hpp:371-449). -/
abbrev Eval := Option Int

/-- The mathematical result of an operation in type `c`: unsigned types wrap, signed overflow is undefined (language rule for ranges.hpp:371-449). -/
def arith (c : ITy) (r : Int) : Eval :=
  if c.signed then (if c.Has r then some r else none) else some (c.conv r)

/-- `a + b`, `a - b`, `a * b` for operands of the given types; the result has type `common s t` (expressions in ranges.hpp:371-449). -/
def binop (f : Int → Int → Int) (s t : ITy) (a b : Int) : Eval :=
  arith (common s t) (f ((common s t).conv a) ((common s t).conv b))

/-- `-a`; the result has type `t.promote` (ranges.hpp:385-405). -/
def neg (t : ITy) (a : Int) : Eval := arith t.promote (-a)

/-- `a / b` (truncating); undefined for zero divisors (ranges.hpp:385-405). -/
def quot (s t : ITy) (a b : Int) : Eval :=
  if (common s t).conv b = 0 then none else arith (common s t) (((common s t).conv a).tdiv ((common s t).conv b))

/-! ### Facts -/

theorem two_pow_succ_pred {b : Nat} (h : 1 ≤ b) : (2 : Int) ^ b = 2 * 2 ^ (b - 1) := by
  obtain ⟨k, rfl⟩ : ∃ k, b = k + 1 := ⟨b - 1, by omega⟩
  simp [Int.pow_succ]; omega

theorem two_pow_pos (b : Nat) : (0 : Int) < 2 ^ b := Int.pow_pos (by decide)

theorem conv_emod (t : ITy) (x : Int) : t.conv x % 2 ^ t.bits = x % 2 ^ t.bits := by
  simp only [ITy.conv]
  split
  · rw [Int.sub_emod]; simp
  · simp

theorem conv_congr {t : ITy} {x y : Int} (h : x % 2 ^ t.bits = y % 2 ^ t.bits) : t.conv x = t.conv y := by
  simp only [ITy.conv, h]

theorem Wf.one {t : ITy} (h : t.Wf) : 1 ≤ t.bits := by unfold ITy.Wf at h; omega

theorem conv_has {t : ITy} (ht : 1 ≤ t.bits) (x : Int) : t.Has (t.conv x) := by
  have h1 := two_pow_succ_pred ht
  have h2 := two_pow_pos (t.bits - 1)
  have h3 := Int.emod_nonneg x (show (2 : Int) ^ t.bits ≠ 0 by omega)
  have h4 := Int.emod_lt_of_pos x (two_pow_pos t.bits)
  simp only [ITy.Has, ITy.min, ITy.max, ITy.conv]
  cases t.signed
  · simp only [Bool.false_eq_true, if_false, false_and]; omega
  · simp only [if_true, true_and]; split <;> omega

theorem conv_of_has {t : ITy} (ht : 1 ≤ t.bits) {x : Int} (hx : t.Has x) : t.conv x = x := by
  have h1 := two_pow_succ_pred ht
  have h2 := two_pow_pos (t.bits - 1)
  simp only [ITy.Has, ITy.min, ITy.max] at hx
  simp only [ITy.conv]
  by_cases h0 : 0 ≤ x
  · have : x % 2 ^ t.bits = x := Int.emod_eq_of_lt h0 (by split at hx <;> omega)
    rw [this]
    split
    · rename_i h; simp only [h.1, if_true] at hx; omega
    · rfl
  · have hs : t.signed = true := by
      cases h : t.signed with
      | true => rfl
      | false => simp only [h, Bool.false_eq_true, if_false] at hx; omega
    simp only [hs, if_true] at hx
    have : x % 2 ^ t.bits = x + 2 ^ t.bits := by
      rw [← Int.add_emod_right, Int.emod_eq_of_lt] <;> omega
    rw [this]
    split
    · omega
    · rename_i h; simp only [hs, true_and] at h; omega

theorem emod_of_dvd_pow {a b : Nat} (h : a ≤ b) {x y : Int} (e : x % 2 ^ b = y % 2 ^ b) : x % 2 ^ a = y % 2 ^ a := by
  have hd : (2 : Int) ^ a ∣ 2 ^ b := by
    obtain ⟨k, rfl⟩ : ∃ k, b = a + k := ⟨b - a, by omega⟩
    rw [Int.pow_add]; exact Int.dvd_mul_right _ _
  rw [← Int.emod_emod_of_dvd x hd, e, Int.emod_emod_of_dvd y hd]

theorem conv_conv {t c : ITy} (h : t.bits ≤ c.bits) (x : Int) : t.conv (c.conv x) = t.conv x :=
  conv_congr (emod_of_dvd_pow h (conv_emod c x))

theorem bits_promote (t : ITy) : t.bits ≤ t.promote.bits ∧ 32 ≤ t.promote.bits := by
  simp only [ITy.promote, int]; split <;> simp <;> omega

theorem bits_common_left (s t : ITy) : s.bits ≤ (common s t).bits ∧ 32 ≤ (common s t).bits := by
  have h1 := bits_promote s
  have h2 := bits_promote t
  simp only [common]; (repeat' split) <;> omega

theorem bits_common_right (s t : ITy) : t.bits ≤ (common s t).bits := by
  have h1 := bits_promote s
  have h2 := bits_promote t
  simp only [common]; (repeat' split) <;> omega

theorem pow_mono {a b : Nat} (h : a ≤ b) : (2 : Int) ^ a ≤ 2 ^ b := by
  obtain ⟨k, rfl⟩ : ∃ k, b = a + k := ⟨b - a, by omega⟩
  rw [Int.pow_add]
  have h1 := two_pow_pos a
  have h2 := two_pow_pos k
  have : (2 : Int) ^ a * 1 ≤ 2 ^ a * 2 ^ k := Int.mul_le_mul_of_nonneg_left (by omega) (by omega)
  omega

/-- Values of a narrower type with the same signedness, or of a strictly narrower unsigned type, are values of the wider. -/
theorem has_mono {s t : ITy} (hs : 1 ≤ s.bits) (h : s.bits ≤ t.bits) (h' : s.signed = t.signed ∨ (t.signed = true ∧ s.bits < t.bits))
    {x : Int} (hx : s.Has x) : t.Has x := by
  have h1 := pow_mono h
  have h2 := pow_mono (show s.bits - 1 ≤ t.bits - 1 by omega)
  have h3 := two_pow_pos (s.bits - 1)
  have h4 := two_pow_pos (t.bits - 1)
  have h5 := two_pow_pos s.bits
  rcases h' with h' | ⟨h', hlt⟩
  · simp only [ITy.Has, ITy.min, ITy.max, h'] at hx ⊢
    cases ht : t.signed <;> simp only [ht, Bool.false_eq_true, if_false, if_true] at hx ⊢ <;> omega
  · have h6 := pow_mono (show s.bits ≤ t.bits - 1 by omega)
    simp only [ITy.Has, ITy.min, ITy.max, h', if_true] at hx ⊢
    have h7 := pow_mono (show s.bits - 1 ≤ s.bits by omega)
    cases hs : s.signed <;> simp only [hs, Bool.false_eq_true, if_false, if_true] at hx <;> omega

theorem has_promote {t : ITy} (ht : 1 ≤ t.bits) {x : Int} (hx : t.Has x) : t.promote.Has x := by
  simp only [ITy.promote]
  split
  · exact has_mono ht (by simp only [int]; omega) (.inr ⟨rfl, by simp only [int]; omega⟩) hx
  · exact hx

/-- If the common type is signed, it represents all values of both operand types. -/
theorem has_common_left {s t : ITy} (hs : 1 ≤ s.bits) (hc : (common s t).signed = true) {x : Int} (hx : s.Has x) :
    (common s t).Has x := by
  have h1 := bits_promote s
  have hp := has_promote hs hx
  revert hc
  simp only [common]
  split
  · rename_i he
    split
    · intro _; exact hp
    · intro hc; exact has_mono (by omega) (by omega) (.inl he) hp
  · rename_i he
    split
    · split
      · intro _; exact hp
      · rename_i h _; intro hc; rw [h] at he; exact absurd hc.symm he
    · split
      · intro hc; exact has_mono (by omega) (by omega) (.inr ⟨hc, by omega⟩) hp
      · rename_i h _; intro hc; exact absurd hc h

theorem has_common_right {s t : ITy} (ht : 1 ≤ t.bits) (hc : (common s t).signed = true) {x : Int} (hx : t.Has x) :
    (common s t).Has x := by
  have h1 := bits_promote t
  have hp := has_promote ht hx
  revert hc
  simp only [common]
  split
  · rename_i he
    split
    · intro hc; exact has_mono (by omega) (by omega) (.inl he.symm) hp
    · intro _; exact hp
  · rename_i he
    split
    · split
      · intro hc; exact has_mono (by omega) (by omega) (.inr ⟨hc, by omega⟩) hp
      · intro _; exact hp
    · split
      · intro _; exact hp
      · rename_i h _; intro hc; exact absurd hc h

/-- An operation compatible with congruences (auxiliary, for ranges.hpp:371-449). -/
def Compat (f : Int → Int → Int) : Prop :=
  ∀ (m a b a' b' : Int), a % m = a' % m → b % m = b' % m → f a b % m = f a' b' % m

theorem compat_add : Compat (· + ·) := by
  intro m a b a' b' h1 h2; show (a + b) % m = (a' + b') % m; rw [Int.add_emod, h1, h2, ← Int.add_emod]

theorem compat_sub : Compat (· - ·) := by
  intro m a b a' b' h1 h2; show (a - b) % m = (a' - b') % m; rw [Int.sub_emod, h1, h2, ← Int.sub_emod]

theorem compat_mul : Compat (· * ·) := by
  intro m a b a' b' h1 h2; show (a * b) % m = (a' * b') % m; rw [Int.mul_emod, h1, h2, ← Int.mul_emod]

/-- The value of an operation: undefined only on signed overflow, and congruent to the mathematical value. -/
theorem binop_eval {f : Int → Int → Int} (hf : Compat f) {s t : ITy} (hs : 1 ≤ s.bits) (ht : 1 ≤ t.bits) {a b : Int}
    (ha : s.Has a) (hb : t.Has b) (h : (common s t).signed = true → (common s t).Has (f a b)) :
    ∃ r, binop f s t a b = some r ∧ (common s t).Has r ∧ r % 2 ^ (common s t).bits = f a b % 2 ^ (common s t).bits ∧
      ((common s t).signed = true → r = f a b) := by
  have hb1 := (bits_common_left s t).2
  cases hc : (common s t).signed with
  | true =>
    have ea := conv_of_has (by omega) (has_common_left hs hc ha)
    have eb := conv_of_has (by omega) (has_common_right ht hc hb)
    refine ⟨f a b, ?_, h hc, rfl, fun _ => rfl⟩
    simp only [binop, arith, hc, if_true, ea, eb, h hc]
  | false =>
    refine ⟨(common s t).conv (f ((common s t).conv a) ((common s t).conv b)), ?_, conv_has (by omega) _, ?_, by simp⟩
    · simp only [binop, arith, hc]; rfl
    · rw [conv_emod]
      exact hf _ _ _ _ _ (conv_emod _ a) (conv_emod _ b)

end Verif.Range
