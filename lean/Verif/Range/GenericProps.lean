import Verif.Range.GenericModel
import Mathlib.Algebra.Order.Archimedean.Basic
import Mathlib.Data.Rat.Defs

/-! C75: `range` over arbitrary number types. -/
namespace Verif.Range

variable {T S : Type}

/-! ### Specification -/

/-- start, start + step, (start + step) + step, ... -/
def progression (n : Num T S) (step : S) (start : T) : Nat → T
  | 0 => start
  | k + 1 => progression n step (n.add start step) k

/-- `x` has met or passed `stop`, in the direction of the step. -/
def passed (n : Num T S) (step : S) (stop x : T) : Bool := if n.pos step then n.ge x stop else n.le x stop

/-- **C75.** For every number type: `range(start, stop, step)` is refused exactly for a zero step; otherwise a loop over it sees start, start +
step, (start + step) + step, ... as long as the value has not met or passed stop. -/
theorem generic_spec (n : Num T S) (start stop : T) (step : S) :
    (n.isZero step = true → gcreate n start stop step = none) ∧
    (n.isZero step = false → ∃ s, gcreate n start stop step = some s ∧
      ∀ k, gtake n k s = ((List.range k).map (progression n step start)).takeWhile fun x => !passed n step stop x) := by
  refine ⟨fun h => by simp [gcreate, h], fun h => ⟨_, by simp [gcreate, h]; rfl, ?_⟩⟩
  intro k
  induction k generalizing start with
  | zero => rfl
  | succ k ih =>
    rw [List.range_succ_eq_map, List.map_cons, List.map_map, List.takeWhile_cons]
    have e : progression n step start ∘ Nat.succ = progression n step (n.add start step) := rfl
    rw [e, show progression n step start 0 = start from rfl, ← ih]
    cases hp : n.pos step <;> cases hge : n.ge start stop <;> cases hle : n.le start stop <;> simp [gtake, gnext, passed, hp, hge, hle]

/-- **C75.** Once `next` has reported the end it keeps doing so; before, it changes only the current value. -/
theorem generic_fused (n : Num T S) (s : GSt T S) :
    ((gnext n s).1 = none → (gnext n s).2 = s) ∧ (gnext n s).2.stop = s.stop ∧ (gnext n s).2.step = s.step := by
  simp only [gnext]
  cases n.pos s.step <;> cases n.ge s.current s.stop <;> cases n.le s.current s.stop <;> simp

/-- **C75.** `range(start, stop)` is `range(start, stop, 1)` and `range(stop)` is `range(0, stop, 1)`; neither throws unless `T(1) == T{}`. -/
theorem generic_short (n : Num T T) (start stop zero one : T) :
    grange2 n start stop one = gcreate n start stop one ∧ grange1 n stop zero one = gcreate n zero stop one ∧
    (n.isZero one = false → (grange2 n start stop one).isSome ∧ (grange1 n stop zero one).isSome) := by
  refine ⟨rfl, rfl, fun h => ?_⟩
  simp [grange1, grange2, gcreate, h]

/-- **C75.** A default-constructed range is empty, if `T{} >= T{}` and `S{1} > S{}`. -/
theorem generic_default (n : Num T S) (zero : T) (one : S) (h1 : n.ge zero zero = true) (h2 : n.pos one = true) (k : Nat) :
    gtake n k (gdefault zero one) = [] := by
  cases k <;> simp [gtake, gnext, gdefault, h1, h2]

/-! ### Exact numbers -/

/-- A number type without rounding. -/
def exact (T : Type) [AddCommGroup T] [LinearOrder T] : Num T T :=
  ⟨fun x y => decide (y ≤ x), fun x y => decide (x ≤ y), (· + ·), fun s => decide (s = 0), fun s => decide (0 < s)⟩

example : gtake (exact Int) 10 (gdefault 0 1) = [] := generic_default _ 0 1 (by decide) (by decide) 10

example : gcreate (exact Int) 1 5 0 = none := (generic_spec (exact Int) 1 5 0).1 (by decide)

example : (grange1 (exact Int) 5 0 1).isSome ∧ gtake (exact Int) 10 ⟨0, 5, 1⟩ = [0, 1, 2, 3, 4] := by decide

example : gtake (exact Int) 10 ⟨7, 0, -3⟩ = [7, 4, 1] := by decide

example : gtake (exact Rat) 10 ⟨0, 1, 1 / 4⟩ = [0, 1 / 4, 1 / 2, 3 / 4] := by decide +kernel

variable [AddCommGroup T] [LinearOrder T]

theorem progression_exact (step start : T) (k : Nat) : progression (exact T) step start k = start + k • step := by
  induction k generalizing start with
  | zero => simp [progression]
  | succ k ih => rw [progression, ih]; simp only [exact]; rw [succ_nsmul', add_assoc]

theorem takeWhile_range {p : Nat → Bool} {m : Nat} (h1 : ∀ j, j < m → p j = true) (h2 : p m = false) (k : Nat) :
    (List.range (m + k)).takeWhile p = List.range m := by
  have e : List.takeWhile p (List.range m) = List.range m := by
    have : ∀ l : List Nat, (∀ x ∈ l, p x = true) → List.takeWhile p l = l := by
      intro l hl
      induction l with
      | nil => rfl
      | cons a l ih => rw [List.takeWhile_cons, if_pos (hl a (by simp)), ih fun x hx => hl x (by simp [hx])]
    exact this _ fun x hx => h1 x (List.mem_range.1 hx)
  cases k with
  | zero => rw [Nat.add_zero, e]
  | succ k =>
    rw [List.range_add, List.range_succ_eq_map]
    rw [List.takeWhile_append, e]
    simp [h2]

theorem nsmul_neg_eq (j : Nat) (x : T) : j • (-x) = -(j • x) := by
  induction j with
  | zero => simp
  | succ j ih => rw [succ_nsmul, succ_nsmul, ih, neg_add]

variable [IsOrderedAddMonoid T] [Archimedean T]

/-- **C75, partial.** For exact numbers in which repeated addition of any positive number exceeds every bound (integers, rational numbers, ...):
the loop ends, and it saw exactly the values `start + j * step` before stop, in order, each once. Missing: floating-point numbers and steps
that are not numbers (see below). -/
theorem exact_spec_partial (start stop step : T) (h : step ≠ 0) : ∃ m,
    ∀ k, gtake (exact T) (m + k) ⟨start, stop, step⟩ = (List.range m).map (fun j => start + j • step) ∧
    (∀ j : Nat, j < m ↔ if 0 < step then start + j • step < stop else stop < start + j • step) := by
  obtain ⟨s, hs, hg⟩ := (generic_spec (exact T) start stop step).2 (by simp [exact, h])
  have hs' : s = ⟨start, stop, step⟩ := by simp [gcreate, exact, h] at hs; exact hs.symm
  subst hs'
  have hp : ∀ j : Nat, (passed (exact T) step stop (progression (exact T) step start j) = false ↔
      if 0 < step then start + j • step < stop else stop < start + j • step) := by
    intro j
    rw [progression_exact]
    simp only [passed, exact]
    by_cases h0 : 0 < step <;> simp [h0]
  -- some value passes stop
  have hex : ∃ j : Nat, ¬ (if 0 < step then start + j • step < stop else stop < start + j • step) := by
    by_cases h0 : 0 < step
    · obtain ⟨j, hj⟩ := Archimedean.arch (stop - start) h0
      exact ⟨j, by simp only [h0, if_true, not_lt]; rw [← sub_le_iff_le_add']; exact hj⟩
    · have h1 : 0 < -step := by rw [neg_pos]; exact lt_of_le_of_ne (not_lt.1 h0) h
      obtain ⟨j, hj⟩ := Archimedean.arch (start - stop) h1
      refine ⟨j, ?_⟩
      simp only [h0, if_false, not_lt]
      rw [nsmul_neg_eq, sub_le_iff_le_add, neg_add_eq_sub] at hj
      rw [← le_sub_iff_add_le]; exact hj
  classical
  obtain ⟨hm, hlt⟩ : ¬ (if 0 < step then start + (Nat.find hex) • step < stop else stop < start + (Nat.find hex) • step) ∧
      ∀ j, j < Nat.find hex → (if 0 < step then start + j • step < stop else stop < start + j • step) :=
    ⟨Nat.find_spec hex, fun j hj => not_not.1 (Nat.find_min hex hj)⟩
  generalize Nat.find hex = m at hm hlt
  -- monotone: once passed, always passed
  have hmono : ∀ j : Nat, (if 0 < step then start + j • step < stop else stop < start + j • step) → j < m := by
    intro j hj
    by_contra hge
    have hge := not_lt.1 hge
    by_cases h0 : 0 < step
    · simp only [h0, if_true, not_lt] at hm hj
      have : m • step ≤ j • step := nsmul_le_nsmul_left h0.le hge
      exact absurd hj (not_lt.2 (hm.trans (add_le_add le_rfl this)))
    · simp only [h0, if_false, not_lt] at hm hj
      have h1 : step ≤ 0 := not_lt.1 h0
      have : j • step ≤ m • step := by
        have := nsmul_le_nsmul_left (neg_nonneg.2 h1) hge
        simpa using this
      exact absurd hj (not_lt.2 (le_trans (add_le_add le_rfl this) hm))
  refine ⟨m, fun k => ⟨?_, fun j => ⟨hlt j, hmono j⟩⟩⟩
  rw [hg, List.takeWhile_map]
  rw [show ((fun x => !passed (exact T) step stop x) ∘ progression (exact T) step start) =
      fun j => !passed (exact T) step stop (progression (exact T) step start j) from rfl]
  rw [takeWhile_range (m := m)]
  · congr 1; funext j; exact progression_exact step start j
  · intro j hj; rw [Bool.not_eq_true', hp]; exact hlt j hj
  · rw [Bool.not_eq_false', ← Bool.not_eq_false, hp]; exact hm

example : ∃ m, ∀ k, gtake (exact Int) (m + k) ⟨0, 10, 3⟩ = (List.range m).map (fun j => (0 : Int) + j • 3) ∧
    (∀ j : Nat, j < m ↔ if (0 : Int) < 3 then (0 : Int) + j • 3 < 10 else 10 < (0 : Int) + j • 3) :=
  exact_spec_partial 0 10 3 (by decide)

/-! ### Floating-point numbers -/

/-- Rounding of a natural number below `2^54` to the nearest `double`: exact below `2^53`, above it the even numbers, ties to a multiple
of four. -/
def roundDouble (x : Nat) : Nat :=
  if x < 2 ^ 53 then x else if x % 4 = 1 then x - 1 else if x % 4 = 3 then x + 1 else x

/-- Those `double`s that are natural numbers below `2^54`, or not a number (`none`). -/
def doubles : Num (Option Nat) (Option Nat) where
  ge x y := match x, y with | some x, some y => decide (y ≤ x) | _, _ => false
  le x y := match x, y with | some x, some y => decide (x ≤ y) | _, _ => false
  add x y := match x, y with | some x, some y => some (roundDouble (x + y)) | _, _ => none
  isZero s := s == some 0
  pos s := match s with | some x => decide (0 < x) | none => false

/-- **C75, refuted.** `range<double>(2^53, 2^53 + 4, 1.0)` yields `2^53` forever. -/
theorem double_refuted (k : Nat) : gtake doubles k ⟨some (2 ^ 53), some (2 ^ 53 + 4), some 1⟩ = List.replicate k (some (2 ^ 53)) := by
  induction k with
  | zero => rfl
  | succ k ih =>
    have e : gnext doubles ⟨some (2 ^ 53), some (2 ^ 53 + 4), some 1⟩ =
        (some (some (2 ^ 53)), ⟨some (2 ^ 53), some (2 ^ 53 + 4), some 1⟩) := rfl
    rw [gtake, e, List.replicate_succ, ← ih]

/-- **C75, refuted.** A step that is not a number is accepted; `range<double>(2, 1, NaN)` yields 2 and then NaN forever. -/
theorem nan_refuted : gcreate doubles (some 2) (some 1) none = some ⟨some 2, some 1, none⟩ ∧
    ∀ k, gtake doubles (k + 1) ⟨some 2, some 1, none⟩ = some 2 :: List.replicate k none := by
  refine ⟨rfl, ?_⟩
  intro k
  have e : gnext doubles ⟨some 2, some 1, none⟩ = (some (some 2), ⟨none, some 1, none⟩) := rfl
  have e' : ∀ k, gtake doubles k ⟨none, some 1, none⟩ = List.replicate k none := by
    intro k
    induction k with
    | zero => rfl
    | succ k ih =>
      have e : gnext doubles ⟨none, some 1, none⟩ = (some none, ⟨none, some 1, none⟩) := rfl
      rw [gtake, e, List.replicate_succ, ← ih]
  rw [gtake, e]
  simp [e']

end Verif.Range
