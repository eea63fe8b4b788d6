import Verif.Range.Lemmas

/-! Properties C34 - C37 of `range` over the standard integer types. `T` is the value type, `S` the step type. -/
namespace Verif.Range

open NextTo (results after visit begin rbegin)

/-- The first value at or behind `stop` is a value of `T` (spelled out: whenever a value is produced, the next one exists in `T`). -/
def Fits (T : ITy) (s : St) : Prop :=
  ∀ n : Nat, before s.step (s.current + n * s.step) s.stop → T.Has (s.current + (n + 1) * s.step)

theorem fits_advance {T : ITy} {s : St} (h : Fits T s) (j : Nat) : Fits T { s with current := s.current + j * s.step } := by
  intro n hn
  have := h (j + n) (by
    rw [show ((j + n : Nat) : Int) = (j : Int) + n by omega, Int.add_mul, ← Int.add_assoc]; exact hn)
  simp only
  rw [show (((j + n : Nat) : Int) + 1) = (j : Int) + (n + 1) by omega, Int.add_mul, ← Int.add_assoc] at this
  exact this

theorem before_of_before {step x y : Int} {n : Nat} (h : before step (x + n * step) y) : before step x y := by
  unfold before at *
  split
  · rename_i hp
    rw [if_pos hp] at h
    have := Int.mul_nonneg (show (0 : Int) ≤ n by omega) (show 0 ≤ step by omega)
    omega
  · rename_i hp
    rw [if_neg hp] at h
    have := Int.mul_nonneg (show (0 : Int) ≤ n by omega) (show 0 ≤ -step by omega)
    rw [Int.mul_neg] at this
    omega

/-- What one call of `next` does. -/
theorem next_rep {T S : ITy} {s : St} (h : Ok T S s) (hf : Fits T s) :
    ∃ s', next T S s = some ((elems s).head?, s') ∧ Ok T S s' ∧ Fits T s' ∧ elems s' = (elems s).tail ∧ s'.step = s.step ∧
      s'.stop = s.stop ∧ s'.current = if before s.step s.current s.stop then s.current + s.step else s.current := by
  by_cases hb : before s.step s.current s.stop
  · have h1 : T.Has (s.current + s.step) := by simpa using hf 0 (by simpa using hb)
    refine ⟨{ s with current := s.current + s.step }, ?_, ⟨h.wT, h.wS, h1, h.stop, h.step, h.nz⟩, ?_, ?_, rfl, rfl, by rw [if_pos hb]⟩
    · rw [next_ok h hb h1]
      congr 2
      have := (before_iff_count h.nz).1 hb
      rw [List.head?_eq_getElem?, elems_get, if_pos this]; simp
    · simpa using fits_advance hf 1
    · simpa using elems_advance h.nz 1
  · have hc : count s = 0 := by rw [before_iff_count h.nz] at hb; omega
    exact ⟨s, by rw [next_end hb, elems_nil hc]; rfl, h, hf, by rw [elems_nil hc]; rfl, rfl, rfl, by rw [if_neg hb]⟩

/-! ### C34 -/

/-- **C34, partial.** The `n`-th call of `next` on `range(start, stop, step)` returns `start + n * step` if that is strictly before
`stop` and nothing otherwise, and no call overflows, provided the first value at or behind `stop` is a value of the type.
Missing: ranges that end closer than one step to the end of the type, see C37. -/
theorem forward_partial {T S : ITy} {s : St} (h : Ok T S s) (hf : Fits T s) (n : Nat) :
    results (iter T S).next s n = (if before s.step (s.current + n * s.step) s.stop then some (s.current + n * s.step) else none) ∧
    next T S (after (iter T S).next n s) ≠ none := by
  have key : ∀ (n : Nat) (s : St), Ok T S s → Fits T s → results (iter T S).next s n = (elems s)[n]? ∧
      next T S (after (iter T S).next n s) ≠ none := by
    intro n
    induction n with
    | zero =>
      intro s h hf
      obtain ⟨s', e, _⟩ := next_rep h hf
      refine ⟨?_, by simp only [after, e]; simp⟩
      show ((iter T S).next s).1 = _
      simp only [iter, e, Option.getD_some, List.head?_eq_getElem?]
    | succ n ih =>
      intro s h hf
      obtain ⟨s', e, h', hf', he, _⟩ := next_rep h hf
      have hs : ((iter T S).next s).2 = s' := by simp only [iter, e, Option.getD_some]
      rw [← NextTo.results_step]
      simp only [after, hs]
      have := ih s' h' hf'
      rw [he] at this
      refine ⟨this.1.trans (by cases elems s <;> simp), this.2⟩
  refine ⟨?_, (key n s h hf).2⟩
  rw [(key n s h hf).1, elems_get]
  simp only [lt_count h.nz]

example : Ok ⟨32, true⟩ ⟨32, true⟩ ⟨7, -4, -3⟩ ∧ results (iter ⟨32, true⟩ ⟨32, true⟩).next ⟨7, -4, -3⟩ 3 = some (-2) ∧
    results (iter ⟨32, true⟩ ⟨32, true⟩).next ⟨7, -4, -3⟩ 4 = none := by
  refine ⟨⟨by decide, by decide, by decide, by decide, by decide, by decide⟩, by decide, by decide⟩

/-- **C34, partial.** A loop over the range visits exactly the progression. -/
theorem loop_partial {T S : ITy} {s : St} (h : Ok T S s) (hf : Fits T s) (fuel : Nat) (hfuel : count s ≤ fuel) :
    visit (iter T S) .forward fuel (begin (iter T S) s) = elems s := by
  refine NextTo.loop _ .forward s fuel _ ?_ (by rw [elems_length]; exact hfuel) ?_
  · intro n _
    refine (forward_partial h hf n).1.trans ?_
    rw [elems_get]; simp only [lt_count h.nz]
  · refine (forward_partial h hf _).1.trans ?_
    rw [if_neg]
    rw [← lt_count h.nz, elems_length]; omega

example : visit (iter ⟨32, true⟩ ⟨32, true⟩) .forward 5 (begin (iter ⟨32, true⟩ ⟨32, true⟩) ⟨7, -4, -3⟩) = [7, 4, 1, -2] := by decide

/-- The progression, spelled out: position `i` holds `start + i * step` as long as that is strictly before `stop`. -/
theorem elems_spec {s : St} (h0 : s.step ≠ 0) (i : Nat) :
    (elems s)[i]? = if before s.step (s.current + i * s.step) s.stop then some (s.current + i * s.step) else none := by
  rw [elems_get]; simp only [lt_count h0]

example : elems ⟨7, -4, -3⟩ = [7, 4, 1, -2] ∧ elems ⟨3, 3, 1⟩ = [] ∧ elems ⟨3, 5, -1⟩ = [] := by decide

/-- **C34.** A zero step throws, any other is accepted. -/
theorem zero_step (start stop step : Int) :
    (range3 start stop step = none ↔ step = 0) ∧ (∀ s, range3 start stop step = some s → s = ⟨start, stop, step⟩) := by
  unfold range3 create
  split <;> simp_all

/-- With a negative step, down to a bound that is not hit. -/
example : Ok ⟨32, true⟩ ⟨32, true⟩ ⟨7, -4, -3⟩ ∧ Fits ⟨32, true⟩ ⟨7, -4, -3⟩ ∧ elems ⟨7, -4, -3⟩ = [7, 4, 1, -2] := by
  refine ⟨⟨by decide, by decide, by decide, by decide, by decide, by decide⟩, ?_, by decide⟩
  intro n hn
  simp only [before, ITy.Has, ITy.min, ITy.max] at *
  simp at *
  omega

/-! ### C37 -/

theorem fits_of_dvd {T S : ITy} {s : St} (h : Ok T S s) (hd : s.step ∣ s.stop - s.current) : Fits T s := by
  intro n hn
  obtain ⟨m, hm⟩ := hd
  have hstop : s.stop = s.current + m * s.step := by rw [Int.mul_comm]; omega
  refine has_between h.current h.stop ?_
  unfold before at hn
  have hexp : ((n : Int) + 1) * s.step = n * s.step + s.step := by rw [Int.add_mul, Int.one_mul]
  by_cases hp : 0 < s.step
  · rw [if_pos hp] at hn
    have h1 : (n : Int) * s.step < m * s.step := by omega
    have h2 : (n : Int) < m := Int.lt_of_mul_lt_mul_right h1 (by omega)
    have h3 : ((n : Int) + 1) * s.step ≤ m * s.step := Int.mul_le_mul_of_nonneg_right (by omega) (by omega)
    have h4 := Int.mul_nonneg (show (0 : Int) ≤ n by omega) (show 0 ≤ s.step by omega)
    omega
  · rw [if_neg hp] at hn
    have hnz := h.nz
    have h1 : (n : Int) * -s.step < m * -s.step := by rw [Int.mul_neg, Int.mul_neg]; omega
    have h2 : (n : Int) < m := Int.lt_of_mul_lt_mul_right h1 (by omega)
    have h3 : ((n : Int) + 1) * -s.step ≤ m * -s.step := Int.mul_le_mul_of_nonneg_right (by omega) (by omega)
    have h4 := Int.mul_nonneg (show (0 : Int) ≤ n by omega) (show 0 ≤ -s.step by omega)
    rw [Int.mul_neg] at h3 h4
    rw [Int.mul_neg] at h3
    omega

/-- **C37, partial.** If the step divides the distance (in particular for steps 1 and -1), iteration over any start and stop of the
type never overflows, ends, and yields the mathematical progression. Missing: other steps, for which `Fits` is needed. -/
theorem fixed_width_dvd_partial {T S : ITy} {s : St} (h : Ok T S s) (hd : s.step ∣ s.stop - s.current) :
    (∀ n, next T S (after (iter T S).next n s) ≠ none) ∧
    visit (iter T S) .forward (count s) (begin (iter T S) s) = elems s ∧ results (iter T S).next s (count s) = none := by
  have hf := fits_of_dvd h hd
  refine ⟨fun n => (forward_partial h hf n).2, loop_partial h hf _ (Nat.le_refl _), ?_⟩
  rw [(forward_partial h hf _).1, if_neg]
  rw [← lt_count h.nz]; omega

example : Ok ⟨8, false⟩ ⟨32, true⟩ ⟨0, 255, 51⟩ ∧ (51 : Int) ∣ 255 - 0 := by
  refine ⟨⟨by decide, by decide, by decide, by decide, by decide, by decide⟩, by decide⟩

/-- **C37.** `range(start, stop)` never overflows and yields `start, ..., stop - 1`, for all values of every type. -/
theorem unit_step {T : ITy} (hT : T.Wf) {start stop : Int} (h1 : T.Has start) (h2 : T.Has stop) :
    ∃ s, range2 start stop = some s ∧ (∀ n, next T T (after (iter T T).next n s) ≠ none) ∧
      visit (iter T T) .forward (stop - start).toNat (begin (iter T T) s) =
        (List.range (stop - start).toNat).map (fun (i : Nat) => start + (i : Int)) := by
  have hok : Ok T T ⟨start, stop, 1⟩ := by
    refine ⟨hT, hT, h1, h2, ?_, by simp⟩
    have ht := pow_mono (show 1 ≤ T.bits - 1 by unfold ITy.Wf at hT; omega)
    have ht2 := pow_mono (show 1 ≤ T.bits by unfold ITy.Wf at hT; omega)
    unfold ITy.Has ITy.min ITy.max
    split <;> simp only [Int.pow_one] at * <;> omega
  have hd : (1 : Int) ∣ stop - start := Int.one_dvd _
  have hc : count ⟨start, stop, 1⟩ = (stop - start).toNat := by simp [count]
  have := fixed_width_dvd_partial hok hd
  refine ⟨_, rfl, this.1, ?_⟩
  have h' := this.2.1
  rw [hc] at h'
  rw [h']
  simp only [elems, hc, Int.mul_one]

example : range2 (-2) 1 = some ⟨-2, 1, 1⟩ ∧ (⟨8, true⟩ : ITy).Has (-2) := by decide

/-- **C37.** `range(stop)` never overflows and yields `0, ..., stop - 1` (nothing for a negative `stop`). -/
theorem from_zero {T : ITy} (hT : T.Wf) {stop : Int} (h : T.Has stop) :
    ∃ s, range1 stop = some s ∧ (∀ n, next T T (after (iter T T).next n s) ≠ none) ∧
      visit (iter T T) .forward stop.toNat (begin (iter T T) s) = (List.range stop.toNat).map (fun (i : Nat) => (i : Int)) := by
  have h0 : T.Has 0 := by
    have h1 := two_pow_pos (T.bits - 1)
    have h2 := two_pow_pos T.bits
    unfold ITy.Has ITy.min ITy.max
    split <;> omega
  obtain ⟨s, e, h1, h2⟩ := unit_step hT h0 h
  refine ⟨s, e, h1, ?_⟩
  simpa using h2

example : (⟨8, true⟩ : ITy).Wf ∧ (⟨8, true⟩ : ITy).Has 127 := by decide

/-- **C37, refuted.** For `uint8_t`, `range(250, 255, 10)` never ends: after 250 it continues with 4. -/
theorem unsigned_wrap_refuted :
    (∀ n, results (iter ⟨8, false⟩ ⟨8, false⟩).next ⟨250, 255, 10⟩ n ≠ none) ∧
    results (iter ⟨8, false⟩ ⟨8, false⟩).next ⟨250, 255, 10⟩ 1 = some 4 := by
  refine ⟨?_, by decide⟩
  have key : ∀ (n : Nat) (x : Int), 0 ≤ x → x ≤ 254 → x % 2 = 0 → results (iter ⟨8, false⟩ ⟨8, false⟩).next ⟨x, 255, 10⟩ n ≠ none := by
    have hn : ∀ x : Int, 0 ≤ x → x ≤ 254 → next ⟨8, false⟩ ⟨8, false⟩ ⟨x, 255, 10⟩ = some (some x, ⟨(x + 10) % 256, 255, 10⟩) := by
      intro x h0 h1
      have hc : common ⟨8, false⟩ ⟨8, false⟩ = int := by decide
      have h32 : (2 : Int) ^ 32 = 4294967296 := by decide
      have h31 : (2 : Int) ^ 31 = 2147483648 := by decide
      have hx : int.conv x = x := conv_of_has (by decide) (by simp only [ITy.Has, ITy.min, ITy.max, int]; simp; omega)
      have h10 : int.conv 10 = 10 := by decide
      have har : arith int (x + 10) = some (x + 10) := by
        have hh : int.Has (x + 10) := by simp only [ITy.Has, ITy.min, ITy.max, int]; simp; omega
        unfold arith
        rw [if_pos (by decide), if_pos hh]
      simp only [next, binop, hc, hx, h10, har]
      rw [if_neg (by simp; omega)]
      simp [ITy.conv]
    intro n
    induction n with
    | zero =>
      intro x h0 h1 _
      simp only [results, after, iter, hn x h0 h1, Option.getD_some]; simp
    | succ n ih =>
      intro x h0 h1 h2
      rw [← NextTo.results_step]
      simp only [iter, hn x h0 h1, Option.getD_some]
      exact ih _ (by omega) (by omega) (by omega)
  intro n
  exact key n 250 (by decide) (by decide) (by decide)

/-- **C37, refuted.** For `int`, `range(2147483646, 2147483647, 2)` overflows when its only element is taken. -/
theorem signed_overflow_refuted : next ⟨32, true⟩ ⟨32, true⟩ ⟨2147483646, 2147483647, 2⟩ = none := by decide

/-! ### C36 -/

theorem jump_bound {s : St} (h0 : s.step ≠ 0) {k : Nat} (hk : k < count s) :
    k ≤ (s.stop - s.current).natAbs ∧ ((k : Int) * s.step).natAbs ≤ (s.stop - s.current).natAbs ∧
    ((s.current ≤ s.current + k * s.step ∧ s.current + k * s.step ≤ s.stop) ∨
     (s.stop ≤ s.current + k * s.step ∧ s.current + k * s.step ≤ s.current)) := by
  have hb := (lt_count h0 k).1 hk
  have habs : ((k : Int) * s.step).natAbs = k * s.step.natAbs := by rw [Int.natAbs_mul]; simp
  have h1 : k * 1 ≤ k * s.step.natAbs := Nat.mul_le_mul_left k (by omega)
  unfold before at hb
  by_cases hp : 0 < s.step
  · rw [if_pos hp] at hb
    have h2 := Int.mul_nonneg (show (0 : Int) ≤ k by omega) (show 0 ≤ s.step by omega)
    generalize hz : (k : Int) * s.step = z at *
    omega
  · rw [if_neg hp] at hb
    have h2 := Int.mul_nonneg (show (0 : Int) ≤ k by omega) (show 0 ≤ -s.step by omega)
    rw [Int.mul_neg] at h2
    generalize hz : (k : Int) * s.step = z at *
    omega

/-- The state `s` is one in which `next`, `nth` and `remaining` do not overflow, and stands for the elements `l`. -/
def RepFwd (T S : ITy) (s : St) (l : List Int) : Prop :=
  Ok T S s ∧ l = elems s ∧ (count s = 0 ∨ (FitsRem T S s ∧ Fits T s))

theorem fits_of_count {T : ITy} {s : St} (h0 : s.step ≠ 0) (hc : count s = 0) : Fits T s := by
  intro n hn
  rw [← lt_count h0] at hn; omega

theorem fitsRem_mono {T S : ITy} {s : St} (h : FitsRem T S s) {c e : Int} (hd : (e - c).natAbs ≤ (s.stop - s.current).natAbs) :
    FitsRem T S ⟨c, e, s.step⟩ := by
  obtain ⟨h1, h2, h3⟩ := h
  refine ⟨?_, h2, ?_⟩
  · show ((e - c).natAbs : Int) ≤ _; omega
  · show ((e - c).natAbs : Int) + (s.step.natAbs : Int) - (if (common T.promote S).signed then 0 else 1) ≤ _; split at h3 <;> split <;> simp_all <;> omega

/-- After advancing by `j` elements the state is still good. -/
theorem repFwd_advance {T S : ITy} {s : St} (h : Ok T S s) (hf : FitsRem T S s ∧ Fits T s) {j : Nat} (hj : j ≤ count s)
    (hT : T.Has (s.current + j * s.step)) : RepFwd T S { s with current := s.current + j * s.step } ((elems s).drop j) := by
  refine ⟨⟨h.wT, h.wS, hT, h.stop, h.step, h.nz⟩, (elems_advance h.nz j).symm, ?_⟩
  by_cases hc : j = count s
  · left; rw [count_advance h.nz]; omega
  · right
    obtain ⟨_, h2, h3⟩ := jump_bound h.nz (show j < count s by omega)
    refine ⟨fitsRem_mono hf.1 (by omega), fits_advance hf.2 j⟩

theorem nth_rep {T S : ITy} {s : St} {l : List Int} (h : RepFwd T S s l) (k : Nat) :
    ∃ s', nth T S s k = some (l[k]?, s') ∧ RepFwd T S s' (l.drop (k + 1)) := by
  obtain ⟨hok, rfl, hr⟩ := h
  have hrem : remaining T S s = some (count s) := by
    rcases hr with hc | hf
    · rw [hc]; exact remaining_zero hok hc
    · exact remaining_ok hok hf.1
  unfold nth
  rw [hrem]
  simp only [Option.bind_some]
  by_cases hk : count s ≤ k
  · rw [if_pos hk]
    refine ⟨{ s with current := s.stop }, by rw [elems_get, if_neg (by omega)],
      ⟨hok.wT, hok.wS, hok.stop, hok.stop, hok.step, hok.nz⟩, ?_, .inl (not_before_of_eq rfl)⟩
    rw [elems_nil (s := { s with current := s.stop }) (not_before_of_eq rfl), List.drop_eq_nil_of_le]
    rw [elems_length]; omega
  · have hk' : k < count s := by omega
    have hf : FitsRem T S s ∧ Fits T s := by rcases hr with hc | hf; · omega
                                             · exact hf
    rw [if_neg hk]
    obtain ⟨h1, h2, h3⟩ := jump_bound hok.nz hk'
    have hT := has_between hok.current hok.stop h3
    have hfb : ∀ a x : Int, (a + x).natAbs ≤ a.natAbs + x.natAbs := by omega
    obtain ⟨p, r, ep, er, hr'⟩ := jump compat_add hfb hok hf.1.dist h1 h2 hok.current hT
    rw [ep]
    simp only [Option.bind_some]
    rw [er]
    simp only [Option.bind_some, hr']
    have hb := (lt_count hok.nz k).1 hk'
    have hnx : T.Has (s.current + k * s.step + s.step) := by
      have := hf.2 k hb
      rwa [Int.add_mul, Int.one_mul, ← Int.add_assoc] at this
    rw [next_ok (s := { s with current := s.current + k * s.step }) ⟨hok.wT, hok.wS, hT, hok.stop, hok.step, hok.nz⟩ hb hnx]
    refine ⟨_, by rw [elems_get, if_pos hk'], ?_⟩
    have := repFwd_advance hok hf (j := k + 1) (by omega) (by
      rw [show ((k + 1 : Nat) : Int) = (k : Int) + 1 by omega, Int.add_mul, Int.one_mul, ← Int.add_assoc]; exact hnx)
    rw [show ((k + 1 : Nat) : Int) = (k : Int) + 1 by omega, Int.add_mul, Int.one_mul, ← Int.add_assoc] at this
    exact this

/-- **C36, partial.** As long as nothing overflows, a range satisfies the laws of a sized random-access iterator: `remaining()` is the
number of elements iteration will still yield, and `nth(k)` is `k + 1` single steps, also past the end. Missing: ranges with
overflow, see `size_refuted`. -/
theorem lawful_forward_partial (T S : ITy) : NextTo.LawfulFwd (iter T S) (RepFwd T S) := by
  refine ⟨?_, ?_, ?_⟩
  · rintro s l ⟨hok, rfl, hr⟩
    have hf : Fits T s := by rcases hr with hc | hf; · exact fits_of_count hok.nz hc
                             · exact hf.2
    obtain ⟨s', e, hok', hf', he, hs1, hs2, hs3⟩ := next_rep hok hf
    simp only [iter, e, Option.getD_some, true_and]
    refine ⟨hok', he.symm, ?_⟩
    by_cases hb : before s.step s.current s.stop
    · have hc := (before_iff_count hok.nz).1 hb
      have hfr : FitsRem T S s ∧ Fits T s := by rcases hr with h | h; · omega
                                                · exact h
      rw [if_pos hb] at hs3
      have hs' : s' = { s with current := s.current + (1 : Nat) * s.step } := by
        cases s'; simp at hs1 hs2 hs3 ⊢; exact ⟨hs3, hs2, hs1⟩
      have hT : T.Has (s.current + (1 : Nat) * s.step) := by
        have := hok'.current; rw [hs3] at this; simpa using this
      have := (repFwd_advance hok hfr (j := 1) (by omega) hT).2.2
      rwa [← hs'] at this
    · rw [if_neg hb] at hs3
      have hs' : s' = s := by cases s; cases s'; simp at hs1 hs2 hs3 ⊢; exact ⟨hs3, hs2, hs1⟩
      rw [hs']; exact hr
  · rintro s l k h
    obtain ⟨s', e, hr⟩ := nth_rep h k
    simp only [iter, e, Option.getD_some, true_and]
    exact hr
  · rintro s l ⟨hok, rfl, hr⟩
    have hrem : remaining T S s = some (count s) := by
      rcases hr with hc | hf
      · rw [hc]; exact remaining_zero hok hc
      · exact remaining_ok hok hf.1
    simp only [iter, hrem, Option.getD_some, elems_length]

example : RepFwd ⟨8, true⟩ ⟨8, true⟩ ⟨-128, 127, 1⟩ (elems ⟨-128, 127, 1⟩) := by
  have hok : Ok ⟨8, true⟩ ⟨8, true⟩ ⟨-128, 127, 1⟩ := ⟨by decide, by decide, by decide, by decide, by decide, by decide⟩
  exact ⟨hok, rfl, .inr ⟨⟨by decide, by decide, by decide⟩, fits_of_dvd hok (Int.one_dvd _)⟩⟩

/-- **C36, partial.** The view operations on a range, and that none of them overflows. -/
theorem view_partial {T S : ITy} {s : St} {l : List Int} (h : RepFwd T S s l) :
    NextTo.size (iter T S) s = l.length ∧ (∀ k, NextTo.index (iter T S) s k = l[k]?) ∧ NextTo.front (iter T S) s = l.head? ∧
    (∀ k, visit (iter T S) .forward (l.length + 1) (begin (iter T S) (NextTo.advance (iter T S) s k)) = l.drop k) ∧
    remaining T S s ≠ none ∧ ∀ k, nth T S s k ≠ none := by
  have hv := NextTo.view_forward (lawful_forward_partial T S) h
  refine ⟨hv.2.2.2.1, hv.2.2.1, hv.2.1, NextTo.advance_visit (lawful_forward_partial T S) h, ?_, ?_⟩
  · obtain ⟨hok, _, hr⟩ := h
    rcases hr with hc | hf
    · rw [remaining_zero hok hc]; simp
    · rw [remaining_ok hok hf.1]; simp
  · intro k
    obtain ⟨s', e, _⟩ := nth_rep h k
    rw [e]; simp

/-- A range of a narrow signed type that spans the whole type meets the hypotheses: 255 elements of `int8_t`. -/
example : RepFwd ⟨8, true⟩ ⟨8, true⟩ ⟨-128, 127, 1⟩ (elems ⟨-128, 127, 1⟩) ∧ (elems ⟨-128, 127, 1⟩).length = 255 := by
  have hok : Ok ⟨8, true⟩ ⟨8, true⟩ ⟨-128, 127, 1⟩ := ⟨by decide, by decide, by decide, by decide, by decide, by decide⟩
  exact ⟨⟨hok, rfl, .inr ⟨⟨by decide, by decide, by decide⟩, fits_of_dvd hok (Int.one_dvd _)⟩⟩, by rw [elems_length]; decide⟩

/-- **C36, refuted.** For `size_t`, `range(0, SIZE_MAX, 2)` has elements but `size()` is 0, so `empty()` is true and `operator[]`
finds nothing. -/
theorem size_refuted :
    NextTo.size (iter sizeT sizeT) ⟨0, 2 ^ 64 - 1, 2⟩ = 0 ∧ NextTo.empty (iter sizeT sizeT) ⟨0, 2 ^ 64 - 1, 2⟩ = true ∧
    NextTo.index (iter sizeT sizeT) ⟨0, 2 ^ 64 - 1, 2⟩ 0 = none ∧
    results (iter sizeT sizeT).next ⟨0, 2 ^ 64 - 1, 2⟩ 0 = some 0 := by
  refine ⟨by decide, by decide, by decide, by decide⟩

/-- **C36, refuted.** For `int`, the size of `range(-2, 2147483647)` overflows. -/
theorem size_overflow_refuted : remaining ⟨32, true⟩ ⟨32, true⟩ ⟨-2, 2147483647, 1⟩ = none := by decide

/-! ### C35 -/

theorem exact_count {s : St} (h0 : s.step ≠ 0) (hd : s.step ∣ s.stop - s.current) (hc : 0 < count s) :
    s.stop = s.current + count s * s.step := by
  obtain ⟨m, hm⟩ := hd
  have hstop : s.stop = s.current + m * s.step := by rw [Int.mul_comm]; omega
  have hb := (before_iff_count h0).2 hc
  have key : ∀ i : Nat, i < count s ↔ (i : Int) < m := by
    intro i
    rw [lt_count h0]
    unfold before
    by_cases hp : 0 < s.step
    · rw [if_pos hp, hstop]
      constructor
      · intro h; exact Int.lt_of_mul_lt_mul_right (show (i : Int) * s.step < m * s.step by omega) (by omega)
      · intro h
        have := Int.mul_lt_mul_of_pos_right h hp
        omega
    · rw [if_neg hp, hstop]
      constructor
      · intro h
        exact Int.lt_of_mul_lt_mul_right (show (i : Int) * -s.step < m * -s.step by rw [Int.mul_neg, Int.mul_neg]; omega) (by omega)
      · intro h
        have := Int.mul_lt_mul_of_pos_right h (show 0 < -s.step by omega)
        rw [Int.mul_neg, Int.mul_neg] at this
        omega
  have hm : m = count s := by
    have h1 := key (count s)
    have h2 := key (count s - 1)
    omega
  rw [← hm]; exact hstop

/-- A state whose step divides the distance, standing for the elements `l`. -/
def RepDvd (T S : ITy) (s : St) (l : List Int) : Prop := Ok T S s ∧ (s.step ∣ s.stop - s.current) ∧ l = elems s

theorem last_value {s : St} (h0 : s.step ≠ 0) (hd : s.step ∣ s.stop - s.current) {j : Nat} (hj : j ≤ count s) (hc : 0 < count s) :
    s.stop - j * s.step = s.current + (count s - j : Nat) * s.step := by
  have := exact_count h0 hd hc
  rw [show ((count s - j : Nat) : Int) = (count s : Int) - j by omega, Int.sub_mul]
  omega

theorem has_back {T S : ITy} {s : St} (h : Ok T S s) (hd : s.step ∣ s.stop - s.current) {j : Nat} (hj : 1 ≤ j) (hjc : j ≤ count s) :
    T.Has (s.stop - j * s.step) ∧
    ((s.current ≤ s.stop - j * s.step ∧ s.stop - j * s.step ≤ s.stop) ∨ (s.stop ≤ s.stop - j * s.step ∧ s.stop - j * s.step ≤ s.current)) := by
  rw [last_value h.nz hd hjc (by omega)]
  have hb := (jump_bound h.nz (show count s - j < count s by omega)).2.2
  exact ⟨has_between h.current h.stop hb, by omega⟩

theorem dvd_advance {s : St} (hd : s.step ∣ s.stop - s.current) (j : Nat) : s.step ∣ s.stop - (s.current + j * s.step) := by
  obtain ⟨m, hm⟩ := hd
  exact ⟨m - j, by rw [Int.mul_sub, ← hm, Int.mul_comm s.step j]; omega⟩

theorem dvd_back {s : St} (hd : s.step ∣ s.stop - s.current) (j : Nat) : s.step ∣ s.stop - j * s.step - s.current := by
  obtain ⟨m, hm⟩ := hd
  exact ⟨m - j, by rw [Int.mul_sub, ← hm, Int.mul_comm s.step j]; omega⟩

theorem next_dvd {T S : ITy} {s : St} {l : List Int} (h : RepDvd T S s l) :
    ∃ s', next T S s = some (l.head?, s') ∧ RepDvd T S s' l.tail ∧ s'.step = s.step ∧
      (s'.stop - s'.current).natAbs ≤ (s.stop - s.current).natAbs := by
  obtain ⟨hok, hd, rfl⟩ := h
  obtain ⟨s', e, hok', _, he, hs1, hs2, hs3⟩ := next_rep hok (fits_of_dvd hok hd)
  refine ⟨s', e, ⟨hok', ?_, he.symm⟩, hs1, ?_⟩
  · rw [hs1, hs2, hs3]
    split
    · simpa using dvd_advance hd 1
    · exact hd
  · rw [hs2, hs3]
    split
    · rename_i hb
      have hf := fits_of_dvd hok hd
      by_cases hc : count s = 1
      · have := exact_count hok.nz hd (by omega)
        rw [hc] at this
        simp at this
        omega
      · have := (before_iff_count hok.nz).1 hb
        have := (jump_bound hok.nz (show 1 < count s by omega)).2.2
        simp at this
        omega
    · omega

theorem nextBack_dvd {T S : ITy} {s : St} {l : List Int} (h : RepDvd T S s l) :
    ∃ s', nextBack T S s = some (l.getLast?, s') ∧ RepDvd T S s' l.dropLast ∧ s'.step = s.step ∧
      (s'.stop - s'.current).natAbs ≤ (s.stop - s.current).natAbs := by
  obtain ⟨hok, hd, rfl⟩ := h
  by_cases hb : before s.step s.current s.stop
  · have hc := (before_iff_count hok.nz).1 hb
    obtain ⟨hT, hbt⟩ := has_back hok hd (j := 1) (by omega) (by omega)
    have hl := last_value hok.nz hd (j := 1) (by omega) hc
    simp only [Int.natCast_one, Int.one_mul] at hT hbt hl
    refine ⟨{ s with stop := s.stop - s.step }, ?_, ⟨⟨hok.wT, hok.wS, hok.current, hT, hok.step, hok.nz⟩, ?_, ?_⟩, rfl, ?_⟩
    · rw [nextBack_ok hok hb hT]
      congr 2
      rw [List.getLast?_eq_getElem?, elems_length, elems_get, if_pos (by omega), hl]
    · simpa using dvd_back hd 1
    · have := elems_back hok.nz (s := s) 1
      simp only [Int.natCast_one, Int.one_mul] at this
      rw [this, List.dropLast_eq_take, elems_length]
    · show (s.stop - s.step - s.current).natAbs ≤ _
      omega
  · have hc : count s = 0 := by rw [before_iff_count hok.nz] at hb; omega
    exact ⟨s, by rw [nextBack_end hb, elems_nil hc]; rfl, ⟨hok, hd, by rw [elems_nil hc]; rfl⟩, rfl, Nat.le_refl _⟩

/-- Consume from the front (`true`) or the back (`false`); `none` is undefined behaviour. -/
def consume (T S : ITy) : St → List Bool → Option (List (Option Int))
  | _, [] => some []
  | s, true :: ds => (next T S s).bind fun p => (consume T S p.2 ds).map (p.1 :: ·)
  | s, false :: ds => (nextBack T S s).bind fun p => (consume T S p.2 ds).map (p.1 :: ·)

/-- The same on a list. -/
def consumeList : List Int → List Bool → List (Option Int)
  | _, [] => []
  | l, true :: ds => l.head? :: consumeList l.tail ds
  | l, false :: ds => l.getLast? :: consumeList l.dropLast ds

/-- **C35, partial.** If the step divides the distance (always, for steps 1 and -1), any interleaving of `next` and `next_back`
consumes the elements from both ends, without overflow. Missing: other steps, see `reverse_refuted`. -/
theorem both_ends_partial {T S : ITy} {s : St} (h : Ok T S s) (hd : s.step ∣ s.stop - s.current) (ds : List Bool) :
    consume T S s ds = some (consumeList (elems s) ds) := by
  have key : ∀ (ds : List Bool) (s : St) (l : List Int), RepDvd T S s l → consume T S s ds = some (consumeList l ds) := by
    intro ds
    induction ds with
    | nil => intro s l _; rfl
    | cons d ds ih =>
      intro s l h
      cases d with
      | true =>
        obtain ⟨s', e, hr, _⟩ := next_dvd h
        simp only [consume, consumeList, e, Option.bind_some, ih _ _ hr, Option.map_some]
      | false =>
        obtain ⟨s', e, hr, _⟩ := nextBack_dvd h
        simp only [consume, consumeList, e, Option.bind_some, ih _ _ hr, Option.map_some]
  exact key ds s _ ⟨h, hd, rfl⟩

example : Ok ⟨32, false⟩ ⟨32, true⟩ ⟨10, 1, -3⟩ ∧ ((-3 : Int) ∣ 1 - 10) ∧
    consume ⟨32, false⟩ ⟨32, true⟩ ⟨10, 1, -3⟩ [true, false, true, true] = some (consumeList [10, 7, 4] [true, false, true, true]) := by
  refine ⟨⟨by decide, by decide, by decide, by decide, by decide, by decide⟩, by decide, by decide⟩

theorem nthBack_dvd {T S : ITy} {s : St} {l : List Int} (h : RepDvd T S s l) (hf : FitsRem T S s) (k : Nat) :
    ∃ s', nthBack T S s k = some (l.reverse[k]?, s') ∧ RepDvd T S s' (l.take (l.length - (k + 1))) ∧ FitsRem T S s' := by
  obtain ⟨hok, hd, rfl⟩ := h
  unfold nthBack
  rw [remaining_ok hok hf]
  simp only [Option.bind_some]
  by_cases hk : count s ≤ k
  · rw [if_pos hk]
    refine ⟨{ s with stop := s.current }, ?_, ⟨⟨hok.wT, hok.wS, hok.current, hok.current, hok.step, hok.nz⟩, ?_, ?_⟩, fitsRem_mono hf (by simp)⟩
    · rw [List.getElem?_eq_none (by simp [elems_length]; omega)]
    · show s.step ∣ s.current - s.current; rw [Int.sub_self]; exact Int.dvd_zero _
    · rw [elems_nil (s := { s with stop := s.current }) (not_before_of_eq rfl), elems_length, show count s - (k + 1) = 0 by omega]; rfl
  · have hk' : k < count s := by omega
    rw [if_neg hk]
    obtain ⟨h1, h2, _⟩ := jump_bound hok.nz hk'
    have hT : T.Has (s.stop - k * s.step) := by
      rcases Nat.eq_zero_or_pos k with rfl | hpos
      · simpa using hok.stop
      · exact (has_back hok hd hpos (by omega)).1
    have hfb : ∀ a x : Int, (a - x).natAbs ≤ a.natAbs + x.natAbs := by omega
    obtain ⟨p, r, ep, er, hr'⟩ := jump compat_sub hfb hok hf.dist h1 h2 hok.stop hT
    rw [ep]
    simp only [Option.bind_some]
    rw [er]
    simp only [Option.bind_some, hr']
    have hle : (s.stop - k * s.step - s.current).natAbs ≤ (s.stop - s.current).natAbs := by
      rcases Nat.eq_zero_or_pos k with rfl | hpos
      · simp
      · have := (has_back hok hd hpos (by omega)).2; omega
    have hrep : RepDvd T S { s with stop := s.stop - k * s.step } ((elems s).take (count s - k)) :=
      ⟨⟨hok.wT, hok.wS, hok.current, hT, hok.step, hok.nz⟩, dvd_back hd k, (elems_back hok.nz k).symm⟩
    obtain ⟨s', e, hr, hs1, hs2⟩ := nextBack_dvd hrep
    rw [e]
    refine ⟨s', ?_, ?_, ?_⟩
    · congr 2
      rw [List.getLast?_eq_getElem?, List.length_take, elems_length, List.getElem?_take,
        List.getElem?_reverse (by rw [elems_length]; omega), elems_length]
      rw [if_pos (by omega)]
      congr 1; omega
    · rw [List.dropLast_eq_take, List.length_take, elems_length, List.take_take] at hr
      rw [elems_length]
      rwa [show min (min (count s - k) (count s) - 1) (count s - k) = count s - (k + 1) by omega] at hr
    · have : FitsRem T S ⟨s'.current, s'.stop, s.step⟩ := fitsRem_mono hf (Nat.le_trans hs2 hle)
      rw [← show s'.step = s.step from hs1] at this
      exact this

/-- **C35, partial.** If in addition the size computation does not overflow, a range satisfies all laws of a double-ended iterator. -/
theorem lawful_partial (T S : ITy) : NextTo.Lawful (iter T S) (fun s l => RepDvd T S s l ∧ FitsRem T S s) := by
  have hstep : ∀ {s s' : St}, FitsRem T S s → s'.step = s.step → (s'.stop - s'.current).natAbs ≤ (s.stop - s.current).natAbs →
      FitsRem T S s' := by
    intro s s' hf h1 h2
    have : FitsRem T S ⟨s'.current, s'.stop, s.step⟩ := fitsRem_mono hf h2
    rw [← h1] at this
    exact this
  refine { next := ?_, nth := ?_, remaining := ?_, nextBack := ?_, nthBack := ?_ }
  · rintro s l ⟨h, hf⟩
    obtain ⟨s', e, hr, h1, h2⟩ := next_dvd h
    simp only [iter, e, Option.getD_some, true_and]
    exact ⟨hr, hstep hf h1 h2⟩
  · rintro s l k ⟨⟨hok, hd, rfl⟩, hf⟩
    unfold iter nth
    simp only [remaining_ok hok hf, Option.bind_some]
    by_cases hk : count s ≤ k
    · rw [if_pos hk]
      simp only [Option.getD_some]
      refine ⟨by rw [elems_get, if_neg (by omega)], ⟨⟨hok.wT, hok.wS, hok.stop, hok.stop, hok.step, hok.nz⟩, ?_, ?_⟩,
        fitsRem_mono hf (by simp)⟩
      · show s.step ∣ s.stop - s.stop; rw [Int.sub_self]; exact Int.dvd_zero _
      · rw [elems_nil (s := { s with current := s.stop }) (not_before_of_eq rfl), List.drop_eq_nil_of_le]
        rw [elems_length]; omega
    · have hk' : k < count s := by omega
      rw [if_neg hk]
      obtain ⟨h1, h2, h3⟩ := jump_bound hok.nz hk'
      have hT := has_between hok.current hok.stop h3
      have hfb : ∀ a x : Int, (a + x).natAbs ≤ a.natAbs + x.natAbs := by omega
      obtain ⟨p, r, ep, er, hr'⟩ := jump compat_add hfb hok hf.dist h1 h2 hok.current hT
      rw [ep]
      simp only [Option.bind_some]
      rw [er]
      simp only [Option.bind_some, hr']
      have hrep : RepDvd T S { s with current := s.current + k * s.step } ((elems s).drop k) :=
        ⟨⟨hok.wT, hok.wS, hT, hok.stop, hok.step, hok.nz⟩, dvd_advance hd k, (elems_advance hok.nz k).symm⟩
      obtain ⟨s', e, hr, hs1, hs2⟩ := next_dvd hrep
      rw [e]
      simp only [Option.getD_some]
      refine ⟨by simp, by rw [List.tail_drop] at hr; exact hr, ?_⟩
      exact hstep (fitsRem_mono hf (c := s.current + k * s.step) (e := s.stop) (by omega)) hs1 hs2
  · rintro s l ⟨⟨hok, _, rfl⟩, hf⟩
    simp only [iter, remaining_ok hok hf, Option.getD_some, elems_length]
  · rintro s l ⟨h, hf⟩
    obtain ⟨s', e, hr, h1, h2⟩ := nextBack_dvd h
    simp only [iter, e, Option.getD_some, true_and]
    exact ⟨hr, hstep hf h1 h2⟩
  · rintro s l k ⟨h, hf⟩
    obtain ⟨s', e, hr, hf'⟩ := nthBack_dvd h hf k
    simp only [iter, e, Option.getD_some, true_and]
    exact ⟨hr, hf'⟩

example : Ok ⟨32, false⟩ ⟨32, true⟩ ⟨10, 1, -3⟩ ∧ ((-3 : Int) ∣ 1 - 10) ∧ FitsRem ⟨32, false⟩ ⟨32, true⟩ ⟨10, 1, -3⟩ := by
  refine ⟨⟨by decide, by decide, by decide, by decide, by decide, by decide⟩, by decide, ⟨by decide, by decide, by decide⟩⟩

/-- **C35, partial.** `reversed()` visits the elements of forward iteration in reverse order, and `back()` is the last of them. -/
theorem reversed_partial {T S : ITy} {s : St} (h : Ok T S s) (hd : s.step ∣ s.stop - s.current) (hf : FitsRem T S s) :
    visit (iter T S) .forward (count s + 1) (begin (iter T S) s) = elems s ∧
    visit (iter T S) .backward (count s + 1) (rbegin (iter T S) s) = (elems s).reverse ∧
    NextTo.back (iter T S) s = (elems s).getLast? := by
  have h1 := NextTo.view_forward (lawful_partial T S).toLawfulFwd (s := s) (l := elems s) ⟨⟨h, hd, rfl⟩, hf⟩
  have h2 := NextTo.view_backward (lawful_partial T S) (s := s) (l := elems s) ⟨⟨h, hd, rfl⟩, hf⟩
  rw [elems_length] at h1 h2
  exact ⟨h1.1, h2.1, h2.2⟩

/-- A descending range with a step that divides the distance meets the hypotheses. -/
example : Ok ⟨32, false⟩ ⟨32, true⟩ ⟨10, 1, -3⟩ ∧ ((-3 : Int) ∣ 1 - 10) ∧ FitsRem ⟨32, false⟩ ⟨32, true⟩ ⟨10, 1, -3⟩ ∧
    elems ⟨10, 1, -3⟩ = [10, 7, 4] := by
  refine ⟨⟨by decide, by decide, by decide, by decide, by decide, by decide⟩, by decide, ⟨by decide, by decide, by decide⟩, by decide⟩

/-- **C35, refuted.** If the step does not divide the distance, reverse iteration yields different elements, even ones outside the
range: `range(0, 10, 3)` is 0, 3, 6, 9 but its reverse is 7, 4, 1, -2. -/
theorem reverse_refuted :
    visit (iter ⟨32, true⟩ ⟨32, true⟩) .forward 10 (begin (iter ⟨32, true⟩ ⟨32, true⟩) ⟨0, 10, 3⟩) = [0, 3, 6, 9] ∧
    visit (iter ⟨32, true⟩ ⟨32, true⟩) .backward 10 (rbegin (iter ⟨32, true⟩ ⟨32, true⟩) ⟨0, 10, 3⟩) = [7, 4, 1, -2] ∧
    NextTo.back (iter ⟨32, true⟩ ⟨32, true⟩) ⟨0, 10, 3⟩ = some 7 := by
  refine ⟨by decide, by decide, by decide⟩

/-- **C35, refuted.** For unsigned types the reverse leaves the type at its lower end and continues at the upper end. -/
theorem reverse_wrap_refuted :
    visit (iter ⟨32, false⟩ ⟨32, false⟩) .backward 5 (rbegin (iter ⟨32, false⟩ ⟨32, false⟩) ⟨0, 10, 3⟩)
      = [7, 4, 1, 4294967294, 4294967291] := by decide

end Verif.Range
