import Verif.Range.Model
import Verif.NextTo.Props

/-! The mathematical progression and how the operations of `range_iterator` relate to it. -/
namespace Verif.Range

/-! ### The progression -/

/-- Is `x` strictly before `stop` in the direction of `step`? -/
def before (step x stop : Int) : Prop := if 0 < step then x < stop else stop < x

instance (step x stop : Int) : Decidable (before step x stop) := by unfold before; exact inferInstance

/-- Number of elements. -/
def count (s : St) : Nat :=
  if 0 < s.step then ((s.stop - s.current + s.step - 1) / s.step).toNat
  else ((s.current - s.stop + -s.step - 1) / -s.step).toNat

/-- The elements. -/
def elems (s : St) : List Int := (List.range (count s)).map fun (i : Nat) => s.current + (i : Int) * s.step

theorem lt_count {s : St} (h0 : s.step ≠ 0) (i : Nat) : i < count s ↔ before s.step (s.current + i * s.step) s.stop := by
  have key : ∀ (d k : Int), 0 < k → (i < ((d + k - 1) / k).toNat ↔ (i : Int) * k < d) := by
    intro d k hk
    have h1 : (i : Int) + 1 ≤ (d + k - 1) / k ↔ ((i : Int) + 1) * k ≤ d + k - 1 := Int.le_ediv_iff_mul_le hk
    rw [Int.add_mul, Int.one_mul] at h1
    omega
  unfold count before
  by_cases hp : 0 < s.step
  · simp only [hp, if_true]
    rw [key _ _ hp]; omega
  · simp only [hp, if_false]
    rw [key _ _ (by omega), Int.mul_neg]; omega

theorem count_congr {a b : Nat} {j : Nat} (h : ∀ i, i < a ↔ i + j < b) : a = b - j := by
  have h1 := h a
  have h2 := h (a - 1)
  have h3 := h (b - j)
  have h4 := h (b - j - 1)
  omega

theorem before_shift {step x y : Int} (z : Int) : before step (x + z) (y + z) ↔ before step x y := by
  unfold before; split <;> omega

theorem count_advance {s : St} (h0 : s.step ≠ 0) (j : Nat) : count { s with current := s.current + j * s.step } = count s - j := by
  refine count_congr fun i => ?_
  rw [lt_count h0, lt_count (s := { s with current := s.current + j * s.step }) h0]
  simp only
  rw [show ((i + j : Nat) : Int) = (i : Int) + j by omega, Int.add_mul]
  rw [show s.current + (i * s.step + j * s.step) = s.current + j * s.step + i * s.step by omega]

theorem count_back {s : St} (h0 : s.step ≠ 0) (j : Nat) : count { s with stop := s.stop - j * s.step } = count s - j := by
  refine count_congr fun i => ?_
  rw [lt_count h0, lt_count (s := { s with stop := s.stop - j * s.step }) h0]
  simp only
  rw [← before_shift ((j : Int) * s.step), Int.sub_add_cancel, show ((i + j : Nat) : Int) = (i : Int) + j by omega, Int.add_mul]
  rw [show s.current + (i * s.step + j * s.step) = s.current + i * s.step + j * s.step by omega]

theorem elems_length (s : St) : (elems s).length = count s := by simp [elems]

theorem elems_get {s : St} (i : Nat) : (elems s)[i]? = if i < count s then some (s.current + i * s.step) else none := by
  simp only [elems, List.getElem?_map]
  split
  · rw [List.getElem?_range ‹_›]; rfl
  · rw [List.getElem?_eq_none (by simp; omega)]; rfl

theorem elems_advance {s : St} (h0 : s.step ≠ 0) (j : Nat) :
    elems { s with current := s.current + j * s.step } = (elems s).drop j := by
  apply List.ext_getElem?
  intro i
  rw [List.getElem?_drop, elems_get, elems_get, count_advance h0]
  have : (i < count s - j) ↔ j + i < count s := by omega
  simp only [this]
  split
  · rw [show ((j + i : Nat) : Int) = (i : Int) + j by omega, Int.add_mul, Int.add_assoc, Int.add_comm (i * s.step)]
  · rfl

theorem elems_back {s : St} (h0 : s.step ≠ 0) (j : Nat) :
    elems { s with stop := s.stop - j * s.step } = (elems s).take (count s - j) := by
  apply List.ext_getElem?
  intro i
  rw [List.getElem?_take, elems_get, elems_get, count_back h0]
  by_cases h : i < count s - j
  · simp only [h, if_true]; rw [if_pos (by omega)]
  · simp only [h, if_false]

theorem before_iff_count {s : St} (h0 : s.step ≠ 0) : before s.step s.current s.stop ↔ 0 < count s := by
  rw [lt_count h0]; simp

theorem not_before_of_eq {s : St} (h : s.current = s.stop) : count s = 0 := by
  unfold count
  split
  · rw [h, Int.sub_self, Int.zero_add, Int.ediv_eq_zero_of_lt] <;> omega
  · rename_i hp
    by_cases h0 : s.step = 0
    · simp [h0]
    · rw [h, Int.sub_self, Int.zero_add, Int.ediv_eq_zero_of_lt] <;> omega

theorem elems_nil {s : St} (h : count s = 0) : elems s = [] := by simp [elems, h]

/-! ### Types -/

/-- A state of `range_iterator<T, S>`: the values are values of the types. -/
structure Ok (T S : ITy) (s : St) : Prop where
  wT : T.Wf
  wS : S.Wf
  current : T.Has s.current
  stop : T.Has s.stop
  step : S.Has s.step
  nz : s.step ≠ 0

theorem dir_iff {s : St} : (if 0 < s.step then s.stop ≤ s.current else s.current ≤ s.stop) ↔ ¬ before s.step s.current s.stop := by
  unfold before; split <;> omega

/-- An operation whose result is converted to `T`: the mathematical value if that is a value of `T`. -/
theorem binop_conv {f : Int → Int → Int} (hf : Compat f) {T S : ITy} (hT : T.Wf) (hS : 1 ≤ S.bits) {a b : Int} (ha : T.Has a) (hb : S.Has b)
    (hr : T.Has (f a b)) : ∃ r, binop f T S a b = some r ∧ T.conv r = f a b := by
  have h1 : 1 ≤ T.bits := Wf.one hT
  obtain ⟨r, e, _, hm, _⟩ := binop_eval hf h1 hS ha hb (fun hc => has_common_left h1 hc hr)
  refine ⟨r, e, ?_⟩
  rw [← conv_of_has h1 hr]
  exact conv_congr (emod_of_dvd_pow (bits_common_left T S).1 hm)

theorem next_end {T S : ITy} {s : St} (h : ¬ before s.step s.current s.stop) : next T S s = some (none, s) := by
  unfold next; rw [if_pos (dir_iff.2 h)]

theorem next_ok {T S : ITy} {s : St} (h : Ok T S s) (hb : before s.step s.current s.stop) (hf : T.Has (s.current + s.step)) :
    next T S s = some (some s.current, { s with current := s.current + s.step }) := by
  obtain ⟨r, e, hr⟩ := binop_conv compat_add h.wT (Wf.one h.wS) h.current h.step hf
  unfold next
  rw [if_neg (by rw [dir_iff]; simpa using hb), e]
  simp only [Option.map_some, hr]

theorem nextBack_end {T S : ITy} {s : St} (h : ¬ before s.step s.current s.stop) : nextBack T S s = some (none, s) := by
  unfold nextBack; rw [if_pos (dir_iff.2 h)]

theorem nextBack_ok {T S : ITy} {s : St} (h : Ok T S s) (hb : before s.step s.current s.stop) (hf : T.Has (s.stop - s.step)) :
    nextBack T S s = some (some (s.stop - s.step), { s with stop := s.stop - s.step }) := by
  obtain ⟨r, e, hr⟩ := binop_conv compat_sub h.wT (Wf.one h.wS) h.stop h.step hf
  unfold nextBack
  rw [if_neg (by rw [dir_iff]; simpa using hb), e]
  simp only [Option.map_some, hr]

/-! ### `remaining` -/

/-- The conditions under which the computation of `remaining()` does not overflow: distance and step fit their promoted types,
and their sum (minus one, in unsigned arithmetic) the common type. -/
structure FitsRem (T S : ITy) (s : St) : Prop where
  dist : (s.stop - s.current).natAbs ≤ T.promote.max
  neg : s.step.natAbs ≤ S.promote.max
  sum : ((s.stop - s.current).natAbs : Int) + s.step.natAbs - (if (common T.promote S).signed then 0 else 1) ≤ (common T.promote S).max

theorem promote_promote (t : ITy) : t.promote.promote = t.promote := by
  have := (bits_promote t).2
  generalize t.promote = u at this ⊢
  unfold ITy.promote
  rw [if_neg (by omega)]

theorem common_promote (s t : ITy) : common s.promote t.promote = common s.promote t := by
  simp only [common, promote_promote]

theorem common_self_promote (t : ITy) : common t t = t.promote := by simp [common]

/-- Combining the common type with one of the operand types or `int` again changes nothing. -/
theorem common_right (s t : ITy) : common (common s t) t = common s t := by
  have h1 := bits_promote s
  have h2 := bits_promote t
  have hc : (common s t).promote = common s t := by
    have := (bits_common_left s t).2
    unfold ITy.promote; rw [if_neg (by omega)]
  have hcs : common s t = s.promote ∨ common s t = t.promote := by
    simp only [common]; (repeat' split) <;> simp
  rcases hcs with h | h
  · have e : common (common s t) t = common s t := by
      rw [show common (common s t) t = common s.promote t by rw [h]]
      simp only [common, promote_promote]
    exact e
  · rw [show common (common s t) t = common t.promote t by rw [h], h]
    simp [common, promote_promote]

theorem common_int (c : ITy) (h : 32 ≤ c.bits) : common c int = c := by
  have hc : c.promote = c := by unfold ITy.promote; rw [if_neg (by omega)]
  have hi : int.promote = int := by decide
  simp only [common, hc, hi]
  have h1 : int.bits = 32 := rfl
  have h2 : int.signed = true := rfl
  rw [h1, h2]
  cases hs : c.signed
  · simp; omega
  · simp; omega

theorem has_nonneg {t : ITy} {x : Int} (h : 0 ≤ x) (h' : x ≤ t.max) : t.Has x := by
  refine ⟨?_, h'⟩
  unfold ITy.min
  have := two_pow_pos (t.bits - 1)
  split <;> omega

/-- In the right range every operation gives the mathematical value. -/
theorem binop_exact {f : Int → Int → Int} (hf : Compat f) {s t : ITy} (hs : 1 ≤ s.bits) (ht : 1 ≤ t.bits) {a b : Int} (ha : s.Has a)
    (hb : t.Has b) (hr : (common s t).Has (f a b)) : binop f s t a b = some (f a b) := by
  obtain ⟨r, e, hh, hm, _⟩ := binop_eval hf hs ht ha hb (fun _ => hr)
  have hb1 := (bits_common_left s t).2
  rw [e, ← conv_of_has (by omega) hh, conv_congr hm, conv_of_has (by omega) hr]

theorem sizeT_conv {x : Int} (h0 : 0 ≤ x) (h : x < 2 ^ 64) : (sizeT.conv x).toNat = x.toNat := by
  rw [conv_of_has (t := sizeT) (by decide)]
  exact has_nonneg h0 (by simp only [ITy.max, sizeT]; simp; omega)

theorem max_lt {t : ITy} (h1 : 1 ≤ t.bits) (h : t.bits ≤ 64) : t.max < 2 ^ 64 := by
  have h1 := pow_mono h
  have h2 := pow_mono (show t.bits - 1 ≤ 64 by omega)
  have h3 := two_pow_pos t.bits
  unfold ITy.max; split <;> omega

theorem wf_common {s t : ITy} (hs : s.Wf) (ht : t.Wf) : (common s t).bits ≤ 64 := by
  have h1 : s.promote.bits ≤ 64 := by unfold ITy.promote; split; · decide
                                      · unfold ITy.Wf at hs; omega
  have h2 : t.promote.bits ≤ 64 := by unfold ITy.promote; split; · decide
                                      · unfold ITy.Wf at ht; omega
  simp only [common]; (repeat' split) <;> assumption

theorem wf_promote {t : ITy} (h : t.Wf) : t.promote.Wf := by
  unfold ITy.promote; split
  · decide
  · exact h

/-- The core of `remaining()`: `(d + m - 1) / m` for a distance `d` and a positive `m`. -/
theorem rem_core {T S : ITy} (hT : T.Wf) (hS : S.Wf) {U : ITy} (hU : 1 ≤ U.bits) (hUS : common T.promote U = common T.promote S)
    {d m : Int} (hd0 : 0 ≤ d) (hm0 : 0 < m) (hd : d ≤ T.promote.max) (hm : U.Has m)
    (hsum : d + m - (if (common T.promote S).signed then 0 else 1) ≤ (common T.promote S).max) :
    ((binop (· + ·) T.promote U d m).bind fun e =>
      (binop (· - ·) (common T.promote S) int e 1).bind fun e =>
      (quot (common T.promote S) U e m).map fun q => (sizeT.conv q).toNat) = some ((d + m - 1) / m).toNat := by
  have hbT := bits_promote T
  have hc := bits_common_left T.promote S
  have hc64 := wf_common (wf_promote hT) hS
  have hdT : T.promote.Has d := has_nonneg hd0 hd
  have hq : 0 ≤ (d + m - 1) / m ∧ (d + m - 1) / m ≤ d + m - 1 :=
    ⟨Int.ediv_nonneg (by omega) (by omega), Int.ediv_le_self _ (by omega)⟩
  -- the divisor keeps its value
  have hmc : (common T.promote S).Has m ∨ (common T.promote S).signed = false := by
    cases h : (common T.promote S).signed with
    | false => exact .inr rfl
    | true => rw [← hUS] at h ⊢; exact .inl (has_common_right hU h hm)
  have hmle : m ≤ (common T.promote S).max := by
    rcases hmc with h | h
    · exact h.2
    · simp only [h] at hsum; simp at hsum
      by_cases hd1 : d = 0
      · rw [← hUS]
        -- `m` is a nonnegative value of `U`, which is at most as wide as the unsigned common type
        have hbU := bits_common_right T.promote U
        have h1 := pow_mono hbU
        have h2 := pow_mono (show U.bits - 1 ≤ U.bits by omega)
        have h3 := hm.2
        rw [← hUS] at h
        unfold ITy.max at h3 ⊢
        simp only [h]
        simp only [Bool.false_eq_true, if_false]
        split at h3 <;> omega
      · omega
  have hmC : (common T.promote S).Has m := has_nonneg (by omega) hmle
  -- the value of `d + m`
  have e1 : ∃ e, binop (· + ·) T.promote U d m = some e ∧ (common T.promote S).Has e ∧
      e % 2 ^ (common T.promote S).bits = (d + m) % 2 ^ (common T.promote S).bits ∧
      ((common T.promote S).signed = true → e = d + m) := by
    have := binop_eval compat_add (a := d) (b := m) (show 1 ≤ T.promote.bits by omega) hU hdT hm (by
      rw [hUS]; intro h; exact has_nonneg (by show 0 ≤ d + m; omega) (by simp only [h, if_true] at hsum; show d + m ≤ _; omega))
    rw [hUS] at this
    exact this
  obtain ⟨e, he, hhe, hme, hse⟩ := e1
  have hres : (common T.promote S).Has (d + m - 1) := by
    refine has_nonneg (by omega) ?_
    split at hsum <;> omega
  -- the value of `d + m - 1`
  have e2 : binop (· - ·) (common T.promote S) int e 1 = some (d + m - 1) := by
    have hci := common_int (common T.promote S) hc.2
    have := binop_eval compat_sub (s := common T.promote S) (t := int) (a := e) (b := 1) (by omega) (by decide) hhe (by decide) (by
      rw [hci]; intro h; rw [hse h]; exact hres)
    rw [hci] at this
    obtain ⟨r, hr, hhr, hmr, hsr⟩ := this
    rw [hr, ← conv_of_has (t := common T.promote S) (by omega) hhr]
    rw [conv_congr (t := common T.promote S) (y := d + m - 1) ?_, conv_of_has (by omega) hres]
    rw [hmr, Int.sub_emod, hme, ← Int.sub_emod]
  rw [he]
  simp only [Option.bind_some, e2]
  have hcr : common (common T.promote S) U = common T.promote S := by rw [← hUS, common_right]
  simp only [quot, hcr, conv_of_has (t := common T.promote S) (by omega) hmC, conv_of_has (t := common T.promote S) (by omega) hres]
  rw [if_neg (by omega), Int.tdiv_eq_ediv_of_nonneg (by omega)]
  have hqc : (common T.promote S).Has ((d + m - 1) / m) := has_nonneg hq.1 (by have := hres.2; omega)
  have : arith (common T.promote S) ((d + m - 1) / m) = some ((d + m - 1) / m) := by
    unfold arith
    rw [conv_of_has (by omega) hqc]
    simp [hqc]
  rw [this]
  simp only [Option.map_some]
  rw [sizeT_conv hq.1]
  have := max_lt (t := common T.promote S) (by omega) hc64
  have := hres.2
  omega

/-- `remaining()` is the number of elements. -/
theorem remaining_ok {T S : ITy} {s : St} (h : Ok T S s) (hf : FitsRem T S s) : remaining T S s = some (count s) := by
  have h1T := Wf.one h.wT
  have h1S := Wf.one h.wS
  have hdist := hf.dist
  have hneg := hf.neg
  have hsum := hf.sum
  have hnz := h.nz
  have hbT := bits_promote T
  have hTT := common_self_promote T
  unfold remaining count
  by_cases hle : s.current ≤ s.stop
  · rw [if_pos hle]
    by_cases hs : s.step < 0
    · rw [if_pos hs, if_neg (by omega)]
      congr 1
      by_cases heq : s.current = s.stop
      · rw [heq, Int.sub_self, Int.zero_add, Int.ediv_eq_zero_of_lt] <;> omega
      · have : (s.current - s.stop + -s.step - 1) / -s.step < 1 := Int.ediv_lt_of_lt_mul (by omega) (by omega)
        omega
    · have hp : 0 < s.step := by omega
      rw [if_neg hs, if_pos hp]
      have e1 : binop (· - ·) T T s.stop s.current = some (s.stop - s.current) := by
        refine binop_exact compat_sub h1T h1T h.stop h.current ?_
        rw [hTT]; exact has_nonneg (by omega) (by omega)
      rw [e1]
      simp only [Option.bind_some]
      refine rem_core h.wT h.wS h1S rfl (by omega) hp (by omega) h.step ?_
      omega
  · rw [if_neg hle]
    by_cases hp : 0 < s.step
    · rw [if_pos hp, if_pos hp]
      congr 1
      have : (s.stop - s.current + s.step - 1) / s.step < 1 := Int.ediv_lt_of_lt_mul hp (by omega)
      omega
    · rw [if_neg hp, if_neg hp]
      have e1 : binop (· - ·) T T s.current s.stop = some (s.current - s.stop) := by
        refine binop_exact compat_sub h1T h1T h.current h.stop ?_
        rw [hTT]; exact has_nonneg (by omega) (by omega)
      have hbS := bits_promote S
      have hm : S.promote.Has (-s.step) := has_nonneg (by omega) (by omega)
      have e2 : neg S s.step = some (-s.step) := by
        unfold neg arith
        rw [conv_of_has (by omega) hm]
        simp [hm]
      rw [e1, e2]
      simp only [Option.bind_some]
      refine rem_core h.wT h.wS (U := S.promote) (by omega) (common_promote T S) (by omega) (by omega) (by omega) hm ?_
      omega

/-! ### `nth` and `nth_back` -/

theorem common_left (s t : ITy) : common s (common s t) = common s t := by
  have h1 := bits_promote s
  have h2 := bits_promote t
  have hcs : common s t = s.promote ∨ common s t = t.promote := by
    simp only [common]; (repeat' split) <;> simp
  rcases hcs with h | h
  · rw [show common s (common s t) = common s s.promote by rw [h], h]
    simp [common, promote_promote]
  · rw [show common s (common s t) = common s t.promote by rw [h]]
    simp only [common, promote_promote]

theorem has_between {t : ITy} {a b x : Int} (ha : t.Has a) (hb : t.Has b) (h : (a ≤ x ∧ x ≤ b) ∨ (b ≤ x ∧ x ≤ a)) : t.Has x := by
  unfold ITy.Has at *; omega

theorem dist_lt {t : ITy} (ht : 1 ≤ t.bits) {a b : Int} (ha : t.Has a) (hb : t.Has b) : ((a - b).natAbs : Int) < 2 ^ t.bits := by
  have h1 := two_pow_succ_pred ht
  have h2 := two_pow_pos (t.bits - 1)
  unfold ITy.Has ITy.min ITy.max at *
  cases h : t.signed <;> simp only [h, Bool.false_eq_true, if_true, if_false] at ha hb <;> omega

theorem conv_natAbs {t : ITy} (ht : 1 ≤ t.bits) {k : Nat} (hk : (k : Int) < 2 ^ t.bits) : (t.conv k).natAbs ≤ k := by
  have h1 := two_pow_succ_pred ht
  have h2 := two_pow_pos (t.bits - 1)
  unfold ITy.conv
  rw [Int.emod_eq_of_lt (by omega) hk]
  simp only
  split <;> omega

theorem sym_has {c : ITy} (hc : c.signed = true) {d x : Int} (hd : c.Has d) (h : (x.natAbs : Int) ≤ d) : c.Has x := by
  unfold ITy.Has ITy.min ITy.max at *
  simp only [hc, if_true] at *
  omega

/-- `a ± static_cast<T>(k) * step_`, converted to `T`, for a jump that is not longer than the distance. -/
theorem jump {f : Int → Int → Int} (hf : Compat f) (hfb : ∀ a x : Int, (f a x).natAbs ≤ a.natAbs + x.natAbs) {T S : ITy} {s : St}
    (h : Ok T S s) (hd : ((s.stop - s.current).natAbs : Int) ≤ T.promote.max) {k : Nat} (hk0 : k ≤ (s.stop - s.current).natAbs)
    (hk : ((k : Int) * s.step).natAbs ≤ (s.stop - s.current).natAbs) {a : Int} (ha : T.Has a) (hr : T.Has (f a (k * s.step))) :
    ∃ p r, binop (· * ·) T S (T.conv k) s.step = some p ∧ binop f T (common T S) a p = some r ∧ T.conv r = f a (k * s.step) := by
  have h1T := Wf.one h.wT
  have h1S := Wf.one h.wS
  have hbT := bits_promote T
  have hc := bits_common_left T S
  have hdl := dist_lt h1T h.stop h.current
  have hkl : (k : Int) < 2 ^ T.bits := by omega
  have hck := conv_natAbs h1T hkl
  have hprod : (T.conv k * s.step).natAbs ≤ (s.stop - s.current).natAbs := by
    rw [Int.natAbs_mul] at hk ⊢
    have := Nat.mul_le_mul_right s.step.natAbs hck
    simp only [Int.natAbs_natCast] at hk
    omega
  have hDc : (common T S).signed = true → (common T S).Has ((s.stop - s.current).natAbs : Int) := by
    intro hs
    have hp : T.promote.Has ((s.stop - s.current).natAbs : Int) := has_nonneg (by omega) hd
    have e : common T.promote S = common T S := by simp only [common, promote_promote]
    rw [← e] at hs ⊢
    exact has_common_left (by omega) hs hp
  obtain ⟨p, ep, hhp, hmp, hsp⟩ := binop_eval compat_mul h1T h1S (conv_has h1T k) h.step (fun hs => sym_has hs (hDc hs) (by
    show ((T.conv k * s.step).natAbs : Int) ≤ _; omega))
  have hcl := common_left T S
  have := binop_eval hf (s := T) (t := common T S) (a := a) (b := p) h1T (by omega) ha hhp (by
    rw [hcl]
    intro hs
    rw [hsp hs]
    by_cases h32 : T.bits < 32
    · -- promoted to `int`: everything is small
      have hw := h.wT
      have h16 : T.bits ≤ 16 := by unfold ITy.Wf at hw; omega
      have hab : (a.natAbs : Int) ≤ 2 ^ 16 := by
        have h3 := pow_mono h16
        have h4 := pow_mono (show T.bits - 1 ≤ T.bits by omega)
        unfold ITy.Has ITy.min ITy.max at ha
        split at ha <;> omega
      have hD16 : ((s.stop - s.current).natAbs : Int) < 2 ^ 16 := by
        have h3 := pow_mono h16; omega
      have hbound := hfb a (T.conv k * s.step)
      have hmax : (2 : Int) ^ 31 - 1 ≤ (common T S).max := by
        have h5 := pow_mono (show 31 ≤ (common T S).bits - 1 by omega)
        unfold ITy.max; rw [if_pos hs]; omega
      have hmin : (common T S).min ≤ -(2 : Int) ^ 31 := by
        have h5 := pow_mono (show 31 ≤ (common T S).bits - 1 by omega)
        unfold ITy.min; rw [if_pos hs]; omega
      have : ((f a (T.conv k * s.step)).natAbs : Int) ≤ 2 ^ 17 := by omega
      constructor <;> (show (_ : Int) ≤ _) <;> omega
    · have hTp : T.promote = T := by unfold ITy.promote; rw [if_neg h32]
      have hkT : T.Has (k : Int) := has_nonneg (by omega) (by rw [hTp] at hd; omega)
      show (common T S).Has (f a (T.conv k * s.step))
      rw [conv_of_has h1T hkT]
      exact has_common_left h1T hs hr)
  rw [hcl] at this
  obtain ⟨r, er, _, hmr, _⟩ := this
  refine ⟨p, r, ep, er, ?_⟩
  rw [← conv_of_has h1T hr]
  refine conv_congr ?_
  rw [emod_of_dvd_pow hc.1 hmr]
  refine hf _ _ _ _ _ rfl ?_
  rw [emod_of_dvd_pow hc.1 hmp]
  exact compat_mul _ _ _ _ _ (conv_emod T k) rfl

/-- `remaining()` of an exhausted iterator. -/
theorem remaining_zero {T S : ITy} {s : St} (h : Ok T S s) (hc : count s = 0) : remaining T S s = some 0 := by
  have hnb : ¬ before s.step s.current s.stop := by rw [before_iff_count h.nz]; omega
  have hnz := h.nz
  have h1S := Wf.one h.wS
  have h1T := Wf.one h.wT
  unfold before at hnb
  by_cases hp : 0 < s.step
  · rw [if_pos hp] at hnb
    by_cases he : s.current = s.stop
    · rw [← hc]
      refine remaining_ok h ⟨?_, ?_, ?_⟩
      · rw [he, Int.sub_self]
        have := has_promote h1T h.current
        have h3 := two_pow_pos T.promote.bits
        have h4 := two_pow_pos (T.promote.bits - 1)
        unfold ITy.max; split <;> simp <;> omega
      · have := (has_promote h1S h.step).2; omega
      · rw [he, Int.sub_self]
        have hcb := bits_common_right T.promote S
        cases hs : (common T.promote S).signed with
        | true => have := (has_common_right h1S hs h.step).2; simp; omega
        | false =>
          have h1 := pow_mono hcb
          have h2 := pow_mono (show S.bits - 1 ≤ S.bits by omega)
          have h3 := h.step.2
          unfold ITy.max at h3 ⊢
          simp only [hs, Bool.false_eq_true, if_false, Int.natAbs_zero]
          split at h3 <;> omega
    · unfold remaining
      rw [if_neg (by omega), if_pos hp]
  · rw [if_neg hp] at hnb
    unfold remaining
    rw [if_pos (by omega), if_pos (by omega)]

end Verif.Range
