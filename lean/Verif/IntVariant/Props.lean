import Verif.IntVariant.Model
import Verif.Integral.Props

/-! Property C70 of integral_template_variant.hpp. -/
namespace Verif.IntVariant
open Verif.Range Verif.Integral

variable {V : Type}

/-- Two alternatives with numbers as values; copies throw for the number 13, assignments for 14. -/
def exampleElems : Elems Nat :=
  ⟨fun _ => false, fun _ => true, fun _ v => v == 13, fun _ _ => false, fun _ v => v == 14, fun _ _ => 99, fun _ => compare, fun _ => (· == ·),
    fun _ v => v, 2⟩

/-- `noexcept` of the element types is true to what they do. -/
structure Honest (E : Elems V) : Prop where
  copy : ∀ k v, E.nothrowCopy k = true → E.copyThrows k v = false
  move : ∀ k v, E.nothrowMove k = true → E.moveThrows k v = false

theorem exampleElems_honest : Honest exampleElems := ⟨by simp [exampleElems], by simp [exampleElems]⟩

/-- **C70, partial**: a copy has the same alternative and value, if copying the value does not throw. Missing: values whose copy throws, see
`copy_throws_refuted`. -/
theorem copy_same_partial (E : Elems V) {a : Var V} (h : ∀ k v, a = some (k, v) → E.copyThrows k v = false) : copyCtor E a = .ok a := by
  cases a with
  | none => rfl
  | some x => simp [copyCtor, stdCopy, h x.1 x.2 rfl, noexcept]

example : copyCtor exampleElems (some (1, 7)) = .ok (some (1, 7)) := by decide

/-- **C70, refuted** for elements whose copy throws: the program is terminated, while copying the `std::variant` within (`to_underlying()`)
throws the exception. -/
theorem copy_throws_refuted : ∃ (a : Var Nat), stdCopy exampleElems a = .threw none ∧ copyCtor exampleElems a = .terminated :=
  ⟨some (1, 13), by decide, by decide⟩

/-- **C70.** Moving gives the alternative and value of the source, or the exception of the element's move; the program is not terminated. -/
theorem move_same {E : Elems V} (hE : Honest E) {a : Var V} (hk : ∀ k v, a = some (k, v) → k < E.count) :
    moveCtor E a = .ok a ∨ (moveCtor E a = .threw none ∧ ∃ k v, a = some (k, v) ∧ E.moveThrows k v = true) := by
  cases a with
  | none => left; rfl
  | some x =>
    obtain ⟨k, v⟩ := x
    cases hm : E.moveThrows k v with
    | false => left; simp [moveCtor, stdMove, hm, noexcept]
    | true =>
      right
      have : allNothrow E.nothrowMove E.count = false := by
        unfold allNothrow
        rw [List.all_eq_false]
        refine ⟨k, List.mem_range.2 (hk k v rfl), ?_⟩
        intro h
        rw [hE.move k v h] at hm
        cases hm
      exact ⟨by simp [moveCtor, stdMove, hm, noexcept, this], k, v, rfl, hm⟩

example : moveCtor exampleElems (some (1, 13)) = .ok (some (1, 13)) := by decide

/-- **C70.** Assignment either gives the target the alternative and value of the source, or throws. If it throws, the target never has another
alternative than before: it is as before, without value, or has the same alternative with the value a failed assignment of the element left. -/
theorem assign_outcome (E : Elems V) (dst src : Var V) :
    copyAssign E dst src = .ok src ∨ copyAssign E dst src = .threw dst ∨ copyAssign E dst src = .threw none ∨
    ∃ k w v, dst = some (k, w) ∧ src = some (k, v) ∧ copyAssign E dst src = .threw (some (k, E.halfAssigned w v)) := by
  unfold copyAssign
  split
  · left; rfl
  · split
    · right; left; rfl
    · left; rfl
  · rename_i j w k v
    split
    · rename_i h
      subst h
      split
      · right; right; right; exact ⟨j, w, v, rfl, rfl, rfl⟩
      · left; rfl
    · split
      · split
        · right; right; left; rfl
        · left; rfl
      · split
        · right; left; rfl
        · split
          · right; right; left; rfl
          · left; rfl

example : copyAssign exampleElems (some (0, 5)) (some (1, 13)) = .threw (some (0, 5)) ∧
    copyAssign exampleElems (some (1, 5)) (some (1, 14)) = .threw (some (1, 99)) ∧
    copyAssign exampleElems (some (0, 5)) (some (1, 7)) = .ok (some (1, 7)) := by decide

/-- **C70.** If elements can be moved without exception, assigning from another alternative never loses the value of the target: it is as
before if the assignment throws. -/
theorem assign_strong {E : Elems V} (hE : Honest E) (hm : ∀ k, E.nothrowMove k = true) {j k : Nat} {w v : V} (hjk : j ≠ k) :
    copyAssign E (some (j, w)) (some (k, v)) = .ok (some (k, v)) ∨ copyAssign E (some (j, w)) (some (k, v)) = .threw (some (j, w)) := by
  simp only [copyAssign, if_neg hjk, hm, Bool.not_true, Bool.or_false, hE.move k v (hm k)]
  cases hn : E.nothrowCopy k with
  | true => left; simp [hE.copy k v hn]
  | false =>
    cases E.copyThrows k v with
    | true => right; rfl
    | false => left; rfl

example : ∀ k, exampleElems.nothrowMove k = true := fun _ => rfl

/-- **C70.** Moving into a variant gives it the alternative and value of the source, or throws and leaves it without value, or (for the same
alternative) with what the element's assignment left. If elements are moved without exception, only the last is possible. -/
theorem move_assign_outcome {E : Elems V} (dst src : Var V) :
    (moveAssign E dst src = .ok src ∨ moveAssign E dst src = .threw none ∨
      ∃ k w v, dst = some (k, w) ∧ src = some (k, v) ∧ moveAssign E dst src = .threw (some (k, E.halfAssigned w v))) ∧
    (Honest E → (∀ k, E.nothrowMove k = true) → moveAssign E dst src ≠ .threw none) := by
  match dst, src with
  | none, none => exact ⟨.inl rfl, fun _ _ => by simp [moveAssign]⟩
  | some _, none => exact ⟨.inl rfl, fun _ _ => by simp [moveAssign]⟩
  | none, some (k, v) =>
    refine ⟨?_, fun h hm => by simp [moveAssign, h.move k v (hm k)]⟩
    simp only [moveAssign]
    split
    · right; left; rfl
    · left; rfl
  | some (j, w), some (k, v) =>
    constructor
    · simp only [moveAssign]
      split
      · rename_i h
        subst h
        split
        · right; right; exact ⟨j, w, v, rfl, rfl, rfl⟩
        · left; rfl
      · split
        · right; left; rfl
        · left; rfl
    · intro h hm
      simp only [moveAssign, h.move k v (hm k)]
      split
      · split <;> simp
      · simp

example : moveAssign exampleElems (some (0, 5)) (some (1, 13)) = .ok (some (1, 13)) ∧
    moveAssign exampleElems (some (1, 5)) (some (1, 14)) = .threw (some (1, 99)) := by decide

/-- **C70.** Constructing from a value holds that value under its index, or throws the exception of the element's copy or move. -/
theorem of_value_holds {nothrow : Nat → Bool} {throws : Nat → V → Bool} (h : ∀ k v, nothrow k = true → throws k v = false) (k : Nat) (v : V) :
    ofValue nothrow throws k v = if throws k v then .threw none else .ok (some (k, v)) := by
  unfold ofValue
  cases ht : throws k v with
  | false => rfl
  | true =>
    cases hn : nothrow k with
    | false => rfl
    | true => rw [h k v hn] at ht; cases ht

example : ofValue exampleElems.nothrowCopy exampleElems.copyThrows 1 7 = .ok (some (1, 7)) := by decide

/-- **C70.** `visit` calls the function with the held value, `emplace` makes the new value the held one or leaves nothing. -/
theorem visit_emplace {ρ : Type} (f : Nat → V → ρ) (k : Nat) (v : V) :
    emplace k (some v) = .ok (some (k, v)) ∧ emplace (V := V) k none = .threw none ∧ visit f (some (k, v)) = some (f k v) ∧
    visit f none = none := ⟨rfl, rfl, rfl, rfl⟩

example : visit (fun k v => k + v) (some (1, 7)) = some 8 := rfl

/-- **C70.** Variants are equal iff both have no value, or both hold the same index and equal values. -/
theorem eq_spec (E : Elems V) {I : ITy} (hI : I.Wf) {first last : Int} (hf : I.Has first) (hl : I.Has last) {a b : Var V}
    (ha : ∀ k v, a = some (k, v) → k < (last - first).natAbs) (hb : ∀ k v, b = some (k, v) → k < (last - first).natAbs) :
    eq E a b = true ↔ (a = none ∧ b = none) ∨
      ∃ j v k w, a = some (j, v) ∧ b = some (k, w) ∧ index I first last a = index I first last b ∧ E.beq j v w = true := by
  match a, b with
  | none, none => simp [eq]
  | none, some _ => simp [eq]
  | some _, none => simp [eq]
  | some (j, v), some (k, w) =>
    have hj : (seq first last)[j]? = some (if first < last then first + (j : Int) else first - (j : Int)) := by
      rw [seq_get, if_pos (ha j v rfl)]
    have hk : (seq first last)[k]? = some (if first < last then first + (k : Int) else first - (k : Int)) := by
      rw [seq_get, if_pos (hb k w rfl)]
    have h1 : index I first last (some (j, v)) = _ := variant_index hI hf hl hj
    have h2 : index I first last (some (k, w)) = _ := variant_index hI hf hl hk
    have hjk : index I first last (some (j, v)) = index I first last (some (k, w)) ↔ j = k := by
      rw [h1, h2]
      constructor
      · intro h; injection h with h; split at h <;> omega
      · rintro rfl; rfl
    simp only [eq, Bool.and_eq_true, beq_iff_eq, reduceCtorEq, and_self, Option.some.injEq, Prod.mk.injEq, false_or]
    constructor
    · rintro ⟨rfl, h⟩
      exact ⟨j, v, j, w, ⟨rfl, rfl⟩, ⟨rfl, rfl⟩, hjk.2 rfl, h⟩
    · rintro ⟨_, _, _, _, ⟨rfl, rfl⟩, ⟨rfl, rfl⟩, h, h'⟩
      exact ⟨hjk.1 h, h'⟩

example : eq exampleElems (some (1, 7)) (some (1, 7)) = true ∧ eq exampleElems (some (1, 7)) (some (0, 7)) = false := by decide

/-- **C70, partial**: for ascending sequences variants are ordered by index, then by value; variants without value come first. Missing: descending
sequences, see below. -/
theorem order_ascending_partial (E : Elems V) {I : ITy} (hI : I.Wf) {first last : Int} (hf : I.Has first) (hl : I.Has last)
    (hasc : first < last) {j k : Nat} {v w : V} (hj : j < (last - first).natAbs) (hk : k < (last - first).natAbs) :
    ∃ x y, index I first last (some (j, v)) = some x ∧ index I first last (some (k, w)) = some y ∧
      (cmp E (some (j, v)) (some (k, w)) = .lt ↔ x < y ∨ (x = y ∧ E.cmp j v w = .lt)) ∧
      (cmp E (some (j, v)) (some (k, w)) = .gt ↔ y < x ∨ (x = y ∧ E.cmp j v w = .gt)) := by
  have h1 : index I first last (some (j, v)) = _ := variant_index hI hf hl (by rw [seq_get, if_pos hj])
  have h2 : index I first last (some (k, w)) = _ := variant_index hI hf hl (by rw [seq_get, if_pos hk])
  refine ⟨_, _, h1, h2, ?_⟩
  simp only [if_pos hasc, cmp]
  rcases Nat.lt_trichotomy j k with h | h | h
  · have : ¬ k < j := by omega
    simp only [if_pos h, reduceCtorEq, true_iff, false_iff]
    omega
  · subst h
    simp
  · have : ¬ j < k := by omega
    simp only [if_pos h, if_neg this, reduceCtorEq, false_iff, true_iff]
    omega

example : cmp exampleElems (some (0, 9)) (some (1, 7)) = .lt ∧ index ⟨32, true⟩ 3 5 (some (0, 9)) = some 3 ∧
    index ⟨32, true⟩ 3 5 (some (1, 7)) = some 4 := by decide

/-- **C70.** For descending sequences it is the other way round: the variant with the larger index comes first. -/
theorem order_descending (E : Elems V) {I : ITy} (hI : I.Wf) {first last : Int} (hf : I.Has first) (hl : I.Has last)
    (hdesc : last < first) {j k : Nat} {v w : V} (hj : j < (last - first).natAbs) (hk : k < (last - first).natAbs) :
    ∃ x y, index I first last (some (j, v)) = some x ∧ index I first last (some (k, w)) = some y ∧
      (cmp E (some (j, v)) (some (k, w)) = .lt ↔ y < x ∨ (x = y ∧ E.cmp j v w = .lt)) ∧
      (cmp E (some (j, v)) (some (k, w)) = .gt ↔ x < y ∨ (x = y ∧ E.cmp j v w = .gt)) := by
  have h1 : index I first last (some (j, v)) = _ := variant_index hI hf hl (by rw [seq_get, if_pos hj])
  have h2 : index I first last (some (k, w)) = _ := variant_index hI hf hl (by rw [seq_get, if_pos hk])
  refine ⟨_, _, h1, h2, ?_⟩
  have hn : ¬ first < last := by omega
  simp only [if_neg hn, cmp]
  rcases Nat.lt_trichotomy j k with h | h | h
  · have : ¬ k < j := by omega
    simp only [if_pos h, reduceCtorEq, true_iff, false_iff]
    omega
  · subst h
    simp
  · have : ¬ j < k := by omega
    simp only [if_pos h, if_neg this, reduceCtorEq, false_iff, true_iff]
    omega

/-- **C70, refuted** for descending sequences: in a variant over the indices 5, 4, 3 the one holding index 5 is less than the one holding
index 4. -/
theorem order_descending_refuted : ∃ a b : Var Nat, cmp exampleElems a b = .lt ∧ index ⟨32, true⟩ 5 2 a = some 5 ∧
    index ⟨32, true⟩ 5 2 b = some 4 := ⟨some (0, 7), some (1, 7), by decide, by decide, by decide⟩

/-- **C70.** The order is a total preorder consistent with equality if those of the elements are: no two variants are each less than the
other, less is transitive, and equivalent variants are equal. -/
theorem order_consistent {E : Elems V} (hswap : ∀ k v w, E.cmp k v w = (E.cmp k w v).swap)
    (htrans : ∀ k u v w, E.cmp k u v = .lt → E.cmp k v w = .lt → E.cmp k u w = .lt) (heq : ∀ k v w, E.cmp k v w = .eq ↔ E.beq k v w = true) :
    (∀ a b, cmp E a b = (cmp E b a).swap) ∧ (∀ a b c, cmp E a b = .lt → cmp E b c = .lt → cmp E a c = .lt) ∧
    (∀ a b, cmp E a b = .eq ↔ eq E a b = true) := by
  refine ⟨?_, ?_, ?_⟩
  · intro a b
    match a, b with
    | none, none => rfl
    | none, some _ => rfl
    | some _, none => rfl
    | some (j, v), some (k, w) =>
      simp only [cmp]
      rcases Nat.lt_trichotomy j k with h | h | h
      · have : ¬ k < j := by omega
        simp [h, this]
      · subst h; simp [hswap j v w]
      · have : ¬ j < k := by omega
        simp [h, this]
  · intro a b c
    match a, b, c with
    | none, none, _ => simp [cmp]
    | none, some _, none => simp [cmp]
    | none, some _, some _ => simp [cmp]
    | some _, none, _ => simp [cmp]
    | some _, some _, none => simp [cmp]
    | some (i, u), some (j, v), some (k, w) =>
      simp only [cmp]
      intro h1 h2
      rcases Nat.lt_trichotomy i j with hij | hij | hij
      · rcases Nat.lt_trichotomy j k with hjk | hjk | hjk
        · rw [if_pos (by omega)]
        · rw [if_pos (by omega)]
        · rw [if_neg (by omega), if_pos hjk] at h2; cases h2
      · subst hij
        rcases Nat.lt_trichotomy i k with hjk | hjk | hjk
        · rw [if_pos hjk]
        · subst hjk
          simp only [Nat.lt_irrefl, if_false] at h1 h2 ⊢
          exact htrans _ _ _ _ h1 h2
        · rw [if_neg (by omega), if_pos hjk] at h2; cases h2
      · rw [if_neg (by omega), if_pos hij] at h1; cases h1
  · intro a b
    match a, b with
    | none, none => simp [cmp, eq]
    | none, some _ => simp [cmp, eq]
    | some _, none => simp [cmp, eq]
    | some (j, v), some (k, w) =>
      simp only [cmp, eq, Bool.and_eq_true, beq_iff_eq]
      rcases Nat.lt_trichotomy j k with h | h | h
      · simp [h]; omega
      · subst h; simp [heq]
      · have : ¬ j < k := by omega
        simp [h, this]; omega

example : (∀ k v w, exampleElems.cmp k v w = (exampleElems.cmp k w v).swap) ∧
    (∀ k u v w, exampleElems.cmp k u v = .lt → exampleElems.cmp k v w = .lt → exampleElems.cmp k u w = .lt) ∧
    (∀ k v w, exampleElems.cmp k v w = .eq ↔ exampleElems.beq k v w = true) :=
  ⟨fun _ v w => (Nat.compare_swap w v).symm, fun _ u v w h1 h2 => by
    simp only [exampleElems, Nat.compare_eq_lt] at h1 h2 ⊢; omega, fun _ v w => by simp [exampleElems]⟩

/-- **C70.** Equal variants have equal hashes, if that holds for the elements. -/
theorem hash_consistent {E : Elems V} (h : ∀ k v w, E.beq k v w = true → E.hash k v = E.hash k w) (npos : Nat) {a b : Var V}
    (he : eq E a b = true) : hash E npos a = hash E npos b := by
  match a, b with
  | none, none => rfl
  | none, some _ => simp [eq] at he
  | some _, none => simp [eq] at he
  | some (j, v), some (k, w) =>
    simp only [eq, Bool.and_eq_true, beq_iff_eq] at he
    obtain ⟨rfl, he⟩ := he
    simp only [hash, h j v w he]

example : hash exampleElems 0 (some (1, 7)) = 8 := rfl

end Verif.IntVariant
