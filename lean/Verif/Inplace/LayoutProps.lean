import Verif.Inplace.LayoutModel
import Mathlib.Data.Nat.Log

/-! C78: placement of the objects in an `inplace_polymorphic`. -/
namespace Verif.Inplace

theorem foldl_max (l : List Nat) (x : Nat) :
    x ≤ l.foldl (fun a b => if a < b then b else a) x ∧ (∀ y ∈ l, y ≤ l.foldl (fun a b => if a < b then b else a) x) ∧
    (l.foldl (fun a b => if a < b then b else a) x = x ∨ l.foldl (fun a b => if a < b then b else a) x ∈ l) := by
  induction l generalizing x with
  | nil => simp
  | cons z l ih =>
    simp only [List.foldl_cons, List.mem_cons, forall_eq_or_imp]
    by_cases h : x < z
    · rw [if_pos h]
      obtain ⟨h1, h2, h3⟩ := ih z
      exact ⟨by omega, ⟨h1, h2⟩, Or.inr (h3.imp id id)⟩
    · rw [if_neg h]
      obtain ⟨h1, h2, h3⟩ := ih x
      exact ⟨h1, ⟨by omega, h2⟩, h3.imp id Or.inr⟩

theorem maxOf_spec {l : List Nat} (h : l ≠ []) : maxOf l ∈ l ∧ ∀ y ∈ l, y ≤ maxOf l := by
  cases l with
  | nil => exact absurd rfl h
  | cons x l =>
    obtain ⟨h1, h2, h3⟩ := foldl_max l x
    refine ⟨?_, ?_⟩
    · rw [maxOf, List.mem_cons]; exact h3
    · intro y hy
      rcases List.mem_cons.1 hy with rfl | hy
      · exact h1
      · exact h2 y hy

/-- **C78.** Every class of the list fits into the storage of a correctly aligned `inplace_polymorphic`: it is correctly aligned, and its bytes do not
overlap the flag behind the storage; objects made by copying are in the same place. (Alignments are powers of two.) -/
theorem object_fits (ts : List Cls) (h2 : ∀ t ∈ ts, ∃ k, t.align = 2 ^ k) (self : Nat) (hs : storageAlign ts ∣ self) (t : Cls) (ht : t ∈ ts) :
    t.align ∣ objectAt self ∧ self ≤ objectAt self ∧ objectAt self + t.size ≤ flagAt ts self ∧ copiedAt self = objectAt self := by
  have hne : ts.map Cls.align ≠ [] := by intro h; simp at h; subst h; simp at ht
  have hne' : ts.map Cls.size ≠ [] := by intro h; simp at h; subst h; simp at ht
  obtain ⟨hm, hle⟩ := maxOf_spec hne
  obtain ⟨u, hu, hue⟩ := List.mem_map.1 hm
  obtain ⟨a, ha⟩ := h2 t ht
  obtain ⟨b, hb⟩ := h2 u hu
  have hdvd : t.align ∣ storageAlign ts := by
    have h1 := hle t.align (List.mem_map_of_mem ht)
    rw [← hue, ha, hb] at h1
    rw [storageAlign, ← hue, ha, hb]
    exact Nat.pow_dvd_pow 2 ((Nat.pow_le_pow_iff_right (by decide)).1 h1)
  refine ⟨Nat.dvd_trans hdvd hs, Nat.le_refl _, ?_, rfl⟩
  have := (maxOf_spec hne').2 t.size (List.mem_map_of_mem ht)
  simp only [objectAt, storageAt, flagAt, storageSize]
  omega

/-- No byte is wasted: the storage is as large and as strictly aligned as one of the classes demands. -/
theorem storage_tight (ts : List Cls) (h : ts ≠ []) : (∃ t ∈ ts, t.size = storageSize ts) ∧ (∃ t ∈ ts, t.align = storageAlign ts) := by
  have h1 : ts.map Cls.align ≠ [] := by simpa using h
  have h2 : ts.map Cls.size ≠ [] := by simpa using h
  exact ⟨List.mem_map.1 (maxOf_spec h2).1, List.mem_map.1 (maxOf_spec h1).1⟩

example : 4 ∣ objectAt 64 ∧ 64 ≤ objectAt 64 ∧ objectAt 64 + 12 ≤ flagAt [⟨12, 4, 0⟩, ⟨32, 16, 0⟩] 64 ∧ copiedAt 64 = objectAt 64 :=
  object_fits [⟨12, 4, 0⟩, ⟨32, 16, 0⟩] (by
    intro t ht
    simp only [List.mem_cons, List.not_mem_nil, or_false] at ht
    rcases ht with rfl | rfl
    · exact ⟨2, rfl⟩
    · exact ⟨4, rfl⟩) 64 (by decide) ⟨12, 4, 0⟩ (by decide)

/-- **C78.** `get`, `*` and `->` give a pointer to the `Base` of the held object iff the `Base` is at the beginning of its class. -/
theorem get_iff (self : Nat) (t : Cls) : getPtr false self = some (objectAt self + t.baseOff) ↔ t.baseOff = 0 := by
  simp only [getPtr, getUnchecked, objectAt, Bool.false_eq_true, if_false, Option.some.injEq]; omega

/-- **C78, partial.** If `Base` comes first in every class: `get`, `*` and `->` give a pointer to the `Base` of the held object, and throw exactly if there is none.
Missing: other classes (see `get_refuted`) and a `Base` with its own `operator&`. -/
theorem get_partial (self : Nat) (t : Cls) (h : t.baseOff = 0) (valueless : Bool) :
    getPtr valueless self = (if valueless then none else some (objectAt self + t.baseOff)) ∧
    arrow (fun p => p) valueless self = getPtr valueless self := by
  cases valueless <;> simp [getPtr, getUnchecked, objectAt, arrow, h]

example : getPtr false 64 = some 64 ∧ arrow (fun p => p) true 64 = none :=
  ⟨(get_partial 64 ⟨12, 4, 0⟩ rfl false).1, (get_partial 64 ⟨12, 4, 0⟩ rfl true).2⟩

/-- **C78, refuted.** A class that has another base in front of `Base` is accepted, fits, and `get` gives a pointer to that other base. -/
theorem get_refuted : ∃ t : Cls, accepted [t] true true (fun _ => false) (fun _ => true) = true ∧
    getPtr false 64 = some 64 ∧ objectAt 64 + t.baseOff = 72 := ⟨⟨16, 8, 8⟩, rfl, rfl, rfl⟩

/-- **C78.** An empty list of classes is refused; otherwise the default constructor makes the first one. Classes are refused if one cannot be destroyed through
`Base` or may throw when destroyed. -/
theorem accepted_spec (ts : List Cls) (vd bn : Bool) (triv noth : Cls → Bool) :
    (firstDerived ts = none ↔ ts = []) ∧ (∀ t l, ts = t :: l → firstDerived ts = some t) ∧
    (accepted ts vd bn triv noth = true ↔
      ts ≠ [] ∧ (vd = true ∨ ∀ t ∈ ts, triv t = true) ∧ bn = true ∧ ∀ t ∈ ts, noth t = true) := by
  refine ⟨by cases ts <;> simp [firstDerived], by rintro t l rfl; rfl, ?_⟩
  simp [accepted, and_assoc]

example : accepted [⟨16, 8, 0⟩] false true (fun _ => false) (fun _ => true) = false := rfl

end Verif.Inplace
