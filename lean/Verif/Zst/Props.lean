import Verif.Zst.Model
import Verif.Layout.Props

/-! Property C69 of type_traits.hpp: `is_zst`. -/
namespace Verif.Zst
open Verif.Layout

/-- The smallest multiple of `a` that is at least `n`. -/
theorem alignUp_spec (n : Nat) {a : Nat} (h : 0 < a) : n ≤ alignUp n a ∧ a ∣ alignUp n a ∧ alignUp n a < n + a := by
  unfold alignUp
  have h1 := Nat.div_add_mod (n + a - 1) a
  have h2 := Nat.mod_lt (n + a - 1) h
  rw [Nat.mul_comm] at h1
  exact ⟨by omega, ⟨_, Nat.mul_comm _ _⟩, by omega⟩

theorem alignUp_of_dvd {n a : Nat} (h : 0 < a) (hd : a ∣ n) : alignUp n a = n := by
  obtain ⟨h1, ⟨k, hk⟩, h3⟩ := alignUp_spec n h
  obtain ⟨m, rfl⟩ := hd
  rw [hk] at h1 h3 ⊢
  have : k < m + 1 := by
    refine Nat.lt_of_mul_lt_mul_left (a := a) ?_
    rw [Nat.mul_add]; omega
  have : m ≤ k := Nat.le_of_mul_le_mul_left h1 h
  have : k = m := by omega
  rw [this]

/-- **C69.** Exactly the empty classes of at most 8 bytes are zero-sized. -/
theorem is_zst_iff {empty : Bool} {t : Elem} (ht : t.Ok) : isZst (.obj empty t) = some true ↔ empty = true ∧ t.size ≤ 8 := by
  obtain ⟨⟨k, hk⟩, hd, hp⟩ := ht
  have ha : 0 < t.align := by rw [hk]; exact Nat.two_pow_pos k
  simp only [isZst, Option.some.injEq, check, beq_iff_eq]
  cases empty with
  | true =>
    simp only [pairSize, true_and]
    constructor
    · intro h
      have := (alignUp_spec (max 8 t.size) (a := max 8 t.align) (by omega)).1
      omega
    · intro h
      have h1 : t.align ≤ 8 := Nat.le_trans (Nat.le_of_dvd hp hd) h
      rw [Nat.max_eq_left h, Nat.max_eq_left h1]
      exact alignUp_of_dvd (by omega) (Nat.dvd_refl 8)
  | false =>
    simp only [pairSize, Bool.false_eq_true, false_and, iff_false]
    intro h
    have h1 := (alignUp_spec 8 ha).1
    have h2 := (alignUp_spec (alignUp 8 t.align + t.size) (a := max 8 t.align) (by omega)).1
    omega

example : isZst (.obj true ⟨1, 1⟩) = some true ∧ isZst (.obj false ⟨1, 1⟩) = some false ∧ (⟨1, 1⟩ : Elem).Ok :=
  ⟨by decide, by decide, ⟨0, rfl⟩, ⟨1, rfl⟩, by decide⟩

/-- **C69.** A zero-sized member costs nothing: the size of a struct with some member, at least as large and aligned, does not change. -/
theorem zst_free {t u : Elem} (hu : u.Ok) {empty : Bool} (h : isZst (.obj empty t) = some true) (ht : t.Ok)
    (hs : t.size ≤ u.size) (ha : t.align ≤ u.align) : pairSize u empty t = u.size := by
  obtain ⟨he, -⟩ := (is_zst_iff ht).1 h
  subst he
  obtain ⟨⟨k, hk⟩, hd, -⟩ := hu
  simp only [pairSize]
  rw [Nat.max_eq_left hs, Nat.max_eq_left ha]
  exact alignUp_of_dvd (by rw [hk]; exact Nat.two_pow_pos k) hd

example : pairSize ⟨4, 4⟩ true ⟨1, 1⟩ = 4 :=
  zst_free (t := ⟨1, 1⟩) (u := ⟨4, 4⟩) ⟨⟨2, rfl⟩, ⟨1, rfl⟩, by decide⟩ (by decide) ⟨⟨0, rfl⟩, ⟨1, rfl⟩, by decide⟩ (by decide) (by decide)

/-- **C69.** A member of a type that is not an empty class always costs something behind a member without tail padding. -/
theorem nonempty_costs {t u : Elem} (hu : u.Ok) (ht : t.Ok) : u.size < pairSize u false t := by
  obtain ⟨⟨k, hk⟩, hd, hp⟩ := ht
  obtain ⟨⟨k', hk'⟩, -, -⟩ := hu
  have a1 : 0 < t.align := by rw [hk]; exact Nat.two_pow_pos k
  simp only [pairSize]
  have h1 := (alignUp_spec u.size a1).1
  have h2 := (alignUp_spec (alignUp u.size t.align + t.size) (a := max u.align t.align) (by omega)).1
  omega

example : pairSize ⟨8, 8⟩ false ⟨1, 1⟩ = 16 := by decide

/-- **C69.** `void` and references are not zero-sized. -/
theorem is_zst_other : isZst (.void false) = some false ∧ isZst .ref = some false := by decide

/-- **C69, refuted** for empty classes that are aligned to more than 8 bytes: they are said not to be zero-sized, although such a member costs
nothing behind one that is aligned likewise. -/
theorem is_zst_overaligned_refuted : ∃ t u : Elem, t.Ok ∧ u.Ok ∧ isZst (.obj true t) = some false ∧ pairSize u true t = u.size :=
  ⟨⟨16, 16⟩, ⟨16, 16⟩, ⟨⟨4, rfl⟩, ⟨1, rfl⟩, by decide⟩, ⟨⟨4, rfl⟩, ⟨1, rfl⟩, by decide⟩, by decide, by decide⟩

/-- **C69, refuted** for types that cannot be members: there is no answer for `void const` and abstract classes. -/
theorem is_zst_ill_formed_refuted : isZst (.void true) = none ∧ isZst .noObject = none := by decide

end Verif.Zst
