import Verif.PtrTag.TypedModel
import Verif.PtrTag.Props

/-! C74: `pointer_tag_pair` made from pointers of other types, with `bool` tags, and decomposed. -/
namespace Verif.PtrTag

/-- **C74.** The pointer that comes out is the one that went in converted to `T *` exactly if the conversion does not move it. -/
theorem typed_iff {k b : Nat} (hb : b < 64) (hk : k ≤ 64) {c : Conv} {p : Word} {t : BitVec k} {v : Pair} (h : mkFrom b c p t = some v) :
    pointer b v = c.apply p ↔ p = 0 ∨ c.off p = 0 := by
  have := (pack_unpack hb hk h).1
  rw [this, Conv.apply]
  by_cases hp : p = 0
  · simp [hp]
  · simp only [hp, if_false, false_or]
    constructor
    · intro e; bv_omega
    · intro e; rw [e]; simp

/-- **C74, partial.** A pair made from a pointer gives it back as the conversion to `T *` would, with the tag, if that conversion leaves the
address alone: same type, added qualifiers, `void`, first base class, null pointers. Missing: other base classes. -/
theorem typed_partial {k b : Nat} (hb : b < 64) (hk : k ≤ 64) {c : Conv} {p : Word} (hc : p ≠ 0 → c.off p = 0) {t : BitVec k} {v : Pair}
    (h : mkFrom b c p t = some v) : pointer b v = c.apply p ∧ tag k b v = t := by
  refine ⟨(typed_iff hb hk h).2 ?_, (pack_unpack hb hk h).2⟩
  by_cases hp : p = 0
  · exact .inl hp
  · exact .inr (hc hp)

example : mkFrom 3 ⟨fun _ => 0⟩ 0x1000 (5 : BitVec 8) = some ⟨0x1005⟩ := by decide

/-- **C74, refuted.** For an object at `0x1000` whose second base class begins 8 bytes later, a `pointer_tag_pair` to that base made from a
pointer to the object points at the object itself: `pointer()` yields a `Base *` that does not point to a `Base`. -/
theorem typed_refuted : ∃ v, mkFrom 3 ⟨fun _ => 8⟩ 0x1000 (5 : BitVec 8) = some v ∧ pointer 3 v = 0x1000 ∧
    (⟨fun _ => 8⟩ : Conv).apply 0x1000 = 0x1008 := ⟨⟨0x1005⟩, by decide, by decide, by decide⟩

/-- **C74.** Whenever the constructor is available for the type of the pointee, every pointer that has the alignment of that type is accepted
with every tag that fits. -/
theorem accepts_spec {k b : Nat} (hb : b < 64) (hk : k ≤ 64) {align : Nat} (ha : accepts b align = true) (c : Conv) {p : Word}
    (hp : align ∣ p.toNat) {t : BitVec k} (ht : t.toNat < 2 ^ b) : ∃ v, mkFrom b c p t = some v := by
  have := aligned_accepted hb hk (of_decide_eq_true ha) hp ht
  exact Option.isSome_iff_exists.1 (by simpa [mkFrom] using this)

example : accepts 3 8 = true ∧ accepts 4 8 = false := by
  constructor <;> (unfold accepts; simp [countrZero])

/-- **C74.** `bool` tags: accepted unless there is no bit for `true`; pointer and tag come back. -/
theorem bool_tag {b : Nat} (hb : b < 64) (p : Word) (t : Bool) :
    ((mkBool b p t).isSome ↔ p.toNat % 2 ^ b = 0 ∧ (t = true → 0 < b)) ∧
    ∀ v, mkBool b p t = some v → pointer b v = p ∧ tagBool b v = t := by
  have hw : boolWord t = tagWord (BitVec.ofBool t) := by cases t <;> decide
  have hm : mkBool b p t = mk b p (BitVec.ofBool t) := by simp only [mkBool, mk, hw]
  rw [hm]
  refine ⟨?_, ?_⟩
  · rw [mk_defined_iff hb (by decide)]
    refine and_congr Iff.rfl ?_
    cases t with
    | false => simp [Nat.two_pow_pos]
    | true =>
      simp only [forall_const]
      constructor
      · intro h; rcases Nat.eq_zero_or_pos b with rfl | h'
        · simp at h
        · exact h'
      · intro h; have := Nat.one_lt_two_pow (n := b) (by omega); simpa using this
  · intro v h
    have hu := pack_unpack hb (by decide) h
    refine ⟨hu.1, ?_⟩
    have hd := (mk_defined_iff hb (k := 1) (by decide) p (BitVec.ofBool t)).1 (by rw [h]; rfl)
    have hv : v.value = p ||| tagWord (BitVec.ofBool t) := by
      simp only [mk] at h; split at h
      · cases h; rfl
      · cases h
    have ht : (v.value &&& tagMask b).toNat = (BitVec.ofBool t).toNat := by
      rw [and_tagMask hb, hv, BitVec.toNat_or, tagWord_toNat (by decide), or_toNat hd.1 hd.2, Nat.add_mod, hd.1, Nat.zero_add, Nat.mod_mod,
        Nat.mod_eq_of_lt hd.2]
    unfold tagBool
    cases t with
    | false =>
      have : v.value &&& tagMask b = 0 := BitVec.eq_of_toNat_eq (by rw [ht]; rfl)
      rw [this]; rfl
    | true =>
      have : v.value &&& tagMask b ≠ 0 := by intro h0; rw [h0] at ht; simp at ht
      simpa using this

example : mkBool 2 0x1000 true = some ⟨0x1001⟩ ∧ mkBool 0 0x1000 true = none := by decide

/-- **C74.** Decomposing a pair gives its pointer and its tag, in this order, and nothing else. -/
theorem decompose_spec {k b : Nat} (hb : b < 64) (hk : k ≤ 64) {c : Conv} {p : Word} {t : BitVec k} {v : Pair} (h : mkFrom b c p t = some v) :
    decompose k b v = [some (.ptr p), some (.tag t)] ∧ ∀ i, (get k b i v).isSome ↔ i < tupleSize := by
  have hu := pack_unpack hb hk h
  refine ⟨?_, ?_⟩
  · have : List.range tupleSize = [0, 1] := rfl
    simp [decompose, this, get, hu.1, hu.2]
  · intro i
    match i with
    | 0 => simp [get, tupleSize]
    | 1 => simp [get, tupleSize]
    | i + 2 => simp [get, tupleSize]

example : mkFrom (k := 2) 2 ⟨fun _ => 0⟩ 0x1000 0b11#2 = some ⟨0x1003⟩ ∧ decompose 2 2 ⟨0x1003⟩ = [some (.ptr 0x1000), some (.tag 0b11#2)] :=
  ⟨by decide, (decompose_spec (c := ⟨fun _ => 0⟩) (by decide) (by decide) (by decide)).1⟩

end Verif.PtrTag
