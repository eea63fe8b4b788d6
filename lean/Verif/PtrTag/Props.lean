import Verif.PtrTag.Model

/-! Properties C23 and C24 of `pointer_tag_pair`. Everything is for every number of tag bits `b < 64` and every width
`k ≤ 64` of the tag type. -/
namespace Verif.PtrTag

theorem tagMask_toNat {b : Nat} (hb : b < 64) : (tagMask b).toNat = 2 ^ b - 1 := by
  have h1 : 2 ^ b < 2 ^ 64 := Nat.pow_lt_pow_right (by omega) hb
  have h0 : 0 < 2 ^ b := Nat.two_pow_pos b
  have e : ((1 : Word) <<< b).toNat = 2 ^ b := by
    rw [BitVec.toNat_shiftLeft]
    simp [Nat.shiftLeft_eq, Nat.mod_eq_of_lt h1]
  unfold tagMask
  rw [BitVec.toNat_sub, e]
  simp only [BitVec.reduceToNat]
  omega

theorem and_tagMask {b : Nat} (hb : b < 64) (x : Word) : (x &&& tagMask b).toNat = x.toNat % 2 ^ b := by
  rw [BitVec.toNat_and, tagMask_toNat hb, Nat.and_two_pow_sub_one_eq_mod]

theorem and_ptrMask {b : Nat} (_hb : b < 64) (x : Word) : (x &&& ptrMask b).toNat = 2 ^ b * (x.toNat / 2 ^ b) := by
  have hx := x.isLt
  apply Nat.eq_of_testBit_eq
  intro i
  rw [BitVec.toNat_and, Nat.testBit_and, Nat.testBit_two_pow_mul, Nat.testBit_div_two_pow]
  unfold ptrMask
  have : ((BitVec.allOnes 64 <<< b).toNat).testBit i = (BitVec.allOnes 64 <<< b).getLsbD i := rfl
  rw [this, BitVec.getLsbD_shiftLeft]
  by_cases hi : i < 64
  · by_cases hbi : b ≤ i
    · have e1 : i - b + b = i := by omega
      have e2 : i - b < 64 := by omega
      have e3 : ¬ i < b := by omega
      simp only [BitVec.getLsbD_allOnes]
      simp [hi, hbi, e1, e2, e3]
    · have e3 : i < b := by omega
      simp [hi, hbi, e3]
  · have : x.toNat.testBit i = false := Nat.testBit_lt_two_pow (Nat.lt_of_lt_of_le hx (Nat.pow_le_pow_right (by omega) (by omega)))
    rw [this]
    by_cases hbi : b ≤ i
    · have e1 : i - b + b = i := by omega
      simp [e1, this]
    · simp [hbi]

theorem tagWord_toNat {k : Nat} (hk : k ≤ 64) (t : BitVec k) : (tagWord t).toNat = t.toNat := by
  unfold tagWord
  rw [BitVec.toNat_setWidth]
  exact Nat.mod_eq_of_lt (Nat.lt_of_lt_of_le t.isLt (Nat.pow_le_pow_right (by omega) hk))

theorem or_toNat {b : Nat} {p t : Nat} (hp : p % 2 ^ b = 0) (ht : t < 2 ^ b) : p ||| t = p + t := by
  have : p = 2 ^ b * (p / 2 ^ b) := by
    have := Nat.div_add_mod p (2 ^ b); omega
  rw [this, Nat.two_pow_add_eq_or_of_lt ht]

theorem and_tagMask_eq_zero {b : Nat} (hb : b < 64) (x : Word) : x &&& tagMask b = 0 ↔ x.toNat % 2 ^ b = 0 := by
  rw [← and_tagMask hb]
  constructor
  · intro h; rw [h]; rfl
  · intro h; exact BitVec.eq_of_toNat_eq (by simpa using h)

theorem tag_le_iff {k b : Nat} (hb : b < 64) (hk : k ≤ 64) (t : BitVec k) : tagWord t ≤ tagMask b ↔ t.toNat < 2 ^ b := by
  rw [BitVec.le_def, tagWord_toNat hk, tagMask_toNat hb]
  have : 0 < 2 ^ b := Nat.two_pow_pos b
  omega

/-- **C23.** The constructors' assertions fail exactly for a pointer that is not a multiple of `2^b` or a tag that does not
fit into `b` bits. -/
theorem mk_defined_iff {k b : Nat} (hb : b < 64) (hk : k ≤ 64) (p : Word) (t : BitVec k) :
    (mk b p t).isSome ↔ p.toNat % 2 ^ b = 0 ∧ t.toNat < 2 ^ b := by
  simp only [mk, and_tagMask_eq_zero hb, tag_le_iff hb hk]
  split <;> simp_all

example : (mk 3 (0x7fff1238 : Word) (5 : BitVec 8)).isSome = true ∧ (mk 3 (0x7fff1239 : Word) (5 : BitVec 8)).isSome = false ∧
    (mk 3 (0x7fff1238 : Word) (8 : BitVec 8)).isSome = false := by decide

theorem mkNull_defined_iff {k b : Nat} (hb : b < 64) (hk : k ≤ 64) (t : BitVec k) :
    (mkNull b t).isSome ↔ t.toNat < 2 ^ b := by
  simp only [mkNull, tag_le_iff hb hk]
  split <;> simp_all

example : (mkNull 3 (7 : BitVec 8)).isSome = true ∧ (mkNull 3 (8 : BitVec 8)).isSome = false := by decide

/-- **C23.** Pointer and tag survive packing. -/
theorem pack_unpack {k b : Nat} (hb : b < 64) (hk : k ≤ 64) {p : Word} {t : BitVec k} {v : Pair} (h : mk b p t = some v) :
    pointer b v = p ∧ tag k b v = t := by
  have hd := (mk_defined_iff hb hk p t).1 (by rw [h]; rfl)
  obtain ⟨hp, ht⟩ := hd
  have hv : v.value.toNat = p.toNat + t.toNat := by
    simp only [mk] at h
    split at h
    · cases h
      simp only [BitVec.toNat_or, tagWord_toNat hk]
      exact or_toNat hp ht
    · cases h
  have hpos : 0 < 2 ^ b := Nat.two_pow_pos b
  have hmod : v.value.toNat % 2 ^ b = t.toNat := by
    rw [hv, Nat.add_mod, hp]; simp [Nat.mod_eq_of_lt ht]
  have hdiv := Nat.div_add_mod v.value.toNat (2 ^ b)
  constructor
  · apply BitVec.eq_of_toNat_eq
    rw [pointer, and_ptrMask hb]
    omega
  · apply BitVec.eq_of_toNat_eq
    rw [tag, BitVec.toNat_setWidth, and_tagMask hb, hmod]
    exact Nat.mod_eq_of_lt t.isLt

example : mk 3 (0x7fff1238 : Word) (5 : BitVec 8) = some ⟨0x7fff123d⟩ ∧ pointer 3 ⟨0x7fff123d⟩ = 0x7fff1238 ∧ tag 8 3 ⟨0x7fff123d⟩ = 5 := by
  decide

/-- **C23.** The same for the `nullptr` constructor; a default-constructed pair is the null pointer with tag zero. -/
theorem null_unpack {k b : Nat} (hb : b < 64) (hk : k ≤ 64) {t : BitVec k} {v : Pair} (h : mkNull b t = some v) :
    pointer b v = 0 ∧ tag k b v = t := by
  have : mk b 0 t = some v := by
    simp only [mkNull] at h
    split at h
    · rename_i ht
      cases h
      simp [mk, ht]
    · cases h
  exact pack_unpack hb hk this

example : mkNull 3 (5 : BitVec 8) = some ⟨5⟩ := by decide

theorem default_unpack {k b : Nat} : pointer b dflt = 0 ∧ tag k b dflt = 0 := by
  simp [pointer, tag, dflt]

example : pointer 3 dflt = 0 := by decide

/-- **C23.** `from_tagged` inverts `tagged_pointer` and vice versa. -/
theorem tagged_roundtrip (v : Pair) (p : Word) : fromTagged (taggedPointer v) = v ∧ taggedPointer (fromTagged p) = p :=
  ⟨rfl, rfl⟩

example : taggedPointer ⟨0x7fff123d⟩ = 0x7fff123d := rfl

/-- What `pointer()` and `tag()` mean for any stored word, e.g. one that came in through `from_tagged`: the word with its low
`b` bits cleared, and those bits. -/
theorem unpack_any {k b : Nat} (hb : b < 64) (hbk : b ≤ k) (v : Pair) :
    (pointer b v).toNat = 2 ^ b * ((taggedPointer v).toNat / 2 ^ b) ∧
    (tag k b v).toNat = (taggedPointer v).toNat % 2 ^ b := by
  refine ⟨and_ptrMask hb _, ?_⟩
  rw [tag, BitVec.toNat_setWidth, and_tagMask hb]
  exact Nat.mod_eq_of_lt (Nat.lt_of_lt_of_le (Nat.mod_lt _ (Nat.two_pow_pos b)) (Nat.pow_le_pow_right (by omega) hbk))

example : pointer 3 (fromTagged 0x7fff123d) = 0x7fff1238 ∧ tag 8 3 (fromTagged 0x7fff123d) = 5 := by decide

/-- **C23.** Repacking the parts of any pair gives the pair back; replacing one part leaves the other unchanged. -/
theorem repack {k b : Nat} (hb : b < 64) (hbk : b ≤ k) (hk : k ≤ 64) (v : Pair) :
    mk b (pointer b v) (tag k b v) = some v ∧
    (∀ (t : BitVec k) v', mk b (pointer b v) t = some v' → pointer b v' = pointer b v ∧ tag k b v' = t) ∧
    (∀ p v', mk b p (tag k b v) = some v' → pointer b v' = p ∧ tag k b v' = tag k b v) := by
  refine ⟨?_, fun t v' h => pack_unpack hb hk h, fun p v' h => pack_unpack hb hk h⟩
  obtain ⟨h1, h2⟩ := unpack_any (k := k) hb hbk v
  have hlt : (taggedPointer v).toNat % 2 ^ b < 2 ^ b := Nat.mod_lt _ (Nat.two_pow_pos b)
  have hp : (pointer b v).toNat % 2 ^ b = 0 := by rw [h1]; exact Nat.mul_mod_right _ _
  have ht : (tag k b v).toNat < 2 ^ b := by omega
  have hs := (mk_defined_iff hb hk (pointer b v) (tag k b v)).2 ⟨hp, ht⟩
  obtain ⟨v', hv'⟩ := Option.isSome_iff_exists.1 hs
  rw [hv']
  simp only [mk] at hv'
  split at hv'
  · cases hv'
    congr 1
    cases v with
    | mk w =>
      congr 1
      apply BitVec.eq_of_toNat_eq
      rw [BitVec.toNat_or, tagWord_toNat hk, or_toNat hp ht, h1, h2]
      exact Nat.div_add_mod _ _
  · cases hv'

example : ∃ v, mk 3 (0x7fff1238 : Word) (5 : BitVec 8) = some v := ⟨⟨0x7fff123d⟩, by decide⟩

/-- The alignment the constructor asks for is enough: a pointer that is a multiple of an alignment with at least `b`
trailing zero bits is accepted. -/
theorem countrZero_dvd (a : Nat) : 2 ^ countrZero a ∣ a := by
  fun_induction countrZero a with
  | case1 a h ih =>
    obtain ⟨c, hc⟩ := ih
    exact ⟨c, by rw [Nat.pow_succ, Nat.mul_assoc, Nat.mul_comm 2 c, ← Nat.mul_assoc, ← hc]; omega⟩
  | case2 a h => simp

theorem aligned_accepted {k b : Nat} (hb : b < 64) (hk : k ≤ 64) {align : Nat} (hbits : b ≤ countrZero align) {p : Word}
    (hp : align ∣ p.toNat) {t : BitVec k} (ht : t.toNat < 2 ^ b) : (mk b p t).isSome := by
  refine (mk_defined_iff hb hk p t).2 ⟨?_, ht⟩
  exact Nat.mod_eq_zero_of_dvd (Nat.dvd_trans (Nat.dvd_trans (Nat.pow_dvd_pow 2 hbits) (countrZero_dvd align)) hp)

example : 3 ≤ countrZero 8 ∧ (8 : Nat) ∣ (0x7fff1238 : Word).toNat := by
  refine ⟨?_, by decide⟩
  simp [countrZero]

/-! ### C24 -/

/-- The pairs a program can hold: any stored word, if the tag type can hold all tag bits; otherwise those made by the
constructors (and copies of them through `tagged_pointer`). -/
def Valid (k b : Nat) (v : Pair) : Prop := b ≤ k ∨ v = dflt ∨ (∃ t : BitVec k, mkNull b t = some v) ∨ ∃ p, ∃ t : BitVec k, mk b p t = some v

theorem valid_parts {k b : Nat} (hb : b < 64) (hk : k ≤ 64) {v : Pair} (h : Valid k b v) :
    v.value.toNat = (pointer b v).toNat + (tag k b v).toNat ∧ (pointer b v).toNat % 2 ^ b = 0 ∧ (tag k b v).toNat < 2 ^ b := by
  have key : ∀ p (t : BitVec k), mk b p t = some v → v.value.toNat = (pointer b v).toNat + (tag k b v).toNat ∧
      (pointer b v).toNat % 2 ^ b = 0 ∧ (tag k b v).toNat < 2 ^ b := by
    intro p t hm
    have := pack_unpack hb hk hm
    have hd := (mk_defined_iff hb hk p t).1 (by rw [hm]; rfl)
    rw [this.1, this.2]
    refine ⟨?_, hd⟩
    simp only [mk] at hm
    split at hm
    · cases hm
      simp only [BitVec.toNat_or, tagWord_toNat hk]
      exact or_toNat hd.1 hd.2
    · cases hm
  rcases h with hbk | rfl | ⟨t, ht⟩ | ⟨p, t, ht⟩
  · exact key _ _ (repack hb hbk hk v).1
  · rw [(default_unpack (k := k) (b := b)).1, (default_unpack (k := k) (b := b)).2]
    simp [dflt, Nat.two_pow_pos b]
  · refine key 0 t ?_
    simp only [mkNull] at ht
    split at ht
    · rename_i hle; cases ht; simp [mk, hle]
    · cases ht
  · exact key p t ht

/-- **C24.** Two pairs are equal iff their pointers and their tags are. -/
theorem eq_iff {k b : Nat} (hb : b < 64) (hk : k ≤ 64) {x y : Pair} (hx : Valid k b x) (hy : Valid k b y) :
    eq x y = true ↔ pointer b x = pointer b y ∧ tag k b x = tag k b y := by
  have h1 := valid_parts hb hk hx
  have h2 := valid_parts hb hk hy
  simp only [eq, beq_iff_eq]
  constructor
  · intro h; simp [pointer, tag, h]
  · rintro ⟨hp, ht⟩
    apply BitVec.eq_of_toNat_eq
    rw [h1.1, h2.1, hp, ht]

example : Valid 8 3 ⟨0x7fff123d⟩ ∧ Valid 8 3 ⟨0x7fff1238⟩ ∧ eq ⟨0x7fff123d⟩ ⟨0x7fff1238⟩ = false :=
  ⟨.inl (by decide), .inl (by decide), by decide⟩

/-- **C24.** The order is lexicographic: by pointer address, then by tag. -/
theorem cmp_lex {k b : Nat} (hb : b < 64) (hk : k ≤ 64) {x y : Pair} (hx : Valid k b x) (hy : Valid k b y) :
    (cmp x y = .lt ↔ (pointer b x).toNat < (pointer b y).toNat ∨
      ((pointer b x).toNat = (pointer b y).toNat ∧ (tag k b x).toNat < (tag k b y).toNat)) ∧
    (cmp x y = .gt ↔ cmp y x = .lt) ∧ (cmp x y = .eq ↔ eq x y = true) := by
  obtain ⟨a1, a2, a3⟩ := valid_parts hb hk hx
  obtain ⟨b1, b2, b3⟩ := valid_parts hb hk hy
  refine ⟨?_, ?_, ?_⟩
  · have : cmp x y = .lt ↔ x.value.toNat < y.value.toNat := by
      simp only [cmp, BitVec.lt_def]
      split
      · simp_all
      · split <;> simp_all
    rw [this, a1, b1]
    have key : ∀ p q : Nat, p % 2 ^ b = 0 → q % 2 ^ b = 0 → p < q → p + 2 ^ b ≤ q := by
      intro p q h1 h2 h
      obtain ⟨c, rfl⟩ := Nat.dvd_of_mod_eq_zero h1
      obtain ⟨d, rfl⟩ := Nat.dvd_of_mod_eq_zero h2
      have hcd : c < d := Nat.lt_of_mul_lt_mul_left h
      calc 2 ^ b * c + 2 ^ b = 2 ^ b * (c + 1) := by rw [Nat.mul_add, Nat.mul_one]
        _ ≤ 2 ^ b * d := Nat.mul_le_mul_left _ hcd
    constructor
    · intro h
      by_cases hp : (pointer b x).toNat < (pointer b y).toNat
      · exact .inl hp
      · right
        by_cases hq : (pointer b y).toNat < (pointer b x).toNat
        · have := key _ _ b2 a2 hq; omega
        · omega
    · rintro (h | ⟨h, h'⟩)
      · have := key _ _ a2 b2 h; omega
      · omega
  · simp only [cmp, BitVec.lt_def]
    by_cases h1 : x.value.toNat < y.value.toNat
    · have : ¬ y.value.toNat < x.value.toNat := by omega
      simp [h1, this]
    · by_cases h2 : y.value.toNat < x.value.toNat <;> simp [h1, h2]
  · simp only [cmp, BitVec.lt_def, eq, beq_iff_eq]
    by_cases h1 : x.value.toNat < y.value.toNat
    · have : x.value ≠ y.value := fun e => by rw [e] at h1; omega
      simp [h1, this]
    · by_cases h2 : y.value.toNat < x.value.toNat
      · have : x.value ≠ y.value := fun e => by rw [e] at h2; omega
        simp [h1, h2, this]
      · have : x.value = y.value := BitVec.eq_of_toNat_eq (by omega)
        simp [this]

example : Valid 8 3 ⟨0x7fff123d⟩ ∧ Valid 8 3 ⟨0x7fff1238⟩ ∧ cmp ⟨0x7fff1238⟩ ⟨0x7fff123d⟩ = .lt :=
  ⟨.inl (by decide), .inl (by decide), by decide⟩

/-- **C24.** Swapping exchanges pointers and tags. -/
theorem swap_spec {k b : Nat} (x y : Pair) :
    pointer b (swap x y).1 = pointer b y ∧ tag k b (swap x y).1 = tag k b y ∧
    pointer b (swap x y).2 = pointer b x ∧ tag k b (swap x y).2 = tag k b x := ⟨rfl, rfl, rfl, rfl⟩

example : Valid 8 3 ⟨0x7fff123d⟩ ∧ Valid 8 12 ⟨0x1001⟩ :=
  ⟨.inl (by decide), .inr (.inr (.inr ⟨0x1000, 1, by decide⟩))⟩

/-- The hypothesis of `Valid` is needed: if the tag type is narrower than the tag bits, `from_tagged` makes distinct pairs
with the same pointer and tag. -/
theorem narrow_tag_refuted : ∃ x y : Pair, x = fromTagged 0x100 ∧ y = fromTagged 0 ∧
    pointer 9 x = pointer 9 y ∧ tag 8 9 x = tag 8 9 y ∧ eq x y = false :=
  ⟨_, _, rfl, rfl, by decide, by decide, by decide⟩

end Verif.PtrTag
