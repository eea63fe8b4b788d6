import Verif.Layout.SizeModel
import Verif.Layout.Props

/-! Property C118: the memory that the objects of the library take. -/
namespace Verif.Layout.Size

/-- What every type fulfils that a member can have; with `alignas` the size of a member need not be a multiple of its alignment. -/
def Fits (t : Elem) : Prop := (∃ k, t.align = 2 ^ k) ∧ 0 < t.size

theorem fits_of_ok {t : Elem} (h : t.Ok) : Fits t := ⟨h.1, h.2.2⟩

theorem fits_pos {t : Elem} (h : Fits t) : 0 < t.align := by
  obtain ⟨⟨k, hk⟩, _⟩ := h
  rw [hk]; exact Nat.two_pow_pos k

/-- One of two alignments divides the other. -/
theorem pow_dvd {a b : Nat} (ha : ∃ k, a = 2 ^ k) (hb : ∃ k, b = 2 ^ k) (h : a ≤ b) : a ∣ b := by
  obtain ⟨j, rfl⟩ := ha
  obtain ⟨k, rfl⟩ := hb
  exact Nat.pow_dvd_pow 2 ((Nat.pow_le_pow_iff_right (by omega)).1 h)

theorem max_pow {a b : Nat} (ha : ∃ k, a = 2 ^ k) (hb : ∃ k, b = 2 ^ k) : ∃ k, max a b = 2 ^ k := by
  rcases Nat.le_total a b with h | h
  · rwa [Nat.max_eq_right h]
  · rwa [Nat.max_eq_left h]

theorem dvd_max_left {a b : Nat} (ha : ∃ k, a = 2 ^ k) (hb : ∃ k, b = 2 ^ k) : a ∣ max a b :=
  pow_dvd ha (max_pow ha hb) (Nat.le_max_left _ _)

theorem dvd_max_right {a b : Nat} (ha : ∃ k, a = 2 ^ k) (hb : ∃ k, b = 2 ^ k) : b ∣ max a b :=
  pow_dvd hb (max_pow ha hb) (Nat.le_max_right _ _)

theorem alignUp_lt {n a : Nat} (ha : 0 < a) : alignUp n a < n + a := by
  unfold alignUp
  have := Nat.div_mul_le_self (n + a - 1) a
  omega

/-- `alignUp` is the least multiple of `a` that is not less than `n`. -/
theorem alignUp_le {n a k : Nat} (ha : 0 < a) (hk : a ∣ k) (h : n ≤ k) : alignUp n a ≤ k := by
  obtain ⟨q, rfl⟩ := hk
  unfold alignUp
  rw [Nat.mul_comm a q]
  refine Nat.mul_le_mul_right a ?_
  rw [← Nat.lt_succ_iff, Nat.div_lt_iff_lt_mul ha, Nat.succ_mul]
  rw [Nat.mul_comm a q] at h
  omega

theorem alignUp_eq {n a k : Nat} (ha : 0 < a) (hk : a ∣ k) (h : n ≤ k) (h' : k < n + a) : alignUp n a = k := by
  refine Nat.le_antisymm (alignUp_le ha hk h) ?_
  obtain ⟨q, hq⟩ := hk
  obtain ⟨r, hr⟩ := dvd_alignUp n a
  have h1 := alignUp_ge (n := n) ha
  rcases Nat.lt_or_ge (alignUp n a) k with hlt | hge
  · exfalso
    have : r < q := by
      rw [hq, hr] at hlt
      exact Nat.lt_of_mul_lt_mul_left hlt
    have h2 : a * (r + 1) ≤ a * q := Nat.mul_le_mul_left a this
    rw [Nat.mul_add, ← hr, ← hq] at h2
    omega
  · exact hge

theorem alignUp_self {n a : Nat} (ha : 0 < a) (h : a ∣ n) : alignUp n a = n := alignUp_eq ha h (Nat.le_refl _) (by omega)

theorem alignUp_add {n a k : Nat} (ha : 0 < a) (h : a ∣ k) : alignUp (n + k) a = alignUp n a + k :=
  alignUp_eq ha (Nat.dvd_add (dvd_alignUp n a) h) (Nat.add_le_add_right (alignUp_ge ha) _)
    (by have := alignUp_lt (n := n) ha; omega)

/-! ## Every class -/

theorem alignOf_pow : ∀ {ms : List Member}, (∀ m ∈ ms, Fits m.ty) → ∃ k, alignOf ms = 2 ^ k
  | [], _ => ⟨0, rfl⟩
  | m :: ms, h => by
    have := alignOf_pow (ms := ms) (fun x hx => h x (by simp [hx]))
    exact max_pow (h m (by simp)).1 this

theorem alignOf_dvd : ∀ {ms : List Member}, (∀ m ∈ ms, Fits m.ty) → ∀ m ∈ ms, m.ty.align ∣ alignOf ms
  | [], _, _, hm => by simp at hm
  | m :: ms, h, x, hx => by
    have hp := alignOf_pow (ms := ms) (fun x hx => h x (by simp [hx]))
    rcases List.mem_cons.1 hx with rfl | hx
    · exact dvd_max_left (h x (by simp)).1 hp
    · exact Nat.dvd_trans (alignOf_dvd (ms := ms) (fun x hx => h x (by simp [hx])) x hx) (dvd_max_right (h m (by simp)).1 hp)

theorem alignOf_pos {ms : List Member} (h : ∀ m ∈ ms, Fits m.ty) : 0 < alignOf ms := by
  obtain ⟨k, hk⟩ := alignOf_pow h
  rw [hk]; exact Nat.two_pow_pos k

theorem place_ge : ∀ (ms : List Member) (d : Nat), (∀ m ∈ ms, Fits m.ty) → d ≤ (place d ms).2
  | [], _, _ => Nat.le_refl _
  | m :: ms, d, h => by
    have hms : ∀ x ∈ ms, Fits x.ty := fun x hx => h x (by simp [hx])
    rw [place]
    split
    · exact place_ge ms d hms
    · have h1 := place_ge ms (alignUp d m.ty.align + m.ty.size) hms
      have h2 := alignUp_ge (n := d) (fits_pos (h m (by simp)))
      show d ≤ (place (alignUp d m.ty.align + m.ty.size) ms).2
      omega

theorem place_spec : ∀ (ms : List Member) (d : Nat), (∀ m ∈ ms, Fits m.ty) → ∀ (i : Nat) (m : Member), ms[i]? = some m →
    ∃ o, (place d ms).1[i]? = some o ∧ m.ty.align ∣ o ∧
      (m.free = true → o = 0) ∧ (m.free = false → d ≤ o ∧ o + m.ty.size ≤ (place d ms).2)
  | [], _, _, i, m, hi => by simp at hi
  | m0 :: ms, d, h, i, m, hi => by
    have hms : ∀ x ∈ ms, Fits x.ty := fun x hx => h x (by simp [hx])
    have hpos := fits_pos (h m0 (by simp))
    have hge := alignUp_ge (n := d) hpos
    rw [place]
    cases i with
    | zero =>
      simp only [List.getElem?_cons_zero, Option.some.injEq] at hi
      subst hi
      split
      · rename_i hf
        exact ⟨0, rfl, Nat.dvd_zero _, fun _ => rfl, fun h' => absurd hf (by simp [h'])⟩
      · rename_i hf
        exact ⟨_, rfl, dvd_alignUp _ _, fun h' => absurd h' hf, fun _ => ⟨hge, place_ge ms _ hms⟩⟩
    | succ i =>
      simp only [List.getElem?_cons_succ] at hi
      split
      · obtain ⟨o, h1, h2, h3, h4⟩ := place_spec ms d hms i m hi
        exact ⟨o, by simpa using h1, h2, h3, h4⟩
      · obtain ⟨o, h1, h2, h3, h4⟩ := place_spec ms (alignUp d m0.ty.align + m0.ty.size) hms i m hi
        refine ⟨o, by simpa using h1, h2, h3, fun h' => ?_⟩
        have := h4 h'
        exact ⟨by omega, this.2⟩

theorem place_apart : ∀ (ms : List Member) (d : Nat), (∀ m ∈ ms, Fits m.ty) → ∀ (i j : Nat) (m n : Member) (o p : Nat), i < j →
    ms[i]? = some m → ms[j]? = some n → m.free = false → n.free = false →
    (place d ms).1[i]? = some o → (place d ms).1[j]? = some p → o + m.ty.size ≤ p
  | [], _, _, i, _, _, _, _, _, _, hi, _, _, _, _, _ => by simp at hi
  | m0 :: ms, d, h, i, j, m, n, o, p, hij, hi, hj, hm, hn, ho, hp => by
    have hms : ∀ x ∈ ms, Fits x.ty := fun x hx => h x (by simp [hx])
    cases j with
    | zero => omega
    | succ j =>
      simp only [List.getElem?_cons_succ] at hj
      cases i with
      | zero =>
        simp only [List.getElem?_cons_zero, Option.some.injEq] at hi
        subst hi
        rw [place, if_neg (by simp [hm])] at ho hp
        simp only [List.getElem?_cons_zero, Option.some.injEq, List.getElem?_cons_succ] at ho hp
        obtain ⟨q, h1, _, _, h4⟩ := place_spec ms (alignUp d m0.ty.align + m0.ty.size) hms j n hj
        rw [hp] at h1
        cases h1
        have := (h4 hn).1
        omega
      | succ i =>
        simp only [List.getElem?_cons_succ] at hi
        rw [place] at ho hp
        split at ho
        · rename_i hf
          rw [if_pos hf] at hp
          exact place_apart ms d hms i j m n o p (by omega) hi hj hm hn (by simpa using ho) (by simpa using hp)
        · rename_i hf
          rw [if_neg hf] at hp
          exact place_apart ms _ hms i j m n o p (by omega) hi hj hm hn (by simpa using ho) (by simpa using hp)

theorem free_le : ∀ {ms : List Member} {m : Member}, m ∈ ms → m.free = true →
    m.ty.size ≤ (ms.map fun m => if m.free then m.ty.size else 0).foldr max 0
  | [], _, hm, _ => by simp at hm
  | x :: ms, m, hm, hf => by
    simp only [List.map_cons, List.foldr_cons]
    rcases List.mem_cons.1 hm with rfl | hm
    · rw [if_pos hf]; exact Nat.le_max_left _ _
    · exact Nat.le_trans (free_le hm hf) (Nat.le_max_right _ _)

/-- C118: whatever the types of the members are, every member is within the object, at an address that is aligned for it if the object is
aligned, and no two members that hold data overlap; and an array of such objects keeps all of them aligned. -/
theorem members_apart (ms : List Member) (h : ∀ m ∈ ms, Fits m.ty) :
    0 < sizeOf ms ∧ alignOf ms ∣ sizeOf ms ∧ (∀ m ∈ ms, m.ty.align ∣ alignOf ms) ∧
    (∀ (i : Nat) (m : Member), ms[i]? = some m →
      ∃ o, (offsets ms)[i]? = some o ∧ m.ty.align ∣ o ∧ o + m.ty.size ≤ sizeOf ms) ∧
    ∀ (i j : Nat) (m n : Member) (o p : Nat), i < j → ms[i]? = some m → ms[j]? = some n → m.free = false → n.free = false →
      (offsets ms)[i]? = some o → (offsets ms)[j]? = some p → o + m.ty.size ≤ p := by
  have hA := alignOf_pos h
  have hs := alignUp_ge (n := max (max 1 (place 0 ms).2) ((ms.map fun m => if m.free then m.ty.size else 0).foldr max 0)) hA
  have hs' : max (max 1 (place 0 ms).2) ((ms.map fun m => if m.free then m.ty.size else 0).foldr max 0) ≤ sizeOf ms := hs
  refine ⟨by omega, dvd_alignUp _ _, alignOf_dvd h, ?_, fun i j m n o p => place_apart ms 0 h i j m n o p⟩
  intro i m hi
  obtain ⟨o, h1, h2, h3, h4⟩ := place_spec ms 0 h i m hi
  refine ⟨o, h1, h2, ?_⟩
  cases hf : m.free with
  | true =>
    have := free_le (List.mem_of_getElem? hi) hf
    rw [h3 hf]; omega
  | false =>
    have := (h4 hf).2
    omega

example : ∀ m ∈ [plain ⟨4, 4⟩, plain ⟨8, 8⟩, nua ⟨1, 1⟩ true], Fits m.ty := by
  intro m hm
  simp only [List.mem_cons, List.not_mem_nil, or_false] at hm
  rcases hm with rfl | rfl | rfl
  · exact ⟨⟨2, rfl⟩, by decide⟩
  · exact ⟨⟨3, rfl⟩, by decide⟩
  · exact ⟨⟨0, rfl⟩, by decide⟩

/-! ## variant2 -/

theorem union_fits {t u : Elem} (ht : t.Ok) (hu : u.Ok) : Fits (union t u) := by
  have hp := max_pow ht.1 hu.1
  refine ⟨hp, ?_⟩
  have hpos : 0 < max t.align u.align := by obtain ⟨k, hk⟩ := hp; rw [hk]; exact Nat.two_pow_pos k
  have := alignUp_ge (n := max t.size u.size) hpos
  have := ht.2.2
  show 0 < alignUp (max t.size u.size) (max t.align u.align)
  omega

/-- C118: a `variant2` takes the union of its types and one more unit of the larger alignment, for the discriminant and its padding; it is
aligned for both. -/
theorem variant2_size (t u : Elem) (ht : t.Ok) (hu : u.Ok) :
    sizeOf (variant2 t u) = alignUp (max t.size u.size) (max t.align u.align) + max t.align u.align ∧
    alignOf (variant2 t u) = max t.align u.align ∧
    offsets (variant2 t u) = [0, alignUp (max t.size u.size) (max t.align u.align)] := by
  obtain ⟨hp, hs⟩ := union_fits ht hu
  have hpos : 0 < max t.align u.align := fits_pos (union_fits ht hu)
  have ha : alignOf (variant2 t u) = max t.align u.align := by
    simp only [alignOf, variant2, plain, union, byte, List.map_cons, List.map_nil, List.foldr_cons, List.foldr_nil]; omega
  have h0 : alignUp 0 (max t.align u.align) = 0 := alignUp_self hpos (Nat.dvd_zero _)
  have h1 : ∀ n, alignUp n 1 = n := fun n => alignUp_self (by omega) (Nat.one_dvd n)
  have hd := dvd_alignUp (max t.size u.size) (max t.align u.align)
  refine ⟨?_, ha, ?_⟩
  · rw [sizeOf, ha]
    simp only [variant2, plain, union, byte, place, h0, h1, List.map_cons, List.map_nil, List.foldr_cons, List.foldr_nil, Bool.false_eq_true,
      if_false, Nat.zero_add]
    refine alignUp_eq hpos (Nat.dvd_add hd (Nat.dvd_refl _)) (by omega) (by omega)
  · simp only [offsets, variant2, plain, union, byte, place, h0, h1, Bool.false_eq_true, if_false, Nat.zero_add]

example : (⟨8, 8⟩ : Elem).Ok ∧ (⟨9, 1⟩ : Elem).Ok := ⟨⟨⟨3, rfl⟩, by decide, by decide⟩, ⟨⟨0, rfl⟩, by decide, by decide⟩⟩

/-- C118: a smaller object would do exactly if the larger size is not a multiple of the larger alignment: the discriminant is never put into
the padding of the union. -/
theorem variant2_minimal_iff (t u : Elem) (ht : t.Ok) (hu : u.Ok) :
    (∀ n, t.align ∣ n → u.align ∣ n → t.size + 1 ≤ n → u.size + 1 ≤ n → sizeOf (variant2 t u) ≤ n) ↔
    max t.align u.align ∣ max t.size u.size := by
  have hpos : 0 < max t.align u.align := fits_pos (union_fits ht hu)
  have hge := alignUp_ge (n := max t.size u.size) hpos
  have hd := dvd_alignUp (max t.size u.size) (max t.align u.align)
  rw [(variant2_size t u ht hu).1]
  constructor
  · intro h
    rcases Nat.lt_or_ge (max t.size u.size) (alignUp (max t.size u.size) (max t.align u.align)) with hlt | hle
    · exfalso
      have := h _ (Nat.dvd_trans (dvd_max_left ht.1 hu.1) hd) (Nat.dvd_trans (dvd_max_right ht.1 hu.1) hd) (by omega) (by omega)
      omega
    · have : alignUp (max t.size u.size) (max t.align u.align) = max t.size u.size := by omega
      rwa [this] at hd
  · intro h n hta hua hts hus
    have hdv : max t.align u.align ∣ n := by
      rcases Nat.le_total t.align u.align with h | h
      · rwa [Nat.max_eq_right h]
      · rwa [Nat.max_eq_left h]
    rw [alignUp_self hpos h]
    have := Nat.le_of_dvd (by omega) (Nat.dvd_sub hdv h)
    omega

/-- C118: "a union of the two types plus a 1 byte discriminant" is the size of the object only for types of alignment 1. -/
theorem variant2_one_byte_iff (t u : Elem) (ht : t.Ok) (hu : u.Ok) :
    sizeOf (variant2 t u) = max t.size u.size + 1 ↔ t.align = 1 ∧ u.align = 1 := by
  have hpos : 0 < max t.align u.align := fits_pos (union_fits ht hu)
  have hge := alignUp_ge (n := max t.size u.size) hpos
  have h1 := fits_pos (fits_of_ok ht)
  have h2 := fits_pos (fits_of_ok hu)
  rw [(variant2_size t u ht hu).1]
  constructor
  · intro h; omega
  · rintro ⟨ha, hb⟩
    rw [ha, hb, Nat.max_self, alignUp_self (by omega) (Nat.one_dvd _)]

/-- A `double` and a `char[9]`: a variant2 takes 24 bytes, though 16 would do. -/
theorem variant2_minimal_refuted : ∃ t u : Elem, t.Ok ∧ u.Ok ∧ sizeOf (variant2 t u) = 24 ∧
    t.align ∣ 16 ∧ u.align ∣ 16 ∧ t.size + 1 ≤ 16 ∧ u.size + 1 ≤ 16 :=
  ⟨⟨8, 8⟩, ⟨9, 1⟩, ⟨⟨3, rfl⟩, by decide, by decide⟩, ⟨⟨0, rfl⟩, by decide, by decide⟩, by decide, by decide, by decide, by decide, by decide⟩

/-! ## static_string and the allocators -/

theorem max_small : max 8 (max 1 1) = 8 ∧ max 8 (max 2 1) = 8 ∧ max 8 (max 4 1) = 8 ∧ max 8 (max 8 1) = 8 ∧ max 8 (max 16 1) = 16 := by decide

/-- The alignments up to 16. -/
theorem pow_le_16 {a : Nat} (h : ∃ k, a = 2 ^ k) : (a = 1 ∨ a = 2 ∨ a = 4 ∨ a = 8 ∨ a = 16) ∨ 32 ∣ a := by
  obtain ⟨k, rfl⟩ := h
  rcases Nat.lt_or_ge k 5 with hk | hk
  · left
    rcases k with _ | _ | _ | _ | _ | k <;> simp_all <;> omega
  · right
    exact Nat.pow_dvd_pow 2 hk

/-- What `static_string` would take with a field more for the capacity, like a string that can grow (specification). -/
def withCapacity (alloc : Elem) (empty : Bool) : List Member := [plain word, plain word, plain word, nua alloc empty]

theorem staticString_empty (a : Elem) : sizeOf (staticString a true) = alignUp (max 16 a.size) (max 8 (max a.align 1)) := by
  have h0 : alignUp 0 8 = 0 := by decide
  have h8 : alignUp 8 8 = 8 := by decide
  simp only [staticString, word, sizeOf, alignOf, plain, nua, place, h0, h8, List.map_cons, List.map_nil, List.foldr_cons, List.foldr_nil,
    Bool.false_eq_true, if_false, if_true, Nat.zero_add, Nat.reduceAdd]
  congr 1 <;> omega

theorem staticString_state (a : Elem) (ha : a.Ok) :
    sizeOf (staticString a false) = alignUp (alignUp 16 a.align + a.size) (max 8 (max a.align 1)) := by
  have h0 : alignUp 0 8 = 0 := by decide
  have h8 : alignUp 8 8 = 8 := by decide
  have := ha.2.2
  simp only [staticString, word, sizeOf, alignOf, plain, nua, place, h0, h8, List.map_cons, List.map_nil, List.foldr_cons, List.foldr_nil,
    Bool.false_eq_true, if_false, Nat.zero_add, Nat.reduceAdd]
  congr 1 <;> omega

theorem withCapacity_empty (a : Elem) : sizeOf (withCapacity a true) = alignUp (max 24 a.size) (max 8 (max a.align 1)) := by
  have h0 : alignUp 0 8 = 0 := by decide
  have h8 : alignUp 8 8 = 8 := by decide
  have h16 : alignUp 16 8 = 16 := by decide
  simp only [withCapacity, word, sizeOf, alignOf, plain, nua, place, h0, h8, h16, List.map_cons, List.map_nil, List.foldr_cons, List.foldr_nil,
    Bool.false_eq_true, if_false, if_true, Nat.zero_add, Nat.reduceAdd]
  congr 1 <;> omega

theorem withCapacity_state (a : Elem) (ha : a.Ok) :
    sizeOf (withCapacity a false) = alignUp (alignUp 24 a.align + a.size) (max 8 (max a.align 1)) := by
  have h0 : alignUp 0 8 = 0 := by decide
  have h8 : alignUp 8 8 = 8 := by decide
  have h16 : alignUp 16 8 = 16 := by decide
  have := ha.2.2
  simp only [withCapacity, word, sizeOf, alignOf, plain, nua, place, h0, h8, h16, List.map_cons, List.map_nil, List.foldr_cons, List.foldr_nil,
    Bool.false_eq_true, if_false, Nat.zero_add, Nat.reduceAdd]
  congr 1 <;> omega

/-- C118: a `static_string` takes two words exactly if its allocator is an empty class that is no larger and needs no more alignment than that. -/
theorem static_string_two_words_iff (a : Elem) (ha : a.Ok) (empty : Bool) :
    sizeOf (staticString a empty) = 16 ↔ empty = true ∧ a.size ≤ 16 ∧ a.align ≤ 16 := by
  have hs := ha.2.2
  have hdvd := ha.2.1
  cases empty with
  | true =>
    rw [staticString_empty]
    rcases pow_le_16 ha.1 with h | h
    · rcases h with h | h | h | h | h <;> rw [h] <;> simp only [alignUp, max_small.1, max_small.2.1, max_small.2.2.1, max_small.2.2.2.1, max_small.2.2.2.2, true_and] <;> omega
    · have hp := fits_pos (fits_of_ok ha)
      have hle := Nat.le_of_dvd hp h
      have h1 := dvd_alignUp (max 16 a.size) (max 8 (max a.align 1))
      have h2 : max 8 (max a.align 1) = a.align := by omega
      rw [h2] at h1 ⊢
      have h3 := alignUp_ge (n := max 16 a.size) hp
      have := Nat.le_of_dvd (by omega) h1
      simp only [true_and]
      omega
  | false =>
    rw [staticString_state a ha]
    have hp := fits_pos (fits_of_ok ha)
    have h1 := alignUp_ge (n := 16) hp
    have h3 := alignUp_ge (n := alignUp 16 a.align + a.size) (a := max 8 (max a.align 1)) (by omega)
    simp
    omega

/-- C118: leaving out the capacity makes the string smaller, by one word at least, exactly if the allocator needs an alignment of at most 16 and,
if it is empty, is not larger than the two other fields; otherwise it changes nothing. -/
theorem static_string_saves_word (a : Elem) (ha : a.Ok) (empty : Bool) :
    if a.align ≤ 16 ∧ (empty = true → a.size ≤ 16) then sizeOf (staticString a empty) + 8 ≤ sizeOf (withCapacity a empty)
    else sizeOf (staticString a empty) = sizeOf (withCapacity a empty) := by
  have hs := ha.2.2
  have hdvd := ha.2.1
  have hp := fits_pos (fits_of_ok ha)
  cases empty with
  | true =>
    rw [staticString_empty, withCapacity_empty]
    rcases pow_le_16 ha.1 with h | h
    · rcases h with h | h | h | h | h <;> rw [h] at hdvd ⊢ <;>
        simp only [alignUp, max_small.1, max_small.2.1, max_small.2.2.1, max_small.2.2.2.1, max_small.2.2.2.2, true_implies] <;> split <;> omega
    · have hle := Nat.le_of_dvd hp h
      rw [if_neg (by omega)]
      have hsz := Nat.le_of_dvd hs hdvd
      congr 1
      omega
  | false =>
    rw [staticString_state a ha, withCapacity_state a ha]
    rcases pow_le_16 ha.1 with h | h
    · rcases h with h | h | h | h | h <;> rw [h] at hdvd ⊢ <;> simp only [alignUp, max_small.1, max_small.2.1, max_small.2.2.1, max_small.2.2.2.1, max_small.2.2.2.2] <;>
        split <;> simp_all <;> omega
    · have hle := Nat.le_of_dvd hp h
      rw [if_neg (by omega)]
      have e1 : alignUp 16 a.align = a.align := alignUp_eq hp (Nat.dvd_refl _) (by omega) (by omega)
      have e2 : alignUp 24 a.align = a.align := alignUp_eq hp (Nat.dvd_refl _) (by omega) (by omega)
      rw [e1, e2]

/-- With an allocator of alignment 32 (for example one with a SIMD vector in it) nothing is saved. -/
theorem static_string_saves_word_refuted : ∃ a : Elem, a.Ok ∧ sizeOf (staticString a false) = sizeOf (withCapacity a false) :=
  ⟨⟨32, 32⟩, ⟨⟨5, rfl⟩, by decide, by decide⟩, by decide⟩

example : sizeOf (staticString ⟨1, 1⟩ true) = 16 ∧ sizeOf (withCapacity ⟨1, 1⟩ true) = 24 ∧ sizeOf (staticString ⟨8, 8⟩ false) = 24 := by decide

/-- C118: a `limit_allocator` takes a shared pointer, and nothing for an empty inner allocator that is not larger. -/
theorem limit_allocator_size_iff (a : Elem) (ha : a.Ok) (empty : Bool) :
    sizeOf (limitAllocator a empty) = 16 ↔ empty = true ∧ a.size ≤ 16 ∧ a.align ≤ 16 := by
  have e : sizeOf (limitAllocator a empty) = sizeOf (staticString a empty) := by
    have h0 : alignUp 0 8 = 0 := by decide
    have h8 : alignUp 8 8 = 8 := by decide
    cases empty <;>
    simp only [limitAllocator, staticString, word, sizeOf, alignOf, plain, nua, place, h0, h8, List.map_cons, List.map_nil, List.foldr_cons,
      List.foldr_nil, Bool.false_eq_true, if_false, if_true, Nat.zero_add, Nat.reduceAdd] <;> congr 1 <;> omega
  rw [e]
  exact static_string_two_words_iff a ha empty

/-- C118: an `offset_ptr_stl_allocator` takes what its inner allocator takes, so that wrapping costs nothing. -/
theorem offset_ptr_allocator_size (a : Elem) (ha : a.Ok) (empty : Bool) : cls (offsetPtrAllocator a empty) = a := by
  have hp := fits_pos (fits_of_ok ha)
  have h0 : alignUp 0 a.align = 0 := alignUp_self hp (Nat.dvd_zero _)
  have hs := ha.2.2
  have h1 : max a.align 1 = a.align := by omega
  have h2 : max (max 1 a.size) (max 0 0) = a.size := by omega
  have h3 : max (max 1 0) (max a.size 0) = a.size := by omega
  obtain ⟨sz, al⟩ := a
  cases empty <;>
  simp only [cls, offsetPtrAllocator, sizeOf, alignOf, nua, place, h0, List.map_cons, List.map_nil, List.foldr_cons,
      List.foldr_nil, Bool.false_eq_true, if_false, if_true, Nat.zero_add, h1, h2, h3, Elem.mk.injEq, and_true] <;>
  exact alignUp_self hp ha.2.1

/-! ## flex_array -/

theorem array_fits (t : Elem) (ht : t.Ok) (n : Nat) : Fits (array t n) := by
  unfold array
  split
  · exact ⟨⟨0, rfl⟩, by decide⟩
  · exact ⟨ht.1, Nat.mul_pos (by omega) ht.2.2⟩

/-- C118: a `flex_array` of fixed size takes exactly its elements; without elements it takes one byte. -/
theorem flex_static_size (t : Elem) (ht : t.Ok) (n : Nat) :
    sizeOf (flexStatic t n) = if n = 0 then 1 else n * t.size := by
  by_cases hn : n = 0
  · subst hn
    rw [if_pos rfl]
    simp only [flexStatic, array, if_true]
    decide
  · have hp := fits_pos (fits_of_ok ht)
    have h0 : alignUp 0 t.align = 0 := alignUp_self hp (Nat.dvd_zero _)
    have hpos : 0 < n * t.size := Nat.mul_pos (by omega) ht.2.2
    rw [if_neg hn]
    simp only [flexStatic, array, if_neg hn, sizeOf, alignOf, plain, place, h0, List.map_cons, List.map_nil, List.foldr_cons, List.foldr_nil,
      Bool.false_eq_true, if_false, Nat.zero_add]
    have h1 : max t.align 1 = t.align := by omega
    have h2 : max (max 1 (n * t.size)) (max 0 0) = n * t.size := by omega
    rw [h1, h2]
    exact alignUp_self hp (Nat.dvd_trans ht.2.1 (Nat.dvd_mul_left _ _))

/-- The size of a `flex_array` with a limit. -/
theorem flex_limited_eq (t : Elem) (ht : t.Ok) (n : Nat) (hn : n ≠ 0) :
    sizeOf (flexLimited t n) = if t.align ≤ 8 then alignUp (8 + n * t.size) 8 else t.align + n * t.size := by
  have hp := fits_pos (fits_of_ok ht)
  have h0 : alignUp 0 8 = 0 := by decide
  have hd : t.align ∣ n * t.size := Nat.dvd_trans ht.2.1 (Nat.dvd_mul_left _ _)
  have hpos : 0 < n * t.size := Nat.mul_pos (by omega) ht.2.2
  simp only [flexLimited, array, word, if_neg hn, sizeOf, alignOf, plain, place, h0, List.map_cons, List.map_nil, List.foldr_cons, List.foldr_nil,
      Bool.false_eq_true, if_false, Nat.zero_add]
  split
  · rename_i h8
    have e8 : alignUp 8 t.align = 8 := alignUp_self hp (pow_dvd ht.1 ⟨3, rfl⟩ h8)
    rw [e8]
    congr 1 <;> omega
  · have e8 : alignUp 8 t.align = t.align := alignUp_eq hp (Nat.dvd_refl _) (by omega) (by omega)
    rw [e8]
    have h1 : max 8 (max t.align 1) = t.align := by omega
    have h2 : max (max 1 (t.align + n * t.size)) (max 0 (max 0 0)) = t.align + n * t.size := by omega
    rw [h1, h2]
    exact alignUp_self hp (Nat.dvd_add (Nat.dvd_refl _) hd)

/-- C118: a `flex_array` with a limit takes its size field and room for as many elements as the limit says, and nothing else, exactly if the
elements fill whole words and need no more alignment than a word. -/
theorem flex_limited_size_iff (t : Elem) (ht : t.Ok) (n : Nat) :
    sizeOf (flexLimited t n) = 8 + n * t.size ↔ n ≠ 0 ∧ t.align ≤ 8 ∧ 8 ∣ n * t.size := by
  by_cases hn : n = 0
  · subst hn
    have : sizeOf (flexLimited t 0) = 16 := by
      simp only [flexLimited, array, if_true]; decide
    rw [this]
    simp
  · rw [flex_limited_eq t ht n hn]
    split
    · rename_i h8
      simp only [alignUp]
      omega
    · omega

/-- C118: and never more than that rounded up: the size field and the padding together are less than two words or the alignment of an element. -/
theorem flex_limited_bound (t : Elem) (ht : t.Ok) (n : Nat) (hn : n ≠ 0) :
    n * t.size + 8 ≤ sizeOf (flexLimited t n) ∧ sizeOf (flexLimited t n) ≤ n * t.size + max 15 t.align := by
  rw [flex_limited_eq t ht n hn]
  split
  · have := alignUp_lt (n := 8 + n * t.size) (a := 8) (by omega)
    have := alignUp_ge (n := 8 + n * t.size) (a := 8) (by omega)
    omega
  · omega

example : sizeOf (flexLimited ⟨4, 4⟩ 2) = 2 * 4 + 8 ∧ sizeOf (flexStatic ⟨4, 4⟩ 1) = 4 := by decide

/-- Three `int`s do not fill whole words: 24 bytes instead of 20. -/
theorem flex_limited_size_refuted : ∃ (t : Elem) (n : Nat), t.Ok ∧ n ≠ 0 ∧ sizeOf (flexLimited t n) ≠ n * t.size + 8 :=
  ⟨⟨4, 4⟩, 3, ⟨⟨2, rfl⟩, by decide, by decide⟩, by decide, by decide⟩

/-! ## inplace_polymorphic -/

/-- The alignment of the storage is that of one of the classes, and at least that of every one; the same for the size. -/
theorem maxOf_spec : ∀ (l : List Nat), l ≠ [] → Inplace.maxOf l ∈ l ∧ ∀ x ∈ l, x ≤ Inplace.maxOf l := by
  have key : ∀ (l : List Nat) (x : Nat), (l.foldl (fun a b => if a < b then b else a) x = x ∨
      l.foldl (fun a b => if a < b then b else a) x ∈ l) ∧ x ≤ l.foldl (fun a b => if a < b then b else a) x ∧
      ∀ y ∈ l, y ≤ l.foldl (fun a b => if a < b then b else a) x := by
    intro l
    induction l with
    | nil => intro x; simp
    | cons z l ih =>
      intro x
      rw [List.foldl_cons]
      obtain ⟨h1, h2, h3⟩ := ih (if x < z then z else x)
      have hx : x ≤ if x < z then z else x := by split <;> omega
      have hz : z ≤ if x < z then z else x := by split <;> omega
      refine ⟨?_, by omega, ?_⟩
      · rcases h1 with h1 | h1
        · rw [h1]
          split
          · right; simp
          · left; rfl
        · right; simp [h1]
      · intro y hy
        rcases List.mem_cons.1 hy with rfl | hy
        · omega
        · exact h3 y hy
  intro l hl
  cases l with
  | nil => exact absurd rfl hl
  | cons x l =>
    obtain ⟨h1, h2, h3⟩ := key l x
    refine ⟨?_, ?_⟩
    · show l.foldl _ x ∈ x :: l
      rcases h1 with h1 | h1
      · rw [h1]; simp
      · simp [h1]
    · intro y hy
      rcases List.mem_cons.1 hy with rfl | hy
      · exact h2
      · exact h3 y hy

/-- C118: an `inplace_polymorphic` is the smallest object that is aligned for all the classes and has room for each and for the byte that tells
whether there is an object. -/
theorem inplace_minimal (ts : List Inplace.Cls) (hne : ts ≠ []) (hok : ∀ t ∈ ts, (∃ k, t.align = 2 ^ k) ∧ 0 < t.size) :
    (∀ t ∈ ts, t.align ∣ sizeOf (inplace ts) ∧ t.size + 1 ≤ sizeOf (inplace ts)) ∧
    ∀ n, (∀ t ∈ ts, t.align ∣ n ∧ t.size + 1 ≤ n) → sizeOf (inplace ts) ≤ n := by
  obtain ⟨hs1, hs2⟩ := maxOf_spec (ts.map Inplace.Cls.size) (by simpa using hne)
  obtain ⟨ha1, ha2⟩ := maxOf_spec (ts.map Inplace.Cls.align) (by simpa using hne)
  obtain ⟨ta, hta, hta'⟩ := List.mem_map.1 ha1
  obtain ⟨tz, htz, htz'⟩ := List.mem_map.1 hs1
  have hpow : ∃ k, Inplace.maxOf (ts.map Inplace.Cls.align) = 2 ^ k := by rw [← hta']; exact (hok ta hta).1
  have hA : 0 < Inplace.maxOf (ts.map Inplace.Cls.align) := by obtain ⟨k, hk⟩ := hpow; rw [hk]; exact Nat.two_pow_pos k
  have hS : 0 < Inplace.maxOf (ts.map Inplace.Cls.size) := by rw [← htz']; exact (hok tz htz).2
  have h0 : alignUp 0 (Inplace.maxOf (ts.map Inplace.Cls.align)) = 0 := alignUp_self hA (Nat.dvd_zero _)
  have h1 : ∀ n, alignUp n 1 = n := fun n => alignUp_self (by omega) (Nat.one_dvd n)
  have e : sizeOf (inplace ts) = alignUp (Inplace.maxOf (ts.map Inplace.Cls.size) + 1) (Inplace.maxOf (ts.map Inplace.Cls.align)) := by
    simp only [inplace, Inplace.storageSize, Inplace.storageAlign, sizeOf, alignOf, plain, byte, place, h0, h1, List.map_cons, List.map_nil,
      List.foldr_cons, List.foldr_nil, Bool.false_eq_true, if_false, Nat.zero_add]
    congr 1
    all_goals omega
  rw [e]
  refine ⟨fun t ht => ⟨?_, ?_⟩, fun n hn => ?_⟩
  · exact Nat.dvd_trans (pow_dvd (hok t ht).1 hpow (ha2 _ (List.mem_map_of_mem ht))) (dvd_alignUp _ _)
  · have := hs2 _ (List.mem_map_of_mem (f := Inplace.Cls.size) ht)
    have := alignUp_ge (n := Inplace.maxOf (ts.map Inplace.Cls.size) + 1) hA
    omega
  · refine alignUp_le hA ?_ ?_
    · rw [← hta']; exact (hn ta hta).1
    · rw [← htz']; exact (hn tz htz).2

example : sizeOf (inplace [⟨9, 1, 0⟩, ⟨8, 8, 0⟩]) = 16 ∧
    ∀ t ∈ [(⟨9, 1, 0⟩ : Inplace.Cls), ⟨8, 8, 0⟩], (∃ k, t.align = 2 ^ k) ∧ 0 < t.size :=
  ⟨by decide, by
    intro t ht
    simp only [List.mem_cons, List.not_mem_nil, or_false] at ht
    rcases ht with rfl | rfl
    · exact ⟨⟨0, rfl⟩, by decide⟩
    · exact ⟨⟨3, rfl⟩, by decide⟩⟩

/-! ## mutex, guards and tagged pointers -/

/-- C118: a `mutex<T>` is the smallest object that is aligned for the value and the mutex and has room for both. -/
theorem mutex_minimal (t m : Elem) (ht : t.Ok) (hm : m.Ok) :
    (t.align ∣ sizeOf (mutex t m) ∧ m.align ∣ sizeOf (mutex t m) ∧ t.size + m.size ≤ sizeOf (mutex t m)) ∧
    ∀ n, t.align ∣ n → m.align ∣ n → t.size + m.size ≤ n → sizeOf (mutex t m) ≤ n := by
  have hpt := fits_pos (fits_of_ok ht)
  have hpm := fits_pos (fits_of_ok hm)
  have hst := ht.2.2
  have hsm := hm.2.2
  have h0 : alignUp 0 t.align = 0 := alignUp_self hpt (Nat.dvd_zero _)
  have e : sizeOf (mutex t m) = alignUp (t.size + m.size) (max t.align m.align) := by
    simp only [mutex, sizeOf, alignOf, plain, place, h0, List.map_cons, List.map_nil, List.foldr_cons, List.foldr_nil, Bool.false_eq_true,
      if_false, Nat.zero_add]
    have h1 : max t.align (max m.align 1) = max t.align m.align := by omega
    have h2 : max (max 1 (alignUp t.size m.align + m.size)) (max 0 (max 0 0)) = alignUp t.size m.align + m.size := by omega
    rw [h1, h2]
    rcases Nat.le_total t.align m.align with h | h
    · rw [Nat.max_eq_right h, ← alignUp_add hpm hm.2.1]
      exact alignUp_self hpm (dvd_alignUp _ _)
    · rw [Nat.max_eq_left h, alignUp_self hpm (Nat.dvd_trans (pow_dvd hm.1 ht.1 h) ht.2.1)]
  rw [e]
  have hp := max_pow ht.1 hm.1
  have hpos : 0 < max t.align m.align := by omega
  refine ⟨⟨Nat.dvd_trans (dvd_max_left ht.1 hm.1) (dvd_alignUp _ _), Nat.dvd_trans (dvd_max_right ht.1 hm.1) (dvd_alignUp _ _),
    alignUp_ge hpos⟩, fun n h1 h2 h3 => alignUp_le hpos ?_ h3⟩
  rcases Nat.le_total t.align m.align with h | h
  · rwa [Nat.max_eq_right h]
  · rwa [Nat.max_eq_left h]

/-- C118: a `pointer_tag_pair` takes one word, a guard three, whatever the types are. -/
theorem word_sizes : cls pointerTagPair = word ∧ cls mutexGuard = ⟨24, 8⟩ := by decide

example : sizeOf (mutex ⟨4, 4⟩ ⟨40, 8⟩) = 48 ∧ sizeOf (mutex ⟨8, 8⟩ ⟨40, 8⟩) = 48 := by decide

end Verif.Layout.Size
