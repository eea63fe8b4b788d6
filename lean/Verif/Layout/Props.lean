import Verif.Layout.Model
import Verif.TypeList.Props

/-! Property C47 of standard_layout_tuple.hpp. -/
namespace Verif.Layout

variable {α β : Type}

/-! ## Layout -/

theorem alignUp_ge {n a : Nat} (ha : 0 < a) : n ≤ alignUp n a := by
  unfold alignUp
  have := Nat.lt_div_mul_add (a := n + a - 1) (b := a) ha
  omega

theorem dvd_alignUp (n a : Nat) : a ∣ alignUp n a := Nat.dvd_mul_left _ _

/-- Alignments are powers of two, so one of any two divides the other. -/
theorem tupAlign_spec : ∀ {ts : List Elem}, (∀ t ∈ ts, t.Ok) → (∃ k, tupAlign ts = 2 ^ k) ∧ ∀ t ∈ ts, t.align ∣ tupAlign ts
  | [], _ => ⟨⟨0, rfl⟩, by simp⟩
  | t :: ts, h => by
    obtain ⟨⟨k, hk⟩, ih⟩ := tupAlign_spec (ts := ts) (fun u hu => h u (by simp [hu]))
    obtain ⟨j, hj⟩ := (h t (by simp)).1
    have hmax : tupAlign (t :: ts) = 2 ^ max j k := by
      rw [tupAlign, hj, hk]
      rcases Nat.le_total j k with hjk | hjk
      · rw [Nat.max_eq_right hjk, Nat.max_eq_right (Nat.pow_le_pow_right (by omega) hjk)]
      · rw [Nat.max_eq_left hjk, Nat.max_eq_left (Nat.pow_le_pow_right (by omega) hjk)]
    refine ⟨⟨_, hmax⟩, ?_⟩
    intro u hu
    rw [hmax]
    rcases List.mem_cons.1 hu with rfl | hu
    · rw [hj]; exact Nat.pow_dvd_pow 2 (Nat.le_max_left _ _)
    · exact Nat.dvd_trans (ih u hu) (by rw [hk]; exact Nat.pow_dvd_pow 2 (Nat.le_max_right _ _))

theorem tupAlign_pos {ts : List Elem} (h : ∀ t ∈ ts, t.Ok) : 0 < tupAlign ts := by
  obtain ⟨⟨k, hk⟩, _⟩ := tupAlign_spec h
  rw [hk]; exact Nat.two_pow_pos k

theorem tupAlign_rest_dvd {t : Elem} {ts : List Elem} (h : ∀ u ∈ t :: ts, u.Ok) : tupAlign ts ∣ tupAlign (t :: ts) := by
  obtain ⟨⟨k, hk⟩, _⟩ := tupAlign_spec h
  obtain ⟨⟨j, hj⟩, _⟩ := tupAlign_spec (ts := ts) (fun u hu => h u (by simp [hu]))
  have hle : tupAlign ts ≤ tupAlign (t :: ts) := by rw [tupAlign]; exact Nat.le_max_right _ _
  rw [hk, hj] at hle ⊢
  exact Nat.pow_dvd_pow 2 ((Nat.pow_le_pow_iff_right (by omega)).1 hle)

theorem getAddr_lt : ∀ {ts : List Elem} {a ix x : Nat}, getAddr ts a ix = some x → ix < ts.length
  | [], _, _, _, h => by simp [getAddr] at h
  | _ :: _, _, 0, _, _ => by simp
  | t :: ts, a, ix + 1, x, h => by
    have := getAddr_lt (ts := ts) (a := a + restOffset t ts) (ix := ix) (x := x) h
    simp; omega

theorem getAddr_some : ∀ (ts : List Elem) (a : Nat) {ix : Nat}, ix < ts.length → ∃ x, getAddr ts a ix = some x
  | _ :: _, a, 0, _ => ⟨a, rfl⟩
  | t :: ts, a, ix + 1, h => getAddr_some ts _ (by simpa using h)

theorem restOffset_ge {t u : Elem} {ts : List Elem} (h : ∀ v ∈ u :: ts, v.Ok) : t.size ≤ restOffset t (u :: ts) := by
  unfold restOffset
  exact alignUp_ge (tupAlign_pos h)

theorem restOffset_dvd (t : Elem) (ts : List Elem) : tupAlign ts ∣ restOffset t ts := by
  unfold restOffset
  split
  · exact Nat.dvd_zero _
  · exact dvd_alignUp _ _

theorem getAddr_ge : ∀ {ts : List Elem} {a ix x : Nat}, getAddr ts a ix = some x → a ≤ x
  | [], _, _, _, h => by simp [getAddr] at h
  | _ :: _, a, 0, x, h => by simp [getAddr] at h; omega
  | t :: ts, a, ix + 1, x, h => by
    have := getAddr_ge (ts := ts) (a := a + restOffset t ts) (ix := ix) (x := x) h
    omega

/-- **C47.** The elements of a tuple at an aligned address are inside of the tuple, aligned for their type and do not overlap: each ends
before the next begins. -/
theorem layout : ∀ {ts : List Elem} {a : Nat}, (∀ t ∈ ts, t.Ok) → tupAlign ts ∣ a →
    ∀ {i x : Nat}, getAddr ts a i = some x → ∃ t, ts[i]? = some t ∧ a ≤ x ∧ x + t.size ≤ a + sizeOf ts ∧ t.align ∣ x ∧
      ∀ {j y : Nat}, i < j → getAddr ts a j = some y → x + t.size ≤ y := by
  suffices H : ∀ {ts : List Elem} {a : Nat}, (∀ t ∈ ts, t.Ok) → tupAlign ts ∣ a →
      ∀ {i x : Nat}, getAddr ts a i = some x → ∃ t, ts[i]? = some t ∧ a ≤ x ∧ x + t.size ≤ a + dsize ts ∧ t.align ∣ x ∧
        ∀ {j y : Nat}, i < j → getAddr ts a j = some y → x + t.size ≤ y by
    intro ts a hok ha i x h
    obtain ⟨t, h1, h2, h3, h4, h5⟩ := H hok ha h
    refine ⟨t, h1, h2, ?_, h4, h5⟩
    have := alignUp_ge (n := max 1 (dsize ts)) (tupAlign_pos hok)
    unfold sizeOf
    omega
  intro ts
  induction ts with
  | nil => intro a _ _ i x h; simp [getAddr] at h
  | cons t ts ih =>
    intro a hok ha i x h
    have hok' : ∀ u ∈ ts, u.Ok := fun u hu => hok u (by simp [hu])
    cases i with
    | zero =>
      simp only [getAddr, Option.some.injEq] at h
      subst h
      refine ⟨t, rfl, Nat.le_refl _, ?_, ?_, ?_⟩
      · rw [dsize]; omega
      · exact Nat.dvd_trans ((tupAlign_spec hok).2 t (by simp)) ha
      · intro j y hj hy
        cases j with
        | zero => omega
        | succ j =>
          rw [getAddr] at hy
          have hge := getAddr_ge hy
          have hlt := getAddr_lt hy
          cases ts with
          | nil => simp at hlt
          | cons u us => have := restOffset_ge (t := t) hok'; omega
    | succ i =>
      rw [getAddr] at h
      have ha' : tupAlign ts ∣ a + restOffset t ts :=
        Nat.dvd_add (Nat.dvd_trans (tupAlign_rest_dvd hok) ha) (restOffset_dvd _ _)
      obtain ⟨u, h1, h2, h3, h4, h5⟩ := ih hok' ha' h
      refine ⟨u, by simpa using h1, by omega, ?_, h4, ?_⟩
      · rw [dsize]; omega
      · intro j y hj hy
        cases j with
        | zero => omega
        | succ j => exact h5 (by omega) hy

example : (∀ t ∈ [⟨1, 1⟩, ⟨4, 4⟩, (⟨2, 2⟩ : Elem)], t.Ok) ∧ getAddr [⟨1, 1⟩, ⟨4, 4⟩, ⟨2, 2⟩] 8 1 = some 12 ∧
    getAddr [⟨1, 1⟩, ⟨4, 4⟩, ⟨2, 2⟩] 8 2 = some 16 := by
  refine ⟨?_, by decide⟩
  simp [Elem.Ok]
  exact ⟨⟨0, rfl⟩, ⟨2, rfl⟩, ⟨1, rfl⟩⟩

/-- **C47.** `sizeof` is a positive multiple of the alignment, and no smaller multiple has room for the elements: in an array of tuples
every tuple is aligned, and the tuples do not overlap. -/
theorem size_spec {ts : List Elem} (hok : ∀ t ∈ ts, t.Ok) :
    0 < sizeOf ts ∧ (∀ t ∈ ts, t.align ∣ sizeOf ts) ∧
    (∀ n, 0 < n → tupAlign ts ∣ n → (∀ i x t, getAddr ts 0 i = some x → ts[i]? = some t → x + t.size ≤ n) → sizeOf ts ≤ n) := by
  have hp := tupAlign_pos hok
  have hge := alignUp_ge (n := max 1 (dsize ts)) hp
  refine ⟨by unfold sizeOf; omega, fun t ht => ?_, fun n hn hd hfit => ?_⟩
  · exact Nat.dvd_trans ((tupAlign_spec hok).2 t ht) (dvd_alignUp _ _)
  · have hds : dsize ts ≤ n := by
      have key : ∀ (ts : List Elem) (a : Nat), (∀ i x t, getAddr ts a i = some x → ts[i]? = some t → x + t.size ≤ n) →
          a ≤ n → a + dsize ts ≤ n := by
        intro ts
        induction ts with
        | nil => intro a _ ha; simpa [dsize] using ha
        | cons t ts ih =>
          intro a h ha
          rw [dsize]
          have h0 := h 0 a t rfl rfl
          have := ih (a + restOffset t ts) (fun i x u hx hu => h (i + 1) x u hx (by simpa using hu)) (by
            cases ts with
            | nil => simpa [restOffset] using ha
            | cons u us =>
              have := h 1 (a + restOffset t (u :: us)) u rfl rfl
              omega)
          omega
      simpa using key ts 0 hfit (by omega)
    obtain ⟨k, rfl⟩ := hd
    unfold sizeOf alignUp
    rw [Nat.mul_comm (tupAlign ts) k]
    apply Nat.mul_le_mul_right
    have : max 1 (dsize ts) ≤ tupAlign ts * k := by omega
    calc (max 1 (dsize ts) + tupAlign ts - 1) / tupAlign ts ≤ (tupAlign ts * k + tupAlign ts - 1) / tupAlign ts :=
          Nat.div_le_div_right (by omega)
      _ ≤ k := by
          rw [Nat.div_le_iff_le_mul_add_pred hp]
          omega

example : sizeOf [⟨1, 1⟩, ⟨4, 4⟩, ⟨2, 2⟩] = 12 := by decide

/-! ## Subtuples -/

/-- What `subtuple` computes: the types of the selected elements at the address of the member `rest` `offset` levels down. -/
theorem subtuple_eq : ∀ (ts : List Elem) (a offset count : Nat), subtuple ts a offset count =
    if (offset < ts.length ∧ offset + count ≤ ts.length) then (getAddr ts a offset).map fun x => ((ts.drop offset).take count, x)
    else if ts = [] ∧ offset = 0 ∧ count = 0 then some ([], a) else none
  | [], a, offset, count => by simp [subtuple]
  | t :: ts, a, 0, count => by
    simp only [subtuple, getAddr, List.drop_zero, List.length_cons, Nat.zero_add, List.cons_ne_nil, false_and, if_false, Option.map_some]
    by_cases h : 0 < ts.length + 1 ∧ count ≤ ts.length + 1
    · rw [if_pos h, if_pos h, TypeList.take_eq, if_pos (by simpa using h.2)]; rfl
    · rw [if_neg h, if_neg h]
  | t :: ts, a, offset + 1, count => by
    rw [subtuple, subtuple_eq ts _ offset count]
    simp only [List.length_cons, getAddr, List.drop_succ_cons, List.cons_ne_nil, false_and, if_false]
    by_cases h : offset + 1 < ts.length + 1 ∧ count ≤ ts.length + 1 - (offset + 1)
    · rw [if_pos h, if_pos (by omega), if_pos (by omega)]
    · rw [if_neg h, if_neg (by omega)]

/-- The padding between the members of the first `n` elements does not change when the tuple is cut off after them: for each of these
elements but the last, the rest of the tuple begins at the same offset with or without the elements that are cut off. -/
def PaddingAgrees (ts : List Elem) (n : Nat) : Prop :=
  ∀ i t, ts[i]? = some t → i + 1 < n → alignUp t.size (tupAlign ((ts.take n).drop (i + 1))) = alignUp t.size (tupAlign (ts.drop (i + 1)))

theorem restOffset_eq {t : Elem} {ts : List Elem} (h : ts ≠ []) : restOffset t ts = alignUp t.size (tupAlign ts) := by
  cases ts with
  | nil => exact absurd rfl h
  | cons u us => rfl

theorem getAddr_shift : ∀ (ts : List Elem) (a i : Nat), getAddr ts a i = (getAddr ts 0 i).map (a + ·)
  | [], _, _ => rfl
  | _ :: _, _, 0 => by simp [getAddr]
  | t :: ts, a, i + 1 => by
    rw [getAddr, getAddr, getAddr_shift ts (a + _), getAddr_shift ts (0 + _)]
    cases getAddr ts 0 i <;> simp; omega

/-- Elements of a prefix are where they are in the full tuple iff the padding agrees. -/
theorem prefix_iff : ∀ {ts : List Elem} {n : Nat}, n ≤ ts.length →
    ((∀ i, i < n → getAddr (ts.take n) 0 i = getAddr ts 0 i) ↔ PaddingAgrees ts n)
  | [], n, hn => by
    simp at hn; subst hn
    constructor
    · intro _ i t h; simp at h
    · intro _ i h; omega
  | t :: ts, 0, _ => by
    constructor
    · intro _ i u _ h; omega
    · intro _ i h; omega
  | t :: ts, n + 1, hn => by
    have hn' : n ≤ ts.length := by simpa using hn
    have ih := prefix_iff (ts := ts) hn'
    rw [List.take_succ_cons]
    cases n with
    | zero =>
      constructor
      · intro _ i u _ h; omega
      · intro _ i h
        obtain rfl : i = 0 := by omega
        rfl
    | succ n =>
      have hne : ts ≠ [] := by intro h; subst h; simp at hn'
      have hne' : ts.take (n + 1) ≠ [] := by simpa using hne
      have hoff : ∀ us : List Elem, us ≠ [] → getAddr (t :: us) 0 1 = some (restOffset t us) := by
        intro us hus
        cases us with
        | nil => exact absurd rfl hus
        | cons u us => simp [getAddr]
      constructor
      · intro h
        have h1 := h 1 (by omega)
        rw [hoff _ hne', hoff _ hne, Option.some.injEq] at h1
        have hrest : PaddingAgrees ts (n + 1) := by
          rw [← ih]
          intro i hi
          have := h (i + 1) (by omega)
          rw [getAddr, getAddr, getAddr_shift, getAddr_shift ts, h1] at this
          cases e1 : getAddr (ts.take (n + 1)) 0 i <;> cases e2 : getAddr ts 0 i <;> rw [e1, e2] at this <;> simp at this ⊢
          omega
        intro i u hu hi
        cases i with
        | zero =>
          simp only [List.getElem?_cons_zero, Option.some.injEq] at hu
          subst hu
          rw [restOffset_eq hne, restOffset_eq hne'] at h1
          simpa using h1
        | succ i =>
          have := hrest i u (by simpa using hu) (by omega)
          simpa using this
      · intro h i hi
        have h1 : restOffset t (ts.take (n + 1)) = restOffset t ts := by
          rw [restOffset_eq hne, restOffset_eq hne']
          simpa using h 0 t rfl (by omega)
        have hrest : PaddingAgrees ts (n + 1) := by
          intro i u hu hi
          have := h (i + 1) u (by simpa using hu) (by omega)
          simpa using this
        cases i with
        | zero => rfl
        | succ i =>
          rw [getAddr, getAddr, getAddr_shift, getAddr_shift ts, h1, ih.2 hrest i (by omega)]

theorem getAddr_add : ∀ (ts : List Elem) (a : Nat) {o x : Nat} (i : Nat), getAddr ts a o = some x →
    getAddr ts a (o + i) = getAddr (ts.drop o) x i
  | [], _, _, _, _, h => by simp [getAddr] at h
  | t :: ts, a, 0, x, i, h => by
    simp only [getAddr, Option.some.injEq] at h
    subst h; simp
  | t :: ts, a, o + 1, x, i, h => by
    rw [show o + 1 + i = (o + i) + 1 by omega, getAddr, getAddr_add ts _ i (by rw [getAddr] at h; exact h)]
    simp

/-- **C47 (partial).** `subtuple<offset, count>()` of a non-empty tuple is well-formed iff the selected elements exist (and at least one
element is at or after `offset`). It then is a tuple of the types of the selected elements, and each of its elements is the corresponding
element of the full tuple, if and only if the padding between the selected elements does not depend on the elements after them. Missing
for the full claim: that last condition does not always hold, see `subtuple_refuted`. -/
theorem subtuple_partial (ts : List Elem) (a offset count : Nat) (hne : ts ≠ []) :
    ((subtuple ts a offset count).isSome ↔ offset < ts.length ∧ offset + count ≤ ts.length) ∧
    ∀ us x, subtuple ts a offset count = some (us, x) → us = (ts.drop offset).take count ∧
      ((∀ i, i < count → getAddr us x i = getAddr ts a (offset + i)) ↔ PaddingAgrees (ts.drop offset) count) := by
  rw [subtuple_eq]
  by_cases h : offset < ts.length ∧ offset + count ≤ ts.length
  · rw [if_pos h]
    obtain ⟨x, hx⟩ := getAddr_some ts a h.1
    rw [hx]
    refine ⟨by simp [h], ?_⟩
    intro us y e
    simp only [Option.map_some, Option.some.injEq, Prod.mk.injEq] at e
    obtain ⟨rfl, rfl⟩ := e
    refine ⟨rfl, ?_⟩
    rw [← prefix_iff (by rw [List.length_drop]; omega)]
    constructor
    · intro hh i hi
      have := hh i hi
      rw [getAddr_add ts a i hx, getAddr_shift, getAddr_shift (ts.drop offset)] at this
      cases e1 : getAddr ((ts.drop offset).take count) 0 i <;> cases e2 : getAddr (ts.drop offset) 0 i <;> rw [e1, e2] at this <;>
        simp at this ⊢
      omega
    · intro hh i hi
      rw [getAddr_add ts a i hx, getAddr_shift, getAddr_shift (ts.drop offset), hh i hi]
  · rw [if_neg h, if_neg (by simp [hne])]
    simp [h]

/-- Two of three elements of the same type. -/
example : subtuple [⟨4, 4⟩, ⟨4, 4⟩, ⟨4, 4⟩] 8 1 2 = some ([⟨4, 4⟩, ⟨4, 4⟩], 12) ∧
    getAddr [⟨4, 4⟩, ⟨4, 4⟩] 12 1 = getAddr [⟨4, 4⟩, ⟨4, 4⟩, ⟨4, 4⟩] 8 2 := by decide

/-- **C47, refuted.** The tuple `<char, char, int64_t>` has its element 1 at offset 8, but its subtuple of the first two elements looks for
it at offset 1, in the padding. -/
theorem subtuple_refuted :
    subtuple [⟨1, 1⟩, ⟨1, 1⟩, ⟨8, 8⟩] 0 0 2 = some ([⟨1, 1⟩, ⟨1, 1⟩], 0) ∧
    getAddr [⟨1, 1⟩, ⟨1, 1⟩, ⟨8, 8⟩] 0 1 = some 8 ∧ getAddr [⟨1, 1⟩, ⟨1, 1⟩] 0 1 = some 1 := by decide

/-- **C47, refuted** for the default `count`: `subtuple<offset>()` is ill-formed unless `offset` is 0. -/
theorem subtuple_default_refuted (ts : List Elem) (a offset : Nat) :
    (subtuple ts a offset (defaultCount ts)).isSome ↔ offset = 0 := by
  rw [subtuple_eq, defaultCount]
  cases ts with
  | nil => by_cases h : offset = 0 <;> simp [h]
  | cons t ts =>
    by_cases h : offset = 0
    · subst h; simp [getAddr]
    · rw [if_neg (by simp; omega)]; simp [h]

example : (subtuple [⟨4, 4⟩, ⟨4, 4⟩] 0 1 (defaultCount [⟨4, 4⟩, ⟨4, 4⟩])).isSome = false := by decide

/-- **C47.** All elements from `offset` on: no condition on padding. -/
theorem subtuple_suffix {ts : List Elem} {a offset count : Nat} (h : offset < ts.length) (hc : offset + count = ts.length) :
    ∃ x, subtuple ts a offset count = some (ts.drop offset, x) ∧ ∀ i, getAddr (ts.drop offset) x i = getAddr ts a (offset + i) := by
  obtain ⟨x, hx⟩ := getAddr_some ts a h
  refine ⟨x, ?_, fun i => (getAddr_add ts a i hx).symm⟩
  rw [subtuple_eq, if_pos (by omega), hx, List.take_of_length_le (by rw [List.length_drop]; omega)]
  rfl

example : subtuple [⟨1, 1⟩, ⟨1, 1⟩, ⟨8, 8⟩] 0 1 2 = some ([⟨1, 1⟩, ⟨8, 8⟩], 8) := by decide

/-- The alignments do not increase along the tuple. -/
def Descending (ts : List Elem) : Prop := ts.Pairwise fun t u => u.align ≤ t.align

theorem tupAlign_descending : ∀ {ts : List Elem}, Descending ts → ∀ {t}, ts.head? = some t → 1 ≤ t.align → tupAlign ts = t.align
  | [], _, t, h, _ => by simp at h
  | u :: us, hd, t, h, h1 => by
    simp only [List.head?_cons, Option.some.injEq] at h
    subst h
    unfold Descending at hd
    rw [List.pairwise_cons] at hd
    rw [tupAlign]
    cases us with
    | nil => simp [tupAlign]; omega
    | cons v vs =>
      by_cases hv : 1 ≤ v.align
      · rw [tupAlign_descending hd.2 (t := v) rfl hv]
        have := hd.1 v (by simp)
        omega
      · have : ∀ w ∈ v :: vs, w.align = 0 := by
          intro w hw
          rcases List.mem_cons.1 hw with rfl | hw
          · omega
          · have := (List.pairwise_cons.1 hd.2).1 w hw; omega
        have h0 : ∀ l : List Elem, (∀ w ∈ l, w.align = 0) → tupAlign l = 1 := by
          intro l
          induction l with
          | nil => intro _; rfl
          | cons w l ih => intro h; rw [tupAlign, ih (fun x hx => h x (by simp [hx])), h w (by simp)]; rfl
        rw [h0 _ this]; omega

/-- **C47.** If the alignments of the elements do not increase along the tuple (in particular if they are all the same), all subtuples refer
to the right elements. -/
theorem subtuple_descending {ts : List Elem} (hok : ∀ t ∈ ts, t.Ok) (hd : Descending ts) {a offset count : Nat} {us : List Elem} {x : Nat}
    (h : subtuple ts a offset count = some (us, x)) :
    us = (ts.drop offset).take count ∧ ∀ i, i < count → getAddr us x i = getAddr ts a (offset + i) := by
  by_cases hne : ts = []
  · subst hne
    simp only [subtuple] at h
    split at h
    · rename_i hh; obtain ⟨rfl, rfl⟩ := hh; simp at h; simp [h.1]
    · simp at h
  · obtain ⟨e, hiff⟩ := (subtuple_partial ts a offset count hne).2 us x h
    refine ⟨e, hiff.2 ?_⟩
    have hwf := (subtuple_partial ts a offset count hne).1.1 (by rw [h]; rfl)
    intro i t ht hi
    have hpos : ∀ u ∈ ts, 1 ≤ u.align := by
      intro u hu
      obtain ⟨k, hk⟩ := (hok u hu).1
      rw [hk]; exact Nat.one_le_two_pow
    have hdd : Descending (ts.drop offset) := List.Pairwise.drop hd
    obtain ⟨u, hu⟩ : ∃ u, (ts.drop offset)[i + 1]? = some u := by
      rw [List.getElem?_drop]
      exact ⟨_, List.getElem?_eq_getElem (by omega)⟩
    have humem : u ∈ ts := List.mem_of_mem_drop (List.mem_of_getElem? hu)
    rw [tupAlign_descending (List.Pairwise.drop hdd) (t := u) (by rw [List.head?_drop]; exact hu) (hpos u humem),
      tupAlign_descending (List.Pairwise.drop (List.Pairwise.take hdd)) (t := u)
        (by rw [List.head?_drop, List.getElem?_take, if_pos (by omega)]; exact hu) (hpos u humem)]

example : Descending [⟨8, 8⟩, ⟨12, 4⟩, ⟨1, 1⟩] ∧ subtuple [⟨8, 8⟩, ⟨12, 4⟩, ⟨1, 1⟩] 0 1 2 = some ([⟨12, 4⟩, ⟨1, 1⟩], 8) := by
  constructor
  · simp [Descending]
  · decide

/-! ## Values -/

/-- **C47.** Construction needs exactly one argument per element, and `get<ix>()` is the element made from argument number `ix`. -/
theorem construct (mk : Nat → α → β) (n : Nat) (args : List α) :
    (args.length ≠ n → individual mk n args = none) ∧
    (args.length = n → ∃ xs, individual mk n args = some xs ∧ xs.length = n ∧ ∀ ix, getVal xs ix = args[ix]?.map (mk ix)) := by
  induction args generalizing n mk with
  | nil =>
    cases n with
    | zero => exact ⟨by simp, fun _ => ⟨[], rfl, rfl, by intro ix; rfl⟩⟩
    | succ n => exact ⟨fun _ => rfl, by simp⟩
  | cons arg args ih =>
    cases n with
    | zero => exact ⟨fun _ => rfl, by simp⟩
    | succ n =>
      obtain ⟨h1, h2⟩ := ih (fun ix => mk (ix + 1)) n
      constructor
      · intro h
        rw [individual, h1 (by simpa using h)]; rfl
      · intro h
        obtain ⟨xs, e, hl, hg⟩ := h2 (by simpa using h)
        refine ⟨mk 0 arg :: xs, by rw [individual, e]; rfl, by simp [hl], ?_⟩
        intro ix
        cases ix with
        | zero => rfl
        | succ ix => rw [getVal, hg]; simp

example : individual (fun ix (s : String) => (ix, s)) 2 ["a", "b"] = some [(0, "a"), (1, "b")] := rfl

/-- **C47.** Uniform construction constructs each element from the arguments as lvalues, so no element sees moved-from arguments. -/
theorem uniform_spec (n : Nat) : uniform n = List.replicate n .lvalue := by
  induction n with
  | zero => rfl
  | succ n ih => rw [uniform, ih, List.replicate_succ]

example : uniform 2 = [.lvalue, .lvalue] := rfl

theorem getVal_eq : ∀ (xs : List β) (ix : Nat), getVal xs ix = xs[ix]?
  | [], _ => rfl
  | _ :: _, 0 => rfl
  | _ :: xs, ix + 1 => by rw [getVal, getVal_eq xs ix]; simp

/-- **C47.** `get<U>()` is well-formed iff exactly one element has the type `U`, and it is that element. -/
theorem get_by_type {τ : Type} [DecidableEq τ] {types : List τ} {xs : List β} (hl : xs.length = types.length) (u : τ) (x : β) :
    getByType types xs u = some x ↔ ∃ ix : Nat, types[ix]? = some u ∧ xs[ix]? = some x ∧ ∀ j : Nat, types[j]? = some u → j = ix := by
  have hcount := (TypeList.count_contains u types).1
  have hone : TypeList.count u types = 1 ↔ ∃ ix : Nat, types[ix]? = some u ∧ ∀ j : Nat, types[j]? = some u → j = ix := by
    rw [hcount]
    clear hcount hl
    induction types with
    | nil => simp
    | cons t ts ih =>
      have hz : (ts.filter fun t => t == u).length = 0 ↔ u ∉ ts := by
        rw [List.length_eq_zero_iff, List.filter_eq_nil_iff]
        constructor
        · intro h hu; exact h u hu (by simp)
        · intro h v hv hvu; simp at hvu; exact h (hvu ▸ hv)
      by_cases htu : t = u
      · subst htu
        simp only [List.filter_cons, beq_self_eq_true, if_true, List.length_cons]
        constructor
        · intro h
          refine ⟨0, rfl, ?_⟩
          intro j hj
          cases j with
          | zero => rfl
          | succ j =>
            exact absurd (List.mem_of_getElem? (by simpa using hj)) (hz.1 (by omega))
        · rintro ⟨ix, h1, h2⟩
          have h0 := h2 0 rfl
          have : t ∉ ts := by
            intro hm
            obtain ⟨j, hj⟩ := List.mem_iff_getElem?.1 hm
            have := h2 (j + 1) (by simpa using hj)
            omega
          have := hz.2 this
          omega
      · rw [List.filter_cons, if_neg (by simpa using htu)]
        rw [ih]
        constructor
        · rintro ⟨ix, h1, h2⟩
          refine ⟨ix + 1, by simpa using h1, ?_⟩
          intro j hj
          cases j with
          | zero => simp at hj; exact absurd hj htu
          | succ j => rw [h2 j (by simpa using hj)]
        · rintro ⟨ix, h1, h2⟩
          cases ix with
          | zero => simp at h1; exact absurd h1 htu
          | succ ix =>
            refine ⟨ix, by simpa using h1, ?_⟩
            intro j hj
            have := h2 (j + 1) (by simpa using hj)
            omega
  unfold getByType
  by_cases hc : TypeList.count u types = 1
  · rw [if_pos hc]
    obtain ⟨ix, h1, h2⟩ := hone.1 hc
    have hpos : TypeList.position (fun t => some (decide (u = t))) types = some ix := by
      rw [(TypeList.search _ _).1]
      refine ⟨⟨u, h1, by simp⟩, ?_⟩
      intro j t hj ht
      rw [decide_eq_false_iff_not]
      rintro rfl
      have := h2 j ht
      omega
    rw [hpos, Option.bind_some, getVal_eq]
    constructor
    · intro h; exact ⟨ix, h1, h, h2⟩
    · rintro ⟨jx, e1, e2, e3⟩; rw [e3 ix h1]; exact e2
  · rw [if_neg hc]
    constructor
    · simp
    · rintro ⟨ix, h1, _, h2⟩; exact absurd (hone.2 ⟨ix, h1, h2⟩) hc

example : getByType ["int", "char", "int"] [1, 2, 3] "char" = some 2 ∧ getByType ["int", "char", "int"] [1, 2, 3] "int" = none := by decide

/-- **C47.** Three-way comparison of tuples (with the same element types) is decided by the first position at which the elements are not
equivalent. -/
theorem compare_spec (c : Nat → β → β → Ord) (xs ys : List β) (hl : xs.length = ys.length) (o : Ord) :
    compare c xs ys = o ↔
      (o = .equal ∧ ∀ (i : Nat) x y, xs[i]? = some x → ys[i]? = some y → c i x y = .equal) ∨
      (o ≠ .equal ∧ ∃ (i : Nat) (x y : β), xs[i]? = some x ∧ ys[i]? = some y ∧ c i x y = o ∧
        ∀ (j : Nat) x y, j < i → xs[j]? = some x → ys[j]? = some y → c j x y = .equal) := by
  induction xs generalizing ys c with
  | nil =>
    cases ys with
    | nil =>
      simp only [compare, List.getElem?_nil]
      constructor
      · rintro rfl; left; exact ⟨rfl, by simp⟩
      · rintro (⟨rfl, _⟩ | ⟨_, i, x, y, h, _⟩)
        · rfl
        · simp at h
    | cons y ys => simp at hl
  | cons x xs ih =>
    cases ys with
    | nil => simp at hl
    | cons y ys =>
      have hl' : xs.length = ys.length := by simpa using hl
      by_cases he : c 0 x y = .equal
      · rw [compare, he]
        simp only
        rw [ih _ _ hl']
        constructor
        · rintro (⟨rfl, h⟩ | ⟨ho, i, a, b, h1, h2, h3, h4⟩)
          · left
            refine ⟨rfl, ?_⟩
            intro i a b ha hb
            cases i with
            | zero => simp at ha hb; subst ha hb; exact he
            | succ i => exact h i a b (by simpa using ha) (by simpa using hb)
          · right
            refine ⟨ho, i + 1, a, b, by simpa using h1, by simpa using h2, h3, ?_⟩
            intro j a b hj ha hb
            cases j with
            | zero => simp at ha hb; subst ha hb; exact he
            | succ j => exact h4 j a b (by omega) (by simpa using ha) (by simpa using hb)
        · rintro (⟨rfl, h⟩ | ⟨ho, i, a, b, h1, h2, h3, h4⟩)
          · left
            refine ⟨rfl, ?_⟩
            intro i a b ha hb
            exact h (i + 1) a b (by simpa using ha) (by simpa using hb)
          · right
            cases i with
            | zero => simp at h1 h2; subst h1 h2; rw [he] at h3; exact absurd h3.symm ho
            | succ i =>
              refine ⟨ho, i, a, b, by simpa using h1, by simpa using h2, h3, ?_⟩
              intro j a b hj ha hb
              exact h4 (j + 1) a b (by omega) (by simpa using ha) (by simpa using hb)
      · have hcmp : compare c (x :: xs) (y :: ys) = c 0 x y := by
          rw [compare]
          cases hh : c 0 x y <;> simp_all
        rw [hcmp]
        constructor
        · rintro rfl
          right
          exact ⟨he, 0, x, y, rfl, rfl, rfl, by intro j _ _ hj; omega⟩
        · rintro (⟨rfl, h⟩ | ⟨ho, i, a, b, h1, h2, h3, h4⟩)
          · exact h 0 x y rfl rfl
          · cases i with
            | zero => simp at h1 h2; subst h1 h2; exact h3
            | succ i => exact absurd (h4 0 x y (by omega) rfl rfl) he

example : compare (fun _ (x y : Nat) => if x < y then Ord.less else if x = y then .equal else .greater) [1, 5, 0] [1, 3, 9] = .greater ∧
    compare (fun _ (x y : Nat) => if x < y then Ord.less else if x = y then .equal else .greater) [1, 5] [1, 5] = .equal := by decide

/-- **C47.** Tuples are equal iff all elements are. -/
theorem equal_spec (e : Nat → β → β → Bool) (xs ys : List β) (hl : xs.length = ys.length) :
    equal e xs ys = true ↔ ∀ (i : Nat) x y, xs[i]? = some x → ys[i]? = some y → e i x y = true := by
  induction xs generalizing ys e with
  | nil =>
    cases ys with
    | nil => simp [equal]
    | cons y ys => simp at hl
  | cons x xs ih =>
    cases ys with
    | nil => simp at hl
    | cons y ys =>
      rw [equal, Bool.and_eq_true, ih _ _ (by simpa using hl)]
      constructor
      · rintro ⟨h0, h⟩ i a b ha hb
        cases i with
        | zero => simp at ha hb; subst ha hb; exact h0
        | succ i => exact h i a b (by simpa using ha) (by simpa using hb)
      · intro h
        exact ⟨h 0 x y rfl rfl, fun i a b ha hb => h (i + 1) a b (by simpa using ha) (by simpa using hb)⟩

example : compare (fun _ (x y : Nat) => if x < y then Ord.less else if x = y then .equal else .greater) [1, 5, 0] [1, 3, 9] = .greater := by
  decide

end Verif.Layout
