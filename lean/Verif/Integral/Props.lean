import Verif.Integral.Model
import Verif.TypeList.Props

/-! Property C46 of integral_sequence.hpp, integral_template_tuple.hpp and integral_template_variant.hpp. -/
namespace Verif.Integral

open Verif.Range

variable {τ : Type}

/-- The sequence from `first` up or down to but excluding `last`. -/
def seq (first last : Int) : List Int :=
  (List.range (last - first).natAbs).map fun (i : Nat) => if first < last then first + (i : Int) else first - (i : Int)

/-- **C46.** Spelled out: the element at position `k`. -/
theorem seq_get (first last : Int) (k : Nat) : (seq first last)[k]? =
    if k < (last - first).natAbs then some (if first < last then first + (k : Int) else first - (k : Int)) else none := by
  unfold seq
  rw [List.getElem?_map]
  by_cases h : k < (last - first).natAbs
  · rw [List.getElem?_range h]; simp [h]
  · rw [List.getElem?_eq_none (by simpa using h)]; simp [h]

example : (seq 5 2)[2]? = some 3 ∧ (seq 5 2)[3]? = none ∧ (seq (-1) 2)[1]? = some 0 := by decide

/-- The common type of `I` with itself is the promoted type. -/
theorem common_self (I : ITy) : common I I = I.promote := by simp [common]

/-- A difference or sum whose mathematical value is in the type is computed exactly. -/
theorem binop_exact {f : Int → Int → Int} (hf : Compat f) {I : ITy} (hI : I.Wf) {a b : Int} (ha : I.Has a) (hb : I.Has b)
    (h : I.promote.Has (f a b)) : binop f I I a b = some (f a b) := by
  obtain ⟨r, e, h1, h2, h3⟩ := binop_eval hf (Wf.one hI) (Wf.one hI) ha hb (by rw [common_self]; exact fun _ => h)
  rw [common_self] at h1 h2
  have hb := (bits_promote I).2
  have e1 := conv_of_has (t := I.promote) (by omega) h1
  have e2 := conv_of_has (t := I.promote) (by omega) h
  rw [e, ← e1, ← e2]
  exact congrArg some (conv_congr h2)

theorem wf_has {I : ITy} (_ : I.Wf) : I.min ≤ 0 ∧ 0 ≤ I.max := by
  have := two_pow_pos (I.bits - 1)
  have := two_pow_pos I.bits
  simp only [ITy.min, ITy.max]
  cases I.signed <;> simp <;> omega

/-- The difference of two values of a type: computed exactly if not negative and in the type, otherwise ill-formed. -/
theorem diff_eval {I : ITy} (hI : I.Wf) {a b : Int} (ha : I.Has a) (hb : I.Has b) (hab : b ≤ a) :
    (binop (· - ·) I I a b).bind (narrow I) = if a - b ≤ I.max then some (a - b) else none := by
  have hw := wf_has hI
  by_cases h : a - b ≤ I.max
  · have hh : I.Has (a - b) := ⟨by omega, h⟩
    rw [binop_exact compat_sub hI ha hb (has_promote (Wf.one hI) hh)]
    simp [narrow, hh, h]
  · rw [if_neg h]
    by_cases hp : I.promote.Has (a - b)
    · rw [binop_exact compat_sub hI ha hb hp]
      simp only [Option.bind_some, narrow]
      rw [if_neg (fun hh => h hh.2)]
    · have hs : I.promote.signed = true := by
        cases hs : I.promote.signed with
        | true => rfl
        | false =>
          exfalso; apply hp
          have hle : I.promote = I := by
            unfold ITy.promote at hs ⊢
            split
            · rename_i h32; rw [if_pos h32] at hs; simp [int] at hs
            · rfl
          rw [hle] at hs ⊢
          simp only [ITy.Has, ITy.min, ITy.max, hs] at *
          simp at *
          omega
      have ea := conv_of_has (by have := (bits_promote I).2; omega) (has_promote (Wf.one hI) ha)
      have eb := conv_of_has (by have := (bits_promote I).2; omega) (has_promote (Wf.one hI) hb)
      simp only [binop, common_self, ea, eb, arith, hs, if_true]
      rw [if_neg hp]
      rfl

theorem transform_some {υ : Type} {f : τ → Option υ} {g : τ → υ} : ∀ {l : List τ}, (∀ t ∈ l, f t = some (g t)) →
    TypeList.transform f l = some (l.map g)
  | [], _ => rfl
  | t :: l, h => by
    rw [TypeList.transform, h t (by simp), transform_some (l := l) (fun u hu => h u (by simp [hu]))]
    rfl

/-- **C46.** `make_integer_sequence<I, first, last>` is the sequence from `first` up or down to but excluding `last`. It is well-formed iff
the number of elements is a value of `I`. -/
theorem sequence {I : ITy} (hI : I.Wf) {first last : Int} (hf : I.Has first) (hl : I.Has last) :
    makeIntegerSequence I first last = if ((last - first).natAbs : Int) ≤ I.max then some (seq first last) else none := by
  have hw := wf_has hI
  unfold makeIntegerSequence
  by_cases he : first = last
  · subst he
    rw [if_pos rfl, if_pos (by simp; omega)]
    simp [seq]
  · rw [if_neg he]
    by_cases hlt : first < last
    · rw [if_pos hlt, diff_eval hI hl hf (by omega), show ((last - first).natAbs : Int) = last - first by omega]
      split
      · rename_i hm
        simp only [Option.bind_some]
        rw [transform_some (g := fun x => first + x)]
        · congr 1
          unfold seq stdSequence
          rw [List.map_map, show (last - first).toNat = (last - first).natAbs by omega]
          apply List.map_congr_left
          intro i _
          simp [hlt]
        · intro x hx
          simp only [stdSequence, List.mem_map, List.mem_range] at hx
          obtain ⟨i, hi, rfl⟩ := hx
          have hh : I.Has (first + i) := by unfold ITy.Has at *; omega
          rw [binop_exact compat_add hI hf (by unfold ITy.Has at *; omega) (has_promote (Wf.one hI) hh)]
          simp [narrow, hh]
      · rfl
    · rw [if_neg hlt, diff_eval hI hf hl (by omega), show ((last - first).natAbs : Int) = first - last by omega]
      split
      · rename_i hm
        simp only [Option.bind_some]
        rw [transform_some (g := fun x => first - x)]
        · congr 1
          unfold seq stdSequence
          rw [List.map_map, show (first - last).toNat = (last - first).natAbs by omega]
          apply List.map_congr_left
          intro i _
          simp [hlt]
        · intro x hx
          simp only [stdSequence, List.mem_map, List.mem_range] at hx
          obtain ⟨i, hi, rfl⟩ := hx
          have hh : I.Has (first - i) := by unfold ITy.Has at *; omega
          rw [binop_exact compat_sub hI hf (by unfold ITy.Has at *; omega) (has_promote (Wf.one hI) hh)]
          simp [narrow, hh]
      · rfl

example : makeIntegerSequence ⟨8, true⟩ 2 (-2) = some [2, 1, 0, -1] ∧ makeIntegerSequence ⟨8, true⟩ (-128) 127 = none := by decide

/-- **C46.** `valid_index_v` holds exactly for the elements of the sequence, each of which occurs once. -/
theorem valid_index (first last ix : Int) :
    (validIndex first last ix = true ↔ ix ∈ seq first last) ∧ (seq first last).Nodup := by
  constructor
  · unfold validIndex seq
    simp only [List.mem_map, List.mem_range]
    by_cases h1 : first < last
    · simp only [h1, if_true, decide_eq_true_eq]
      constructor
      · intro h; exact ⟨(ix - first).toNat, by omega, by omega⟩
      · rintro ⟨i, hi, rfl⟩; omega
    · by_cases h2 : first > last
      · simp only [h1, h2, if_true, if_false, decide_eq_true_eq]
        constructor
        · intro h; exact ⟨(first - ix).toNat, by omega, by omega⟩
        · rintro ⟨i, hi, rfl⟩; omega
      · simp only [h1, h2, if_false]
        constructor
        · simp
        · rintro ⟨i, hi, _⟩; omega
  · unfold seq
    refine List.Nodup.map ?_ List.nodup_range
    intro a b h
    simp only at h
    split at h <;> omega

example : validIndex 5 2 3 = true ∧ validIndex 5 2 2 = false ∧ validIndex 2 2 2 = false := by decide

/-- The offset of an index: its distance from `first`. -/
theorem makeIndex_eq {I : ITy} (hI : I.Wf) {first last ix : Int} (hf : I.Has first) (hl : I.Has last)
    (hm : ((last - first).natAbs : Int) ≤ I.max)
    (hix : (first ≤ ix ∧ ix ≤ last) ∨ (last ≤ ix ∧ ix ≤ first)) : makeIndex I first last ix = some (ix - first).natAbs := by
  have hw := wf_has hI
  have hx : I.Has ix := by unfold ITy.Has at *; omega
  have hmax : I.max ≤ 2 ^ 64 - 1 := by
    have h1 := pow_mono (show I.bits - 1 ≤ 64 by unfold ITy.Wf at hI; omega)
    have h2 := pow_mono (show I.bits ≤ 64 by unfold ITy.Wf at hI; omega)
    unfold ITy.max
    split <;> omega
  have hconv : ∀ v : Int, 0 ≤ v → v ≤ I.max → (sizeT.conv v).toNat = v.toNat := by
    intro v h0 h1
    rw [conv_of_has (by decide)]
    simp only [ITy.Has, ITy.min, ITy.max, sizeT]; simp; omega
  unfold makeIndex toOffset
  by_cases hlt : first < last
  · rw [if_pos hlt]
    have hh : I.Has (ix - first) := by unfold ITy.Has at *; omega
    rw [binop_exact compat_sub hI hx hf (has_promote (Wf.one hI) hh), Option.map_some, hconv _ (by omega) hh.2]
    congr 1; omega
  · rw [if_neg hlt]
    have hh : I.Has (first - ix) := by unfold ITy.Has at *; omega
    rw [binop_exact compat_sub hI hf hx (has_promote (Wf.one hI) hh), Option.map_some, hconv _ (by omega) hh.2]
    congr 1; omega

theorem makeTypeList_eq {I : ITy} {first last : Int} {T : Int → τ} (h : makeIntegerSequence I first last = some (seq first last)) :
    makeTypeList I first last T = some ((seq first last).map T) := by
  unfold makeTypeList
  rw [h, Option.bind_some, TypeList.integer_sequence_spec]
  rw [transform_some (g := T) (by simp)]
  simp

/-- **C46.** `get<ix>()` of an `integral_template_tuple` returns the element `T<ix>` for exactly the indices of the sequence. -/
theorem tuple_get {I : ITy} (hI : I.Wf) {first last : Int} (hf : I.Has first) (hl : I.Has last) {T : Int → τ} {elements : List τ}
    (he : makeTypeList I first last T = some elements) (ix : Int) :
    tupleGet I first last ix elements = if ix ∈ seq first last then some (T ix) else none := by
  have hs := sequence hI hf hl
  have hm : ((last - first).natAbs : Int) ≤ I.max := by
    by_cases hm : ((last - first).natAbs : Int) ≤ I.max
    · exact hm
    · rw [if_neg hm] at hs
      simp [makeTypeList, hs] at he
  rw [if_pos hm] at hs
  rw [makeTypeList_eq hs] at he
  injection he with he
  subst he
  unfold tupleGet
  by_cases hv : ix ∈ seq first last
  · rw [if_pos ((valid_index _ _ _).1.2 hv), if_pos hv]
    have hb := (valid_index first last ix).1.2 hv
    unfold validIndex at hb
    have hb' : (first ≤ ix ∧ ix < last) ∨ (last < ix ∧ ix ≤ first) := by
      split at hb
      · simp at hb; omega
      · split at hb
        · simp at hb; omega
        · simp at hb
    rw [makeIndex_eq hI hf hl hm (by omega), Option.bind_some, (TypeList.access _).2.2.2.2.1, List.getElem?_map, seq_get]
    rw [if_pos (by omega)]
    simp only [Option.map_some]
    congr 2
    split <;> omega
  · rw [if_neg (fun h => hv ((valid_index _ _ _).1.1 h)), if_neg hv]

example : tupleGet ⟨32, true⟩ 5 2 4 ["5", "4", "3"] = some "4" ∧ tupleGet ⟨32, true⟩ 5 2 2 ["5", "4", "3"] = none ∧
    makeTypeList ⟨32, true⟩ 5 2 (fun ix => toString ix) = some ["5", "4", "3"] := by decide

theorem natAbs_conv (a : Int) (h : 0 ≤ a) (h' : a ≤ 2 ^ 64 - 1) : sizeT.Has a := by
  simp only [ITy.Has, ITy.min, ITy.max, sizeT]; simp; omega

/-- **C46.** `subtuple<newFirst, newLast>` of an `integral_template_tuple` consists of the elements `T<ix>` for `ix` from `newFirst` to
`newLast` (exclusive), whenever that is a non-empty part of the tuple's sequence in the same direction. -/
theorem tuple_subtuple {I : ITy} (hI : I.Wf) {first last newFirst newLast : Int} (hf : I.Has first) (hl : I.Has last)
    {T : Int → τ} {elements : List τ} (he : makeTypeList I first last T = some elements) [DecidableEq (List τ)]
    (hn : (first ≤ newFirst ∧ newFirst < newLast ∧ newLast ≤ last) ∨ (first ≥ newFirst ∧ newFirst > newLast ∧ newLast ≥ last)) :
    subtuple I first last newFirst newLast elements = some ((seq newFirst newLast).map T) := by
  have hw := wf_has hI
  have hs := sequence hI hf hl
  have hm : ((last - first).natAbs : Int) ≤ I.max := by
    by_cases hm : ((last - first).natAbs : Int) ≤ I.max
    · exact hm
    · rw [if_neg hm] at hs
      simp [makeTypeList, hs] at he
  rw [if_pos hm] at hs
  rw [makeTypeList_eq hs] at he
  injection he with he
  subst he
  have hmax : I.max ≤ 2 ^ 64 - 1 := by
    have h1 := pow_mono (show I.bits - 1 ≤ 64 by unfold ITy.Wf at hI; omega)
    have h2 := pow_mono (show I.bits ≤ 64 by unfold ITy.Wf at hI; omega)
    unfold ITy.max
    split <;> omega
  have hnf : I.Has newFirst := by unfold ITy.Has at *; omega
  have hnl : I.Has newLast := by unfold ITy.Has at *; omega
  have hcount : subCount I first last newFirst newLast = some ((newLast - newFirst).natAbs : Int) := by
    unfold subCount
    by_cases hlt : first < last
    · rw [if_pos hlt, if_pos (by omega)]
      have hh : I.Has (newLast - newFirst) := by unfold ITy.Has at *; omega
      rw [binop_exact compat_sub hI hnl hnf (has_promote (Wf.one hI) hh)]
      simp only [Option.bind_some, narrow]
      rw [if_pos (natAbs_conv _ (by omega) (by have := hh.2; omega))]
      congr 1; omega
    · rw [if_neg hlt, if_pos (by omega)]
      have hh : I.Has (newFirst - newLast) := by unfold ITy.Has at *; omega
      rw [binop_exact compat_sub hI hnf hnl (has_promote (Wf.one hI) hh)]
      simp only [Option.bind_some, narrow]
      rw [if_pos (natAbs_conv _ (by omega) (by have := hh.2; omega))]
      congr 1; omega
  have hlen : ((seq first last).map T).length = (last - first).natAbs := by simp [seq]
  unfold subtuple
  rw [hcount, Option.bind_some, makeIndex_eq hI hf hl hm (by omega), Option.bind_some, if_neg]
  · rw [hlen, if_pos (by omega), TypeList.drop_eq, if_pos (by rw [hlen]; omega), Option.bind_some, TypeList.take_eq, if_pos]
    · congr 1
      apply List.ext_getElem?
      intro k
      rw [List.getElem?_take, List.getElem?_drop, List.getElem?_map, List.getElem?_map, seq_get, seq_get]
      by_cases hk : k < (newLast - newFirst).natAbs
      · rw [if_pos (by omega), if_pos hk, if_pos (by omega)]
        simp only [Option.map_some]
        congr 2
        split <;> split <;> omega
      · rw [if_neg (by omega), if_neg hk]; rfl
    · rw [List.length_drop, hlen]; omega
  · intro h
    rw [h] at hlen
    simp at hlen; omega

example : (1 ≤ (2 : Int) ∧ (2 : Int) < 4 ∧ (4 : Int) ≤ 6) ∧
    subtuple ⟨32, true⟩ 1 6 2 4 [10, 20, 30, 40, 50] = some [20, 30] := by decide

theorem neg_diff {I : ITy} (hI : I.Wf) {a b : Int} (ha : I.Has a) (hb : I.Has b) (hab : a < b) :
    (binop (· - ·) I I a b).bind (narrow sizeT) = none ∨
      (I.signed = false ∧ (binop (· - ·) I I a b).bind (narrow sizeT) = some (a - b + 2 ^ I.bits)) := by
  have ea := conv_of_has (by have := (bits_promote I).2; omega) (has_promote (Wf.one hI) ha)
  have eb := conv_of_has (by have := (bits_promote I).2; omega) (has_promote (Wf.one hI) hb)
  simp only [binop, common_self, ea, eb, arith]
  cases hs : I.promote.signed with
  | true =>
    left
    simp only [if_true]
    split
    · simp only [Option.bind_some, narrow]
      rw [if_neg]
      simp only [ITy.Has, ITy.min, sizeT]; simp; omega
    · rfl
  | false =>
    have hle : I.promote = I := by
      unfold ITy.promote at hs ⊢
      split
      · rename_i h32; rw [if_pos h32] at hs; simp [int] at hs
      · rfl
    rw [hle] at hs ⊢
    right
    refine ⟨hs, ?_⟩
    have h64 := pow_mono (show I.bits ≤ 64 by unfold ITy.Wf at hI; omega)
    have hh : 0 ≤ a ∧ b ≤ 2 ^ I.bits - 1 := by
      simp only [ITy.Has, ITy.min, ITy.max, hs] at ha hb
      simp at ha hb; omega
    have hc : I.conv (a - b) = a - b + 2 ^ I.bits := by
      have h1 : I.Has (a - b + 2 ^ I.bits) := by
        simp only [ITy.Has, ITy.min, ITy.max, hs]; simp; omega
      rw [← conv_of_has (Wf.one hI) h1]
      apply conv_congr
      simp
    simp only [Bool.false_eq_true, if_false, Option.bind_some, hc, narrow]
    rw [if_pos (natAbs_conv _ (by omega) (by omega))]

/-- **C46.** `subtuple` is ill-formed when the new bounds are outside of the tuple's sequence or run in the other direction. -/
theorem tuple_subtuple_ill_formed {I : ITy} (hI : I.Wf) {first last newFirst newLast : Int} (hf : I.Has first) (hl : I.Has last)
    (hnf : I.Has newFirst) (hnl : I.Has newLast)
    {T : Int → τ} {elements : List τ} (he : makeTypeList I first last T = some elements) [DecidableEq (List τ)] (hne : first ≠ last)
    (hn : ¬((first ≤ newFirst ∧ newFirst ≤ newLast ∧ newLast ≤ last) ∨ (first ≥ newFirst ∧ newFirst ≥ newLast ∧ newLast ≥ last))) :
    subtuple I first last newFirst newLast elements = none := by
  have hw := wf_has hI
  have hs := sequence hI hf hl
  have hm : ((last - first).natAbs : Int) ≤ I.max := by
    by_cases hm : ((last - first).natAbs : Int) ≤ I.max
    · exact hm
    · rw [if_neg hm] at hs
      simp [makeTypeList, hs] at he
  rw [if_pos hm] at hs
  rw [makeTypeList_eq hs] at he
  injection he with he
  subst he
  have hlen : ((seq first last).map T).length = (last - first).natAbs := by simp [seq]
  have hnil : (seq first last).map T ≠ [] := by
    intro h; rw [h] at hlen; simp at hlen; omega
  have hbound : I.signed = false → 0 ≤ first ∧ 0 ≤ last ∧ 0 ≤ newLast ∧ 0 ≤ newFirst ∧ first < 2 ^ I.bits ∧ last < 2 ^ I.bits ∧
      newLast < 2 ^ I.bits := by
    intro hsg
    simp only [ITy.Has, ITy.min, ITy.max, hsg] at hf hl hnf hnl
    simp at hf hl hnf hnl; omega
  unfold subtuple
  by_cases hlt : first < last
  · by_cases hr : newFirst ≥ first ∧ newLast ≤ last
    · have hlt' : newLast < newFirst := by omega
      rcases neg_diff hI hnl hnf hlt' with e | ⟨hsg, e⟩
      · simp only [subCount, if_pos hlt, if_pos hr, e]; rfl
      · have hb := hbound hsg
        have hsub : I.Has (newFirst - first) := by unfold ITy.Has at *; omega
        have hoff : makeIndex I first last newFirst = some (newFirst - first).toNat := by
          unfold makeIndex toOffset
          rw [if_pos hlt, binop_exact compat_sub hI hnf hf (has_promote (Wf.one hI) hsub), Option.map_some,
            conv_of_has (by decide)]
          have h2 := pow_mono (show I.bits ≤ 64 by unfold ITy.Wf at hI; omega)
          have := hnf.2
          simp only [ITy.max, hsg] at this
          simp at this
          exact natAbs_conv _ (by omega) (by omega)
        simp only [subCount, if_pos hlt, if_pos hr, e, Option.bind_some, hoff, if_neg hnil, hlen]
        rw [if_neg]
        have := hnf.2
        simp only [ITy.max, hsg] at this
        simp at this
        omega
    · simp only [subCount, if_pos hlt, if_neg hr]; rfl
  · by_cases hr : newFirst ≤ first ∧ newLast ≥ last
    · have hlt' : newFirst < newLast := by omega
      rcases neg_diff hI hnf hnl hlt' with e | ⟨hsg, e⟩
      · simp only [subCount, if_neg hlt, if_pos hr, e]; rfl
      · have hb := hbound hsg
        have hsub : I.Has (first - newFirst) := by unfold ITy.Has at *; omega
        have hoff : makeIndex I first last newFirst = some (first - newFirst).toNat := by
          unfold makeIndex toOffset
          rw [if_neg hlt, binop_exact compat_sub hI hf hnf (has_promote (Wf.one hI) hsub), Option.map_some,
            conv_of_has (by decide)]
          have h2 := pow_mono (show I.bits ≤ 64 by unfold ITy.Wf at hI; omega)
          exact natAbs_conv _ (by omega) (by omega)
        simp only [subCount, if_neg hlt, if_pos hr, e, Option.bind_some, hoff, if_neg hnil, hlen]
        rw [if_neg]
        omega
    · simp only [subCount, if_neg hlt, if_neg hr]; rfl

example : subtuple ⟨32, false⟩ 1 6 4 2 [10, 20, 30, 40, 50] = none ∧ subtuple ⟨32, true⟩ 1 6 2 7 [10, 20, 30, 40, 50] = none := by decide

/-- **C46, refuted** for the empty subtuple at the end: `subtuple<last, last>` is ill-formed although `[last, last)` is in range (an empty
subtuple anywhere else is fine). -/
theorem tuple_subtuple_end_refuted : subtuple ⟨32, true⟩ 1 4 4 4 [10, 20, 30] = none ∧ subtuple ⟨32, true⟩ 1 4 3 3 [10, 20, 30] = some [] := by
  decide

/-- **C46.** An empty subtuple at a position of the sequence or at its end: it is empty everywhere but at the end of a non-empty
sequence, where it is ill-formed. With `tuple_subtuple` and `tuple_subtuple_ill_formed` this covers all bounds. -/
theorem tuple_subtuple_empty {I : ITy} (hI : I.Wf) {first last a : Int} (hf : I.Has first) (hl : I.Has last)
    {T : Int → τ} {elements : List τ} (he : makeTypeList I first last T = some elements) [DecidableEq (List τ)]
    (hn : (first ≤ a ∧ a ≤ last) ∨ (first ≥ a ∧ a ≥ last)) :
    subtuple I first last a a elements = if a = last ∧ first ≠ last then none else some [] := by
  have hw := wf_has hI
  have hs := sequence hI hf hl
  have hm : ((last - first).natAbs : Int) ≤ I.max := by
    by_cases hm : ((last - first).natAbs : Int) ≤ I.max
    · exact hm
    · rw [if_neg hm] at hs
      simp [makeTypeList, hs] at he
  rw [if_pos hm] at hs
  rw [makeTypeList_eq hs] at he
  injection he with he
  subst he
  have ha : I.Has a := by unfold ITy.Has at *; omega
  have h0 : I.Has 0 := by unfold ITy.Has at *; omega
  have hcount : subCount I first last a a = some 0 := by
    have e : (binop (· - ·) I I a a).bind (narrow sizeT) = some 0 := by
      rw [binop_exact compat_sub hI ha ha (by rw [Int.sub_self]; exact has_promote (Wf.one hI) h0)]
      simp only [Option.bind_some, narrow, Int.sub_self]
      rw [if_pos (natAbs_conv _ (by omega) (by omega))]
    unfold subCount
    by_cases hlt : first < last
    · rw [if_pos hlt, if_pos (by omega), e]
    · rw [if_neg hlt, if_pos (by omega), e]
  have hlen : ((seq first last).map T).length = (last - first).natAbs := by simp [seq]
  unfold subtuple
  rw [hcount, Option.bind_some, makeIndex_eq hI hf hl hm (by omega), Option.bind_some]
  by_cases hfl : first = last
  · subst hfl
    have : a = first := by omega
    subst this
    have hnil : (seq a a).map T = [] := by
      rw [← List.length_eq_zero_iff, hlen]; omega
    rw [if_pos hnil, if_pos (by constructor <;> omega), if_neg (by simp)]
  · rw [if_neg (by intro h; rw [h] at hlen; simp at hlen; omega), hlen]
    by_cases hal : a = last
    · subst hal
      rw [if_neg (by omega), if_pos ⟨rfl, hfl⟩]
    · rw [if_pos (by omega), if_neg (by simp [hal]), TypeList.drop_eq, if_pos (by rw [hlen]; omega), Option.bind_some,
        TypeList.take_eq, if_pos (by simp)]
      simp

example : makeTypeList ⟨32, true⟩ 4 1 (fun ix => ix * 10) = some [40, 30, 20] ∧
    subtuple ⟨32, true⟩ 4 1 3 3 [40, 30, 20] = some [] ∧ subtuple ⟨32, true⟩ 4 1 1 1 [40, 30, 20] = none := by decide

theorem common_sizeT {I : ITy} (hI : I.Wf) : common I sizeT = sizeT := by
  obtain ⟨b, s⟩ := I
  unfold ITy.Wf at hI
  simp only at hI
  rcases hI with rfl | rfl | rfl | rfl <;> cases s <;> decide

/-- The index arithmetic of the variant: exact modulo the width of the index type. -/
theorem variantIndex_eq {I : ITy} (hI : I.Wf) (first last : Int) (v : Variant) :
    variantIndex I first last v = some (I.conv (if first < last then first + stdIndex v else first - stdIndex v)) := by
  have hbits : I.bits ≤ sizeT.bits := by unfold ITy.Wf at hI; simp only [sizeT]; omega
  have key : ∀ f, Compat f → (binop f I sizeT first (stdIndex v)).map I.conv = some (I.conv (f first (stdIndex v))) := by
    intro f hf
    simp only [binop, common_sizeT hI, arith, show sizeT.signed = false from rfl, Bool.false_eq_true, if_false, Option.map_some]
    rw [conv_conv hbits]
    congr 1
    apply conv_congr
    exact emod_of_dvd_pow hbits (hf _ _ _ _ _ (conv_emod _ _) (conv_emod _ _))
  unfold variantIndex
  by_cases h : first < last
  · rw [if_pos h, if_pos h]; exact key _ compat_add
  · rw [if_neg h, if_neg h]; exact key _ compat_sub

/-- **C46.** The `index()` of an `integral_template_variant` holding its `n`-th alternative is the `n`-th element of the sequence. -/
theorem variant_index {I : ITy} (hI : I.Wf) {first last : Int} (hf : I.Has first) (hl : I.Has last) {n : Nat} {ix : Int}
    (hn : (seq first last)[n]? = some ix) : variantIndex I first last (some n) = some ix := by
  rw [variantIndex_eq hI]
  rw [seq_get] at hn
  split at hn
  · injection hn with hn
    have : I.Has ix := by unfold ITy.Has at *; split at hn <;> omega
    rw [show stdIndex (some n) = (n : Int) from rfl, hn, conv_of_has (Wf.one hI) this]
  · simp at hn

example : (⟨32, true⟩ : ITy).Wf ∧ (⟨32, true⟩ : ITy).Has 5 ∧ (⟨32, true⟩ : ITy).Has 2 ∧ (seq 5 2)[1]? = some 4 ∧
    variantIndex ⟨32, true⟩ 5 2 (some 1) = some 4 := by
  refine ⟨?_, ?_, ?_, by decide, by decide⟩ <;> simp [ITy.Wf, ITy.Has, ITy.min, ITy.max]

/-- **C46.** The `index()` of a valueless `integral_template_variant` is not an index of the sequence. -/
theorem variant_valueless {I : ITy} (hI : I.Wf) {first last : Int} (hf : I.Has first) (hl : I.Has last) :
    ∃ ix, variantIndex I first last none = some ix ∧ ix ∉ seq first last := by
  refine ⟨_, variantIndex_eq hI _ _ _, ?_⟩
  have h1 := Wf.one hI
  have hbits : I.bits ≤ 64 := by unfold ITy.Wf at hI; omega
  have hnpos : ∀ x : Int, I.conv (x + (2 ^ 64 - 1)) = I.conv (x - 1) := by
    intro x
    apply conv_congr
    apply emod_of_dvd_pow hbits
    rw [show x + (2 ^ 64 - 1) = (x - 1) + 2 ^ 64 by omega]; simp
  have hnpos' : ∀ x : Int, I.conv (x - (2 ^ 64 - 1)) = I.conv (x + 1) := by
    intro x
    apply conv_congr
    apply emod_of_dvd_pow hbits
    rw [show x - (2 ^ 64 - 1) = (x + 1) - 2 ^ 64 by omega]; simp
  have hsplit := two_pow_succ_pred h1
  have hrange : I.max - I.min + 1 = 2 ^ I.bits := by
    unfold ITy.max ITy.min; split <;> omega
  have hwrapmin : I.conv (I.min - 1) = I.max := by
    have hmax : I.Has I.max := ⟨by have := two_pow_pos I.bits; omega, Int.le_refl _⟩
    rw [← conv_of_has h1 hmax]
    apply conv_congr
    rw [show I.min - 1 = I.conv I.max - 2 ^ I.bits by rw [conv_of_has h1 hmax]; omega]; simp
    rw [conv_of_has h1 hmax]
  have hwrapmax : I.conv (I.max + 1) = I.min := by
    have hmin : I.Has I.min := ⟨Int.le_refl _, by have := two_pow_pos I.bits; omega⟩
    rw [← conv_of_has h1 hmin]
    apply conv_congr
    rw [show I.max + 1 = I.conv I.min + 2 ^ I.bits by rw [conv_of_has h1 hmin]; omega]; simp
    rw [conv_of_has h1 hmin]
  rw [← (valid_index first last _).1]
  unfold validIndex
  by_cases hlt : first < last
  · simp only [hlt, if_true, show stdIndex none = 2 ^ 64 - 1 from rfl, hnpos, decide_eq_true_eq]
    by_cases hmin : first = I.min
    · rw [hmin, hwrapmin]; unfold ITy.Has at *; omega
    · rw [conv_of_has h1 (by unfold ITy.Has at *; omega)]; omega
  · simp only [hlt, if_false, show stdIndex none = 2 ^ 64 - 1 from rfl, hnpos']
    split
    · simp only [decide_eq_true_eq]
      by_cases hmax : first = I.max
      · rw [hmax, hwrapmax]; unfold ITy.Has at *; omega
      · rw [conv_of_has h1 (by unfold ITy.Has at *; omega)]; omega
    · simp

example : variantIndex ⟨32, true⟩ 5 2 none = some 6 ∧ 6 ∉ seq 5 2 := by decide

theorem alternative_eq [DecidableEq τ] {T : Int → τ} {is : List Int} (hnd : is.Nodup)
    (hinj : ∀ a ∈ is, ∀ b ∈ is, T a = T b → a = b) {n : Nat} {ix : Int} (hn : is[n]? = some ix) :
    alternative (is.map T) (T ix) = some n := by
  have hnd' : (is.map T).Nodup := List.Nodup.map_on (fun a ha b hb h => hinj a ha b hb h) hnd
  have hmem : T ix ∈ is.map T := List.mem_map_of_mem (List.mem_of_getElem? hn)
  have hget : (is.map T)[n]? = some (T ix) := by rw [List.getElem?_map, hn]; rfl
  have hcount : TypeList.count (T ix) (is.map T) = 1 := by
    have h1 := (TypeList.count_contains (T ix) (is.map T)).1
    rw [h1, ← List.countP_eq_length_filter]
    exact List.count_eq_one_of_mem hnd' hmem
  unfold alternative
  rw [if_pos hcount, (TypeList.search _ _).1]
  refine ⟨⟨T ix, hget, by simp⟩, ?_⟩
  intro j t hj ht
  rw [decide_eq_false_iff_not]
  rintro rfl
  obtain ⟨hj', ej⟩ := List.getElem?_eq_some_iff.1 ht
  obtain ⟨hn', en⟩ := List.getElem?_eq_some_iff.1 hget
  have := (List.Nodup.getElem_inj_iff hnd').1 (ej.trans en.symm)
  omega

/-- **C46.** If different indices give different types: `emplace<ix>` (and construction from a `T<ix>`) is well-formed exactly for the
indices of the sequence, afterwards `index()` is `ix`, `holds_alternative<ix'>` is true for `ix' = ix` only, and `get<ix'>` throws for
all others. -/
theorem variant_emplace [DecidableEq τ] {I : ITy} (hI : I.Wf) {first last : Int} (hf : I.Has first) (hl : I.Has last) {T : Int → τ}
    {types : List τ} (ht : makeTypeList I first last T = some types)
    (hinj : ∀ a ∈ seq first last, ∀ b ∈ seq first last, T a = T b → a = b) (ix : Int) :
    (ix ∉ seq first last → emplace types first last ix T = none) ∧
    (ix ∈ seq first last → ∃ v, emplace types first last ix T = some v ∧ variantIndex I first last v = some ix ∧
      ∀ ix' ∈ seq first last, holds types first last ix' T v = some (decide (ix' = ix)) ∧
        variantGet types first last ix' T v = some (decide (ix' = ix))) := by
  have hs := sequence hI hf hl
  have hm : ((last - first).natAbs : Int) ≤ I.max := by
    by_cases hm : ((last - first).natAbs : Int) ≤ I.max
    · exact hm
    · rw [if_neg hm] at hs
      simp [makeTypeList, hs] at ht
  rw [if_pos hm] at hs
  rw [makeTypeList_eq hs] at ht
  injection ht with ht
  subst ht
  have hnd := (valid_index first last 0).2
  constructor
  · intro h
    unfold emplace
    rw [if_neg (fun hv => h ((valid_index _ _ _).1.1 hv))]
  · intro h
    obtain ⟨n, hn⟩ := List.mem_iff_getElem?.1 h
    refine ⟨some n, ?_, variant_index hI hf hl hn, ?_⟩
    · unfold emplace
      rw [if_pos ((valid_index _ _ _).1.2 h), alternative_eq hnd hinj hn]; rfl
    · intro ix' h'
      obtain ⟨n', hn'⟩ := List.mem_iff_getElem?.1 h'
      have heq : (n = n') ↔ ix' = ix := by
        constructor
        · rintro rfl; rw [hn] at hn'; injection hn' with e; exact e.symm
        · rintro rfl
          obtain ⟨h1, e1⟩ := List.getElem?_eq_some_iff.1 hn
          obtain ⟨h2, e2⟩ := List.getElem?_eq_some_iff.1 hn'
          exact (List.Nodup.getElem_inj_iff hnd).1 (e1.trans e2.symm)
      unfold holds variantGet
      rw [if_pos ((valid_index _ _ _).1.2 h'), alternative_eq hnd hinj hn']
      simp [heq]

example : makeTypeList ⟨32, true⟩ 3 0 (fun ix => ix + 100) = some [103, 102, 101] ∧
    emplace [103, 102, 101] 3 0 2 (fun ix => ix + 100) = some (some 1) ∧ variantIndex ⟨32, true⟩ 3 0 (some 1) = some 2 := by decide

/-- **C46.** The variant over an empty sequence, for every index type: whatever it holds, `index()` is `first` (its only alternative is a
`std::monostate`), which is no index of the sequence, and no alternative can be asked for. -/
theorem variant_empty [DecidableEq τ] {I : ITy} (hI : I.Wf) {first : Int} (hf : I.Has first) (T : Int → τ) (types : List τ) (ix : Int)
    (v : Variant) :
    variantIndex I first first (some 0) = some first ∧ ix ∉ seq first first ∧ emplace types first first ix T = none ∧
      holds types first first ix T v = none ∧ variantGet types first first ix T v = none := by
  refine ⟨?_, by simp [seq], by simp [emplace, validIndex], by simp [holds, validIndex], by simp [variantGet, validIndex]⟩
  rw [variantIndex_eq hI]
  simp [stdIndex, conv_of_has (Wf.one hI) hf]

example : (⟨8, true⟩ : ITy).Wf ∧ (⟨8, true⟩ : ITy).Has (-128) ∧ variantIndex ⟨8, true⟩ (-128) (-128) (some 0) = some (-128) := by
  decide

/-- **C46, refuted** for empty sequences: the variant then holds a `std::monostate`, and `index()` is `first`, which is not an index of the
sequence. -/
theorem variant_empty_refuted : variantIndex ⟨32, true⟩ 4 4 (some 0) = some 4 ∧ validIndex 4 4 4 = false := by decide

end Verif.Integral
