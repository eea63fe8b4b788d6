import Verif.Integral.VariantModel
import Verif.Integral.Props

/-!
Theorems about the alternatives of `integral_template_variant` and about naming them by type. `seq first last` is the sequence of indices written out
in `Verif.Integral.seq_get`.
-/
namespace Verif.Integral

open Verif.Range

variable {τ : Type}

/-- **C46.** The alternatives of the variant, for all bounds of all index types: `T<ix>` for the indices in the order of the sequence, and only a
`std::monostate` for an empty sequence. It is well-formed iff the length of the sequence is a value of the index type. -/
theorem variant_types (mono : τ) {I : ITy} (hI : I.Wf) {first last : Int} (hf : I.Has first) (hl : I.Has last) (T : Int → τ) :
    makeVariant mono I first last T = if ((last - first).natAbs : Int) ≤ I.max then
      some (if first = last then [mono] else (seq first last).map T) else none := by
  have hs := sequence hI hf hl
  unfold makeVariant variantProvider
  by_cases hm : ((last - first).natAbs : Int) ≤ I.max
  · rw [if_pos hm] at hs ⊢
    rw [makeTypeList_eq hs]
    simp [emptyVariantProvider]
  · rw [if_neg hm] at hs ⊢
    simp [makeTypeList, hs]

example : makeVariant 0 ⟨32, true⟩ 3 0 (fun ix => ix + 100) = some [103, 102, 101] ∧
    makeVariant 0 ⟨8, true⟩ (-100) 100 (fun ix => ix) = none ∧ makeVariant 0 ⟨8, false⟩ 4 4 (fun ix => ix + 100) = some [0] := by decide

/-- What well-formed alternatives look like. -/
theorem types_of {mono : τ} {I : ITy} (hI : I.Wf) {first last : Int} (hf : I.Has first) (hl : I.Has last) {T : Int → τ} {types : List τ}
    (ht : makeVariant mono I first last T = some types) : types = if first = last then [mono] else (seq first last).map T := by
  rw [variant_types mono hI hf hl] at ht
  split at ht
  · simpa using ht.symm
  · simp at ht

theorem seq_zero {first last : Int} (h : first ≠ last) : (seq first last)[0]? = some first := by
  rw [seq_get, if_pos (by omega)]; simp

/-- **C46.** A default-constructed variant: `index()` is `first`, for empty sequences too, and a visitor is called with a `T<first>`, or with the
`std::monostate` if the sequence is empty. -/
theorem variant_default {mono : τ} {I : ITy} (hI : I.Wf) {first last : Int} (hf : I.Has first) (hl : I.Has last) {T : Int → τ}
    {types : List τ} (ht : makeVariant mono I first last T = some types) :
    ∃ v, defaultCtor types = some v ∧ variantIndex I first last v = some first ∧
      visited types v = some (if first = last then mono else T first) := by
  have e := types_of hI hf hl ht
  refine ⟨some 0, ?_, ?_, ?_⟩
  · unfold defaultCtor
    rw [if_neg]
    intro h
    rw [h] at e
    split at e
    · simp at e
    · next hne =>
      have := seq_zero hne
      rw [show seq first last = [] by simpa using e.symm] at this
      simp at this
  · by_cases h : first = last
    · subst h
      exact (variant_empty (τ := Nat) hI hf (fun _ => 0) [] 0 none).1
    · exact variant_index hI hf hl (seq_zero h)
  · rw [e]
    by_cases h : first = last
    · simp [visited, h]
    · simp only [visited, h, if_false, Option.bind_some]
      rw [List.getElem?_map, seq_zero h]; rfl

example : makeVariant 0 ⟨32, true⟩ 3 0 (fun ix => ix + 100) = some [103, 102, 101] ∧ defaultCtor [103, 102, 101] = some (some 0) ∧
    variantIndex ⟨32, true⟩ 3 0 (some 0) = some 3 := by decide

theorem count_zero [DecidableEq τ] (u : τ) (ts : List τ) : TypeList.count u ts = 0 ↔ ∀ m : Nat, ts[m]? ≠ some u := by
  have h := (TypeList.count_contains u ts).2
  constructor
  · intro h0 m hm
    have := h.2.1.1 (h.1.2 ⟨m, hm⟩)
    omega
  · intro hm
    rcases Nat.eq_zero_or_pos (TypeList.count u ts) with h0 | h0
    · exact h0
    · obtain ⟨k, hk⟩ := h.1.1 (h.2.1.2 h0)
      exact absurd hk (hm k)

theorem alternative_cons [DecidableEq τ] (t u : τ) (ts : List τ) : alternative (t :: ts) u =
    if t = u then (if TypeList.count u ts = 0 then some 0 else none) else (alternative ts u).map (· + 1) := by
  unfold alternative TypeList.position
  rw [TypeList.positionFrom_eq, TypeList.positionFrom_eq, List.findIdx?_cons, TypeList.count]
  by_cases h : t = u
  · simp [h]
  · simp only [h, if_false, decide_false, Bool.false_eq_true]
    split
    · simp [Function.comp_def]
    · simp

/-- Looking up a type in a list of types: well-formed iff there is exactly one position with this type. -/
theorem alternative_iff [DecidableEq τ] (u : τ) : ∀ (types : List τ) (n : Nat),
    alternative types u = some n ↔ types[n]? = some u ∧ ∀ m : Nat, types[m]? = some u → m = n
  | [], n => by simp [alternative, TypeList.count]
  | t :: ts, n => by
    rw [alternative_cons]
    by_cases h : t = u
    · subst h
      rw [if_pos rfl]
      constructor
      · intro h1
        split at h1
        · next h0 =>
          injection h1 with h1
          subst h1
          refine ⟨rfl, fun m hm => ?_⟩
          cases m with
          | zero => rfl
          | succ m => exact absurd hm ((count_zero t ts).1 h0 m)
        · simp at h1
      · rintro ⟨_, h2⟩
        have h0 := h2 0 rfl
        subst h0
        rw [if_pos ((count_zero t ts).2 fun m hm => by have := h2 (m + 1) hm; omega)]
    · rw [if_neg h, Option.map_eq_some_iff]
      constructor
      · rintro ⟨k, hk, rfl⟩
        obtain ⟨h1, h2⟩ := (alternative_iff u ts k).1 hk
        refine ⟨h1, fun m hm => ?_⟩
        cases m with
        | zero => simp at hm; exact absurd hm h
        | succ m => rw [h2 m hm]
      · rintro ⟨h1, h2⟩
        cases n with
        | zero => simp at h1; exact absurd h1 h
        | succ n => exact ⟨n, (alternative_iff u ts n).2 ⟨h1, fun m hm => by have := h2 (m + 1) hm; omega⟩, rfl⟩

/-- In a non-empty sequence: the positions of a type are those of the indices giving it. -/
theorem alternative_seq [DecidableEq τ] {first last : Int} (T : Int → τ) (u : τ) (n : Nat) : alternative ((seq first last).map T) u = some n ↔
    ∃ ix, (seq first last)[n]? = some ix ∧ T ix = u ∧ ∀ ix' ∈ seq first last, T ix' = u → ix' = ix := by
  have hnd := (valid_index first last 0).2
  rw [alternative_iff]
  simp only [List.getElem?_map, Option.map_eq_some_iff]
  constructor
  · rintro ⟨⟨ix, h1, rfl⟩, h2⟩
    refine ⟨ix, h1, rfl, fun ix' h' e => ?_⟩
    obtain ⟨m, hm⟩ := List.mem_iff_getElem?.1 h'
    have := h2 m ⟨ix', hm, e⟩
    subst this
    rw [hm] at h1
    injection h1
  · rintro ⟨ix, h1, rfl, h2⟩
    refine ⟨⟨ix, h1, rfl⟩, ?_⟩
    rintro m ⟨ix', hm, e⟩
    have := h2 ix' (List.mem_of_getElem? hm) e
    subst this
    obtain ⟨a1, b1⟩ := List.getElem?_eq_some_iff.1 hm
    obtain ⟨a2, b2⟩ := List.getElem?_eq_some_iff.1 h1
    exact (List.Nodup.getElem_inj_iff hnd).1 (b1.trans b2.symm)

/-- **C46.** Construction by `std::in_place_type<U>` for a non-empty sequence, also if some indices give the same type: it is well-formed iff there
is exactly one index `ix` of the sequence with `T<ix>` = `U`. Then `index()` is this `ix`, and a visitor is called with a `U`. -/
theorem variant_in_place [DecidableEq τ] {mono : τ} {I : ITy} (hI : I.Wf) {first last : Int} (hf : I.Has first) (hl : I.Has last)
    {T : Int → τ} {types : List τ} (ht : makeVariant mono I first last T = some types) (hne : first ≠ last) (u : τ) :
    ((inPlace types u).isSome ↔ ∃ ix ∈ seq first last, T ix = u ∧ ∀ ix' ∈ seq first last, T ix' = u → ix' = ix) ∧
    ∀ v, inPlace types u = some v →
      (∃ ix ∈ seq first last, T ix = u ∧ variantIndex I first last v = some ix) ∧ visited types v = some u := by
  have e := types_of hI hf hl ht
  rw [if_neg hne] at e
  subst e
  constructor
  · unfold inPlace
    rw [Option.isSome_map, Option.isSome_iff_exists]
    constructor
    · rintro ⟨n, hn⟩
      obtain ⟨ix, h1, h2, h3⟩ := (alternative_seq T u n).1 hn
      exact ⟨ix, List.mem_of_getElem? h1, h2, h3⟩
    · rintro ⟨ix, h1, h2, h3⟩
      obtain ⟨n, hn⟩ := List.mem_iff_getElem?.1 h1
      exact ⟨n, (alternative_seq T u n).2 ⟨ix, hn, h2, h3⟩⟩
  · intro v hv
    unfold inPlace at hv
    rw [Option.map_eq_some_iff] at hv
    obtain ⟨n, hn, rfl⟩ := hv
    obtain ⟨ix, h1, h2, h3⟩ := (alternative_seq T u n).1 hn
    refine ⟨⟨ix, List.mem_of_getElem? h1, h2, variant_index hI hf hl h1⟩, ?_⟩
    simp [visited, h1, h2]

example : makeVariant 0 ⟨32, true⟩ 10 5 (fun ix => ix + 100) = some [110, 109, 108, 107, 106] ∧
    inPlace [110, 109, 108, 107, 106] 107 = some (some 3) ∧ variantIndex ⟨32, true⟩ 10 5 (some 3) = some 7 := by decide
example : makeVariant 0 ⟨32, true⟩ 0 4 (fun ix => ix / 2) = some [0, 0, 1, 1] ∧ inPlace [0, 0, 1, 1] 1 = none := by decide

/-- **C46.** Construction by `std::in_place_type<U>` for an empty sequence: `U` can only be `std::monostate`; `index()` is then `first`. -/
theorem variant_in_place_empty [DecidableEq τ] {mono : τ} {I : ITy} (hI : I.Wf) {first : Int} (hf : I.Has first)
    {T : Int → τ} {types : List τ} (ht : makeVariant mono I first first T = some types) (u : τ) :
    inPlace types u = (if u = mono then some (some 0) else none) ∧ variantIndex I first first (some 0) = some first ∧
      holdsType types mono (some 0) = some true := by
  have e := types_of hI hf hf ht
  rw [if_pos rfl] at e
  subst e
  refine ⟨?_, (variant_empty (τ := Nat) hI hf (fun _ => 0) [] 0 none).1, ?_⟩
  · unfold inPlace
    rw [alternative_cons]
    by_cases h : u = mono
    · simp [h, TypeList.count]
    · rw [if_neg (fun e => h e.symm), if_neg h]; rfl
  · unfold holdsType
    rw [alternative_cons]
    simp [TypeList.count]

example : makeVariant 0 ⟨32, true⟩ 2 2 (fun ix => ix + 100) = some [0] ∧ inPlace [0] 102 = none ∧ inPlace [0] 0 = some (some 0) := by decide

/-- **C46.** `emplace<ix>` (and construction from a `T<ix>`) for all indices, also if some indices give the same type: it is well-formed iff `ix`
is in the sequence and no other index of it gives the same type. Then it does the same as construction by `std::in_place_type<T<ix>>`, and `index()`
is `ix`. -/
theorem variant_emplace_iff [DecidableEq τ] {mono : τ} {I : ITy} (hI : I.Wf) {first last : Int} (hf : I.Has first) (hl : I.Has last)
    {T : Int → τ} {types : List τ} (ht : makeVariant mono I first last T = some types) (ix : Int) :
    ((emplace types first last ix T).isSome ↔ ix ∈ seq first last ∧ ∀ ix' ∈ seq first last, T ix' = T ix → ix' = ix) ∧
    ∀ v, emplace types first last ix T = some v → inPlace types (T ix) = some v ∧ variantIndex I first last v = some ix ∧
      visited types v = some (T ix) := by
  by_cases hx : ix ∈ seq first last
  · have hne : first ≠ last := by rintro rfl; simp [seq] at hx
    have hv := (valid_index first last ix).1.2 hx
    have hp := variant_in_place hI hf hl ht hne (T ix)
    have ee : emplace types first last ix T = inPlace types (T ix) := by unfold emplace inPlace; rw [if_pos hv]
    rw [ee]
    refine ⟨?_, fun v hv => ?_⟩
    · rw [hp.1]
      constructor
      · rintro ⟨iy, _, _, h2⟩
        exact ⟨hx, fun ix' h' e => (h2 ix' h' e).trans (h2 ix hx rfl).symm⟩
      · rintro ⟨_, h⟩
        exact ⟨ix, hx, rfl, h⟩
    · refine ⟨hv, ?_, (hp.2 v hv).2⟩
      obtain ⟨iz, _, _, h3⟩ := hp.1.1 (by rw [hv]; rfl)
      obtain ⟨⟨iy, h1, h2, h4⟩, _⟩ := hp.2 v hv
      rw [h4, h3 iy h1 h2, h3 ix hx rfl]
  · have ee : emplace types first last ix T = none := by
      unfold emplace
      rw [if_neg fun h => hx ((valid_index first last ix).1.1 h)]
    rw [ee]
    simp [hx]

example : makeVariant 0 ⟨32, true⟩ 0 3 (fun ix => ix / 2) = some [0, 0, 1] ∧ emplace [0, 0, 1] 0 3 1 (fun ix => ix / 2) = none ∧
    emplace [0, 0, 1] 0 3 2 (fun ix => ix / 2) = some (some 2) := by decide

/-- **C46.** `holds_alternative<U>()` agrees with `visit`, and with `holds_alternative<ix>()` if `U` is `T<ix>`: for a variant which holds a value and
every type for which it is well-formed it is true exactly if a visitor would be called with a `U`. -/
theorem variant_holds_type [DecidableEq τ] {mono : τ} {I : ITy} {first last : Int} {T : Int → τ}
    {types : List τ} (_ : makeVariant mono I first last T = some types) (v : Variant) (u : τ) :
    (∀ b, holdsType types u v = some b → (b = true ↔ visited types v = some u)) ∧
    ((holdsType types u v).isSome ↔ (inPlace types u).isSome) ∧
    ∀ ix ∈ seq first last, T ix = u → holds types first last ix T v = holdsType types u v := by
  refine ⟨fun b hb => ?_, by simp [holdsType, inPlace], fun ix hx e => ?_⟩
  · unfold holdsType at hb
    rw [Option.map_eq_some_iff] at hb
    obtain ⟨n, hn, rfl⟩ := hb
    obtain ⟨h1, h2⟩ := (alternative_iff u types n).1 hn
    rw [decide_eq_true_iff]
    constructor
    · rintro rfl
      simpa [visited] using h1
    · intro hv
      unfold visited at hv
      rw [Option.bind_eq_some_iff] at hv
      obtain ⟨m, rfl, hm⟩ := hv
      rw [h2 m hm]
  · unfold holds holdsType
    rw [if_pos ((valid_index first last ix).1.2 hx), e]

example : makeVariant 0 ⟨32, true⟩ 10 5 (fun ix => ix + 100) = some [110, 109, 108, 107, 106] ∧
    holdsType [110, 109, 108, 107, 106] 107 (some 3) = some true ∧ holdsType [110, 109, 108, 107, 106] 106 (some 3) = some false ∧
    holdsType [110, 109, 108, 107, 106] 105 (some 3) = none := by decide

/-- **C46.** `visit` calls the visitor with the `T<ix>` whose `ix` is `index()`, for every variant that holds a value; it throws
`std::bad_variant_access` if the variant holds none. -/
theorem variant_visit {mono : τ} {I : ITy} (hI : I.Wf) {first last : Int} (hf : I.Has first) (hl : I.Has last)
    {T : Int → τ} {types : List τ} (ht : makeVariant mono I first last T = some types) (hne : first ≠ last) :
    visited types none = none ∧ ∀ n : Nat, n < (last - first).natAbs →
      ∃ ix, variantIndex I first last (some n) = some ix ∧ ix ∈ seq first last ∧ visited types (some n) = some (T ix) := by
  have e := types_of hI hf hl ht
  rw [if_neg hne] at e
  subst e
  refine ⟨rfl, fun n hn => ?_⟩
  obtain ⟨ix, h⟩ : ∃ ix, (seq first last)[n]? = some ix := ⟨_, by rw [seq_get, if_pos hn]⟩
  exact ⟨ix, variant_index hI hf hl h, List.mem_of_getElem? h, by simp [visited, h]⟩

example : makeVariant 0 ⟨32, true⟩ 10 5 (fun ix => ix + 100) = some [110, 109, 108, 107, 106] ∧
    visited [110, 109, 108, 107, 106] (some 3) = some 107 ∧ variantIndex ⟨32, true⟩ 10 5 (some 3) = some 7 := by decide

end Verif.Integral
