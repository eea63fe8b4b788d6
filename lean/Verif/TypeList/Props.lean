import Verif.TypeList.Model
import Mathlib.Data.List.Sublists

/-! Properties C44, C45 and C60 of type_list.hpp. The specifications are the operations on lists of the Lean library. -/
namespace Verif.TypeList

variable {τ υ ρ σ ε : Type}

theorem size_eq : ∀ l : List τ, size l = l.length
  | [] => rfl
  | _ :: l => by simp [size, size_eq l]

theorem join_eq : ∀ l k : List τ, join l k = l ++ k
  | [], _ => rfl
  | _ :: l, k => by simp [join, join_eq l k]

theorem packElement_eq : ∀ (n : Nat) (l : List τ), packElement n l = l[n]?
  | _, [] => by cases ‹Nat› <;> rfl
  | 0, _ :: _ => rfl
  | n + 1, _ :: l => by simp [packElement, packElement_eq n l]

theorem nthFallback_eq : ∀ (l : List τ) (n : Nat), nthFallback l n = l[n]?
  | [], _ => rfl
  | _ :: _, 0 => rfl
  | _ :: l, n + 1 => by simp [nthFallback, nthFallback_eq l n]

theorem lastFallback_eq : ∀ l : List τ, lastFallback l = l.getLast?
  | [] => rfl
  | [_] => rfl
  | _ :: u :: l => by rw [lastFallback, lastFallback_eq (u :: l)]; · simp
                      · simp

/-! ### C44 -/

/-- **C44.** `size`, `first`, `last` and `nth` are the length and the elements at the given positions; `nth` has a result iff the index
is in range; the implementations with and without compiler builtin agree. -/
theorem access (l : List τ) :
    size l = l.length ∧ first l = l.head? ∧ last l = l.getLast? ∧ lastFallback l = last l ∧
    (∀ n, nth l n = l[n]?) ∧ (∀ n, nthFallback l n = nth l n) ∧ ∀ n, ((nth l n).isSome ↔ n < l.length) := by
  have hn : ∀ n, nth l n = l[n]? := by
    intro n
    rw [nth, size_eq, packElement_eq]
    split
    · rfl
    · rw [List.getElem?_eq_none (by omega)]
  have hl : last l = l.getLast? := by
    cases l with
    | nil => rfl
    | cons a l => rw [last, packElement_eq, size_eq, List.getLast?_eq_getElem?]; simp
  refine ⟨size_eq l, by cases l <;> rfl, hl, by rw [lastFallback_eq, hl], hn, fun n => by rw [hn, nthFallback_eq], fun n => ?_⟩
  rw [hn]; simp

example : nth ["a", "b", "c"] 1 = some "b" ∧ nth ["a"] 1 = none ∧ last ["a", "b"] = some "b" := by decide

theorem concat_eq : ∀ ls : List (List τ), concat ls = ls.flatten
  | [] => rfl
  | [l] => by simp [concat]
  | [l, k] => by simp [concat, join_eq]
  | l :: k :: m :: ls => by rw [concat, join_eq, concat_eq (k :: m :: ls)] <;> simp

/-- **C44.** `concat` and `flatten` concatenate all the lists in order. -/
theorem concat_spec (ls : List (List τ)) :
    concat ls = ls.flatten ∧ flatten ls = ls.flatten ∧ size (concat ls) = (ls.map size).sum := by
  refine ⟨concat_eq ls, concat_eq ls, ?_⟩
  rw [concat_eq, size_eq, List.length_flatten]
  congr 1
  exact List.map_congr_left fun l _ => (size_eq l).symm

example : concat [[1], [], [2, 3], [1]] = [1, 2, 3, 1] := by decide

theorem drop_eq : ∀ (l : List τ) (n : Nat), drop l n = if n ≤ l.length then some (l.drop n) else none
  | l, 0 => by simp [drop]
  | [], n + 1 => by simp [drop]
  | _ :: l, n + 1 => by simp [drop, drop_eq l n]

theorem take_eq : ∀ (l : List τ) (n : Nat), take l n = if n ≤ l.length then some (l.take n) else none
  | l, 0 => by simp [take]
  | [], n + 1 => by simp [take]
  | _ :: l, n + 1 => by
    rw [take, take_eq l n]
    by_cases h : n ≤ l.length <;> simp [h, concat, join_eq]

/-- **C44.** `take` and `drop` are defined iff there are enough elements, have the expected sizes, and together are the list. -/
theorem take_drop (l : List τ) (n : Nat) :
    ((take l n).isSome ↔ n ≤ l.length) ∧ ((drop l n).isSome ↔ n ≤ l.length) ∧
    ∀ a b, take l n = some a → drop l n = some b →
      concat [a, b] = l ∧ size a = n ∧ size b = l.length - n ∧ (∀ i, nth b i = nth l (n + i)) ∧ ∀ i, i < n → nth a i = nth l i := by
  rw [take_eq, drop_eq]
  refine ⟨by split <;> simp_all, by split <;> simp_all, ?_⟩
  intro a b ha hb
  split at ha
  · rename_i h
    rw [if_pos h] at hb
    injection ha with ha; injection hb with hb
    subst ha hb
    refine ⟨by simp [concat, join_eq], by rw [size_eq]; simp; omega, by rw [size_eq]; simp, ?_, ?_⟩
    · intro i; rw [(access _).2.2.2.2.1, (access _).2.2.2.2.1]; simp
    · intro i hi; rw [(access _).2.2.2.2.1, (access _).2.2.2.2.1]; simp [hi]
  · simp at ha

example : take [1, 2, 3] 2 = some [1, 2] ∧ drop [1, 2, 3] 2 = some [3] ∧ drop [1] 2 = none := by decide

theorem transform_eq (func : τ → Option υ) : ∀ l : List τ, transform func l = l.mapM func
  | [] => rfl
  | t :: l => by
    rw [transform, List.mapM_cons, transform_eq func l]
    cases func t <;> cases l.mapM func <;> rfl

/-- **C44.** `transform` is defined iff the function is for all elements; it is then the list of the results, position by position. -/
theorem transform_spec (func : τ → Option υ) (l : List τ) :
    ((transform func l).isSome ↔ ∀ t ∈ l, (func t).isSome) ∧
    ∀ r, transform func l = some r → size r = size l ∧ ∀ n, nth r n = (nth l n).bind func := by
  constructor
  · induction l with
    | nil => simp [transform]
    | cons t l ih =>
      rw [transform]
      cases h : func t <;> simp [h, ih]
  · induction l with
    | nil => rintro r h; simp [transform] at h; subst h; simp [nth, size]
    | cons t l ih =>
      intro r h
      rw [transform] at h
      cases hf : func t with
      | none => simp [hf] at h
      | some u =>
        cases ht : transform func l with
        | none => simp [hf, ht] at h
        | some k =>
          simp [hf, ht] at h
          subst h
          obtain ⟨h1, h2⟩ := ih k ht
          refine ⟨by simp [size, h1], ?_⟩
          intro n
          have h3 := fun n => h2 n
          simp only [(access _).2.2.2.2.1] at h3 ⊢
          cases n with
          | zero => simp [hf]
          | succ n => simpa using h3 n

example : transform (fun n => if n = 0 then none else some (n - 1)) [3, 1] = some [2, 0] := by decide

theorem indexSequence_eq : ∀ (n i : Nat), indexSequence i n = List.range' i n
  | 0, _ => rfl
  | n + 1, i => by rw [indexSequence, indexSequence_eq n, List.range'_succ]

/-- **C44.** `generate` has at each index below `count` the type generated for that index, and `tuple_to_type_list` has the tuple's
elements. -/
theorem generate_spec (func : Nat → Option υ) (count : Nat) (r : List υ) (h : generate count func = some r) :
    size r = count ∧ ∀ n, nth r n = if n < count then func n else none := by
  obtain ⟨h1, h2⟩ := (transform_spec func _).2 r h
  refine ⟨by rw [h1, size_eq, indexSequence_eq]; simp, fun n => ?_⟩
  rw [h2, (access _).2.2.2.2.1, indexSequence_eq]
  by_cases hn : n < count
  · rw [List.getElem?_range' (by omega)]; simp [hn]
  · rw [List.getElem?_eq_none (by simp; omega)]; simp [hn]

example : generate 3 (fun n => some (n * n)) = some [0, 1, 4] := by decide

/-- **C44.** -/
theorem tuple_spec (l : List τ) : tupleToTypeList (size l) (nth l) = some l := by
  have hsome : (tupleToTypeList (size l) (nth l)).isSome := by
    refine (transform_spec _ _).1.2 ?_
    intro i hi
    rw [indexSequence_eq, List.mem_range'_1, size_eq] at hi
    rw [(access l).2.2.2.2.2.2]; omega
  obtain ⟨r, hr⟩ := Option.isSome_iff_exists.1 hsome
  rw [hr]
  obtain ⟨h1, h2⟩ := generate_spec (nth l) (size l) r hr
  congr 1
  apply List.ext_getElem?
  intro n
  have := h2 n
  rw [(access _).2.2.2.2.1, (access _).2.2.2.2.1] at this
  rw [this, size_eq]
  split
  · rfl
  · rw [List.getElem?_eq_none (by omega)]

example : tupleToTypeList 3 (fun n => ["a", "b", "c"][n]?) = some ["a", "b", "c"] := by decide

/-- **C44.** `integer_sequence_to_type_list` maps position by position. -/
theorem integer_sequence_spec (const : Int → τ) (is : List Int) : integerSequenceToTypeList const is = is.map const := by
  induction is with
  | nil => rfl
  | cons i is ih => simp [integerSequenceToTypeList, ih]

example : integerSequenceToTypeList (fun i => i * 10) [3, -1] = [30, -10] := by decide

theorem filter_eq (pred : τ → Option Bool) : ∀ l : List τ,
    filter pred l = if ∀ t ∈ l, (pred t).isSome then some (l.filter (fun t => pred t == some true)) else none
  | [] => by simp [filter]
  | t :: l => by
    rw [filter, filter_eq pred l]
    rcases h : pred t with _ | b
    · simp [h]
    · cases b <;> by_cases hl : ∀ t ∈ l, (pred t).isSome <;> simp [h, hl, concat, join_eq]

/-- **C44.** `filter` is defined iff the predicate is for all elements; it then keeps exactly the elements satisfying it, in order. -/
theorem filter_spec (pred : τ → Option Bool) (l : List τ) :
    ((filter pred l).isSome ↔ ∀ t ∈ l, (pred t).isSome) ∧
    ∀ r, filter pred l = some r → r = l.filter (fun t => pred t == some true) := by
  rw [filter_eq]
  split <;> simp_all

example : filter (fun n => some (n % 2 == 1)) [1, 2, 3] = some [1, 3] := by decide

/-- **C44.** Applying the types of a type list to a template and unpacking the result gives the list back. -/
theorem apply_unpack (l : List τ) (templ : List τ → ρ) (args : ρ → Option (List τ)) (h : ∀ ts, args (templ ts) = some ts) :
    unpack args (apply l templ) = some l := h l

example : unpack (fun r : String × List Nat => some r.2) (apply [3, 1] (fun ts => ("tuple", ts))) = some [3, 1] := by decide

/-! ### C45 -/

theorem positionFrom_eq {pred : τ → Bool} : ∀ (l : List τ) (ix : Nat),
    positionFrom (fun t => some (pred t)) l ix = (l.findIdx? pred).map (· + ix)
  | [], _ => rfl
  | t :: l, ix => by
    rw [positionFrom, List.findIdx?_cons]
    cases h : pred t with
    | true => simp
    | false =>
      simp only [positionFrom_eq l (ix + 1), Bool.false_eq_true, if_false, Option.map_map]
      congr 1
      funext x
      simp only [Function.comp]; omega

theorem findIf_eq {pred : τ → Bool} : ∀ l : List τ, findIf (fun t => some (pred t)) l = l.find? pred
  | [] => rfl
  | t :: l => by
    rw [findIf, List.find?_cons]
    cases h : pred t <;> simp [findIf_eq l]

/-- **C45.** `position` is the least index whose element satisfies the predicate, `find_if` is that element, and both are absent iff no
element does. -/
theorem search (pred : τ → Bool) (l : List τ) :
    (∀ k, position (fun t => some (pred t)) l = some k ↔
      (∃ t, l[k]? = some t ∧ pred t = true) ∧ ∀ j t, j < k → l[j]? = some t → pred t = false) ∧
    (position (fun t => some (pred t)) l = none ↔ ∀ t ∈ l, pred t = false) ∧
    findIf (fun t => some (pred t)) l = (position (fun t => some (pred t)) l).bind (nth l) := by
  have hp : position (fun t => some (pred t)) l = l.findIdx? pred := by
    rw [position, positionFrom_eq]; simp
  refine ⟨?_, ?_, ?_⟩
  · intro k
    rw [hp, List.findIdx?_eq_some_iff_getElem]
    constructor
    · rintro ⟨hk, h1, h2⟩
      refine ⟨⟨l[k], by simp, h1⟩, ?_⟩
      intro j t hj ht
      obtain ⟨hj', rfl⟩ := List.getElem?_eq_some_iff.1 ht
      simpa using h2 j hj
    · rintro ⟨⟨t, ht, h1⟩, h2⟩
      obtain ⟨hk, rfl⟩ := List.getElem?_eq_some_iff.1 ht
      refine ⟨hk, h1, fun j hj => ?_⟩
      have := h2 j l[j] hj (by simp)
      simp [this]
  · rw [hp, List.findIdx?_eq_none_iff]
  · rw [hp, findIf_eq]
    have : (l.findIdx? pred).bind (nth l) = (l.findIdx? pred).bind (fun n => l[n]?) := by
      congr 1; funext n; exact (access l).2.2.2.2.1 n
    rw [this]
    induction l with
    | nil => rfl
    | cons t l ih =>
      rw [List.find?_cons, List.findIdx?_cons]
      cases h : pred t with
      | true => simp
      | false =>
        simp only [Bool.false_eq_true, if_false]
        rw [ih (by rw [position, positionFrom_eq]; simp) (by congr 1; funext n; exact (access l).2.2.2.2.1 n)]
        cases l.findIdx? pred <;> simp

example : position (fun t => some (t == 4)) [1, 4, 2, 4] = some 1 ∧ findIf (fun t => some (t % 2 == 0)) [1, 4, 2] = some 4 ∧
    position (fun t => some (t == 5)) [1, 4] = none := by decide

/-- **C45.** Searching stops at the first match: the predicate may be ill-formed for the elements behind it. -/
theorem search_lazy (pred : τ → Option Bool) (l k : List τ) (t : τ) (hl : ∀ u ∈ l, pred u = some false) (ht : pred t = some true) :
    findIf pred (l ++ t :: k) = some t ∧ position pred (l ++ t :: k) = some l.length := by
  have h1 : ∀ (l : List τ) ix, (∀ u ∈ l, pred u = some false) → positionFrom pred (l ++ t :: k) ix = some (l.length + ix) := by
    intro l
    induction l with
    | nil => intro ix _; simp [positionFrom, ht]
    | cons a l ih =>
      intro ix hl
      simp only [List.cons_append, positionFrom, hl a (by simp)]
      rw [ih _ (fun u hu => hl u (by simp [hu]))]
      simp; omega
  have h2 : ∀ l : List τ, (∀ u ∈ l, pred u = some false) → findIf pred (l ++ t :: k) = some t := by
    intro l
    induction l with
    | nil => intro _; simp [findIf, ht]
    | cons a l ih =>
      intro hl
      simp only [List.cons_append, findIf, hl a (by simp)]
      exact ih (fun u hu => hl u (by simp [hu]))
  exact ⟨h2 l hl, h1 l 0 hl⟩

/-- The predicate cannot be applied to 0. -/
example : findIf (fun t => if t = 0 then none else some (t == 4)) [1, 4, 0] = some 4 := by decide

/-- **C45.** The quantifiers over all elements. -/
theorem quantifiers (pred : τ → Bool) (l : List τ) :
    allOf (fun t => some (pred t)) l = some (decide (∀ t ∈ l, pred t = true)) ∧
    anyOf (fun t => some (pred t)) l = some (decide (∃ t ∈ l, pred t = true)) ∧
    noneOf (fun t => some (pred t)) l = some (decide (∀ t ∈ l, pred t = false)) := by
  induction l with
  | nil => simp [allOf, anyOf, noneOf]
  | cons t l ih =>
    obtain ⟨h1, h2, h3⟩ := ih
    simp only [allOf, anyOf, noneOf, h1, h2, h3, Option.bind_some, Option.map_some]
    refine ⟨?_, ?_, ?_⟩ <;> congr 1 <;> rw [Bool.eq_iff_iff] <;> simp

example : allOf (fun t => some (t < 3)) [1, 4] = some false ∧ anyOf (fun t => some (t < 3)) [1, 4] = some true ∧
    noneOf (fun t => some (t < 3)) ([] : List Nat) = some true := by decide

/-- **C45.** They are ill-formed iff the predicate is for some element, even if the result is determined before. -/
theorem quantifiers_ill_formed (pred : τ → Option Bool) (l : List τ) :
    (allOf pred l = none ↔ ∃ t ∈ l, pred t = none) ∧ (anyOf pred l = none ↔ ∃ t ∈ l, pred t = none) ∧
    (noneOf pred l = none ↔ ∃ t ∈ l, pred t = none) := by
  induction l with
  | nil => simp [allOf, anyOf, noneOf]
  | cons t l ih =>
    obtain ⟨h1, h2, h3⟩ := ih
    refine ⟨?_, ?_, ?_⟩
    · cases h : pred t <;> simp [allOf, h, h1]
    · cases h : pred t <;> simp [anyOf, h, h2]
    · cases h : pred t <;> simp [noneOf, h, h3]

example : anyOf (fun t => if t = 0 then none else some true) [1, 0] = none := by decide

variable [DecidableEq τ]

theorem contains_iff (t : τ) (l : List τ) : contains t l = true ↔ t ∈ l := by
  induction l with
  | nil => simp [contains]
  | cons u l ih =>
    simp only [contains, Bool.or_eq_true, decide_eq_true_eq, ih, List.mem_cons]
    rw [@eq_comm _ u t]

/-- **C45.** `count` is the number of positions holding the type, `contains` iff that is positive iff `position` finds it. -/
theorem count_contains (t : τ) (l : List τ) :
    count t l = (l.filter (fun u => u == t)).length ∧ (contains t l = true ↔ ∃ k : Nat, l[k]? = some t) ∧
    (contains t l = true ↔ 0 < count t l) ∧ (contains t l = true ↔ (position (fun u => some (decide (u = t))) l).isSome) := by
  have hc : count t l = (l.filter (fun u => u == t)).length := by
    induction l with
    | nil => rfl
    | cons u l ih =>
      rw [count, List.filter_cons]
      by_cases h : u = t
      · simp [h, ih]; omega
      · simp [h, ih]
  refine ⟨hc, by rw [contains_iff, List.mem_iff_getElem?], ?_, ?_⟩
  · rw [contains_iff, hc, List.length_pos_iff_exists_mem]; simp
  · rw [contains_iff, ← not_iff_not]
    rw [Option.not_isSome_iff_eq_none, (search _ l).2.1]
    simp only [decide_eq_false_iff_not]
    constructor
    · rintro h u hu rfl; exact h hu
    · intro h hm; exact h t hm rfl

example : count 2 [2, 1, 2] = 2 ∧ contains 1 [2, 1, 2] = true ∧ contains 3 [2, 1, 2] = false := by decide

/-- **C45.** `all_same` iff any two elements are the same type. -/
theorem all_same_spec (l : List τ) : allSame l = true ↔ ∀ t ∈ l, ∀ u ∈ l, t = u := by
  have hs : ∀ (t : τ) (l : List τ), sameAs t l = true ↔ ∀ u ∈ l, t = u := by
    intro t l
    induction l with
    | nil => simp [sameAs]
    | cons u l ih => simp [sameAs, ih]
  cases l with
  | nil => simp [allSame]
  | cons t l =>
    rw [allSame, hs]
    constructor
    · intro h a ha b hb
      rcases List.mem_cons.1 ha with rfl | ha <;> rcases List.mem_cons.1 hb with rfl | hb
      · rfl
      · exact h b hb
      · exact (h a ‹_›).symm
      · exact (h a ‹_›).symm.trans (h b ‹_›)
    · intro h u hu; exact h t (by simp) u (by simp [hu])

example : allSame [2, 2, 2] = true ∧ allSame [2, 1] = false ∧ allSame ([] : List Nat) = true := by decide

theorem uniqueImpl_spec : ∀ (l seen : List τ), seen.Nodup →
    ∃ r, uniqueImpl seen l = seen ++ r ∧ r.Sublist l ∧ (seen ++ r).Nodup ∧ (∀ t, t ∈ seen ++ r ↔ t ∈ seen ∨ t ∈ l) ∧
      ∀ k, k < r.length → ∀ a b t, l = a ++ t :: b → t ∉ a → t ∉ seen → r[k]? = some t → (r.take k).Sublist a
  | [], seen, hn => ⟨[], by simp [uniqueImpl], by simp, by simpa, by simp, by simp⟩
  | t :: l, seen, hn => by
    rw [uniqueImpl]
    by_cases hc : contains t seen = true
    · rw [if_pos hc]
      rw [contains_iff] at hc
      obtain ⟨r, h1, h2, h3, h4, h5⟩ := uniqueImpl_spec l seen hn
      refine ⟨r, h1, h2.cons t, h3, ?_, ?_⟩
      · intro u; rw [h4]; simp only [List.mem_cons]
        constructor
        · rintro (h | h) <;> simp [h]
        · rintro (h | rfl | h)
          · exact .inl h
          · exact .inl hc
          · exact .inr h
      · intro k hk a b u e ha hs hr
        cases a with
        | nil => simp at e; exact absurd (e.1 ▸ hc) hs
        | cons x a =>
          simp at e
          obtain ⟨rfl, e⟩ := e
          exact (h5 k hk a b u e (by simp at ha; exact ha.2) hs hr).cons t
    · rw [if_neg hc, join_eq]
      rw [contains_iff] at hc
      obtain ⟨r, h1, h2, h3, h4, h5⟩ := uniqueImpl_spec l (seen ++ [t]) (by
        rw [List.nodup_append]; refine ⟨hn, by simp, ?_⟩
        intro a ha b hb; simp at hb; subst hb; rintro rfl; exact hc ha)
      refine ⟨t :: r, by rw [h1]; simp, h2.cons_cons t, by simpa using h3, ?_, ?_⟩
      · intro u
        have := h4 u
        simp only [List.mem_append, List.mem_cons, List.not_mem_nil, or_false] at this ⊢
        constructor
        · rintro (h | h | h)
          · exact .inl h
          · exact .inr (.inl h)
          · rcases this.1 (.inr h) with (h | h) | h
            · exact .inl h
            · exact .inr (.inl h)
            · exact .inr (.inr h)
        · rintro (h | h | h)
          · exact .inl h
          · exact .inr (.inl h)
          · rcases this.2 (.inr h) with (h | h) | h
            · exact .inl h
            · exact .inr (.inl h)
            · exact .inr (.inr h)
      · intro k hk a b u e ha hs hr
        cases k with
        | zero => simp
        | succ k =>
          simp at hr
          cases a with
          | nil =>
            simp at e
            obtain ⟨rfl, _⟩ := e
            have hm : t ∈ r := List.mem_of_getElem? hr
            rw [List.nodup_append] at h3
            exact absurd rfl (h3.2.2 t (by simp) t hm)
          | cons x a =>
            simp at e
            obtain ⟨rfl, e⟩ := e
            simp at ha
            have := h5 k (by simpa using hk) a b u e ha.2 (by simp; exact ⟨hs, ha.1⟩) hr
            simpa using this.cons_cons t

/-- The elements that are different from all earlier ones, by position. -/
def firsts (l : List τ) : List τ := (l.zipIdx.filter (fun p => decide (p.1 ∉ l.take p.2))).map Prod.fst

theorem unique_eq_firsts (l : List τ) : unique l = firsts l := by
  have key : ∀ (l pre seen : List τ), (∀ t, t ∈ seen ↔ t ∈ pre) →
      uniqueImpl seen l = seen ++ ((l.zipIdx pre.length).filter (fun p => decide (p.1 ∉ (pre ++ l).take p.2))).map Prod.fst := by
    intro l
    induction l with
    | nil => intro pre seen _; simp [uniqueImpl]
    | cons t l ih =>
      intro pre seen h
      rw [uniqueImpl, List.zipIdx_cons, List.filter_cons]
      have ht : (pre ++ t :: l).take pre.length = pre := by simp
      simp only [ht]
      by_cases hc : contains t seen = true
      · rw [if_pos hc]
        rw [contains_iff, h] at hc
        have := ih (pre ++ [t]) seen (by intro u; rw [h]; simp; rintro rfl; exact hc)
        rw [List.length_append, List.length_singleton, List.append_assoc, List.singleton_append] at this
        rw [this]
        simp [hc]
      · rw [if_neg hc, join_eq]
        rw [contains_iff, h] at hc
        have := ih (pre ++ [t]) (seen ++ [t]) (by intro u; simp [h])
        rw [List.length_append, List.length_singleton, List.append_assoc, List.singleton_append] at this
        rw [this]
        simp [hc]
  simpa [unique, firsts] using key l [] [] (by simp)

/-- **C45.** `unique` keeps exactly the first occurrence of each type, in order: the elements at the positions before which the type
does not occur. Consequently it is a subsequence with the same types and no duplicates. -/
theorem unique_spec (l : List τ) :
    unique l = (l.zipIdx.filter (fun p => decide (p.1 ∉ l.take p.2))).map Prod.fst ∧
    (unique l).Sublist l ∧ (unique l).Nodup ∧ (∀ t, t ∈ unique l ↔ t ∈ l) ∧ unique (unique l) = unique l := by
  have hall : ∀ l : List τ, (unique l).Sublist l ∧ (unique l).Nodup ∧ ∀ t, t ∈ unique l ↔ t ∈ l := by
    intro l
    obtain ⟨r, h1, h2, h3, h4, _⟩ := uniqueImpl_spec l [] (by simp)
    rw [unique, h1]
    exact ⟨by simpa using h2, h3, by simpa using h4⟩
  refine ⟨unique_eq_firsts l, (hall l).1, (hall l).2.1, (hall l).2.2, ?_⟩
  have hlen : (unique (unique l)).length = (unique l).length := by
    have h := hall (unique l)
    have hsub := (List.subperm_of_subset (hall l).2.1 (fun t ht => (h.2.2 t).2 ht)).length_le
    exact Nat.le_antisymm h.1.length_le hsub
  exact (hall (unique l)).1.eq_of_length hlen

example : unique [2, 1, 2, 3, 1] = [2, 1, 3] := by decide

/-- **C45.** `all_distinct` iff no type occurs at two positions iff `unique` changes nothing. -/
theorem all_distinct_spec (l : List τ) :
    (allDistinct l = true ↔ ∀ (i j : Nat) t, l[i]? = some t → l[j]? = some t → i = j) ∧ (allDistinct l = true ↔ unique l = l) := by
  have hu := unique_spec l
  have h1 : allDistinct l = true ↔ unique l = l := by
    rw [allDistinct, decide_eq_true_iff, size_eq, size_eq]
    constructor
    · intro h; exact hu.2.1.eq_of_length h.symm
    · intro h; rw [h]
  refine ⟨?_, h1⟩
  rw [h1]
  have h2 : unique l = l ↔ l.Nodup := by
    constructor
    · intro h; rw [← h]; exact hu.2.2.1
    · intro h
      refine hu.2.1.eq_of_length ?_
      have := (List.subperm_of_subset h (fun t ht => (hu.2.2.2.1 t).2 ht)).length_le
      have := hu.2.1.length_le
      omega
  rw [h2]
  constructor
  · intro h i j t hi hj
    obtain ⟨hi', e1⟩ := List.getElem?_eq_some_iff.1 hi
    obtain ⟨hj', e2⟩ := List.getElem?_eq_some_iff.1 hj
    exact (List.Nodup.getElem_inj_iff h).1 (e1.trans e2.symm)
  · intro h
    rw [List.nodup_iff_pairwise_ne, List.pairwise_iff_getElem]
    intro i j hi hj hij e
    have := h i j l[i] (by simp) (by rw [e]; simp)
    omega

example : unique [2, 1, 2, 3, 1] = [2, 1, 3] ∧ allDistinct [2, 1, 2] = false ∧ allDistinct [2, 1] = true := by decide

omit [DecidableEq τ] in
/-- **C45.** `for_each` and `fold` call the function for the elements in order, each once, and stop at the first exception: they are the
left fold over the list. -/
theorem folds (l : List τ) :
    (∀ (func : σ → τ → Except ε σ) s, forEach func l s = l.foldlM func s) ∧
    (∀ (func : σ → ρ → τ → Except ε (ρ × σ)) acc s, fold func l acc s = l.foldlM (fun p t => func p.2 p.1 t) (acc, s)) := by
  constructor
  · intro func
    induction l with
    | nil => intro s; rfl
    | cons t l ih =>
      intro s
      rw [forEach, List.foldlM_cons]
      cases func s t with
      | error e => rfl
      | ok s' => exact ih s'
  · intro func
    induction l with
    | nil => intro acc s; rfl
    | cons t l ih =>
      intro acc s
      rw [fold, List.foldlM_cons]
      cases h : func s acc t with
      | error e => rfl
      | ok p => exact ih p.1 p.2

example : fold (fun (log : List Nat) acc t => if t = 9 then Except.error "nine" else .ok (acc + t, log ++ [t])) [1, 2] 10 [] = .ok (13, [1, 2]) := rfl

omit [DecidableEq τ] in
/-- **C45.** With a function that logs its calls: all elements, in order, up to and including the first one for which it throws. -/
theorem for_each_trace (throws : τ → Bool) (l : List τ) :
    (forEach (fun (log : List τ) t => if throws t then Except.error (log ++ [t]) else .ok (log ++ [t])) l [] =
      match l.findIdx? throws with
      | none => .ok l
      | some k => .error (l.take (k + 1))) := by
  have key : ∀ (l log : List τ), forEach (fun (log : List τ) t => if throws t then Except.error (log ++ [t]) else .ok (log ++ [t])) l log =
      match l.findIdx? throws with
      | none => .ok (log ++ l)
      | some k => .error (log ++ l.take (k + 1)) := by
    intro l
    induction l with
    | nil => intro log; simp [forEach]
    | cons t l ih =>
      intro log
      rw [forEach, List.findIdx?_cons]
      cases h : throws t with
      | true => simp
      | false =>
        simp only [Bool.false_eq_true, if_false, ih]
        cases l.findIdx? throws <;> simp
  simpa using key l []

example : forEach (fun (log : List Nat) t => if t == 9 then Except.error (log ++ [t]) else .ok (log ++ [t])) [1, 9, 2] [] = .error [1, 9] := rfl

/-! ### C60 -/

omit [DecidableEq τ] in
/-- **C60, refuted.** Computing `unique` of `n` different types instantiates at least `2 ^ n` different templates: every subsequence of
the list occurs as a list of seen types. -/
theorem unique_instances_refuted (l : List τ) (hl : l.Nodup) :
    ∃ is : List (List τ × List τ), is.Nodup ∧ is.length = 2 ^ l.length ∧ ∀ i ∈ is, i ∈ uniqueInstances [] l := by
  have key : ∀ (l seen sub : List τ), sub.Sublist l → (seen ++ sub, []) ∈ uniqueInstances seen l := by
    intro l
    induction l with
    | nil => intro seen sub h; simp at h; subst h; simp [uniqueInstances]
    | cons t l ih =>
      intro seen sub h
      simp only [uniqueInstances, List.mem_cons, List.mem_append]
      cases h with
      | cons _ h => exact .inr (.inl (ih seen sub h))
      | cons_cons _ h =>
        rename_i sub
        have := ih (join seen [t]) sub h
        rw [join_eq, List.append_assoc, List.singleton_append] at this
        rw [join_eq]
        exact .inr (.inr this)
  refine ⟨l.sublists.map (fun s => (s, [])), ?_, by simp, ?_⟩
  · exact (List.nodup_sublists.2 hl).map (fun a b h => by simpa using h)
  · intro i hi
    rw [List.mem_map] at hi
    obtain ⟨s, hs, rfl⟩ := hi
    simpa using key l [] s (List.mem_sublists.1 hs)

omit [DecidableEq τ] in
/-- **C60.** And never more than `2 ^ (n + 1)`, so instantiation always ends. -/
theorem unique_instances_bound (l seen : List τ) : (uniqueInstances seen l).length = 2 ^ (l.length + 1) - 1 := by
  induction l generalizing seen with
  | nil => rfl
  | cons t l ih =>
    simp only [uniqueInstances, List.length_cons, List.length_append, ih]
    have := Nat.one_le_two_pow (n := l.length + 1)
    rw [Nat.pow_succ 2 (l.length + 1)]
    omega

example : (uniqueInstances [] [1, 2, 3]).length = 15 := by decide

omit [DecidableEq τ] in
/-- **C45.** `opt` never fails: its `type` is that of the metafunction if it has one and `nullopt` otherwise, and independently of that
its `value` is that of the metafunction if it has one and `nullopt{}` otherwise. -/
theorem opt_spec {ν : Type} (n : τ) (m : ν) (t : Meta τ ν) :
    (∀ u, t.type = some u → (opt n m t).1 = u) ∧ (t.type = none → (opt n m t).1 = n) ∧
    (∀ v, t.value = some v → (opt n m t).2 = v) ∧ (t.value = none → (opt n m t).2 = m) := by
  obtain ⟨_ | u, _ | v⟩ := t <;> simp [opt]

/-- `opt<first<type_list<>>>` and `opt<first<type_list<int>>>`. -/
example : opt "nullopt" 0 ⟨first [], none⟩ = ("nullopt", 0) ∧ opt "nullopt" 0 ⟨first ["int"], none⟩ = ("int", 0) := by decide

end Verif.TypeList
