import Verif.RangesAlgo.Model
import Verif.FlexArray.Props

/-! Properties C41 - C43 of the algorithms of ranges.hpp. -/
namespace Verif.RangesAlgo

open Verif.FlexArray (Cmp LexSpec lexCmp lexCmp_spec)

variable {ι σ α β γ ι' σ' : Type}

/-- Reading from the iterator `i` and incrementing it until the end yields `l`. -/
inductive Reads (it : It ι σ α) : ι → σ → List α → Prop
  | nil {i s} (h : it.get i s = none) : Reads it i s []
  | cons {i s a l} (h : it.get i s = some a) (ht : Reads it (it.inc i s).1 (it.inc i s).2 l) : Reads it i s (a :: l)

/-- Incrementing a copy of an iterator does not change what the iterator refers to. -/
def Stable (it : It ι σ α) : Prop := ∀ i s, it.get i s ≠ none → it.get i (it.inc i s).2 = it.get i s

theorem forward_reads : ∀ l : List α, Reads (forwardIt α) l () l
  | [] => .nil rfl
  | _ :: l => .cons rfl (forward_reads l)

theorem forward_stable : Stable (forwardIt α) := fun _ _ _ => rfl

theorem istream_reads : ∀ (a : α) (l : List α), Reads (istreamIt α) (some a) l (a :: l)
  | _, [] => .cons rfl (.nil rfl)
  | _, b :: l => .cons rfl (istream_reads b l)

theorem istream_stable : Stable (istreamIt α) := fun _ _ _ => rfl

theorem istreambuf_reads : ∀ l : List α, Reads (istreambufIt α) () l l
  | [] => .nil rfl
  | _ :: l => .cons rfl (istreambuf_reads l)

/-! ### C41 -/

theorem allOf_eq {it : It ι σ α} {f : α → Bool} : ∀ {l : List α} {fuel : Nat} {i s}, Reads it i s l → l.length < fuel →
    allOf it f fuel i s = some (l.all f)
  | [], fuel + 1, i, s, .nil h, _ => by simp [allOf, h]
  | a :: l, fuel + 1, i, s, .cons h ht, hl => by
    have ih := allOf_eq (f := f) ht (fuel := fuel) (by simpa using hl)
    simp only [allOf, h, ih, List.all_cons]
    cases f a <;> simp

/-- **C41.** `all_of`, `any_of`, `none_of` of a finite range. -/
theorem quantifiers {it : It ι σ α} {f : α → Bool} {l : List α} {fuel : Nat} {i : ι} {s : σ} (h : Reads it i s l) (hl : l.length < fuel) :
    allOf it f fuel i s = some (decide (∀ x ∈ l, f x = true)) ∧ anyOf it f fuel i s = some (decide (∃ x ∈ l, f x = true)) ∧
    noneOf it f fuel i s = some (decide (∀ x ∈ l, f x = false)) := by
  refine ⟨?_, ?_, ?_⟩
  · rw [allOf_eq h hl]; congr 1; rw [Bool.eq_iff_iff]; simp
  · induction fuel generalizing l i s with
    | zero => omega
    | succ n ih =>
      cases h with
      | nil h => simp [anyOf, h]
      | cons h ht =>
        simp only [anyOf, h]
        split
        · rename_i hf; simp [hf]
        · rename_i hf; rw [ih ht (by simpa using hl)]; simp [hf]
  · induction fuel generalizing l i s with
    | zero => omega
    | succ n ih =>
      cases h with
      | nil h => simp [noneOf, h]
      | cons h ht =>
        simp only [noneOf, h]
        split
        · rename_i hf; simp [hf]
        · rename_i hf; rw [ih ht (by simpa using hl)]; simp [hf]

example : allOf (istreambufIt Nat) (· < 5) 4 () [1, 4, 2] = some true ∧ anyOf (istreambufIt Nat) (· == 4) 4 () [1, 4, 2] = some true ∧
    noneOf (istreambufIt Nat) (· == 4) 4 () [1, 4, 2] = some false := by decide

/-- **C41.** `empty` iff there are no elements, `non_empty` is the opposite. -/
theorem empty_spec {it : It ι σ α} {l : List α} {i : ι} {s : σ} (h : Reads it i s l) :
    (empty it i s = true ↔ l = []) ∧ (nonEmpty it i s = true ↔ l ≠ []) := by
  cases h with
  | nil h => simp [nonEmpty, empty, h]
  | cons h ht => simp [nonEmpty, empty, h]

example : empty (forwardIt Nat) [] () = true ∧ nonEmpty (forwardIt Nat) [3] () = true := by decide

/-- **C41.** `all_equal` of a finite range, also a single-pass one, returns true iff any two elements are equal. The predicate need not be
reflexive (NaN). -/
theorem all_equal_spec {it : It ι σ α} {pred : α → α → Bool} {l : List α} {fuel : Nat} {i : ι} {s : σ} (h : Reads it i s l)
    (hl : l.length < fuel) (hsym : ∀ x y, pred x y = true → pred y x = true)
    (htrans : ∀ x y z, pred x y = true → pred y z = true → pred x z = true) :
    ∃ b, allEqual it pred fuel i s = some b ∧ (b = true ↔ l.Pairwise (fun x y => pred x y = true)) := by
  cases h with
  | nil h => exact ⟨true, by simp [allEqual, h], by simp⟩
  | @cons _ _ a l h ht =>
    refine ⟨l.all (fun c => pred c a), ?_, ?_⟩
    · simp only [allEqual, h]
      exact allOf_eq ht (by simp at hl; omega)
    · rw [List.all_eq_true, List.pairwise_cons]
      constructor
      · intro h
        refine ⟨fun x hx => hsym _ _ (h x hx), ?_⟩
        rw [List.pairwise_iff_forall_sublist]
        intro x y hs
        have h1 := h x (hs.subset (by simp))
        have h2 := h y (hs.subset (by simp))
        exact htrans _ _ _ h1 (hsym _ _ h2)
      · rintro ⟨h, _⟩ x hx
        exact hsym _ _ (h x hx)

example : ∃ b, allEqual (istreambufIt Nat) (fun a b => a % 3 == b % 3) 4 () [1, 4, 7] = some b ∧ b = true := ⟨true, by decide, rfl⟩

/-- The set finds a value iff an equal one was inserted. -/
def Finds (set : SetImpl α) (eq : α → α → Bool) : Prop := ∀ seen x, set seen x = true ↔ ∃ y ∈ seen, eq x y = true

/-- A hash set does so if equal values have equal hashes, however hashes are mapped to buckets. -/
theorem hashSet_finds {hash : α → Nat} {pred : α → α → Bool} (bucket : Nat → Nat → Nat)
    (h : ∀ x y, pred x y = true → hash x = hash y) : Finds (hashSet hash bucket pred) pred := by
  intro seen x
  simp only [hashSet, List.any_eq_true, Bool.and_eq_true, beq_iff_eq]
  constructor
  · rintro ⟨y, hy, _, hp⟩; exact ⟨y, hy, hp⟩
  · rintro ⟨y, hy, hp⟩; exact ⟨y, hy, by rw [h _ _ hp], hp⟩

example (x y : Nat) (h : (x == y) = true) : x % 7 = y % 7 := by simp at h; rw [h]

/-- A tree set does so if being equal is the same as not being comparable. -/
theorem treeSet_finds {lt eq : α → α → Bool} (h : ∀ x y, eq x y = true ↔ lt x y = false ∧ lt y x = false) :
    Finds (treeSet lt) eq := by
  intro seen x
  simp [treeSet, h]

example (x y : Nat) : (x == y) = true ↔ decide (x < y) = false ∧ decide (y < x) = false := by
  simp only [beq_iff_eq, decide_eq_false_iff_not]; omega

theorem allDistinctLoop_eq {it : It ι σ α} {set : SetImpl α} {eq : α → α → Bool} (hs : Finds set eq) :
    ∀ {l : List α} {fuel : Nat} {seen i s}, Reads it i s l → l.length < fuel →
    ∃ b, allDistinctLoop it set fuel seen i s = some b ∧
      (b = true ↔ (∀ x ∈ l, ∀ y ∈ seen, eq x y = false) ∧ l.Pairwise (fun x y => eq y x = false))
  | [], fuel + 1, seen, i, s, .nil h, _ => ⟨true, by simp [allDistinctLoop, h], by simp⟩
  | a :: l, fuel + 1, seen, i, s, .cons h ht, hl => by
    obtain ⟨b, e, hb⟩ := allDistinctLoop_eq hs ht (fuel := fuel) (seen := a :: seen) (by simpa using hl)
    have hfa := hs seen a
    cases hc : set seen a with
    | true =>
      refine ⟨false, by simp [allDistinctLoop, h, insert, hc], ?_⟩
      obtain ⟨y, hy, hp⟩ := hfa.1 hc
      simp only [Bool.false_eq_true, false_iff]
      rintro ⟨h1, _⟩
      simp [h1 a (by simp) y hy] at hp
    | false =>
      refine ⟨b, by simpa [allDistinctLoop, h, insert, hc] using e, hb.trans ?_⟩
      have hno : ∀ y ∈ seen, eq a y = false := by
        intro y hy
        cases he : eq a y with
        | false => rfl
        | true => rw [hc] at hfa; exact absurd (hfa.2 ⟨y, hy, he⟩) (by simp)
      simp only [List.mem_cons, forall_eq_or_imp, List.pairwise_cons]
      constructor
      · rintro ⟨h1, h2⟩
        exact ⟨⟨hno, fun x hx => (h1 x hx).2⟩, fun x hx => (h1 x hx).1, h2⟩
      · rintro ⟨⟨_, h1⟩, h2, h3⟩
        exact ⟨fun x hx => ⟨h2 x hx, h1 x hx⟩, h3⟩

/-- **C41.** `all_distinct` of a finite range returns true iff no two positions hold equal elements. -/
theorem all_distinct_spec {it : It ι σ α} {set : SetImpl α} {eq : α → α → Bool} {l : List α} {fuel : Nat} {i : ι} {s : σ}
    (h : Reads it i s l) (hl : l.length < fuel) (hs : Finds set eq) (hsym : ∀ x y, eq x y = eq y x) :
    ∃ b, allDistinct it set fuel i s = some b ∧ (b = true ↔ l.Pairwise (fun x y => eq x y = false)) := by
  obtain ⟨b, e, hb⟩ := allDistinctLoop_eq hs h hl (seen := [])
  have hb' : b = true ↔ l.Pairwise (fun x y => eq x y = false) := by
    rw [hb]; simp only [List.not_mem_nil, false_implies, implies_true, true_and]
    constructor <;> exact List.Pairwise.imp (fun {x y} h => by rw [hsym]; exact h)
  cases h with
  | nil hg => exact ⟨true, by simp [allDistinct, hg], by simp⟩
  | cons hg ht => exact ⟨b, by simp only [allDistinct, hg]; exact e, hb'⟩

/-- The two uses of `all_distinct`: with a hash that is compatible with the predicate, and with `<`. -/
theorem all_distinct_cases {it : It ι σ α} {l : List α} {fuel : Nat} {i : ι} {s : σ} (h : Reads it i s l) (hl : l.length < fuel) :
    (∀ (hash : α → Nat) (bucket : Nat → Nat → Nat) (pred : α → α → Bool), (∀ x y, pred x y = pred y x) →
      (∀ x y, pred x y = true → hash x = hash y) →
      ∃ b, allDistinct it (hashSet hash bucket pred) fuel i s = some b ∧ (b = true ↔ l.Pairwise (fun x y => pred x y = false))) ∧
    (∀ lt : α → α → Bool,
      ∃ b, allDistinct it (treeSet lt) fuel i s = some b ∧ (b = true ↔ l.Pairwise (fun x y => lt x y = true ∨ lt y x = true))) := by
  refine ⟨fun hash bucket pred hsym hh => all_distinct_spec h hl (hashSet_finds bucket hh) hsym, fun lt => ?_⟩
  obtain ⟨b, e, hb⟩ := all_distinct_spec h hl (treeSet_finds (lt := lt) (eq := fun x y => !lt x y && !lt y x) (by simp))
    (by intro x y; rw [Bool.and_comm])
  refine ⟨b, e, hb.trans ?_⟩
  simp only [Bool.and_eq_false_iff, Bool.not_eq_false']

example : ∃ b, allDistinct (forwardIt Nat) (hashSet (· % 7) (fun n h => h % (n + 1)) (· == ·)) 5 [3, 10, 17, 3] () = some b ∧ b = false :=
  ⟨false, by decide, rfl⟩

/-- **C41, refuted** for a predicate the hash is not compatible with: `all_distinct(pred)` always uses `std::hash`. Modulo 10, 1 and
11 are equal, but are reported distinct. -/
theorem all_distinct_hash_refuted :
    allDistinct (forwardIt Nat) (hashSet id (fun _ h => h) (fun x y => x % 10 == y % 10)) 5 [1, 11] () = some true := by decide

theorem allDistinctSorted_iff {pred : α → α → Bool} : ∀ {l : List α},
    allDistinctSorted pred l = true ↔ ∀ (k : Nat) x y, l[k]? = some x → l[k + 1]? = some y → pred x y = false
  | [] => by simp [allDistinctSorted]
  | [_] => by simp [allDistinctSorted]
  | a :: b :: l => by
    rw [allDistinctSorted, Bool.and_eq_true, allDistinctSorted_iff (l := b :: l)]
    constructor
    · rintro ⟨h1, h2⟩ k x y hx hy
      cases k with
      | zero => simp at hx hy; subst hx hy; simpa using h1
      | succ k => exact h2 k x y (by simpa using hx) (by simpa using hy)
    · intro h
      exact ⟨by simpa using h 0 a b rfl rfl, fun k x y hx hy => h (k + 1) x y (by simpa using hx) (by simpa using hy)⟩

/-- **C41.** On a sorted sequence the check of neighbours is the check of all pairs. -/
theorem all_distinct_sorted_spec {lt pred : α → α → Bool} {l : List α} (hsorted : l.Pairwise (fun x y => lt y x = false))
    (heq : ∀ x y, pred x y = true ↔ lt x y = false ∧ lt y x = false)
    (htrans : ∀ x y z, lt y x = false → lt z y = false → lt z x = false) :
    allDistinctSorted pred l = true ↔ l.Pairwise (fun x y => pred x y = false) := by
  rw [allDistinctSorted_iff]
  constructor
  · intro h
    rw [List.pairwise_iff_getElem]
    intro i j hi hj hij
    cases hp : pred l[i] l[j] with
    | false => rfl
    | true =>
      have hn := h i l[i] l[i + 1] (by simp) (by simp)
      have h1 := List.pairwise_iff_getElem.1 hsorted i (i + 1) hi (by omega) (by omega)
      have h3 := ((heq _ _).1 hp).1
      have h2 : lt l[j] l[i + 1] = false := by
        rcases Nat.lt_or_ge (i + 1) j with hlt | hge
        · exact List.pairwise_iff_getElem.1 hsorted (i + 1) j (by omega) hj hlt
        · have : j = i + 1 := by omega
          subst this
          cases hll : lt l[i + 1] l[i + 1] with
          | false => rfl
          | true => have := htrans l[i + 1] l[i] l[i + 1] h3 h1; simp [hll] at this
      have h4 : lt l[i] l[i + 1] = false := htrans l[i + 1] l[j] l[i] h2 h3
      have := (heq l[i] l[i + 1]).2 ⟨h4, h1⟩
      simp [hn] at this
  · intro h k x y hx hy
    obtain ⟨hk, rfl⟩ := List.getElem?_eq_some_iff.1 hx
    obtain ⟨hk', rfl⟩ := List.getElem?_eq_some_iff.1 hy
    exact List.pairwise_iff_getElem.1 h k (k + 1) hk hk' (by omega)

example : (([1, 3, 3, 8] : List Nat).Pairwise (fun x y => decide (y < x) = false)) ∧
    allDistinctSorted (· == ·) [1, 3, 3, 8] = false := by decide

theorem isSortedUniqueLoop_eq {it : It ι σ α} (hst : Stable it) {cmp : β → β → Bool} {proj : α → β} :
    ∀ {l : List α} {a : α} {fuel : Nat} {i s}, it.get i s = some a → Reads it (it.inc i s).1 (it.inc i s).2 l → l.length < fuel →
    ∃ b, isSortedUniqueLoop it cmp proj fuel i i s = some b ∧
      (b = true ↔ ∀ (k : Nat) x y, (a :: l)[k]? = some x → (a :: l)[k + 1]? = some y → cmp (proj x) (proj y) = true)
  | [], a, fuel + 1, i, s, hg, .nil h, _ => ⟨true, by simp [isSortedUniqueLoop, h], by simp⟩
  | c :: l, a, fuel + 1, i, s, hg, .cons h ht, hl => by
    obtain ⟨b, e, hb⟩ := isSortedUniqueLoop_eq hst (cmp := cmp) (proj := proj) h ht (fuel := fuel) (by simpa using hl)
    have hs := hst i s (by simp [hg])
    rw [hg] at hs
    simp only [isSortedUniqueLoop, h, hs]
    cases hc : cmp (proj a) (proj c) with
    | false =>
      refine ⟨false, rfl, ?_⟩
      simp only [Bool.false_eq_true, false_iff]
      intro hk
      have := hk 0 a c rfl rfl
      simp [hc] at this
    | true =>
      refine ⟨b, e, hb.trans ⟨?_, ?_⟩⟩
      · intro h k x y hx hy
        cases k with
        | zero => simp at hx hy; subst hx hy; exact hc
        | succ k => exact h k x y (by simpa using hx) (by simpa using hy)
      · intro h k x y hx hy
        exact h (k + 1) x y (by simpa using hx) (by simpa using hy)

/-- **C41, partial.** `is_sorted_unique` of a finite range returns true iff the projected elements are strictly increasing, for all
iterators whose value is not changed by incrementing a copy (all forward iterators, `std::istream_iterator`).
Missing: other single-pass iterators, see `is_sorted_unique_refuted`. -/
theorem is_sorted_unique_partial {it : It ι σ α} (hst : Stable it) {cmp : β → β → Bool} {proj : α → β} {l : List α} {fuel : Nat}
    {i : ι} {s : σ} (h : Reads it i s l) (hl : l.length < fuel)
    (htrans : ∀ x y z, cmp x y = true → cmp y z = true → cmp x z = true) :
    ∃ b, isSortedUnique it cmp proj fuel i s = some b ∧ (b = true ↔ l.Pairwise (fun x y => cmp (proj x) (proj y) = true)) := by
  cases h with
  | nil hg => exact ⟨true, by simp [isSortedUnique, hg], by simp⟩
  | @cons _ _ a l hg ht =>
    obtain ⟨b, e, hb⟩ := isSortedUniqueLoop_eq hst (cmp := cmp) (proj := proj) hg ht (fuel := fuel) (by simp at hl; omega)
    refine ⟨b, by simp only [isSortedUnique, hg]; exact e, hb.trans ⟨?_, ?_⟩⟩
    · intro h
      rw [List.pairwise_iff_getElem]
      intro p q hp hq hpq
      induction q with
      | zero => omega
      | succ q ih =>
        have hstep := h q (a :: l)[q] (a :: l)[q + 1] (by simp) (by simp)
        rcases Nat.lt_or_ge p q with hlt | hge
        · exact htrans _ _ _ (ih (by omega) hlt) hstep
        · have : p = q := by omega
          subst this; exact hstep
    · intro h k x y hx hy
      obtain ⟨hk, rfl⟩ := List.getElem?_eq_some_iff.1 hx
      obtain ⟨hk', rfl⟩ := List.getElem?_eq_some_iff.1 hy
      exact List.pairwise_iff_getElem.1 h k (k + 1) hk hk' (by omega)

example : Stable (istreamIt Nat) ∧ Reads (istreamIt Nat) (some 1) [5, 9] [1, 5, 9] ∧
    isSortedUnique (istreamIt Nat) (fun a b => decide (a < b)) id 4 (some 1) [5, 9] = some true :=
  ⟨istream_stable, istream_reads _ _, by decide⟩

/-- **C41, refuted** for `std::istreambuf_iterator`: "abc" is sorted and unique, but the result is false, as for every input of at
least two characters. -/
theorem is_sorted_unique_refuted (a b : Nat) (l : List Nat) (fuel : Nat) :
    Reads (istreambufIt Nat) () (a :: b :: l) (a :: b :: l) ∧
    isSortedUnique (istreambufIt Nat) (fun a b => decide (a < b)) id (fuel + 1) () (a :: b :: l) = some false := by
  refine ⟨istreambuf_reads _, ?_⟩
  simp [isSortedUnique, isSortedUniqueLoop, istreambufIt]

/-! ### C42 -/

/-- The elements of `l` that differ from all earlier elements of `pre ++ l`. -/
def firstOccs (eq : α → α → Bool) : List α → List α → List α
  | _, [] => []
  | pre, x :: l => if pre.all (fun y => !eq y x) then x :: firstOccs eq (pre ++ [x]) l else firstOccs eq (pre ++ [x]) l

/-- `firstOccs` by positions: the elements at the positions `k` such that no earlier element is equal. -/
theorem firstOccs_eq (eq : α → α → Bool) (l : List α) :
    firstOccs eq [] l = (l.zipIdx.filter (fun p => (l.take p.2).all (fun y => !eq y p.1))).map Prod.fst := by
  have key : ∀ (l pre : List α), firstOccs eq pre l =
      ((l.zipIdx pre.length).filter (fun p => ((pre ++ l).take p.2).all (fun y => !eq y p.1))).map Prod.fst := by
    intro l
    induction l with
    | nil => intro pre; rfl
    | cons x l ih =>
      intro pre
      rw [firstOccs, List.zipIdx_cons, List.filter_cons]
      have ht : (pre ++ x :: l).take pre.length = pre := by simp
      have hih := ih (pre ++ [x])
      rw [List.length_append, List.length_singleton, List.append_assoc, List.singleton_append] at hih
      simp only [ht, hih]
      split <;> rfl
  simpa using key l []

example : firstOccs (fun a b : Nat => a % 3 == b % 3) [] [4, 1, 2, 7] = [4, 2] := by decide

/-- Seen values represent the prefix: a value equals a seen value iff it equals a value of the prefix. -/
def SameVals (eq : α → α → Bool) (seen pre : List α) : Prop := ∀ x, (∃ y ∈ seen, eq x y = true) ↔ ∃ y ∈ pre, eq y x = true

theorem sameVals_push {eq : α → α → Bool} (hsym : ∀ x y, eq x y = eq y x) {seen pre : List α} (h : SameVals eq seen pre) (a : α) :
    SameVals eq (a :: seen) (pre ++ [a]) := by
  intro x
  have := h x
  constructor
  · rintro ⟨y, hy, e⟩
    rcases List.mem_cons.1 hy with rfl | hy
    · exact ⟨y, by simp, by rw [hsym]; exact e⟩
    · obtain ⟨z, hz, e'⟩ := this.1 ⟨y, hy, e⟩
      exact ⟨z, by simp [hz], e'⟩
  · rintro ⟨y, hy, e⟩
    rcases List.mem_append.1 hy with hy | hy
    · obtain ⟨z, hz, e'⟩ := this.2 ⟨y, hy, e⟩
      exact ⟨z, by simp [hz], e'⟩
    · simp at hy; subst hy; exact ⟨y, by simp, by rw [hsym]; exact e⟩

theorem sameVals_dup {eq : α → α → Bool} (htrans : ∀ x y z, eq x y = true → eq y z = true → eq x z = true)
    (hsym : ∀ x y, eq x y = eq y x) {seen pre : List α} (h : SameVals eq seen pre) {a : α} (ha : ∃ y ∈ seen, eq a y = true) :
    SameVals eq seen (pre ++ [a]) := by
  intro x
  rw [h x]
  constructor
  · rintro ⟨y, hy, e⟩; exact ⟨y, by simp [hy], e⟩
  · rintro ⟨y, hy, e⟩
    rcases List.mem_append.1 hy with hy | hy
    · exact ⟨y, hy, e⟩
    · simp at hy; subst hy
      obtain ⟨z, hz, e'⟩ := (h y).1 ha
      exact ⟨z, hz, htrans _ _ _ e' e⟩

theorem findNextUnique_eq {it : It ι σ α} {set : SetImpl α} {eq : α → α → Bool} (hs : Finds set eq)
    (hsym : ∀ x y, eq x y = eq y x) (htrans : ∀ x y z, eq x y = true → eq y z = true → eq x z = true) :
    ∀ {l : List α} {fuel : Nat} {seen pre i s}, Reads it i s l → l.length < fuel → SameVals eq seen pre →
    ∃ seen' i' s', findNextUnique it set fuel seen i s = some (seen', i', s') ∧
      ((it.get i' s' = none ∧ firstOccs eq pre l = []) ∨
       ∃ x rest pre', it.get i' s' = some x ∧ Reads it (it.inc i' s').1 (it.inc i' s').2 rest ∧ rest.length < l.length ∧
         SameVals eq seen' pre' ∧ firstOccs eq pre l = x :: firstOccs eq pre' rest)
  | [], fuel + 1, seen, pre, i, s, .nil h, _, _ => ⟨seen, i, s, by simp [findNextUnique, h], .inl ⟨h, rfl⟩⟩
  | a :: l, fuel + 1, seen, pre, i, s, .cons h ht, hl, hv => by
    have hfa := hs seen a
    have hva := hv a
    cases hc : set seen a with
    | false =>
      refine ⟨a :: seen, i, s, by simp [findNextUnique, h, insert, hc], .inr ⟨a, l, pre ++ [a], h, ht, by simp, sameVals_push hsym hv a, ?_⟩⟩
      rw [firstOccs, if_pos]
      rw [hva, hc] at hfa
      rw [List.all_eq_true]
      intro y hy
      cases he : eq y a with
      | false => rfl
      | true => exact absurd (hfa.2 ⟨y, hy, he⟩) (by simp)
    | true =>
      have hd := hfa.1 hc
      obtain ⟨seen', i', s', e, hr⟩ := findNextUnique_eq hs hsym htrans ht (fuel := fuel) (by simpa using hl)
        (sameVals_dup htrans hsym hv hd)
      refine ⟨seen', i', s', by simpa [findNextUnique, h, insert, hc] using e, ?_⟩
      have hf : firstOccs eq pre (a :: l) = firstOccs eq (pre ++ [a]) l := by
        rw [firstOccs, if_neg]
        obtain ⟨y, hy, he⟩ := hva.1 hd
        rw [List.all_eq_true]
        intro hall
        have := hall y hy
        simp [he] at this
      rw [hf]
      rcases hr with hr | ⟨x, rest, pre', h1, h2, h3, h4, h5⟩
      · exact .inl hr
      · exact .inr ⟨x, rest, pre', h1, h2, by simp; omega, h4, h5⟩

/-- **C42.** A loop over `r | unique` visits exactly the elements that differ from all earlier elements, in order, for all finite
ranges `r`, including single-pass ones, with either kind of set. -/
theorem unique_spec {it : It ι σ α} {set : SetImpl α} {eq : α → α → Bool} (hs : Finds set eq) (hsym : ∀ x y, eq x y = eq y x)
    (htrans : ∀ x y z, eq x y = true → eq y z = true → eq x z = true) {l : List α} {fuel : Nat} {i : ι} {s : σ}
    (h : Reads it i s l) (hl : l.length < fuel) :
    unique it set fuel i s = some ((l.zipIdx.filter (fun p => (l.take p.2).all (fun y => !eq y p.1))).map Prod.fst) := by
  rw [← firstOccs_eq]
  have key : ∀ (n m : Nat) (l : List α) (seen pre : List α) (i : ι) (s : σ), Reads it i s l → l.length < n → l.length < m →
      SameVals eq seen pre →
      ((findNextUnique it set n seen i s).bind fun st => uniqueLoop it set n m st) = some (firstOccs eq pre l) := by
    intro n m
    induction m with
    | zero => intro l _ _ _ _ _ _ h; omega
    | succ m ih =>
      intro l seen pre i s hr hl hm hv
      obtain ⟨seen', i', s', e, hcase⟩ := findNextUnique_eq hs hsym htrans hr hl hv
      rw [e]
      simp only [Option.bind_some]
      rcases hcase with ⟨hg, hf⟩ | ⟨x, rest, pre', hg, hr', hlt, hv', hf⟩
      · simp [uniqueLoop, hg, hf]
      · simp only [uniqueLoop, hg, hf]
        have := ih rest seen' pre' _ _ hr' (by omega) (by omega) hv'
        rcases hn : findNextUnique it set n seen' (it.inc i' s').1 (it.inc i' s').2 with _ | st
        · rw [hn] at this; simp at this
        · rw [hn] at this
          simp only [Option.bind_some] at this ⊢
          rw [this]; rfl
  exact key fuel fuel l [] [] i s h hl hl (by intro x; simp)

example : unique (istreambufIt Nat) (hashSet (· % 2) (fun _ h => h) (fun a b => a % 4 == b % 4)) 6 () [1, 5, 2, 1, 6] = some [1, 2] := by decide

/-- **C42.** What the positional description means: the result is a subsequence, no two of its elements are equal, and every element of
the range is equal to one of them. -/
theorem unique_meaning {eq : α → α → Bool} (hrefl : ∀ x, eq x x = true) (hsym : ∀ x y, eq x y = eq y x)
    (htrans : ∀ x y z, eq x y = true → eq y z = true → eq x z = true) (l : List α) :
    let r := (l.zipIdx.filter (fun p => (l.take p.2).all (fun y => !eq y p.1))).map Prod.fst
    r.Sublist l ∧ r.Pairwise (fun x y => eq x y = false) ∧ ∀ x ∈ l, ∃ y ∈ r, eq x y = true := by
  intro r
  have hr : r = firstOccs eq [] l := (firstOccs_eq eq l).symm
  rw [hr]
  have key : ∀ (l pre : List α), (firstOccs eq pre l).Sublist l ∧ (firstOccs eq pre l).Pairwise (fun x y => eq x y = false) ∧
      (∀ x ∈ firstOccs eq pre l, ∀ y ∈ pre, eq y x = false) ∧
      (∀ x ∈ l, (∃ y ∈ pre, eq x y = true) ∨ ∃ y ∈ firstOccs eq pre l, eq x y = true) := by
    intro l
    induction l with
    | nil => intro pre; simp [firstOccs]
    | cons a l ih =>
      intro pre
      obtain ⟨h1, h2, h3, h4⟩ := ih (pre ++ [a])
      rw [firstOccs]
      split
      · rename_i hall
        rw [List.all_eq_true] at hall
        refine ⟨h1.cons_cons a, List.pairwise_cons.2 ⟨fun x hx => h3 x hx a (by simp), h2⟩, ?_, ?_⟩
        · intro x hx y hy
          rcases List.mem_cons.1 hx with rfl | hx
          · simpa using hall y hy
          · exact h3 x hx y (by simp [hy])
        · intro x hx
          rcases List.mem_cons.1 hx with rfl | hx
          · exact .inr ⟨x, by simp, hrefl x⟩
          · rcases h4 x hx with ⟨y, hy, e⟩ | ⟨y, hy, e⟩
            · rcases List.mem_append.1 hy with hy | hy
              · exact .inl ⟨y, hy, e⟩
              · simp at hy; subst hy; exact .inr ⟨y, by simp, e⟩
            · exact .inr ⟨y, by simp [hy], e⟩
      · rename_i hall
        have hex : ∃ y ∈ pre, eq y a = true := by
          simpa using hall
        refine ⟨h1.cons a, h2, fun x hx y hy => h3 x hx y (by simp [hy]), ?_⟩
        intro x hx
        obtain ⟨z, hz, ez⟩ := hex
        rcases List.mem_cons.1 hx with rfl | hx
        · exact .inl ⟨z, hz, by rw [hsym]; exact ez⟩
        · rcases h4 x hx with ⟨y, hy, e⟩ | ⟨y, hy, e⟩
          · rcases List.mem_append.1 hy with hy | hy
            · exact .inl ⟨y, hy, e⟩
            · simp at hy; subst hy
              exact .inl ⟨z, hz, htrans _ _ _ e (by rw [hsym]; exact ez)⟩
          · exact .inr ⟨y, hy, e⟩
  obtain ⟨h1, h2, _, h4⟩ := key l []
  exact ⟨h1, h2, fun x hx => by simpa using h4 x hx⟩

/-- **C42.** `all_distinct` iff `unique` removes nothing. -/
theorem distinct_iff_unique {it : It ι σ α} {set : SetImpl α} {eq : α → α → Bool} (hs : Finds set eq) (hsym : ∀ x y, eq x y = eq y x)
    (htrans : ∀ x y z, eq x y = true → eq y z = true → eq x z = true) (hrefl : ∀ x, eq x x = true) {l : List α} {fuel : Nat} {i : ι} {s : σ}
    (h : Reads it i s l) (hl : l.length < fuel) :
    allDistinct it set fuel i s = some true ↔ unique it set fuel i s = some l := by
  obtain ⟨b, e, hb⟩ := all_distinct_spec h hl hs hsym
  rw [e, unique_spec hs hsym htrans h hl, Option.some_inj, hb, Option.some_inj]
  constructor
  · intro hp
    have : (l.zipIdx.filter (fun p => (l.take p.2).all (fun y => !eq y p.1))) = l.zipIdx := by
      rw [List.filter_eq_self]
      rintro ⟨x, k⟩ hx
      rw [List.mem_zipIdx_iff_getElem?] at hx
      simp only at hx
      rw [List.all_eq_true]
      intro y hy
      obtain ⟨j, hj, rfl⟩ := List.mem_iff_getElem.1 hy
      obtain ⟨hk, hx⟩ := List.getElem?_eq_some_iff.1 hx
      subst hx
      rw [List.length_take] at hj
      rw [List.getElem_take]
      simp [List.pairwise_iff_getElem.1 hp j k (by omega) hk (by omega)]
    rw [this, List.zipIdx_map_fst]
  · intro hu
    have := (unique_meaning hrefl hsym htrans l).2.1
    rwa [hu] at this

example : allDistinct (forwardIt Nat) (treeSet (fun a b => decide (a < b))) 5 [3, 10, 17] () = some true ∧
    unique (forwardIt Nat) (treeSet (fun a b => decide (a < b))) 5 [3, 10, 17] () = some [3, 10, 17] := by decide

theorem findIf_eq {it : It ι σ α} {f : α → Bool} : ∀ {l : List α} {fuel : Nat} {i s}, Reads it i s l → l.length < fuel →
    ∃ i' s', findIf it f fuel i s = some (i', s') ∧
      ((it.get i' s' = none ∧ l.filter f = []) ∨
       ∃ x rest, it.get i' s' = some x ∧ Reads it (it.inc i' s').1 (it.inc i' s').2 rest ∧ rest.length < l.length ∧
         l.filter f = x :: rest.filter f)
  | [], fuel + 1, i, s, .nil h, _ => ⟨i, s, by simp [findIf, h], .inl ⟨h, rfl⟩⟩
  | a :: l, fuel + 1, i, s, .cons h ht, hl => by
    cases hf : f a with
    | true => exact ⟨i, s, by simp [findIf, h, hf], .inr ⟨a, l, h, ht, by simp, by simp [hf]⟩⟩
    | false =>
      obtain ⟨i', s', e, hr⟩ := findIf_eq (f := f) ht (fuel := fuel) (by simpa using hl)
      refine ⟨i', s', by simpa [findIf, h, hf] using e, ?_⟩
      rw [List.filter_cons, hf]
      rcases hr with hr | ⟨x, rest, h1, h2, h3, h4⟩
      · exact .inl (by simpa using hr)
      · exact .inr ⟨x, rest, h1, h2, by simp; omega, by simpa using h4⟩

/-- **C42.** A loop over `r | remove_element(value, pred)` visits exactly the elements for which `pred(element, value)` is false, in
order. -/
theorem remove_element_spec {it : It ι σ α} {pred : α → β → Bool} {value : β} {l : List α} {fuel : Nat} {i : ι} {s : σ}
    (h : Reads it i s l) (hl : l.length < fuel) :
    removeElement it pred value fuel i s = some (l.filter (fun x => !pred x value)) := by
  have key : ∀ (n m : Nat) (l : List α) (i : ι) (s : σ), Reads it i s l → l.length < n → l.length < m →
      ((findIf it (fun x => !pred x value) n i s).bind fun st => filterLoop it (fun x => !pred x value) n m st) =
        some (l.filter (fun x => !pred x value)) := by
    intro n m
    induction m with
    | zero => intro l _ _ _ _ h; omega
    | succ m ih =>
      intro l i s hr hl hm
      obtain ⟨i', s', e, hcase⟩ := findIf_eq (f := fun x => !pred x value) hr hl
      rw [e]
      simp only [Option.bind_some]
      rcases hcase with ⟨hg, hf⟩ | ⟨x, rest, hg, hr', hlt, hf⟩
      · simp only [filterLoop, hg, hf]
      · simp only [filterLoop, hg, hf]
        have := ih rest _ _ hr' (by omega) (by omega)
        rcases hn : findIf it (fun x => !pred x value) n (it.inc i' s').1 (it.inc i' s').2 with _ | st
        · rw [hn] at this; simp at this
        · rw [hn] at this
          simp only [Option.bind_some] at this ⊢
          rw [this]; rfl
  exact key fuel fuel l i s h hl hl

example : removeElement (forwardIt Nat) (fun e v => e % 3 == v) 1 6 [1, 2, 4, 3, 7] () = some [2, 3] := by decide

/-! ### C43 -/

/-- The result of the loop is the lexicographic comparison of the two sequences. -/
theorem lexCompare_eq {it : It ι σ α} {it' : It ι' σ' β} {cmp : α → β → Cmp} : ∀ {xs : List α} {ys : List β} {fuel : Nat} {i s j t},
    Reads it i s xs → Reads it' j t ys → min xs.length ys.length < fuel →
    lexCompare it it' cmp fuel i s j t = some (lexCmp cmp xs ys)
  | [], [], fuel + 1, i, s, j, t, .nil h, .nil h', _ => by simp [lexCompare, h, h', lexCmp]
  | [], _ :: _, fuel + 1, i, s, j, t, .nil h, .cons h' _, _ => by simp [lexCompare, h, h', lexCmp]
  | _ :: _, [], fuel + 1, i, s, j, t, .cons h _, .nil h', _ => by simp [lexCompare, h, h', lexCmp]
  | a :: xs, b :: ys, fuel + 1, i, s, j, t, .cons h ht, .cons h' ht', hl => by
    have ih := lexCompare_eq (cmp := cmp) ht ht' (fuel := fuel) (by simp at hl; omega)
    simp only [lexCompare, h, h', lexCmp, ih]
    cases cmp a b <;> rfl

example : lexCompare (forwardIt Nat) (forwardIt Nat) (fun a b => if a < b then .less else if b < a then .greater else .equal) 3
    [1, 2, 3] () [1, 4] () = some .less := by decide

/-- **C43.** The result is that of the first pair of elements that differ, or else the comparison of the lengths (see `LexSpec`), for
all finite ranges, also single-pass ones, of different element types. -/
theorem lex_spec {it : It ι σ α} {it' : It ι' σ' β} {cmp : α → β → Cmp} {xs : List α} {ys : List β} {fuel : Nat} {i : ι} {s : σ} {j : ι'}
    {t : σ'} (h : Reads it i s xs) (h' : Reads it' j t ys) (hl : min xs.length ys.length < fuel) :
    ∃ r, lexCompare it it' cmp fuel i s j t = some r ∧ LexSpec cmp xs ys r :=
  ⟨_, lexCompare_eq h h' hl, lexCmp_spec cmp xs ys⟩

example : lexCompare (forwardIt Nat) (istreambufIt Nat) (fun a b => if a < b then .less else if b < a then .greater else .equal) 3
    [1, 2, 3] () () [1, 2] = some .greater := by decide

/-- The comparison of `y` with `x`, given that of `x` with `y`. -/
def swap : Cmp → Cmp
  | .less => .greater
  | .greater => .less
  | r => r

/-- The laws of a comparison: the converse is the swapped result, equal things are interchangeable, less is transitive. -/
structure OrderLaws (c : α → α → Cmp) : Prop where
  refl : ∀ x, c x x = .equal
  swap : ∀ x y, c y x = swap (c x y)
  congr : ∀ x y z, c x y = .equal → c x z = c y z
  trans : ∀ x y z, c x y = .less → c y z = .less → c x z = .less

theorem lexCmp_refl {c : α → α → Cmp} (h : ∀ x, c x x = .equal) : ∀ xs, lexCmp c xs xs = .equal
  | [] => rfl
  | x :: xs => by simp [lexCmp, h x, lexCmp_refl h xs]

theorem lexCmp_swap {c : α → β → Cmp} {c' : β → α → Cmp} (h : ∀ x y, c' y x = swap (c x y)) : ∀ xs ys, lexCmp c' ys xs = swap (lexCmp c xs ys)
  | [], [] => rfl
  | [], _ :: _ => rfl
  | _ :: _, [] => rfl
  | x :: xs, y :: ys => by
    have ih := lexCmp_swap h xs ys
    simp only [lexCmp, h x y]
    cases c x y <;> simp [swap, ih]

theorem lexCmp_congr {c : α → α → Cmp} (h : OrderLaws c) : ∀ xs ys zs, lexCmp c xs ys = .equal → lexCmp c xs zs = lexCmp c ys zs
  | [], [], _, _ => rfl
  | [], _ :: _, _, e => by simp [lexCmp] at e
  | _ :: _, [], _, e => by simp [lexCmp] at e
  | x :: xs, y :: ys, [], _ => rfl
  | x :: xs, y :: ys, z :: zs, e => by
    have he : c x y = .equal := by
      cases hc : c x y <;> simp [lexCmp, hc] at e ⊢
    simp only [lexCmp, he] at e
    simp only [lexCmp, h.congr x y z he]
    cases c y z <;> simp [lexCmp_congr h xs ys zs e]

theorem lexCmp_trans {c : α → α → Cmp} (h : OrderLaws c) : ∀ xs ys zs, lexCmp c xs ys = .less → lexCmp c ys zs = .less → lexCmp c xs zs = .less
  | [], [], _, e, _ => by simp [lexCmp] at e
  | _ :: _, [], _, e, _ => by simp [lexCmp] at e
  | _, _ :: _, [], _, e => by simp [lexCmp] at e
  | [], _ :: _, _ :: _, _, _ => rfl
  | x :: xs, y :: ys, z :: zs, e1, e2 => by
    simp only [lexCmp] at e1 e2 ⊢
    cases hxy : c x y with
    | equal =>
      rw [hxy] at e1
      rw [h.congr x y z hxy]
      cases hyz : c y z with
      | equal => rw [hyz] at e2; exact lexCmp_trans h xs ys zs e1 e2
      | less => rfl
      | greater => rw [hyz] at e2; simp at e2
      | unordered => rw [hyz] at e2; simp at e2
    | less =>
      cases hyz : c y z with
      | equal =>
        have h1 : c z y = .equal := by rw [h.swap y z, hyz]; rfl
        have h2 := h.congr z y x h1
        have h3 : c x z = .less := by rw [h.swap z x, h2, h.swap x y, hxy]; rfl
        rw [h3]
      | less => rw [h.trans x y z hxy hyz]
      | greater => rw [hyz] at e2; simp at e2
      | unordered => rw [hyz] at e2; simp at e2
    | greater => rw [hxy] at e1; simp at e1
    | unordered => rw [hxy] at e1; simp at e1

/-- **C43.** If the comparison of the elements satisfies the laws of a comparison, so does that of the ranges; if the elements are
totally ordered, so are the ranges; and ranges are equal iff they have the same length and equal elements at each position. -/
theorem lex_order {c : α → α → Cmp} (h : OrderLaws c) :
    OrderLaws (lexCmp c) ∧ ((∀ x y, c x y ≠ .unordered) → ∀ xs ys, lexCmp c xs ys ≠ .unordered) ∧
    ∀ xs ys, lexCmp c xs ys = .equal ↔
      xs.length = ys.length ∧ ∀ (i : Nat) x y, xs[i]? = some x → ys[i]? = some y → c x y = .equal := by
  refine ⟨⟨lexCmp_refl h.refl, lexCmp_swap h.swap, lexCmp_congr h, lexCmp_trans h⟩, ?_, ?_⟩
  · intro hu xs ys e
    have hsp := lexCmp_spec c xs ys
    rw [e] at hsp
    cases hsp with
    | differ k hx hy hr hne _ => exact hu _ _ hr
  · intro xs ys
    constructor
    · intro e
      have hsp := lexCmp_spec c xs ys
      rw [e] at hsp
      cases hsp with
      | same hl h => exact ⟨hl, h⟩
      | differ k hx hy hr hne _ => exact absurd rfl hne
    · rintro ⟨hl, heq⟩
      have hsp := lexCmp_spec c xs ys
      generalize lexCmp c xs ys = r at hsp ⊢
      cases hsp with
      | same => rfl
      | shorter h => omega
      | longer h => omega
      | differ k hx hy hr hne _ => exact absurd (heq k _ _ hx hy) (by rw [hr]; exact hne)

/-- The laws hold for the usual comparison of integers, and for the comparison of floating-point numbers with the unordered value left out. -/
example : OrderLaws (fun a b : Int => if a < b then Cmp.less else if b < a then .greater else .equal) := by
  refine ⟨by intro x; simp, ?_, ?_, ?_⟩
  · intro x y; by_cases h1 : x < y <;> by_cases h2 : y < x <;> simp [h1, h2, swap] <;> omega
  · intro x y z h
    by_cases h1 : x < y <;> by_cases h2 : y < x <;> simp [h1, h2] at h
    have : x = y := by omega
    rw [this]
  · intro x y z
    by_cases h1 : x < y <;> by_cases h2 : y < z <;> simp [h1, h2] <;> (try split) <;> (try simp) <;> omega

end Verif.RangesAlgo
