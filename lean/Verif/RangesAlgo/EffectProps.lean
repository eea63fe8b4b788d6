import Verif.RangesAlgo.EffectModel
import Verif.RangesAlgo.Props

/-! C77: how the range algorithms call function objects and treat the elements of ranges. -/
namespace Verif.RangesAlgo

open Verif.FlexArray (Cmp)

variable {α β γ τ ρ : Type}

/-! ### Specification -/

/-- Call the function object for each of the values, in order: the answers and the final state. -/
def calls (p : τ → α → Bool × τ) : τ → List α → List Bool × τ
  | t, [] => ([], t)
  | t, x :: l => let r := calls p (p t x).2 l; ((p t x).1 :: r.1, r.2)

/-- `r` is the outcome of a search for an element with answer `want`: the object was called exactly once for each element of a prefix, in order;
either `want` was the last answer and the only one of its kind, or all elements were asked without it. -/
def SearchOutcome (p : τ → α → Bool × τ) (t : τ) (l : List α) (want : Bool) (found : Bool) (t' : τ) : Prop :=
  ∃ asked rest, l = asked ++ rest ∧ t' = (calls p t asked).2 ∧
    if found then ∃ n, (calls p t asked).1 = List.replicate n (!want) ++ [want]
    else rest = [] ∧ (calls p t asked).1 = List.replicate l.length (!want)

/-! ### Proofs -/

theorem outcome_nil (p : τ → α → Bool × τ) (t : τ) (want : Bool) : SearchOutcome p t [] want false t := ⟨[], [], rfl, rfl, by simp [calls]⟩

theorem outcome_stop {p : τ → α → Bool × τ} {t t' : τ} {x : α} {want : Bool} (l : List α) (h : p t x = (want, t')) :
    SearchOutcome p t (x :: l) want true t' := ⟨[x], l, rfl, by simp [calls, h], by simp only [if_true]; exact ⟨0, by simp [calls, h]⟩⟩

theorem outcome_go {p : τ → α → Bool × τ} {t t' t'' : τ} {x : α} {want found : Bool} {l : List α} (h : p t x = (!want, t'))
    (hl : SearchOutcome p t' l want found t'') : SearchOutcome p t (x :: l) want found t'' := by
  obtain ⟨asked, rest, hl, ht, hf⟩ := hl
  refine ⟨x :: asked, rest, by simp [hl], by simp [calls, h, ht], ?_⟩
  cases found
  · simp only [Bool.false_eq_true, if_false] at hf ⊢
    exact ⟨hf.1, by simp [calls, h, hf.2, List.replicate_succ]⟩
  · simp only [if_true] at hf ⊢
    obtain ⟨n, hn⟩ := hf
    exact ⟨n + 1, by simp [calls, h, hn, List.replicate_succ]⟩

/-- **C77.** `all_of`, `any_of` and `none_of` call the predicate once per element, in order, and stop at the first element that decides the
result. -/
theorem quantifier_calls (p : τ → α → Bool × τ) (t : τ) (l : List α) :
    SearchOutcome p t l false (!(allOfS p t l).1) (allOfS p t l).2 ∧
    SearchOutcome p t l true (anyOfS p t l).1 (anyOfS p t l).2 ∧
    SearchOutcome p t l true (!(noneOfS p t l).1) (noneOfS p t l).2 := by
  induction l generalizing t with
  | nil => exact ⟨outcome_nil p t false, outcome_nil p t true, outcome_nil p t true⟩
  | cons x l ih =>
    cases h : p t x with
    | mk b t' =>
      obtain ⟨h1, h2, h3⟩ := ih t'
      cases b
      · refine ⟨by simpa [allOfS, h] using outcome_stop l h, ?_, ?_⟩
        · simpa [anyOfS, h] using outcome_go (want := true) h h2
        · simpa [noneOfS, h] using outcome_go (want := true) h h3
      · refine ⟨?_, by simpa [anyOfS, h] using outcome_stop l h, by simpa [noneOfS, h] using outcome_stop l h⟩
        simpa [allOfS, h] using outcome_go (want := false) h h1

/-- a predicate that counts its calls -/
example : allOfS (fun (n : Nat) (x : Nat) => (decide (x < 3), n + 1)) 0 [1, 2, 5, 1] = (false, 3) := by decide

/-- **C77.** `all_equal` calls the predicate for each element after the first one together with the first one. -/
theorem all_equal_calls (p : τ → α → α → Bool × τ) (t : τ) (first : α) (l : List α) :
    allEqualS p t [] = (true, t) ∧
    SearchOutcome (fun t current => p t current first) t l false (!(allEqualS p t (first :: l)).1) (allEqualS p t (first :: l)).2 :=
  ⟨rfl, (quantifier_calls (fun t current => p t current first) t l).1⟩

/-- **C77.** `is_sorted_unique` tests each pair of neighbours once, in order, and stops at the first one not in order; a test projects both elements
and compares the results once. -/
theorem is_sorted_unique_calls (leftFirst : Bool) (cmp : τ → β → β → Bool × τ) (proj : ρ → α → β × ρ) (s : τ × ρ) (l : List α) :
    SearchOutcome (fun s (xy : α × α) => sortedTest leftFirst cmp proj s xy.1 xy.2) s (l.zip l.tail) false
      (!(isSortedUniqueS leftFirst cmp proj s l).1) (isSortedUniqueS leftFirst cmp proj s l).2 := by
  cases l with
  | nil => exact outcome_nil _ s false
  | cons x l =>
    simp only [isSortedUniqueS, List.tail_cons]
    induction l generalizing s x with
    | nil => exact outcome_nil _ s false
    | cons y l ih =>
      rw [List.zip_cons_cons]
      cases h : sortedTest leftFirst cmp proj s x y with
      | mk b s' =>
        cases b
        · simpa [sortedLoop, h] using outcome_stop (p := fun s (xy : α × α) => sortedTest leftFirst cmp proj s xy.1 xy.2) (x := (x, y)) _ h
        · simpa [sortedLoop, h] using
            outcome_go (p := fun s (xy : α × α) => sortedTest leftFirst cmp proj s xy.1 xy.2) (x := (x, y)) (want := false) h (ih s' y)

/-- a comparison that logs its arguments -/
example : isSortedUniqueS true (fun (t : List (Nat × Nat)) a b => (decide (a < b), t ++ [(a, b)])) (fun (n : Nat) x => (x, n + 1)) ([], 0)
    [1, 4, 4, 9] = (false, ([(1, 4), (4, 4)], 4)) := by decide

/-- **C77.** What a test does, whatever order the compiler chooses, if projecting has no side effects. -/
theorem sortedTest_spec (leftFirst : Bool) (cmp : τ → β → β → Bool × τ) (f : α → β) (t : τ) (r : ρ) (x y : α) :
    sortedTest leftFirst cmp (fun r x => (f x, r)) (t, r) x y = ((cmp t (f x) (f y)).1, ((cmp t (f x) (f y)).2, r)) := by
  cases leftFirst <;> rfl

/-- **C77.** A test projects each of the two elements once: the log of a projection that writes one. -/
theorem sortedTest_log (leftFirst : Bool) (cmp : τ → β → β → Bool × τ) (f : α → β) (t : τ) (log : List α) (x y : α) :
    sortedTest leftFirst cmp (fun (r : List α) x => (f x, r ++ [x])) (t, log) x y =
      ((cmp t (f x) (f y)).1, ((cmp t (f x) (f y)).2, log ++ if leftFirst then [x, y] else [y, x])) := by
  cases leftFirst <;> simp [sortedTest]

example : sortedTest false (fun (_ : Unit) a b => (decide (a < b), ())) (fun (r : List Nat) x => (x, r ++ [x])) ((), []) 1 2 = (true, ((), [2, 1])) := by
  decide

/-- The comparison as a question: do the elements differ? -/
def differ (cmp : τ → α → β → Cmp × τ) (t : τ) (xy : α × β) : Bool × τ := (decide ((cmp t xy.1 xy.2).1 ≠ .equal), (cmp t xy.1 xy.2).2)

/-- **C77.** `lexicographical_compare_three_way` compares the elements at equal positions once, in order, and stops at the first that differ; that
comparison then gives the result, else the lengths do. -/
theorem lex_calls (cmp : τ → α → β → Cmp × τ) (t : τ) (xs : List α) (ys : List β) :
    ∃ found, SearchOutcome (differ cmp) t (xs.zip ys) true found (lexCompareS cmp t xs ys).2 ∧
    (found = true → ∃ pre x y rest, xs.zip ys = pre ++ (x, y) :: rest ∧ (calls (differ cmp) t pre).1 = List.replicate pre.length false ∧
      lexCompareS cmp t xs ys = cmp (calls (differ cmp) t pre).2 x y) ∧
    (found = false → (lexCompareS cmp t xs ys).1 =
      if xs.length < ys.length then .less else if ys.length < xs.length then .greater else .equal) := by
  induction xs generalizing t ys with
  | nil =>
    cases ys with
    | nil => exact ⟨false, outcome_nil _ t true, by simp, by simp [lexCompareS]⟩
    | cons y ys => exact ⟨false, outcome_nil _ t true, by simp, by simp [lexCompareS]⟩
  | cons x xs ih =>
    cases ys with
    | nil => exact ⟨false, outcome_nil _ t true, by simp, by simp [lexCompareS]⟩
    | cons y ys =>
      cases h : cmp t x y with
      | mk c t' =>
        by_cases hc : c = .equal
        · subst hc
          obtain ⟨found, h1, h2, h3⟩ := ih t' ys
          have hd : differ cmp t (x, y) = (!true, t') := by simp [differ, h]
          refine ⟨found, ?_, ?_, ?_⟩
          · rw [List.zip_cons_cons]
            simpa [lexCompareS, h] using outcome_go hd h1
          · intro hf
            obtain ⟨pre, x', y', rest, e1, e2, e3⟩ := h2 hf
            refine ⟨(x, y) :: pre, x', y', rest, by simp [e1], ?_, ?_⟩
            · simp [calls, hd, e2, List.replicate_succ]
            · simp [calls, hd, ← e3, lexCompareS, h]
          · simpa [lexCompareS, h] using h3
        · have e : lexCompareS cmp t (x :: xs) (y :: ys) = (c, t') := by
            simp only [lexCompareS, h]
          refine ⟨true, ?_, ?_, by simp⟩
          · rw [List.zip_cons_cons, e]
            exact outcome_stop _ (by simp [differ, h, hc])
          · intro _
            exact ⟨[], x, y, xs.zip ys, rfl, rfl, by rw [e]; exact h.symm⟩

example : lexCompareS (fun (n : Nat) (x y : Nat) => (if x < y then .less else if y < x then .greater else .equal, n + 1)) 0 [1, 2, 3] [1, 5, 0] =
    (Cmp.less, 2) := by decide

/-- **C77.** All call forms give the same result, and the function object of the caller keeps its state; a stored pipeline can be used again, with the
same result for the same range. -/
theorem forms_agree (impl : τ → List α → Bool × τ) (t : τ) (l : List α) (f g : Form) :
    callForm impl f t l = callForm impl g t l ∧ callForm impl f t l = ((impl t l).1, t) ∧
    usePipeline impl t l = ((impl t l).1, t) ∧
    usePipeline impl (usePipeline impl t l).2 l = usePipeline impl t l := by
  cases f <;> cases g <;> exact ⟨rfl, rfl, rfl, rfl⟩

/-- a predicate that accepts only the first two calls: the pipeline accepts a range of two elements again and again -/
example : (usePipeline (allOfS fun (n : Nat) (_ : Nat) => (decide (n < 2), n + 1)) (usePipeline (allOfS fun n _ => (decide (n < 2), n + 1)) 0 [7, 8]).2
    [7, 8]).1 = true := by decide

/-! ### The elements of the range -/

theorem insertRef_lvalue (set : SetImpl α) (hollow : α → α) (eager : Bool) (seen : List α) (x : α) :
    insertRef set hollow eager .lvalue seen x = ((insert set seen x).1, (insert set seen x).2, x) := by
  simp only [insertRef]

/-- **C77, partial.** On ranges of lvalues `all_distinct`, `all_equal` and `unique` leave the elements of the range as they were, and what is read
from a `unique_view` are elements of the range. Missing: ranges of rvalues. -/
theorem lvalue_unchanged_partial (set : SetImpl α) (pred : α → α → Bool) (hollow : α → α) (eager : Bool) (seen l : List α) :
    (allDistinctM set hollow eager .lvalue seen l).2 = l ∧ (uniqueM set hollow eager .lvalue seen l).2 = l ∧
    (allEqualM pred hollow .lvalue l).2 = l ∧ (uniqueM set hollow eager .lvalue seen l).1.Sublist l := by
  refine ⟨?_, ?_, ?_, ?_⟩
  · induction l generalizing seen with
    | nil => rfl
    | cons x l ih =>
      rw [allDistinctM, insertRef_lvalue]
      cases (insert set seen x).2
      · rfl
      · simp [ih]
  · induction l generalizing seen with
    | nil => rfl
    | cons x l ih =>
      rw [uniqueM, insertRef_lvalue]
      cases (insert set seen x).2 <;> simp [ih]
  · cases l <;> rfl
  · induction l generalizing seen with
    | nil => exact List.Sublist.slnil
    | cons x l ih =>
      rw [uniqueM, insertRef_lvalue]
      cases (insert set seen x).2
      · exact (ih _).cons x
      · exact (ih _).cons_cons x

/-- the set of `unique` for numbers with an exact hash -/
example : uniqueM (treeSet fun x y => decide (x < y)) (fun _ => 0) true .lvalue [] [3, 1, 3, 2] = ([3, 1, 2], [3, 1, 3, 2]) := by decide

/-- **C77, refuted.** Everything read from a `unique_view` over a range of rvalues was moved from before; in general: what is read is what moving
leaves. -/
theorem unique_rvalue_refuted (set : SetImpl α) (hollow : α → α) (eager : Bool) (seen l : List α) :
    ∀ y ∈ (uniqueM set hollow eager .rvalue seen l).1, ∃ x ∈ l, y = hollow x := by
  induction l generalizing seen with
  | nil => intro y hy; simp [uniqueM] at hy
  | cons x l ih =>
    intro y hy
    rw [uniqueM] at hy
    cases h : insertRef set hollow eager .rvalue seen x with
    | mk seen' r =>
      obtain ⟨b, x'⟩ := r
      rw [h] at hy
      cases b
      · obtain ⟨z, hz, e⟩ := ih seen' y hy
        exact ⟨z, by simp [hz], e⟩
      · have hx : x' = hollow x := by
          simp only [insertRef] at h
          cases hi : insert set seen x with
          | mk s b =>
            rw [hi] at h
            cases b <;> simp at h
            exact h.2.symm
        simp only [List.mem_cons] at hy
        rcases hy with rfl | hy
        · exact ⟨x, by simp, hx⟩
        · obtain ⟨z, hz, e⟩ := ih seen' y hy
          exact ⟨z, by simp [hz], e⟩

example : uniqueM (treeSet fun x y => decide (x < y)) (fun _ => 0) false .rvalue [] [3, 1, 3, 2] = ([0, 0, 0], [0, 0, 3, 0]) := by decide

/-- **C77, refuted.** `all_distinct` and `all_equal` on a range of rvalues move from its elements. -/
theorem rvalue_moved_refuted :
    allDistinctM (treeSet fun x y => decide (x < y)) (fun _ => 0) false .rvalue [] [3, 1, 2] = (true, [0, 0, 0]) ∧
    allEqualM (fun x y => x == y) (fun _ => 0) .rvalue [3, 3] = (true, [0, 3]) := by decide

/-- **C77.** The results of `all_distinct` and `all_equal` do not depend on whether elements are copied or moved from. `all_equal` asks for each element
after the first one whether it is related to the first one. -/
theorem moved_results (set : SetImpl α) (pred : α → α → Bool) (hollow : α → α) (eager : Bool) (k : RefKind) (seen l : List α) :
    (allDistinctM set hollow eager k seen l).1 = (allDistinctM set hollow eager .lvalue seen l).1 ∧
    ((allEqualM pred hollow k l).1 = true ↔ ∀ first rest, l = first :: rest → ∀ y ∈ rest, pred y first = true) ∧
    (allDistinctM set hollow eager k seen l).2.length = l.length ∧ (allEqualM pred hollow k l).2.length = l.length := by
  refine ⟨?_, ?_, ?_, ?_⟩
  · induction l generalizing seen with
    | nil => rfl
    | cons x l ih =>
      cases k
      · rfl
      · simp only [allDistinctM, insertRef]
        cases h : insert set seen x with
        | mk s b => cases b <;> simp [ih]
  · cases l with
    | nil => simp [allEqualM]
    | cons x l => simp [allEqualM]
  · induction l generalizing seen with
    | nil => rfl
    | cons x l ih =>
      simp only [allDistinctM, insertRef]
      cases h : insert set seen x with
      | mk s b => cases b <;> cases k <;> simp [ih]
  · cases l <;> simp [allEqualM]

example : (allEqualM (fun x y => decide (x ≤ y)) (fun _ => 0) .rvalue [3, 1, 2]).1 = true ∧
    (allEqualM (fun x y => decide (x ≤ y)) (fun _ => 0) .rvalue [1, 3, 2]).1 = false := by decide

end Verif.RangesAlgo
