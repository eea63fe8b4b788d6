import Verif.NextTo.Props

/-!
The iterator that tests/tests_next_to_range.cpp iterates with, for any container: it meets the laws the theorems about `next_to_range` and
`next_to_view` need, so the expectations of the test cases hold for containers of any length. Then the test cases themselves, run through the model.
-/
namespace Verif.Conform.NextTo

open Verif.NextTo

variable {α : Type}

/-- `values_yielder_iter` (tests/tests_next_to_range.cpp:43-53): the container and the two positions. -/
structure Yielder (α : Type) where
  values : List α
  cur : Nat
  fin : Nat
  deriving DecidableEq, Repr

/-- The constructor (tests/tests_next_to_range.cpp:52-53). -/
def Yielder.new (values : List α) : Yielder α := ⟨values, 0, values.length⟩

/-- `next` (tests/tests_next_to_range.cpp:55-61). An access outside the container gives `none` too; it does not happen (`yielder_lawful`). -/
def Yielder.next (s : Yielder α) : Option α × Yielder α :=
  if s.fin ≤ s.cur then (none, s) else (s.values[s.cur]?, { s with cur := s.cur + 1 })

/-- `next_back` (tests/tests_next_to_range.cpp:72-78). -/
def Yielder.nextBack (s : Yielder α) : Option α × Yielder α :=
  if s.fin ≤ s.cur then (none, s) else (s.values[s.fin - 1]?, { s with fin := s.fin - 1 })

/-- The operations of the iterator (tests/tests_next_to_range.cpp:55-92): `nth`, `nth_back`, `remaining` and those above. -/
def yielder : Iter (Yielder α) α where
  next := Yielder.next
  nextBack := Yielder.nextBack
  nth s off := if s.fin - s.cur < off then (none, { s with cur := s.fin }) else Yielder.next { s with cur := s.cur + off }
  nthBack s off := if s.fin - s.cur < off then (none, { s with fin := s.cur }) else Yielder.nextBack { s with fin := s.fin - off }
  remaining s := s.fin - s.cur

/-- The iterator stands for the part of the container between its positions (tests/tests_next_to_range.cpp:43-92). -/
def Stands (s : Yielder α) (l : List α) : Prop := s.cur ≤ s.fin ∧ s.fin ≤ s.values.length ∧ l = (s.values.take s.fin).drop s.cur

theorem next_stands {s : Yielder α} {l : List α} (h : Stands s l) : s.next.1 = l.head? ∧ Stands s.next.2 l.tail := by
  obtain ⟨v, c, f⟩ := s
  obtain ⟨h1, h2, rfl⟩ := h
  dsimp only at *
  by_cases hc : f ≤ c
  · have : c = f := by omega
    subst this
    simp [Yielder.next, Stands, h2]
  · simp only [Yielder.next, hc, if_false, List.tail_drop, Stands]
    refine ⟨?_, by omega, h2, trivial⟩
    rw [List.head?_drop, List.getElem?_take, if_pos (by omega)]

theorem nextBack_stands {s : Yielder α} {l : List α} (h : Stands s l) : s.nextBack.1 = l.getLast? ∧ Stands s.nextBack.2 l.dropLast := by
  obtain ⟨v, c, f⟩ := s
  obtain ⟨h1, h2, rfl⟩ := h
  dsimp only at *
  by_cases hc : f ≤ c
  · have : c = f := by omega
    subst this
    simp [Yielder.nextBack, Stands, h2]
  · simp only [Yielder.nextBack, hc, if_false, Stands]
    refine ⟨?_, by omega, by omega, ?_⟩
    · rw [List.getLast?_eq_getElem?, List.getElem?_drop, List.getElem?_take]
      simp only [List.length_drop, List.length_take, Nat.min_eq_left h2]
      rw [if_pos (by omega)]; congr 1; omega
    · rw [List.dropLast_eq_take, List.length_drop, List.length_take, Nat.min_eq_left h2, List.take_drop, List.take_take]
      congr 2; omega

/-- The iterator of the tests is a lawful double-ended, sized, random-access iterator, for every container and every pair of positions. -/
theorem yielder_lawful : Lawful (yielder : Iter (Yielder α) α) Stands where
  next h := next_stands h
  nextBack h := nextBack_stands h
  remaining := by
    rintro ⟨v, c, f⟩ l ⟨h1, h2, rfl⟩
    dsimp only at *
    simp [yielder, Nat.min_eq_left h2]
  nth := by
    rintro ⟨v, c, f⟩ l k ⟨h1, h2, rfl⟩
    dsimp only at *
    by_cases hk : f - c < k
    · simp only [yielder, hk, if_true]
      refine ⟨?_, Nat.le_refl f, h2, ?_⟩
      · rw [List.getElem?_eq_none]; simp; omega
      · rw [List.drop_drop, List.drop_of_length_le (by simp; omega), List.drop_of_length_le (by simp; omega)]
    · simp only [yielder, hk, if_false]
      have := next_stands (s := ⟨v, c + k, f⟩) ⟨by dsimp only; omega, h2, rfl⟩
      dsimp only at this
      refine ⟨by rw [this.1, List.head?_drop, List.getElem?_drop], ?_⟩
      have h3 := this.2
      rwa [List.tail_drop, show c + k + 1 = c + (k + 1) by omega, ← List.drop_drop] at h3
  nthBack := by
    rintro ⟨v, c, f⟩ l k ⟨h1, h2, rfl⟩
    dsimp only at *
    have hl : ((v.take f).drop c).length = f - c := by simp [Nat.min_eq_left h2]
    by_cases hk : f - c < k
    · simp only [yielder, hk, if_true]
      refine ⟨?_, Nat.le_refl c, by dsimp only; omega, ?_⟩
      · rw [List.getElem?_eq_none]; simp; omega
      · rw [hl, show f - c - (k + 1) = 0 by omega, List.take_zero, List.drop_of_length_le (by simp; omega)]
    · simp only [yielder, hk, if_false]
      have := nextBack_stands (s := ⟨v, c, f - k⟩) ⟨by dsimp only; omega, by dsimp only; omega, rfl⟩
      dsimp only at this
      have he : (v.take (f - k)).drop c = ((v.take f).drop c).take (f - c - k) := by
        rw [List.take_drop, List.take_take]; congr 2; omega
      constructor
      · rw [this.1, he]
        by_cases h0 : f - c = k
        · simp [h0, hl]
        · rw [List.getElem?_reverse (by omega), List.getLast?_eq_getElem?, List.length_take, hl, List.getElem?_take, if_pos (by omega)]
          congr 1; omega
      · have h3 := this.2
        rw [he, List.dropLast_eq_take, List.length_take, hl, List.take_take] at h3
        rw [hl]
        rwa [show min (min (f - c - k) (f - c) - 1) (f - c - k) = f - c - (k + 1) by omega] at h3

example : Stands (Yielder.new [0, 1, 2, 3]) [0, 1, 2, 3] ∧ (yielder.nth (Yielder.new [0, 1, 2, 3]) 2).1 = some 2 ∧
    (yielder.nthBack (Yielder.new [0, 1, 2, 3]) 4).1 = none := by
  refine ⟨⟨by decide, by decide, by decide⟩, by decide, by decide⟩

/-- What the test cases expect, for a container of any length: size, emptiness, the elements in both directions, `front`, `back`, `operator[]`
and `advance`. -/
theorem yielder_view (v : List α) :
    size yielder (Yielder.new v) = v.length ∧ (empty yielder (Yielder.new v) = true ↔ v = []) ∧
    visit yielder .forward (v.length + 1) (begin yielder (Yielder.new v)) = v ∧
    visit yielder .backward (v.length + 1) (rbegin yielder (Yielder.new v)) = v.reverse ∧
    front yielder (Yielder.new v) = v.head? ∧ back yielder (Yielder.new v) = v.getLast? ∧
    (∀ k, index yielder (Yielder.new v) k = v[k]?) ∧
    ∀ k, visit yielder .forward (v.length + 1) (begin yielder (advance yielder (Yielder.new v) k)) = v.drop k := by
  have hr : Stands (Yielder.new v) v := ⟨Nat.zero_le _, Nat.le_refl _, by simp [Yielder.new]⟩
  obtain ⟨h1, h2, h3, h4, h5, -, -⟩ := view_forward yielder_lawful.toLawfulFwd hr
  obtain ⟨h6, h7⟩ := view_backward yielder_lawful hr
  exact ⟨h4, h5, h1, h6, h2, h7, h3, fun k => advance_visit yielder_lawful.toLawfulFwd hr k⟩

example : visit yielder .backward 3 (rbegin yielder (Yielder.new [1, 2])) = [2, 1] := by decide

/-- `non_copy_iota_iter` (tests/tests_next_to_range.cpp:15-34): endless; it has `next` only. -/
def iota : Iter Int Int := ⟨fun s => (some s, s + 1), fun s => (none, s), fun s _ => (none, s), fun s _ => (none, s), fun _ => 0⟩

-- tests_next_to_range.cpp:105-115, "sanity check"; `take` stops after three values, `filter` looks at six
example : visit iota .forward 3 (begin iota 0) = [0, 1, 2] ∧
    ((visit iota .forward 6 (begin iota 0)).map (· + 1)).filter (· % 2 == 0) = [2, 4, 6] := by decide

-- tests_next_to_range.cpp:117-143, "peeking"
example : let s := Yielder.new [1, 2]
    let it := begin yielder s
    let p := peek yielder .forward it
    let it1 := inc yielder .forward p.2
    let p1 := peek yielder .forward it1
    let it2 := inc yielder .forward p1.2
    empty yielder s = false ∧ size yielder s = 2 ∧ toBool yielder s = true ∧
    atEnd it = false ∧ deref it = some 1 ∧ p.1 = some 2 ∧
    atEnd it1 = false ∧ deref it1 = some 2 ∧ p1.1 = none ∧
    atEnd it2 = true ∧ (peek yielder .forward it2).1 = none ∧
    front yielder s = some 1 ∧ back yielder s = some 2 := by decide

-- tests_next_to_range.cpp:145-151, "reverse iterator"
example : visit yielder .backward 9 (rbegin yielder (Yielder.new [1, 2])) = [2, 1] := by decide

-- tests_next_to_range.cpp:153-159, "empty"
example : size yielder (Yielder.new ([] : List Nat)) = 0 ∧ empty yielder (Yielder.new ([] : List Nat)) = true ∧
    toBool yielder (Yielder.new ([] : List Nat)) = false := by decide

-- tests_next_to_range.cpp:161-199, "random access"
example : let s := Yielder.new [0, 1, 2, 3]
    let p := peek yielder .forward (begin yielder s)
    let plus := add yielder .forward p.2 1
    let p1 := peek yielder .forward p.2
    let a := addAssign yielder .forward p1.2 1
    let p2 := peek yielder .forward a
    let b := addAssign yielder .forward p2.2 2
    let p3 := peek yielder .forward b
    deref (begin yielder s) = some 0 ∧ p.1 = some 1 ∧ deref plus = some 1 ∧ p1.1 = some 1 ∧ deref a = some 1 ∧ p2.1 = some 2 ∧
    deref b = some 3 ∧ p3.1 = none ∧ atEnd (inc yielder .forward p3.2) = true ∧
    index yielder s 0 = some 0 ∧ index yielder s 1 = some 1 ∧ index yielder s 2 = some 2 ∧ index yielder s 3 = some 3 ∧
    visit yielder .forward 9 (begin yielder (advance yielder s 0)) = [0, 1, 2, 3] ∧
    visit yielder .forward 9 (begin yielder (advance yielder (advance yielder s 0) 2)) = [2, 3] ∧
    visit yielder .forward 9 (begin yielder (advance yielder (advance yielder (advance yielder s 0) 2) 1)) = [3] ∧
    visit yielder .forward 9 (begin yielder (advance yielder (advance yielder (advance yielder (advance yielder s 0) 2) 1) 1)) = [] := by decide

-- tests_next_to_range.cpp:201-226, post-increment
example : deref (begin iota 0) = some 0 ∧ deref (inc iota .forward (begin iota 0)) = some 1 ∧
    deref (postInc yielder .forward (begin yielder (Yielder.new [0, 1]))).1 = some 0 ∧
    deref (postInc yielder .forward (begin yielder (Yielder.new [0, 1]))).2 = some 1 := by decide

-- tests_next_to_range.cpp:228-244, "pipeline pitfall"
example : ((visit yielder .forward 9 (begin yielder (Yielder.new [1, 2, 3]))).map (· + 1)).take 1 = [2] ∧
    (visit yielder .forward 9 (begin yielder (Yielder.new [1, 2, 3]))).map (· + 1) = [2, 3, 4] := by decide

end Verif.Conform.NextTo
