import Verif.Init.TupleModel
/-!
# Properties of the constructors of tuples (C96)
-/
namespace Verif.Init.Tuple

/-- What a copy should be made by: an rvalue that is not `const` is moved from, everything else is copied. -/
def expected (isConst lvalue : Bool) : Ctor := if isConst || lvalue then .copy else .move

/-- Copy initialization copies or moves tuples of any length. -/
theorem copy_init (n : Nat) (w : What) (hw : w = .self ∨ w = .derived) (c l : Bool) : choose n false [⟨w, c, l⟩] = some (expected c l) := by
  rcases hw with rfl | rfl <;> cases c <;> cases l <;> rfl

example : choose 1 false [⟨.derived, false, true⟩] = some (expected false true) := copy_init 1 .derived (.inr rfl) false true

/-- **C96.** Making a tuple from another one of its type, or of a derived class, copies it, or moves it if it is an rvalue that is not `const`,
exactly if it does not have exactly one element, or the source has the type itself and is a `const` lvalue or an rvalue that is not `const`;
otherwise the source is forwarded to the element. -/
theorem direct_init_partial (n : Nat) (w : What) (hw : w = .self ∨ w = .derived) (c l : Bool) :
    choose n true [⟨w, c, l⟩] = if n = 1 ∧ ¬ (w = .self ∧ c = l) then some .forward else some (expected c l) := by
  by_cases hn : n = 1
  · subst hn
    rcases hw with rfl | rfl <;> cases c <;> cases l <;> rfl
  · have : (1 = n) = False := by simp; omega
    rcases hw with rfl | rfl <;> cases c <;> cases l <;>
      simp [choose, ctors, binds, What.rank, this, hn, better, Bind.better, Ctor.special, expected, Option.map]

example : choose 1 true [⟨.self, false, true⟩] = some .forward ∧ choose 2 true [⟨.self, false, true⟩] = some (expected false true) :=
  ⟨(direct_init_partial 1 .self (.inl rfl) false true).trans (by decide), (direct_init_partial 2 .self (.inl rfl) false true).trans (by decide)⟩

/-- **C96, refuted.** Copying a tuple with one element that is a variable which is not `const`, in parentheses or braces, does not call the copy
constructor. -/
theorem direct_init_refuted : choose 1 true [⟨.self, false, true⟩] = some .forward ∧ choose 1 false [⟨.self, false, true⟩] = some .copy := by decide

/-- **C96.** An `integral_template_tuple` is always copied or moved. -/
theorem integral_copied (n : Nat) (explicit : Bool) (w : What) (hw : w = .self ∨ w = .derived) (c l : Bool) :
    chooseIntegral n explicit [⟨w, c, l⟩] = some (expected c l) := by
  unfold chooseIntegral
  simp only [hw, if_true]
  exact copy_init n w hw c l

/-- **C96.** A tag as first argument is never taken for a value, whatever the number of elements is: `uniform_construct` always selects its constructor,
`individual_construct` if it is followed by one argument for each element. -/
theorem tags (n : Nat) (as : List Arg) (c l : Bool) :
    choose n true (⟨.uniformTag, c, l⟩ :: as) = some .uniform ∧
    (as.length = n → choose n true (⟨.individualTag, c, l⟩ :: as) = some .individual) := by
  refine ⟨?_, fun h => ?_⟩
  · by_cases hn : as.length + 1 = n
    · subst hn
      cases as <;> simp [choose, ctors, binds, What.rank, better, Bind.better, Ctor.special, Option.map]
    cases as <;> simp_all [choose, ctors, binds, What.rank, better, Bind.better, Ctor.special, Option.map]
  · have : ¬ (as.length + 1 = n) := by omega
    cases as <;> simp_all [choose, ctors, binds, What.rank, better, Bind.better, Ctor.special, Option.map]

example : ([⟨.other, false, true⟩] : List Arg).length = 1 := rfl

/-- **C96.** Values, one for each element, are forwarded to the elements; any other number of values is rejected. -/
theorem values (n : Nat) (a : Arg) (as : List Arg) (ha : a.what = .other) :
    choose n true (a :: as) = if as.length + 1 = n then some .forward else none := by
  obtain ⟨w, c, l⟩ := a
  cases ha
  by_cases hn : as.length + 1 = n <;> cases as <;>
    simp_all [choose, ctors, binds, What.rank, better, Bind.better, Ctor.special, Option.map]

example : choose 2 true [⟨.other, false, false⟩, ⟨.self, false, true⟩] = some .forward := by decide

/-- **C96.** No tuple is made from values implicitly. -/
theorem not_implicit (n : Nat) (a : Arg) (as : List Arg) (ha : a.what ≠ .self) (hd : a.what ≠ .derived) : choose n false (a :: as) = none := by
  obtain ⟨w, c, l⟩ := a
  cases as with
  | nil => cases w <;> first | exact absurd rfl ha | exact absurd rfl hd | (cases c <;> cases l <;> rfl)
  | cons b bs => simp [choose, ctors, binds]

example : (⟨.other, false, true⟩ : Arg).what ≠ .self ∧ (⟨.other, false, true⟩ : Arg).what ≠ .derived := by decide

end Verif.Init.Tuple
