import Verif.NextTo.MakeModel

/-! C79: construction and members of `next_to_range` and `next_to_view`. -/
namespace Verif.NextTo

/-- **C79.** A range made from an iterator that can be copied can be constructed iff `Iter` can with braces; it fails to compile, rather than being unavailable,
exactly for arguments that need a narrowing conversion. So for views. -/
theorem ctor_copyable (l : List Slot) :
    (rangeCtor true l = .ok ↔ ∀ s ∈ l, s.braces = true) ∧
    (rangeCtor true l = .hardError ↔ (∀ s ∈ l, s.parens = true) ∧ ∃ s ∈ l, s.narrowing = true) ∧ viewCtor l = rangeCtor true l := by
  have hbp : ∀ s : Slot, s.braces = true → s.parens = true := by
    intro s h; simp only [Slot.braces, Bool.and_eq_true] at h; exact h.1
  by_cases h : ctorConstraint l = true
  · have h' : ∀ s ∈ l, s.parens = true := by simpa [ctorConstraint] using h
    by_cases hb : l.all Slot.braces = true
    · have hb' : ∀ s ∈ l, s.braces = true := by simpa using hb
      refine ⟨by simp only [rangeCtor, h, hb]; simpa using hb', ?_, by simp [rangeCtor, viewCtor]⟩
      simp only [rangeCtor, h, hb]
      constructor
      · intro hc; simp at hc
      · rintro ⟨-, s, hs, hn⟩
        have := hb' s hs
        simp [Slot.braces, hn] at this
    · have hb' : ¬ ∀ s ∈ l, s.braces = true := by simpa using hb
      refine ⟨by simp only [rangeCtor, h, hb]; simpa using hb', ?_, by simp [rangeCtor, viewCtor]⟩
      simp only [rangeCtor, h, hb]
      constructor
      · intro _
        refine ⟨h', ?_⟩
        refine Classical.byContradiction fun hc => hb' ?_
        intro s hs
        have h1 : s.narrowing = false := by
          cases hn : s.narrowing
          · rfl
          · exact absurd ⟨s, hs, hn⟩ hc
        simp [Slot.braces, h' s hs, h1]
      · intro _; simp
  · have h' : ¬ ∀ s ∈ l, s.parens = true := by simpa [ctorConstraint] using h
    refine ⟨?_, ?_, by simp [rangeCtor, viewCtor]⟩
    · simp only [rangeCtor, h]
      constructor
      · intro hc; simp at hc
      · intro hc; exact absurd (fun s hs => hbp s (hc s hs)) h'
    · simp only [rangeCtor, h]
      constructor
      · intro hc; simp at hc
      · intro hc; exact absurd hc.1 h'

/-- **C79, partial.** A range made from an iterator that cannot be copied can be constructed if every parameter of the constructor of `Iter` is a value or a
reference to const, and every argument can be copied without a narrowing conversion; conversely, these are all the cases in which it can.
Missing: that a constructor that is available compiles; see `ctor_refuted`. -/
theorem ctor_noncopyable_partial (l : List Slot) :
    rangeCtor false l = .ok ↔
      ∀ s ∈ l, (s.par = .byValue ∨ s.par = .constRef) ∧ s.copies = true ∧ s.narrowing = false := by
  have key : ∀ s : Slot, (s.parens = true ∧ (s.capturable && s.captured.braces) = true) ↔
      (s.par = .byValue ∨ s.par = .constRef) ∧ s.copies = true ∧ s.narrowing = false := by
    rintro ⟨p, a, c, m, n⟩
    cases p <;> cases a <;> cases c <;> cases m <;> cases n <;> decide
  have hr : rangeCtor false l = .ok ↔ (l.all Slot.parens = true ∧ l.all (fun s => s.capturable && s.captured.braces) = true) := by
    simp only [rangeCtor, ctorConstraint]
    by_cases h1 : l.all Slot.parens = true <;> by_cases h2 : l.all (fun s => s.capturable && s.captured.braces) = true <;> simp only [h1, h2] <;> simp
  rw [hr, List.all_eq_true, List.all_eq_true]
  constructor
  · intro h s hs; exact (key s).1 ⟨h.1 s hs, h.2 s hs⟩
  · intro h; exact ⟨fun s hs => ((key s).2 (h s hs)).1, fun s hs => ((key s).2 (h s hs)).2⟩

example : rangeCtor false [⟨.byValue, .rvalue, true, true, false⟩, ⟨.constRef, .lvalue, true, true, false⟩] = .ok :=
  (ctor_noncopyable_partial _).2 (by decide)

/-- **C79, refuted.** The constructor says it is available and does not compile: an iterator that cannot be copied, made from a reference, a movable
value or a move-only value; and, for every iterator, a narrowing conversion. -/
theorem ctor_refuted :
    rangeCtor false [⟨.mutRef, .lvalue, true, true, false⟩] = .hardError ∧
    rangeCtor false [⟨.rvalueRef, .rvalue, true, true, false⟩] = .hardError ∧
    rangeCtor false [⟨.byValue, .rvalue, false, true, false⟩] = .hardError ∧
    rangeCtor true [⟨.byValue, .rvalue, true, true, true⟩] = .hardError ∧
    rangeCtor true [⟨.byValue, .rvalue, false, true, false⟩] = .ok := by decide

variable {σ α β : Type}

/-- **C79.** Every iterator a range hands out starts where an `Iter` made from the values the arguments had when the range was made starts, whether `Iter` can be
copied or not, and whatever happened to the arguments since. -/
theorem begin_fresh (I : Iter σ α) (init : List β → σ) (copyable : Bool) (mem : Nat → β) (args : List Nat) :
    rangeBegin I init (makeRange copyable init mem args) = begin I (init (args.map mem)) ∧
    rangeRbegin I init (makeRange copyable init mem args) = rbegin I (init (args.map mem)) := by
  cases copyable <;> exact ⟨rfl, rfl⟩

example (I : Iter (List Nat) Nat) (mem : Nat → Nat) : rangeBegin I id (makeRange false id mem [3, 5]) = begin I [mem 3, mem 5] :=
  (begin_fresh I id false mem [3, 5]).1

/-- **C79.** If `Iter` keeps references to its arguments, they refer to the objects the caller passed iff it can be copied; otherwise each refers to
a copy that is destroyed with the range. -/
theorem kept_refs (copyable : Bool) (args : List Nat) (h : args ≠ []) :
    (keptRefs copyable args = args.map .caller ↔ copyable = true) ∧
    (copyable = false → ∀ r ∈ keptRefs copyable args, ∃ i < args.length, r = .range i) := by
  cases copyable with
  | true => simp [keptRefs]
  | false =>
    refine ⟨⟨?_, fun hc => by simp at hc⟩, ?_⟩
    · intro hc
      have := congrArg List.head? hc
      cases args with
      | nil => exact absurd rfl h
      | cons a l => simp [keptRefs, List.range_succ_eq_map] at this
    · intro _ r hr
      simp only [keptRefs, Bool.false_eq_true, if_false, List.mem_map, List.mem_range] at hr
      obtain ⟨i, hi, rfl⟩ := hr
      exact ⟨i, hi, rfl⟩

example : keptRefs false [7] ≠ [Home.caller 7] := fun h => absurd ((kept_refs false [7] (by simp)).1.1 h) (by decide)

/-- What the documentation promises for a range: forward iteration always; reverse iteration with `next_back`; sizes with `remaining`, if `Iter` can be copied. -/
def docRange (c : Caps) (m : Member) : Prop :=
  m ∈ [Member.begin, .cbegin, .stop, .cend] ∨
  (m ∈ [Member.rbegin, .crbegin, .rend, .crend, .reversed] ∧ c.nextBack = true) ∨
  (m ∈ [Member.size, .empty, .toBool] ∧ c.remaining = true ∧ c.copyable = true)

/-- What it promises for a view: in addition `front`, and `back` with `next_back`, and `[]` and `advance` with `nth`. -/
def docView (c : Caps) (m : Member) : Prop :=
  m ∈ [Member.begin, .cbegin, .stop, .cend, .front] ∨
  (m ∈ [Member.rbegin, .crbegin, .rend, .crend, .reversed, .back] ∧ c.nextBack = true) ∨
  (m ∈ [Member.index, .advance] ∧ c.nth = true) ∨
  (m ∈ [Member.size, .empty, .toBool] ∧ c.remaining = true)

/-- **C79.** A range has exactly the documented members. -/
theorem range_members (c : Caps) (m : Member) : rangeHas c m = true ↔ docRange c m := by
  cases m <;> simp [rangeHas, docRange, and_comm]

/-- **C79, partial.** A view has exactly the documented members, except `crbegin`. Missing: `crbegin`; see `crbegin_refuted`. -/
theorem view_members_partial (c : Caps) (hc : viewOk c = true) (m : Member) (hm : m ≠ .crbegin) : viewHas c m = true ↔ docView c m := by
  have hn : c.next = true := by simp only [viewOk, Bool.and_eq_true] at hc; exact hc.1
  cases m <;> simp [viewHas, docView, hn] at hm ⊢

example : viewHas ⟨true, true, false, false, false, true⟩ .back = true :=
  (view_members_partial ⟨true, true, false, false, false, true⟩ rfl .back (by decide)).2 (by simp [docView])

/-- **C79, refuted.** A view has `crbegin` iff its iterator has `nth_back`, not iff it has `next_back`: it may have `rbegin` without `crbegin`, and
`crbegin` without `rbegin`, in which case calling it does not compile. -/
theorem crbegin_refuted :
    (∃ c, viewOk c = true ∧ viewHas c .rbegin = true ∧ viewHas c .crbegin = false) ∧
    (∃ c, viewOk c = true ∧ viewHas c .rbegin = false ∧ viewHas c .crbegin = true) :=
  ⟨⟨⟨true, true, false, false, false, true⟩, rfl, rfl, rfl⟩, ⟨⟨true, false, false, true, false, true⟩, rfl, rfl, rfl⟩⟩

/-- **C79.** Iterators: `+=` is there iff the underlying iterator can skip in the direction of the iteration, `+` if it can also be copied; post-increment gives the old
iterator iff it can be copied. Every iterator a member of the range or view hands out is of a valid type. -/
theorem iter_members (d : Dir) (c : Caps) :
    (iterHas d c .plusAssign = true ↔ (d = .forward ∧ c.nth = true) ∨ (d = .backward ∧ c.nthBack = true)) ∧
    (iterHas d c .plus = true ↔ iterHas d c .plusAssign = true ∧ c.copyable = true) ∧
    (iterHas d c .postIncCopy = true ↔ c.copyable = true) ∧ iterHas d c .preInc = true ∧
    (rangeOk c = true → iterOk .forward c = true ∧ (rangeHas c .rbegin = true → iterOk .backward c = true)) ∧
    (viewOk c = true → rangeOk c = true ∧ (viewHas c .rbegin = true → iterOk .backward c = true)) := by
  refine ⟨?_, ?_, ?_, rfl, ?_, ?_⟩
  · cases d <;> simp [iterHas, efficientSkip]
  · simp [iterHas]
  · simp [iterHas]
  · intro h; exact ⟨h, fun h' => h'⟩
  · intro h
    simp only [viewOk, Bool.and_eq_true] at h
    exact ⟨h.1, fun h' => h'⟩

example : iterHas .backward ⟨true, true, true, false, false, true⟩ .plusAssign = false := by
  rw [Bool.eq_false_iff]
  intro h
  have := (iter_members .backward ⟨true, true, true, false, false, true⟩).1.1 h
  simp at this

end Verif.NextTo
