import Verif.Compare.Model

/-!
# C99: comparisons of the class templates

Which element comparisons a comparison calls, in which order, what it returns, what happens if one of them throws, which
operators exist, and which laws carry over from the elements.
-/

namespace Verif.Compare

variable {Ev : Type}

/-! ### Specification -/

/-- What an outcome becomes when it leaves a function that must not throw. -/
def caught {β : Type} : Out β → Out β
  | .ok b => .ok b
  | .threw => .terminated
  | .terminated => .terminated
  | .illFormed => .illFormed

/-- `r` is the result of evaluating the comparisons `rs` from left to right: as long as they answer `go`, the next one is
evaluated; the first other outcome is the outcome of the whole (an exception terminates the program); if all answer `go`,
the result is `fin`. No other comparison is evaluated. -/
def Runs {β : Type} (go : β) (rs : List (R Ev β)) (fin : β) (r : R Ev β) : Prop :=
  (∃ pre x post, rs = pre ++ x :: post ∧ (∀ p ∈ pre, p.out = .ok go) ∧ x.out ≠ .ok go ∧
    r.calls = (pre.map R.calls).flatten ++ x.calls ∧ r.out = caught x.out) ∨
  ((∀ p ∈ rs, p.out = .ok go) ∧ r.calls = (rs.map R.calls).flatten ∧ r.out = .ok fin)

/-- Order of two numbers. -/
def natCmp (a b : Nat) : Cmp := if a < b then .less else if a = b then .equal else .greater

/-- The opposite outcome. -/
def Cmp.flip : Cmp → Cmp
  | .less => .greater
  | .greater => .less
  | r => r

/-- The comparisons of the elements of two tuples, position by position. -/
def pairwise {β : Type} (op : (t : Ty Ev) → Option (t.carrier → t.carrier → R Ev β)) :
    (ts : List (Ty Ev)) → (tuple ts).carrier → (tuple ts).carrier → List (R Ev β)
  | [], _, _ => []
  | t :: ts, a, b => match op t with
    | some f => f a.1 b.1 :: pairwise op ts a.2 b.2
    | none => pairwise op ts a.2 b.2

/-- The position of the alternative. -/
def position : (ts : List (Ty Ev)) → Alts ts → Nat
  | [], x => nomatch x
  | _ :: _, .inl _ => 0
  | _ :: ts, .inr x => position ts x + 1

/-- The comparison of the values of two alternatives, if the positions are the same. -/
def atAlt {β : Type} (op : (t : Ty Ev) → Option (t.carrier → t.carrier → R Ev β)) :
    (ts : List (Ty Ev)) → Alts ts → Alts ts → Option (R Ev β)
  | [], x, _ => nomatch x
  | t :: _, .inl x, .inl y => (op t).map fun f => f x y
  | _ :: ts, .inr x, .inr y => atAlt op ts x y
  | _ :: _, _, _ => none

/-! ### Lemmas -/

theorem noexcept_calls {β : Type} (r : R Ev β) : (noexcept r).calls = r.calls := by
  rcases r with ⟨c, _ | _ | _ | _⟩ <;> rfl

theorem noexcept_out {β : Type} (r : R Ev β) : (noexcept r).out = caught r.out := by
  rcases r with ⟨c, _ | _ | _ | _⟩ <;> rfl

theorem R.ext' {β : Type} {r s : R Ev β} (h : r.calls = s.calls) (h' : r.out = s.out) : r = s := by
  cases r; cases s; cases h; cases h'; rfl

theorem caught_caught {β : Type} (o : Out β) : caught (caught o) = caught o := by cases o <;> rfl

theorem caught_ok {β : Type} {o : Out β} {b : β} : caught o = .ok b ↔ o = .ok b := by cases o <;> simp [caught]

theorem noexcept_noexcept {β : Type} (r : R Ev β) : noexcept (noexcept r) = noexcept r :=
  R.ext' (by simp [noexcept_calls]) (by simp [noexcept_out, caught_caught])

theorem Runs.cons {β : Type} {go fin : β} {x : R Ev β} {rs : List (R Ev β)} {r : R Ev β} (hx : x.out = .ok go)
    (h : Runs go rs fin r) : Runs go (x :: rs) fin ⟨x.calls ++ r.calls, r.out⟩ := by
  rcases h with ⟨pre, y, post, rfl, hp, hy, hc, ho⟩ | ⟨hp, hc, ho⟩
  · refine .inl ⟨x :: pre, y, post, rfl, ?_, hy, by simp [hc], ho⟩
    intro p hp'
    rcases List.mem_cons.1 hp' with rfl | h
    · exact hx
    · exact hp p h
  · refine .inr ⟨?_, by simp [hc], ho⟩
    intro p hp'
    rcases List.mem_cons.1 hp' with rfl | h
    · exact hx
    · exact hp p h

theorem Runs.stop {β : Type} {go fin : β} {x : R Ev β} {rs : List (R Ev β)} (hx : x.out ≠ .ok go) :
    Runs go (x :: rs) fin ⟨x.calls, caught x.out⟩ :=
  .inl ⟨[], x, rs, rfl, by simp, hx, by simp, rfl⟩

theorem Runs.nil {β : Type} {go fin : β} : Runs go ([] : List (R Ev β)) fin ⟨[], .ok fin⟩ := .inr ⟨by simp, rfl, rfl⟩

/-- One step of a comparison: go on with `k` on the answer `go`. -/
theorem Runs.step {β : Type} [DecidableEq β] {go fin : β} {x : R Ev β} {rs : List (R Ev β)} {k : R Ev β} {f : β → R Ev β}
    (hgo : f go = k) (hstop : ∀ b, b ≠ go → f b = .pure b) (h : Runs go rs fin (noexcept k)) :
    Runs go (x :: rs) fin (noexcept (x.bind f)) := by
  by_cases hx : x.out = .ok go
  · have e : noexcept (x.bind f) = ⟨x.calls ++ (noexcept k).calls, (noexcept k).out⟩ := by
      apply R.ext'
      · simp [noexcept_calls, R.bind, hx, hgo]
      · simp [noexcept_out, R.bind, hx, hgo]
    rw [e]
    exact Runs.cons hx h
  · have e : noexcept (x.bind f) = ⟨x.calls, caught x.out⟩ := by
      rcases x with ⟨c, b | _ | _ | _⟩
      · have : b ≠ go := fun h => hx (by rw [h])
        simp [R.bind, hstop b this, R.pure, noexcept, caught]
      · rfl
      · rfl
      · rfl
    rw [e]
    exact Runs.stop hx

theorem eqLoop_runs {α : Type} (e : α → α → R Ev Bool) : ∀ xs ys : List α,
    Runs true (List.zipWith e xs ys) true (noexcept (eqLoop e xs ys))
  | [], _ => by simp only [List.zipWith_nil_left, eqLoop]; exact Runs.nil
  | _ :: _, [] => by simp only [List.zipWith_nil_right, eqLoop]; exact Runs.nil
  | x :: xs, y :: ys => by
    simp only [List.zipWith_cons_cons, eqLoop]
    exact Runs.step (k := eqLoop e xs ys) (by simp) (fun b hb => by simp at hb; simp [hb]) (eqLoop_runs e xs ys)

theorem natCmp_succ (a b : Nat) : natCmp (a + 1) (b + 1) = natCmp a b := by
  simp [natCmp]

theorem cmpLoop_runs {α : Type} (c : α → α → R Ev Cmp) : ∀ xs ys : List α,
    Runs .equal (List.zipWith c xs ys) (natCmp xs.length ys.length) (noexcept (cmpLoop c xs ys))
  | [], [] => Runs.nil
  | [], y :: ys => Runs.nil
  | x :: xs, [] => Runs.nil
  | x :: xs, y :: ys => by
    simp only [List.zipWith_cons_cons, cmpLoop, List.length_cons, natCmp_succ]
    exact Runs.step (k := cmpLoop c xs ys) (by simp) (fun b hb => by simp [hb]) (cmpLoop_runs c xs ys)

/-! ### Which element comparisons are called -/

/-- **C99, flex_array `==`.** It exists iff the elements have `==`. Arrays of different size are unequal, and no element is
compared; otherwise the elements are compared from left to right until two are not equal. An exception of an element's `==`
terminates the program. -/
theorem flex_eq_runs (m : Mode) (t : Ty Ev) :
    match t.eq, (flex m t).eq with
    | some e, some f => ∀ a b : FlexVal m t.carrier,
        (a.val.length ≠ b.val.length → f a b = ⟨[], .ok false⟩) ∧
        (a.val.length = b.val.length → Runs true (List.zipWith e a.val b.val) true (f a b))
    | none, none => True
    | _, _ => False := by
  simp only [flex]
  cases t.eq with
  | none => trivial
  | some e =>
    intro a b
    have key : noexcept (innerEq m e a b) = noexcept (rangeEq e a.val b.val) := by
      cases m with
      | static n =>
        have h : a.val.length = b.val.length := by have := a.2; have := b.2; simp only [Mode.Fits] at *; omega
        simp [innerEq, rangeEq, h, noexcept_noexcept]
      | limited n => simp [innerEq, noexcept_noexcept]
      | vector => simp [innerEq, noexcept_noexcept]
      | small => simp [innerEq, noexcept_noexcept]
    dsimp only [Option.map]
    rw [key]
    refine ⟨fun h => by simp [rangeEq, h, noexcept, R.pure], fun h => ?_⟩
    simp only [rangeEq, h, if_true]
    exact eqLoop_runs e _ _

/-- The element comparison `<=>` of two flex_arrays uses: `<=>` of three-way comparable elements. -/
theorem innerCmp_three {m : Mode} {t : Ty Ev} {c : t.carrier → t.carrier → R Ev Cmp} (he : t.eq.isSome = true) (hc : t.cmp = some c) :
    innerCmp m t = some fun a b => noexcept (cmpLoop c a.val b.val) := by
  cases m <;> simp [innerCmp, Ty.synth, Ty.threeWayComparable, he, hc]

/-- **C99, flex_array `<=>`.** If the elements have `==` and `<=>`, the elements are compared with `<=>` from left to right until
two are not equal; if there are none, the sizes decide. An exception of an element's `<=>` terminates the program. -/
theorem flex_cmp_runs (m : Mode) {t : Ty Ev} {c : t.carrier → t.carrier → R Ev Cmp} (he : t.eq.isSome = true)
    (hc : t.cmp = some c) :
    ∃ f, (flex m t).cmp = some f ∧ ∀ a b : FlexVal m t.carrier,
      Runs .equal (List.zipWith c a.val b.val) (natCmp a.val.length b.val.length) (f a b) := by
  refine ⟨_, by simp only [flex, innerCmp_three he hc, Option.map]; rfl, fun a b => ?_⟩
  simp only [noexcept_noexcept]
  exact cmpLoop_runs c _ _

/-- **C99, flex_array `<=>` of elements that have `<` but no `<=>`.** In the modes based on `std::array` and `std::vector` each
pair is compared with `<` in one direction and, if that does not decide, in the other; in the other modes there is no `<=>`
and so no `<`. -/
theorem flex_cmp_less (m : Mode) {t : Ty Ev} {l : t.carrier → t.carrier → R Ev Bool} (hl : t.lt = some l) (hc : t.cmp = none) :
    match m with
    | .static _ | .vector => ∃ f, (flex m t).cmp = some f ∧ ∀ a b : FlexVal m t.carrier,
        Runs .equal (List.zipWith (fun x y => (l x y).bind fun b =>
            if b then ⟨[], .ok .less⟩ else (l y x).bind fun b' => ⟨[], .ok (if b' then .greater else .equal)⟩) a.val b.val)
          (natCmp a.val.length b.val.length) (f a b)
    | .limited _ | .small => (flex m t).cmp = none ∧ (flex m t).less = none := by
  have hs : t.synth = some fun x y => (l x y).bind fun b =>
      if b then ⟨[], .ok .less⟩ else (l y x).bind fun b' => ⟨[], .ok (if b' then .greater else .equal)⟩ := by
    simp [Ty.synth, Ty.threeWayComparable, hc, Ty.less, hl, R.pure]
  cases m with
  | static n =>
    refine ⟨_, by simp only [flex, innerCmp, hs, Option.map]; rfl, fun a b => ?_⟩
    simp only [noexcept_noexcept]
    exact cmpLoop_runs _ _ _
  | limited n => simp [flex, innerCmp, hc, Ty.less]
  | vector =>
    refine ⟨_, by simp only [flex, innerCmp, hs, Option.map]; rfl, fun a b => ?_⟩
    simp only [noexcept_noexcept]
    exact cmpLoop_runs _ _ _
  | small => simp [flex, innerCmp, hc, Ty.less]

/-- **C99, standard_layout_tuple `==`.** It exists iff all elements have `==`, and compares them from left to right until two are
not equal. -/
theorem tuple_eq_runs : ∀ ts : List (Ty Ev),
    ((tuple ts).eq.isSome = true ↔ ∀ t ∈ ts, t.eq.isSome = true) ∧
    ∀ f, (tuple ts).eq = some f → ∀ a b, Runs true (pairwise Ty.eq ts a b) true (f a b)
  | [] => ⟨by simp [tuple, emptyTuple], fun f hf a b => by
      simp only [tuple, emptyTuple] at hf
      obtain rfl := Option.some.inj hf
      exact Runs.nil⟩
  | t :: ts => by
    obtain ⟨h1, h2⟩ := tuple_eq_runs ts
    constructor
    · simp only [tuple, consTuple, List.mem_cons, forall_eq_or_imp, ← h1]
      cases t.eq <;> cases (tuple ts).eq <;> simp
    · intro f hf a b
      simp only [tuple, consTuple] at hf
      cases he : t.eq with
      | none => simp [he] at hf
      | some e =>
        cases hr : (tuple ts).eq with
        | none => simp [he, hr] at hf
        | some er =>
          simp only [he, hr, Option.bind, Option.map] at hf
          obtain rfl := Option.some.inj hf
          have := h2 er hr a.2 b.2
          simp only [pairwise, he]
          refine Runs.step (k := er a.2 b.2) (by simp) (fun b hb => by simp at hb; simp [hb]) ?_
          have e2 : noexcept (er a.2 b.2) = er a.2 b.2 := ?_
          · rw [e2]; exact this
          · cases ts with
            | nil => obtain rfl := Option.some.inj hr; rfl
            | cons u us =>
              obtain ⟨_, _, hr⟩ := Option.bind_eq_some_iff.1 hr
              obtain ⟨_, _, rfl⟩ := Option.map_eq_some_iff.1 hr
              exact noexcept_noexcept _

/-- **C99, standard_layout_tuple `<=>`.** It exists iff all elements have `<=>`, and compares them from left to right until two are
not equal. -/
theorem tuple_cmp_runs : ∀ ts : List (Ty Ev),
    ((tuple ts).cmp.isSome = true ↔ ∀ t ∈ ts, t.cmp.isSome = true) ∧
    ∀ f, (tuple ts).cmp = some f → ∀ a b, Runs .equal (pairwise Ty.cmp ts a b) .equal (f a b)
  | [] => ⟨by simp [tuple, emptyTuple], fun f hf a b => by
      simp only [tuple, emptyTuple] at hf
      obtain rfl := Option.some.inj hf
      exact Runs.nil⟩
  | t :: ts => by
    obtain ⟨h1, h2⟩ := tuple_cmp_runs ts
    constructor
    · simp only [tuple, consTuple, List.mem_cons, forall_eq_or_imp, ← h1]
      cases t.cmp <;> cases (tuple ts).cmp <;> simp
    · intro f hf a b
      simp only [tuple, consTuple] at hf
      cases he : t.cmp with
      | none => simp [he] at hf
      | some e =>
        cases hr : (tuple ts).cmp with
        | none => simp [he, hr] at hf
        | some er =>
          simp only [he, hr, Option.bind, Option.map] at hf
          obtain rfl := Option.some.inj hf
          have := h2 er hr a.2 b.2
          simp only [pairwise, he]
          refine Runs.step (k := er a.2 b.2) (by simp) (fun b hb => by simp [hb]) ?_
          have e2 : noexcept (er a.2 b.2) = er a.2 b.2 := ?_
          · rw [e2]; exact this
          · cases ts with
            | nil => obtain rfl := Option.some.inj hr; rfl
            | cons u us =>
              obtain ⟨_, _, hr⟩ := Option.bind_eq_some_iff.1 hr
              obtain ⟨_, _, rfl⟩ := Option.map_eq_some_iff.1 hr
              exact noexcept_noexcept _

theorem Runs.noexcept {β : Type} {go fin : β} {rs : List (R Ev β)} {r : R Ev β} (h : Runs go rs fin r) :
    Runs go rs fin (Compare.noexcept r) := by
  rcases h with ⟨pre, x, post, h1, h2, h3, h4, h5⟩ | ⟨h1, h2, h3⟩
  · exact .inl ⟨pre, x, post, h1, h2, h3, by rw [noexcept_calls, h4], by rw [noexcept_out, h5, caught_caught]⟩
  · exact .inr ⟨h1, by rw [noexcept_calls, h2], by rw [noexcept_out, h3]; rfl⟩

/-- **C99, integral_template_tuple.** `==` and `<=>` are those of the tuple it is derived from. -/
theorem integral_tuple_runs (ts : List (Ty Ev)) :
    ((integralTuple ts).eq.isSome = true ↔ ∀ t ∈ ts, t.eq.isSome = true) ∧
    (∀ f, (integralTuple ts).eq = some f → ∀ a b, Runs true (pairwise Ty.eq ts a b) true (f a b)) ∧
    ((integralTuple ts).cmp.isSome = true ↔ ∀ t ∈ ts, t.cmp.isSome = true) ∧
    (∀ f, (integralTuple ts).cmp = some f → ∀ a b, Runs .equal (pairwise Ty.cmp ts a b) .equal (f a b)) := by
  refine ⟨by simpa [integralTuple] using (tuple_eq_runs ts).1, ?_, by simpa [integralTuple] using (tuple_cmp_runs ts).1, ?_⟩
  · intro f hf a b
    obtain ⟨e, he, rfl⟩ := Option.map_eq_some_iff.1 hf
    exact ((tuple_eq_runs ts).2 e he a b).noexcept
  · intro f hf a b
    obtain ⟨e, he, rfl⟩ := Option.map_eq_some_iff.1 hf
    exact ((tuple_cmp_runs ts).2 e he a b).noexcept

theorem altsEq_spec : ∀ ts : List (Ty Ev),
    ((altsEq ts).isSome = true ↔ ∀ t ∈ ts, t.eq.isSome = true) ∧
    ∀ f, altsEq ts = some f → ∀ x y, match atAlt Ty.eq ts x y with
      | some r => position ts x = position ts y ∧ f x y = r
      | none => position ts x ≠ position ts y ∧ f x y = ⟨[], .ok false⟩
  | [] => ⟨by simp [altsEq], fun _ _ x => nomatch x⟩
  | t :: ts => by
    obtain ⟨h1, h2⟩ := altsEq_spec ts
    constructor
    · simp only [altsEq, List.mem_cons, forall_eq_or_imp, ← h1]
      cases t.eq <;> cases altsEq ts <;> simp
    · intro f hf x y
      simp only [altsEq, Option.bind_eq_some_iff, Option.map_eq_some_iff] at hf
      obtain ⟨e, he, er, hr, rfl⟩ := hf
      rcases x with x | x <;> rcases y with y | y
      · simp [atAlt, he, position]
      · simp [atAlt, position, R.pure]
      · simp [atAlt, position, R.pure]
      · have := h2 er hr x y
        simp only [atAlt, position]
        revert this
        cases atAlt Ty.eq ts x y <;> simp

theorem altsCmp_spec : ∀ ts : List (Ty Ev),
    ((altsCmp ts).isSome = true ↔ ∀ t ∈ ts, t.eq.isSome = true ∧ t.cmp.isSome = true) ∧
    ∀ f, altsCmp ts = some f → ∀ x y, match atAlt Ty.cmp ts x y with
      | some r => position ts x = position ts y ∧ f x y = r
      | none => position ts x ≠ position ts y ∧ f x y = ⟨[], .ok (natCmp (position ts x) (position ts y))⟩
  | [] => ⟨by simp [altsCmp], fun _ _ x => nomatch x⟩
  | t :: ts => by
    obtain ⟨h1, h2⟩ := altsCmp_spec ts
    constructor
    · simp only [altsCmp, List.mem_cons, forall_eq_or_imp, ← h1, Ty.threeWayComparable]
      obtain ⟨_, eq, _, cmp⟩ := t
      cases eq <;> cases cmp <;> cases altsCmp ts <;> simp
    · intro f hf x y
      simp only [altsCmp, Option.bind_eq_some_iff, Option.map_eq_some_iff] at hf
      obtain ⟨e, he, er, hr, rfl⟩ := hf
      have he' : t.cmp = some e := by
        split at he
        · exact he
        · cases he
      rcases x with x | x <;> rcases y with y | y
      · simp [atAlt, he', position]
      · simp [atAlt, position, R.pure, natCmp]
      · simp [atAlt, position, R.pure, natCmp]
      · have := h2 er hr x y
        simp only [atAlt, position, natCmp_succ]
        revert this
        cases atAlt Ty.cmp ts x y <;> simp

/-- **C99, integral_template_variant `==`.** It exists iff all alternatives have `==`. A valueless variant equals only a valueless
one. Variants with different alternatives are unequal, without comparing values; with the same one, the values are compared
once. An exception terminates the program. -/
theorem integral_variant_eq (ts : List (Ty Ev)) :
    ((integralVariant ts).eq.isSome = true ↔ ∀ t ∈ ts, t.eq.isSome = true) ∧
    ∀ f, (integralVariant ts).eq = some f →
      f none none = ⟨[], .ok true⟩ ∧ (∀ x, f none (some x) = ⟨[], .ok false⟩ ∧ f (some x) none = ⟨[], .ok false⟩) ∧
      ∀ x y, match atAlt Ty.eq ts x y with
        | some r => position ts x = position ts y ∧ f (some x) (some y) = ⟨r.calls, caught r.out⟩
        | none => position ts x ≠ position ts y ∧ f (some x) (some y) = ⟨[], .ok false⟩ := by
  obtain ⟨h1, h2⟩ := altsEq_spec ts
  refine ⟨by simpa [integralVariant] using h1, fun f hf => ?_⟩
  obtain ⟨e, he, rfl⟩ := Option.map_eq_some_iff.1 hf
  refine ⟨rfl, fun x => ⟨rfl, rfl⟩, fun x y => ?_⟩
  have := h2 e he x y
  revert this
  cases atAlt Ty.eq ts x y with
  | none => rintro ⟨h, h'⟩; exact ⟨h, by simp only [h']; rfl⟩
  | some r => rintro ⟨h, h'⟩; exact ⟨h, by simp only [h']; exact R.ext' (noexcept_calls r) (noexcept_out r)⟩

/-- **C99, integral_template_variant `<=>`.** It exists iff all alternatives have `==` and `<=>`. A valueless variant is less than
any other; then the positions decide; with the same alternative, the values are compared once. An exception terminates the
program. -/
theorem integral_variant_cmp (ts : List (Ty Ev)) :
    ((integralVariant ts).cmp.isSome = true ↔ ∀ t ∈ ts, t.eq.isSome = true ∧ t.cmp.isSome = true) ∧
    ∀ f, (integralVariant ts).cmp = some f →
      f none none = ⟨[], .ok .equal⟩ ∧ (∀ x, f none (some x) = ⟨[], .ok .less⟩ ∧ f (some x) none = ⟨[], .ok .greater⟩) ∧
      ∀ x y, match atAlt Ty.cmp ts x y with
        | some r => position ts x = position ts y ∧ f (some x) (some y) = ⟨r.calls, caught r.out⟩
        | none => position ts x ≠ position ts y ∧
            f (some x) (some y) = ⟨[], .ok (natCmp (position ts x) (position ts y))⟩ := by
  obtain ⟨h1, h2⟩ := altsCmp_spec ts
  refine ⟨by simpa [integralVariant] using h1, fun f hf => ?_⟩
  obtain ⟨e, he, rfl⟩ := Option.map_eq_some_iff.1 hf
  refine ⟨rfl, fun x => ⟨rfl, rfl⟩, fun x y => ?_⟩
  have := h2 e he x y
  revert this
  cases atAlt Ty.cmp ts x y with
  | none => rintro ⟨h, h'⟩; exact ⟨h, by simp only [h']; rfl⟩
  | some r => rintro ⟨h, h'⟩; exact ⟨h, by simp only [h']; exact R.ext' (noexcept_calls r) (noexcept_out r)⟩

/-- **C99, variant2 `==`.** -/
theorem variant2_eq (t u : Ty Ev) :
    match t.eq, u.eq, (variant2 t u).eq with
    | some e, some e', some f =>
        f none none = ⟨[], .ok true⟩ ∧ (∀ x, f none (some x) = ⟨[], .ok false⟩ ∧ f (some x) none = ⟨[], .ok false⟩) ∧
        (∀ x y, f (some (.inl x)) (some (.inr y)) = ⟨[], .ok false⟩ ∧ f (some (.inr y)) (some (.inl x)) = ⟨[], .ok false⟩) ∧
        (∀ x y, f (some (.inl x)) (some (.inl y)) = ⟨(e x y).calls, caught (e x y).out⟩) ∧
        (∀ x y, f (some (.inr x)) (some (.inr y)) = ⟨(e' x y).calls, caught (e' x y).out⟩)
    | some _, some _, none => False
    | _, _, some _ => False
    | _, _, none => True := by
  simp only [variant2]
  cases t.eq <;> cases u.eq <;> simp only [Option.bind, Option.map]
  refine ⟨rfl, fun x => ?_, fun x y => ⟨rfl, rfl⟩, fun x y => R.ext' (noexcept_calls _) (noexcept_out _),
    fun x y => R.ext' (noexcept_calls _) (noexcept_out _)⟩
  rcases x with x | x <;> exact ⟨rfl, rfl⟩

/-- **C99, variant2 `<=>`.** -/
theorem variant2_cmp (t u : Ty Ev) :
    ((variant2 t u).cmp.isSome = true ↔ (t.eq.isSome = true ∧ t.cmp.isSome = true) ∧ u.eq.isSome = true ∧ u.cmp.isSome = true) ∧
    ∀ c c' f, t.cmp = some c → u.cmp = some c' → (variant2 t u).cmp = some f →
        f none none = ⟨[], .ok .equal⟩ ∧ (∀ x, f none (some x) = ⟨[], .ok .less⟩ ∧ f (some x) none = ⟨[], .ok .greater⟩) ∧
        (∀ x y, f (some (.inl x)) (some (.inr y)) = ⟨[], .ok .less⟩ ∧ f (some (.inr y)) (some (.inl x)) = ⟨[], .ok .greater⟩) ∧
        (∀ x y, f (some (.inl x)) (some (.inl y)) = ⟨(c x y).calls, caught (c x y).out⟩) ∧
        (∀ x y, f (some (.inr x)) (some (.inr y)) = ⟨(c' x y).calls, caught (c' x y).out⟩) := by
  constructor
  · simp only [variant2, Ty.threeWayComparable]
    obtain ⟨_, eq, _, cmp⟩ := t
    obtain ⟨_, eq', _, cmp'⟩ := u
    cases eq <;> cases cmp <;> cases eq' <;> cases cmp' <;> simp
  · intro c c' f hc hc' hf
    simp only [variant2, hc, hc', Option.bind, Option.map] at hf
    split at hf
    · obtain rfl := Option.some.inj hf
      refine ⟨rfl, fun x => ?_, fun x y => ⟨rfl, rfl⟩, fun x y => R.ext' (noexcept_calls _) (noexcept_out _),
        fun x y => R.ext' (noexcept_calls _) (noexcept_out _)⟩
      rcases x with x | x <;> exact ⟨rfl, rfl⟩
    · cases hf

/-! ### Exceptions -/

/-- **C99.** A run of comparisons terminates the program exactly if one of them throws (or terminates the program itself) and all
before it answered `go`; it never throws. -/
theorem runs_terminated {β : Type} {go fin : β} {rs : List (R Ev β)} {r : R Ev β} (h : Runs go rs fin r) :
    (r.out = .terminated ↔ ∃ pre x post, rs = pre ++ x :: post ∧ (∀ p ∈ pre, p.out = .ok go) ∧
      (x.out = .threw ∨ x.out = .terminated)) ∧ r.out ≠ .threw := by
  have uniq : ∀ (pre pre' : List (R Ev β)) x x' post post', pre ++ x :: post = pre' ++ x' :: post' →
      (∀ p ∈ pre, p.out = .ok go) → (∀ p ∈ pre', p.out = .ok go) → x.out ≠ .ok go → x'.out ≠ .ok go → x = x' := by
    intro pre
    induction pre with
    | nil =>
      intro pre' x x' post post' h _ hp' hx _
      cases pre' with
      | nil => simp only [List.nil_append, List.cons.injEq] at h; exact h.1
      | cons p ps =>
        simp only [List.nil_append, List.cons_append, List.cons.injEq] at h
        exact absurd (h.1 ▸ hp' p (by simp)) hx
    | cons q qs ih =>
      intro pre' x x' post post' h hp hp' hx hx'
      cases pre' with
      | nil =>
        simp only [List.nil_append, List.cons_append, List.cons.injEq] at h
        exact absurd (h.1 ▸ hp q (by simp)) hx'
      | cons p ps =>
        simp only [List.cons_append, List.cons.injEq] at h
        exact ih ps x x' post post' h.2 (fun a ha => hp a (by simp [ha])) (fun a ha => hp' a (by simp [ha])) hx hx'
  rcases h with ⟨pre, x, post, h1, h2, h3, h4, h5⟩ | ⟨h1, h2, h3⟩
  · refine ⟨Iff.intro (fun h => ⟨pre, x, post, h1, h2, ?_⟩) ?_, ?_⟩
    · rw [h5] at h
      revert h
      cases x.out <;> simp [caught]
    · rintro ⟨pre', x', post', e, hp, hx⟩
      have : x = x' := uniq pre pre' x x' post post' (h1 ▸ e) h2 hp h3 (by rcases hx with hx | hx <;> rw [hx] <;> simp)
      subst this
      rw [h5]
      rcases hx with hx | hx <;> rw [hx] <;> rfl
    · rw [h5]; cases x.out <;> simp [caught]
  · refine ⟨Iff.intro (fun h => by rw [h3] at h; cases h) ?_, by rw [h3]; simp⟩
    rintro ⟨pre', x', post', e, hp, hx⟩
    have := h1 x' (by rw [e]; simp)
    rcases hx with hx | hx <;> rw [hx] at this <;> cases this

/-- Numbers whose comparisons are recorded; comparing with 13 throws. -/
abbrev touchy : Ty (Nat × Nat) where
  carrier := Nat
  eq := some fun x y => ⟨[(x, y)], if x = 13 ∨ y = 13 then .threw else .ok (decide (x = y))⟩
  lt := none
  cmp := some fun x y => ⟨[(x, y)], if x = 13 ∨ y = 13 then .threw else .ok (natCmp x y)⟩

/-- **C99 refuted: an exception of an element comparison reaches the caller.** It terminates the program, in every template. -/
theorem exception_refuted :
    (∃ f, (flex .vector touchy).eq = some f ∧ (f ⟨[1, 13], trivial⟩ ⟨[1, 2], trivial⟩) = ⟨[(1, 1), (13, 2)], .terminated⟩) ∧
    (∃ f, (tuple [touchy, touchy]).cmp = some f ∧ (f (1, 13, ()) (1, 2, ())) = ⟨[(1, 1), (13, 2)], .terminated⟩) ∧
    (∃ f, (integralVariant [touchy, touchy]).eq = some f ∧
      (f (some (.inr (.inl (13 : Nat)))) (some (.inr (.inl (2 : Nat))))) = ⟨[(13, 2)], .terminated⟩) ∧
    (∃ f, (variant2 touchy touchy).cmp = some f ∧
      (f (some (.inl (13 : Nat))) (some (.inl (2 : Nat)))) = ⟨[(13, 2)], .terminated⟩) :=
  ⟨⟨_, rfl, rfl⟩, ⟨_, rfl, rfl⟩, ⟨_, rfl, rfl⟩, ⟨_, rfl, rfl⟩⟩

/-- But no exception if the comparison is decided before: different sizes, an earlier element, other alternatives. -/
example :
    (∃ f, (flex .vector touchy).eq = some f ∧ (f ⟨[13], trivial⟩ ⟨[1, 2], trivial⟩) = ⟨[], .ok false⟩) ∧
    (∃ f, (flex (.limited 3) touchy).cmp = some f ∧
      (f ⟨[1, 13], by simp [Mode.Fits]⟩ ⟨[2, 13], by simp [Mode.Fits]⟩) = ⟨[(1, 2)], .ok .less⟩) ∧
    (∃ f, (tuple [touchy, touchy]).cmp = some f ∧ (f (1, 13, ()) (2, 13, ())) = ⟨[(1, 2)], .ok .less⟩) ∧
    (∃ f, (variant2 touchy touchy).eq = some f ∧ (f (some (.inl (13 : Nat))) (some (.inr (13 : Nat)))) = ⟨[], .ok false⟩) :=
  ⟨⟨_, rfl, rfl⟩, ⟨_, rfl, rfl⟩, ⟨_, rfl, rfl⟩, ⟨_, rfl, rfl⟩⟩

/-! ### Which operators exist -/

/-- **C99.** Whether two flex_arrays can be ordered: with fixed size or `std::vector` iff the elements have `<` (their own or from
`<=>`); otherwise iff the elements have `<=>`, and the program compiles only if they also have `==`. -/
theorem flex_ordered (m : Mode) (t : Ty Ev) :
    match m with
    | .static _ | .vector => (flex m t).cmp.isSome = true ↔ t.lt.isSome = true ∨ t.cmp.isSome = true
    | .limited _ | .small => ((flex m t).cmp.isSome = true ↔ t.cmp.isSome = true) ∧
        (t.eq = none → ∀ f, (flex m t).cmp = some f → ∀ a b, (f a b).out = .illFormed) := by
  cases m with
  | static n => cases he : t.eq <;> cases hc : t.cmp <;> cases hl : t.lt <;>
      simp [flex, innerCmp, Ty.synth, Ty.threeWayComparable, Ty.less, he, hc, hl]
  | vector => cases he : t.eq <;> cases hc : t.cmp <;> cases hl : t.lt <;>
      simp [flex, innerCmp, Ty.synth, Ty.threeWayComparable, Ty.less, he, hc, hl]
  | limited n =>
    refine ⟨by simp [flex, innerCmp], fun he f hf a b => ?_⟩
    obtain ⟨g, hg, rfl⟩ := Option.map_eq_some_iff.1 hf
    obtain ⟨c, _, rfl⟩ := Option.map_eq_some_iff.1 hg
    simp [he, noexcept]
  | small =>
    refine ⟨by simp [flex, innerCmp], fun he f hf a b => ?_⟩
    obtain ⟨g, hg, rfl⟩ := Option.map_eq_some_iff.1 hf
    obtain ⟨c, _, rfl⟩ := Option.map_eq_some_iff.1 hg
    simp [he, noexcept]

/-- **C99.** None of the class templates has a `<` besides that of `<=>`. -/
theorem less_from_three_way (m : Mode) (t u : Ty Ev) (ts : List (Ty Ev)) :
    (flex m t).lt = none ∧ (tuple ts).lt = none ∧ (integralTuple ts).lt = none ∧ (integralVariant ts).lt = none ∧
    (variant2 t u).lt = none := by
  cases ts <;> exact ⟨rfl, rfl, rfl, rfl, rfl⟩

/-- Numbers with `<` and `==` only. -/
abbrev lessOnly : Ty (Nat × Nat) where
  carrier := Nat
  eq := some fun x y => ⟨[(x, y)], .ok (decide (x = y))⟩
  lt := some fun x y => ⟨[(x, y)], .ok (decide (x < y))⟩
  cmp := none

/-- **C99 refuted: what a flex_array can do does not depend on where the elements are stored.** Elements with `<` but without `<=>`
can be compared in a flex_array of fixed size, but not in one of bounded size. -/
theorem mode_refuted : (flex (.static 2) lessOnly).less.isSome = true ∧ (flex (.limited 2) lessOnly).less.isSome = false ∧
    (∃ f, (flex (.static 2) lessOnly).cmp = some f ∧ f ⟨[1, 2], rfl⟩ ⟨[1, 0], rfl⟩ =
      ⟨[(1, 1), (1, 1), (2, 0), (0, 2)], .ok .greater⟩) :=
  ⟨rfl, rfl, _, rfl, rfl⟩

/-- Numbers with a missing value (like NaN) that is not ordered with any other, with `<=>` but without `==`. -/
abbrev noEq : Ty Unit where
  carrier := Option Nat
  eq := none
  lt := none
  cmp := some fun x y => ⟨[], .ok (match x, y with
    | some x, some y => natCmp x y
    | _, _ => .unordered)⟩

/-- **C99 refuted: elements that are not ordered make the arrays not ordered.** Without `==`, the `<=>` of a flex_array of fixed
size regards unordered elements as equal, so `a <= b`; that of a tuple does not; and for bounded size the program does not
compile. -/
theorem unordered_refuted :
    (∃ f, (flex (.static 1) noEq).cmp = some f ∧ (f ⟨[none], rfl⟩ ⟨[some 1], rfl⟩).out = .ok .equal) ∧
    (∃ f, (flex (.static 1) noEq).le = some f ∧ (f ⟨[none], rfl⟩ ⟨[some 1], rfl⟩).out = .ok true) ∧
    (∃ f, (tuple [noEq]).cmp = some f ∧ (f ((none : Option Nat), ()) (some 1, ())).out = .ok .unordered) ∧
    (∃ f, (flex (.limited 1) noEq).cmp = some f ∧
      (f ⟨[none], by simp [Mode.Fits]⟩ ⟨[some 1], by simp [Mode.Fits]⟩).out = .illFormed) :=
  ⟨⟨_, rfl, rfl⟩, ⟨_, rfl, rfl⟩, ⟨_, rfl, rfl⟩, ⟨_, rfl, rfl⟩⟩

/-! ### Laws -/

/-- The comparisons of `t` return (they do not throw), `==` being `e` and `<=>` being `c`; `x == y` iff `x <=> y` is equal; swapping
the operands swaps the answer; equal values can be exchanged; less is transitive. `total`: and all values are ordered. -/
structure Laws (total : Bool) (t : Ty Ev) (e : t.carrier → t.carrier → Bool) (c : t.carrier → t.carrier → Cmp) : Prop where
  eq : ∃ f, t.eq = some f ∧ ∀ x y, (f x y).out = .ok (e x y)
  cmp : ∃ f, t.cmp = some f ∧ ∀ x y, (f x y).out = .ok (c x y)
  agree : ∀ x y, e x y = true ↔ c x y = .equal
  flip : ∀ x y, c y x = (c x y).flip
  subst : ∀ x y z, c x y = .equal → c x z = c y z
  trans : ∀ x y z, c x y = .less → c y z = .less → c x z = .less
  ordered : total = true → ∀ x y, c x y ≠ .unordered

/-- The comparisons of `t` obey the laws of an order. -/
def Lawful (total : Bool) (t : Ty Ev) : Prop := ∃ e c, Laws total t e c

theorem bind_out {α β : Type} {r : R Ev α} {a : α} (h : r.out = .ok a) (f : α → R Ev β) : (r.bind f).out = (f a).out := by
  simp [R.bind, h]

/-- Lexicographic order. -/
def lex {α : Type} (c : α → α → Cmp) : List α → List α → Cmp
  | [], [] => .equal
  | [], _ :: _ => .less
  | _ :: _, [] => .greater
  | x :: xs, y :: ys => if c x y = .equal then lex c xs ys else c x y

/-- Equal element by element. -/
def allEq {α : Type} (e : α → α → Bool) : List α → List α → Bool
  | [], [] => true
  | x :: xs, y :: ys => e x y && allEq e xs ys
  | _, _ => false

theorem cmpLoop_out {α : Type} {f : α → α → R Ev Cmp} {c : α → α → Cmp} (h : ∀ x y, (f x y).out = .ok (c x y)) :
    ∀ xs ys, (cmpLoop f xs ys).out = .ok (lex c xs ys)
  | [], [] => rfl
  | [], _ :: _ => rfl
  | _ :: _, [] => rfl
  | x :: xs, y :: ys => by
    simp only [cmpLoop, lex]
    rw [bind_out (h x y)]
    by_cases hc : c x y = .equal
    · simp [hc, cmpLoop_out h xs ys]
    · simp [hc, R.pure]

theorem eqLoop_out {α : Type} {f : α → α → R Ev Bool} {e : α → α → Bool} (h : ∀ x y, (f x y).out = .ok (e x y)) :
    ∀ xs ys, xs.length = ys.length → (eqLoop f xs ys).out = .ok (allEq e xs ys)
  | [], [], _ => rfl
  | [], _ :: _, h' => by simp at h'
  | _ :: _, [], h' => by simp at h'
  | x :: xs, y :: ys, h' => by
    simp only [List.length_cons, Nat.add_right_cancel_iff] at h'
    simp only [eqLoop, allEq]
    rw [bind_out (h x y)]
    cases e x y
    · simp [R.pure]
    · simp [eqLoop_out h xs ys h']

theorem allEq_length {α : Type} {e : α → α → Bool} : ∀ {xs ys : List α}, xs.length ≠ ys.length → allEq e xs ys = false
  | [], [], h => absurd rfl h
  | [], _ :: _, _ => rfl
  | _ :: _, [], _ => rfl
  | _ :: xs, _ :: ys, h => by
    have : xs.length ≠ ys.length := fun h' => h (by simp [h'])
    simp [allEq, allEq_length this]

theorem rangeEq_out {α : Type} {f : α → α → R Ev Bool} {e : α → α → Bool} (h : ∀ x y, (f x y).out = .ok (e x y)) (xs ys : List α) :
    (rangeEq f xs ys).out = .ok (allEq e xs ys) := by
  by_cases hl : xs.length = ys.length
  · simp [rangeEq, hl, eqLoop_out h xs ys hl]
  · simp [rangeEq, hl, allEq_length hl, R.pure]

theorem flip_equal {r : Cmp} : r.flip = .equal ↔ r = .equal := by cases r <;> simp [Cmp.flip]

/-- The laws of an order, for a function. -/
structure Ord {α : Type} (total : Bool) (c : α → α → Cmp) : Prop where
  flip : ∀ x y, c y x = (c x y).flip
  subst : ∀ x y z, c x y = .equal → c x z = c y z
  trans : ∀ x y z, c x y = .less → c y z = .less → c x z = .less
  ordered : total = true → ∀ x y, c x y ≠ .unordered

theorem Ord.substR {α : Type} {total : Bool} {c : α → α → Cmp} (h : Ord total c) {x y z : α} (hy : c y z = .equal) : c x y = c x z := by
  have h1 := h.subst y z x hy
  rw [h.flip x y, h.flip x z] at h1
  revert h1
  cases c x y <;> cases c x z <;> simp [Cmp.flip]

/-- First `c`, then `d` on equal ones. -/
theorem Ord.pair {α β : Type} {total : Bool} {c : α → α → Cmp} {d : β → β → Cmp} (hc : Ord total c) (hd : Ord total d) :
    Ord total (fun a b : α × β => if c a.1 b.1 = .equal then d a.2 b.2 else c a.1 b.1) where
  flip a b := by
    have := hc.flip a.1 b.1
    simp only [this, flip_equal]
    by_cases h : c a.1 b.1 = .equal
    · simp [h, hd.flip a.2 b.2]
    · simp [h]
  subst a b z := by
    by_cases h : c a.1 b.1 = .equal
    · simp only [h, if_true, hc.subst _ _ z.1 h]
      intro h2
      rw [hd.subst _ _ z.2 h2]
    · simp [h]
  trans a b z := by
    by_cases h : c a.1 b.1 = .equal
    · simp only [h, if_true, hc.subst _ _ z.1 h]
      intro h1
      by_cases h2 : c b.1 z.1 = .equal
      · simp only [h2, if_true]; exact hd.trans _ _ _ h1
      · simp [h2]
    · simp only [h, if_false]
      intro h1
      by_cases h2 : c b.1 z.1 = .equal
      · have : c a.1 z.1 = .less := by rw [← hc.substR h2]; exact h1
        simp [h2, this]
      · simp only [h2, if_false]
        intro h3
        have := hc.trans _ _ _ h1 h3
        simp [this]
  ordered ht a b := by
    split
    · exact hd.ordered ht _ _
    · exact hc.ordered ht _ _

theorem Ord.lex {α : Type} {total : Bool} {c : α → α → Cmp} (hc : Ord total c) : Ord total (Compare.lex c) where
  flip := by
    intro xs
    induction xs with
    | nil => intro ys; cases ys <;> rfl
    | cons x xs ih =>
      intro ys
      cases ys with
      | nil => rfl
      | cons y ys =>
        simp only [Compare.lex, hc.flip x y, flip_equal]
        by_cases h : c x y = .equal
        · simp [h, ih ys]
        · simp [h]
  subst := by
    intro xs
    induction xs with
    | nil => intro ys zs; cases ys <;> simp [Compare.lex]
    | cons x xs ih =>
      intro ys zs
      cases ys with
      | nil => simp [Compare.lex]
      | cons y ys =>
        cases zs with
        | nil => simp [Compare.lex]
        | cons z zs =>
          simp only [Compare.lex]
          by_cases h : c x y = .equal
          · simp only [h, if_true, hc.subst _ _ z h]
            intro h2
            rw [ih ys zs h2]
          · simp [h]
  trans := by
    intro xs
    induction xs with
    | nil => intro ys zs; cases ys <;> cases zs <;> simp [Compare.lex]
    | cons x xs ih =>
      intro ys zs
      cases ys with
      | nil => simp [Compare.lex]
      | cons y ys =>
        cases zs with
        | nil => simp [Compare.lex]
        | cons z zs =>
          simp only [Compare.lex]
          by_cases h : c x y = .equal
          · simp only [h, if_true, hc.subst _ _ z h]
            intro h1
            by_cases h2 : c y z = .equal
            · simp only [h2, if_true]; exact ih _ _ h1
            · simp [h2]
          · simp only [h, if_false]
            intro h1
            by_cases h2 : c y z = .equal
            · have : c x z = .less := by rw [← hc.substR h2]; exact h1
              simp [h2, this]
            · simp only [h2, if_false]
              intro h3
              simp [hc.trans _ _ _ h1 h3]
  ordered ht := by
    intro xs
    induction xs with
    | nil => intro ys; cases ys <;> simp [Compare.lex]
    | cons x xs ih =>
      intro ys
      cases ys with
      | nil => simp [Compare.lex]
      | cons y ys =>
        simp only [Compare.lex]
        split
        · exact ih ys
        · exact hc.ordered ht _ _

theorem allEq_lex {α : Type} {e : α → α → Bool} {c : α → α → Cmp} (h : ∀ x y, e x y = true ↔ c x y = .equal) :
    ∀ xs ys, allEq e xs ys = true ↔ lex c xs ys = .equal
  | [], [] => by simp [allEq, lex]
  | [], _ :: _ => by simp [allEq, lex]
  | _ :: _, [] => by simp [allEq, lex]
  | x :: xs, y :: ys => by
    simp only [allEq, lex, Bool.and_eq_true, h, allEq_lex h xs ys]
    by_cases hc : c x y = .equal <;> simp [hc]

theorem Laws.ord {total : Bool} {t : Ty Ev} {e : t.carrier → t.carrier → Bool} {c : t.carrier → t.carrier → Cmp}
    (h : Laws total t e c) : Ord total c := ⟨h.flip, h.subst, h.trans, h.ordered⟩

theorem noexcept_ok {β : Type} {r : R Ev β} {b : β} (h : r.out = .ok b) : (noexcept r).out = .ok b := by
  rw [noexcept_out, h]; rfl

/-- **C99.** The comparisons of a flex_array are the lexicographic ones of its elements, and obey the laws if those of the elements
do. -/
theorem flex_laws (m : Mode) {total : Bool} {t : Ty Ev} {e : t.carrier → t.carrier → Bool} {c : t.carrier → t.carrier → Cmp}
    (h : Laws total t e c) :
    Laws total (flex m t) (fun a b => allEq e a.val b.val) (fun a b => lex c a.val b.val) := by
  obtain ⟨fe, he, he'⟩ := h.eq
  obtain ⟨fc, hc, hc'⟩ := h.cmp
  have o := h.ord.lex
  refine ⟨?_, ?_, fun x y => allEq_lex h.agree _ _, fun x y => o.flip _ _, fun x y z => o.subst _ _ _, fun x y z => o.trans _ _ _,
    fun ht x y => o.ordered ht _ _⟩
  · refine ⟨_, by simp only [flex, he, Option.map]; rfl, fun a b => noexcept_ok ?_⟩
    cases m with
    | static n =>
      have hl : a.val.length = b.val.length := by have := a.2; have := b.2; simp only [Mode.Fits] at *; omega
      exact noexcept_ok (eqLoop_out he' _ _ hl)
    | limited n => exact noexcept_ok (noexcept_ok (rangeEq_out he' _ _))
    | vector => exact noexcept_ok (rangeEq_out he' _ _)
    | small => exact noexcept_ok (noexcept_ok (rangeEq_out he' _ _))
  · refine ⟨_, by simp only [flex, innerCmp_three (show t.eq.isSome = true by rw [he]; rfl) hc, Option.map]; rfl, fun a b => ?_⟩
    exact noexcept_ok (noexcept_ok (cmpLoop_out hc' _ _))

/-- **C99.** The comparisons of a tuple obey the laws if those of the elements do. -/
theorem tuple_laws {total : Bool} : ∀ {ts : List (Ty Ev)}, (∀ t ∈ ts, Lawful total t) → Lawful total (tuple ts)
  | [], _ => ⟨fun _ _ => true, fun _ _ => .equal, {
      eq := ⟨_, rfl, fun _ _ => rfl⟩
      cmp := ⟨_, rfl, fun _ _ => rfl⟩
      agree := fun _ _ => by simp
      flip := fun _ _ => rfl
      subst := fun _ _ _ _ => rfl
      trans := fun _ _ _ h => by cases h
      ordered := fun _ _ _ h => by cases h }⟩
  | t :: ts, h => by
    obtain ⟨e, c, l⟩ := h t (by simp)
    obtain ⟨e', c', l'⟩ := tuple_laws (ts := ts) (fun u hu => h u (by simp [hu]))
    have o := l.ord.pair l'.ord
    obtain ⟨fe, he, he'⟩ := l.eq
    obtain ⟨fc, hc, hc'⟩ := l.cmp
    obtain ⟨ge, ke, ke'⟩ := l'.eq
    obtain ⟨gc, kc, kc'⟩ := l'.cmp
    refine ⟨fun a b => e a.1 b.1 && e' a.2 b.2, fun a b => if c a.1 b.1 = .equal then c' a.2 b.2 else c a.1 b.1, ?_, ?_, ?_, o.flip, o.subst,
      o.trans, o.ordered⟩
    · refine ⟨_, by simp only [tuple, consTuple, he, ke, Option.bind, Option.map]; rfl, fun a b => noexcept_ok ?_⟩
      rw [bind_out (he' _ _)]
      cases e a.1 b.1
      · rfl
      · simpa using ke' a.2 b.2
    · refine ⟨_, by simp only [tuple, consTuple, hc, kc, Option.bind, Option.map]; rfl, fun a b => noexcept_ok ?_⟩
      rw [bind_out (hc' _ _)]
      by_cases hq : c a.1 b.1 = .equal
      · simpa [hq] using kc' a.2 b.2
      · simp [hq, R.pure]
    · intro a b
      simp only [Bool.and_eq_true, l.agree, l'.agree]
      by_cases hq : c a.1 b.1 = .equal <;> simp [hq]

theorem integral_tuple_laws {total : Bool} {ts : List (Ty Ev)} (h : ∀ t ∈ ts, Lawful total t) : Lawful total (integralTuple ts) := by
  obtain ⟨e, c, l⟩ := tuple_laws h
  obtain ⟨fe, he, he'⟩ := l.eq
  obtain ⟨fc, hc, hc'⟩ := l.cmp
  have h1 : (integralTuple ts).eq = some fun a b => noexcept (fe a b) := by
    simp only [integralTuple, he]; rfl
  have h2 : (integralTuple ts).cmp = some fun a b => noexcept (fc a b) := by
    simp only [integralTuple, hc]; rfl
  exact ⟨e, c, ⟨_, h1, fun a b => noexcept_ok (he' a b)⟩, ⟨_, h2, fun a b => noexcept_ok (hc' a b)⟩, l.agree, l.flip, l.subst, l.trans, l.ordered⟩

/-- First the left values. -/
def sumCmp {α β : Type} (c : α → α → Cmp) (d : β → β → Cmp) : α ⊕ β → α ⊕ β → Cmp
  | .inl x, .inl y => c x y
  | .inr x, .inr y => d x y
  | .inl _, .inr _ => .less
  | .inr _, .inl _ => .greater

/-- First nothing. -/
def optCmp {α : Type} (c : α → α → Cmp) : Option α → Option α → Cmp
  | none, none => .equal
  | none, some _ => .less
  | some _, none => .greater
  | some x, some y => c x y

/-- Equal values on the same side. -/
def sumEq {α β : Type} (e : α → α → Bool) (d : β → β → Bool) : α ⊕ β → α ⊕ β → Bool
  | .inl x, .inl y => e x y
  | .inr x, .inr y => d x y
  | _, _ => false

/-- Equal values, or both nothing. -/
def optEq {α : Type} (e : α → α → Bool) : Option α → Option α → Bool
  | none, none => true
  | some x, some y => e x y
  | _, _ => false

theorem Ord.sum {α β : Type} {total : Bool} {c : α → α → Cmp} {d : β → β → Cmp} (hc : Ord total c) (hd : Ord total d) :
    Ord total (sumCmp c d) where
  flip x y := by 
    rcases x with x | x <;> rcases y with y | y <;> first | exact hc.flip _ _ | exact hd.flip _ _ | rfl
  subst x y z := by
    rcases x with x | x <;> rcases y with y | y <;> rcases z with z | z <;> simp only [sumCmp] <;>
      first | exact hc.subst _ _ _ | exact hd.subst _ _ _ | simp
  trans x y z := by
    rcases x with x | x <;> rcases y with y | y <;> rcases z with z | z <;> simp only [sumCmp] <;>
      first | exact hc.trans _ _ _ | exact hd.trans _ _ _ | simp
  ordered ht x y := by
    rcases x with x | x <;> rcases y with y | y <;> simp only [sumCmp] <;>
      first | exact hc.ordered ht _ _ | exact hd.ordered ht _ _ | simp

theorem Ord.opt {α : Type} {total : Bool} {c : α → α → Cmp} (hc : Ord total c) : Ord total (optCmp c) where
  flip x y := by rcases x with _ | x <;> rcases y with _ | y <;> first | exact hc.flip _ _ | rfl
  subst x y z := by
    rcases x with _ | x <;> rcases y with _ | y <;> rcases z with _ | z <;> simp only [optCmp] <;>
      first | exact hc.subst _ _ _ | simp
  trans x y z := by
    rcases x with _ | x <;> rcases y with _ | y <;> rcases z with _ | z <;> simp only [optCmp] <;>
      first | exact hc.trans _ _ _ | simp
  ordered ht x y := by
    rcases x with _ | x <;> rcases y with _ | y <;> simp only [optCmp] <;>
      first | exact hc.ordered ht _ _ | simp

theorem Laws.three {total : Bool} {t : Ty Ev} {e : t.carrier → t.carrier → Bool} {c : t.carrier → t.carrier → Cmp}
    (h : Laws total t e c) : t.threeWayComparable = true := by
  obtain ⟨_, he, _⟩ := h.eq
  obtain ⟨_, hc, _⟩ := h.cmp
  simp [Ty.threeWayComparable, he, hc]

/-- **C99.** The comparisons of a variant2 are those described by `optCmp` and `sumCmp`, and obey the laws if those of the
alternatives do. -/
theorem variant2_laws {total : Bool} {t u : Ty Ev} {e : t.carrier → t.carrier → Bool} {c : t.carrier → t.carrier → Cmp}
    {e' : u.carrier → u.carrier → Bool} {c' : u.carrier → u.carrier → Cmp} (h : Laws total t e c) (h' : Laws total u e' c') :
    Laws total (variant2 t u) (optEq (sumEq e e')) (optCmp (sumCmp c c')) := by
  have o := (h.ord.sum h'.ord).opt
  obtain ⟨fe, he, he'⟩ := h.eq
  obtain ⟨fc, hc, hc'⟩ := h.cmp
  obtain ⟨ge, ke, ke'⟩ := h'.eq
  obtain ⟨gc, kc, kc'⟩ := h'.cmp
  refine ⟨?_, ?_, ?_, o.flip, o.subst, o.trans, o.ordered⟩
  · refine ⟨_, by simp only [variant2, he, ke, Option.bind, Option.map]; rfl, fun x y => ?_⟩
    rcases x with _ | x | x <;> rcases y with _ | y | y <;>
      first | exact noexcept_ok (he' _ _) | exact noexcept_ok (ke' _ _) | rfl
  · refine ⟨_, by simp only [variant2, h.three, h'.three, hc, kc, Option.bind, Option.map, Bool.and_self, if_true]; rfl, fun x y => ?_⟩
    rcases x with _ | x | x <;> rcases y with _ | y | y <;>
      first | exact noexcept_ok (hc' _ _) | exact noexcept_ok (kc' _ _) | rfl
  · intro x y
    rcases x with _ | x | x <;> rcases y with _ | y | y <;> simp [optEq, sumEq, optCmp, sumCmp, h.agree, h'.agree]

theorem alts_laws {total : Bool} : ∀ {ts : List (Ty Ev)}, (∀ t ∈ ts, Lawful total t) →
    ∃ (fe : Alts ts → Alts ts → R Ev Bool) (fc : Alts ts → Alts ts → R Ev Cmp) (e : Alts ts → Alts ts → Bool) (c : Alts ts → Alts ts → Cmp),
      altsEq ts = some fe ∧ altsCmp ts = some fc ∧ (∀ x y, (fe x y).out = .ok (e x y)) ∧ (∀ x y, (fc x y).out = .ok (c x y)) ∧
      (∀ x y, e x y = true ↔ c x y = .equal) ∧ Ord total c
  | [], _ => by
    refine ⟨_, _, fun x _ => (nomatch (show Empty from x)), fun x _ => (nomatch (show Empty from x)), rfl, rfl, ?_, ?_, ?_, ?_⟩
    · exact fun x _ => nomatch (show Empty from x)
    · exact fun x _ => nomatch (show Empty from x)
    · exact fun x _ => nomatch (show Empty from x)
    · exact { flip := fun x _ => nomatch (show Empty from x)
              subst := fun x _ _ => nomatch (show Empty from x)
              trans := fun x _ _ => nomatch (show Empty from x)
              ordered := fun _ x _ => nomatch (show Empty from x) }
  | t :: ts, h => by
    obtain ⟨e, c, l⟩ := h t (by simp)
    obtain ⟨ge, gc, e', c', k1, k2, k3, k4, k5, k6⟩ := alts_laws (ts := ts) (fun u hu => h u (by simp [hu]))
    obtain ⟨fe, he, he'⟩ := l.eq
    obtain ⟨fc, hc, hc'⟩ := l.cmp
    refine ⟨_, _, sumEq e e', sumCmp c c', by simp only [altsEq, he, k1, Option.bind, Option.map]; rfl,
      by simp only [altsCmp, l.three, hc, k2, if_true, Option.bind, Option.map]; rfl, ?_, ?_, ?_, l.ord.sum k6⟩
    · intro x y
      rcases x with x | x <;> rcases y with y | y <;> first | exact he' _ _ | exact k3 _ _ | rfl
    · intro x y
      rcases x with x | x <;> rcases y with y | y <;> first | exact hc' _ _ | exact k4 _ _ | rfl
    · intro x y
      rcases x with x | x <;> rcases y with y | y <;> simp [sumEq, sumCmp, l.agree, k5]

/-- **C99.** The comparisons of an integral_template_variant obey the laws if those of the alternatives do. -/
theorem integral_variant_laws {total : Bool} {ts : List (Ty Ev)} (h : ∀ t ∈ ts, Lawful total t) : Lawful total (integralVariant ts) := by
  obtain ⟨fe, fc, e, c, k1, k2, k3, k4, k5, k6⟩ := alts_laws h
  have o := k6.opt
  refine ⟨optEq e, optCmp c, ?_, ?_, ?_, o.flip, o.subst, o.trans, o.ordered⟩
  · refine ⟨_, by simp only [integralVariant, k1, Option.map]; rfl, fun x y => ?_⟩
    rcases x with _ | x <;> rcases y with _ | y <;> first | exact noexcept_ok (k3 _ _) | rfl
  · refine ⟨_, by simp only [integralVariant, k2, Option.map]; rfl, fun x y => ?_⟩
    rcases x with _ | x <;> rcases y with _ | y <;> first | exact noexcept_ok (k4 _ _) | rfl
  · intro x y
    rcases x with _ | x <;> rcases y with _ | y <;> simp [optEq, optCmp, k5]

/-- The types that can be built from those of the user with the class templates, nested in any way. -/
inductive Made (user : Ty Ev → Prop) : Ty Ev → Prop
  | user {t} : user t → Made user t
  | flex (m) {t} : Made user t → Made user (flex m t)
  | tuple {ts} : (∀ t ∈ ts, Made user t) → Made user (tuple ts)
  | integralTuple {ts} : (∀ t ∈ ts, Made user t) → Made user (integralTuple ts)
  | integralVariant {ts} : (∀ t ∈ ts, Made user t) → Made user (integralVariant ts)
  | variant2 {t u} : Made user t → Made user u → Made user (variant2 t u)

/-- **C99.** However the templates are nested: if the comparisons of the user's types do not throw and obey the laws of an order
(`total`: of a total one), so do those of the built type. -/
theorem made_lawful {total : Bool} {user : Ty Ev → Prop} (hu : ∀ t, user t → Lawful total t) {t : Ty Ev} (h : Made user t) : Lawful total t := by
  induction h with
  | user h => exact hu _ h
  | flex m _ ih => obtain ⟨e, c, l⟩ := ih; exact ⟨_, _, flex_laws m l⟩
  | tuple _ ih => exact tuple_laws ih
  | integralTuple _ ih => exact integral_tuple_laws ih
  | integralVariant _ ih => exact integral_variant_laws ih
  | variant2 _ _ ih ih' => obtain ⟨e, c, l⟩ := ih; obtain ⟨e', c', l'⟩ := ih'; exact ⟨_, _, variant2_laws l l'⟩

/-- **C99.** In types whose comparisons obey the laws, the six operators fit together: `!=` is the opposite of `==`, `<=` is `<` or
`==`, `>` and `>=` are `<` and `<=` with swapped operands. `==` is symmetric and transitive. If all values are ordered,
exactly one of `<`, `==`, `>` holds, and `==` is reflexive. -/
theorem operators_fit {total : Bool} {t : Ty Ev} (h : Lawful total t) (hlt : t.lt = none) :
    ∃ eq ne lt le gt ge, (t.eq = some eq ∧ t.ne = some ne ∧ t.less = some lt ∧ t.le = some le ∧ t.gt = some gt ∧ t.ge = some ge) ∧
    ∃ e l : t.carrier → t.carrier → Bool, ∀ x y,
      (eq x y).out = .ok (e x y) ∧ (ne x y).out = .ok (!e x y) ∧ (lt x y).out = .ok (l x y) ∧ (le x y).out = .ok (l x y || e x y) ∧
      (gt x y).out = .ok (l y x) ∧ (ge x y).out = .ok (l y x || e x y) ∧
      e y x = e x y ∧ (∀ z, e x y = true → e y z = true → e x z = true) ∧ (∀ z, l x y = true → l y z = true → l x z = true) ∧
      (l x y = true → e x y = false ∧ l y x = false) ∧ (e x y = true → ∀ z, l x z = l y z ∧ l z x = l z y) ∧
      (total = true → e x x = true ∧ (l x y = true ∨ e x y = true ∨ l y x = true)) := by
  obtain ⟨e, c, h⟩ := h
  obtain ⟨fe, he, he'⟩ := h.eq
  obtain ⟨fc, hc, hc'⟩ := h.cmp
  refine ⟨fe, _, _, _, _, _, ⟨he, by simp only [Ty.ne, he, Option.map]; rfl, by simp only [Ty.less, hlt, hc, Option.map]; rfl,
    by simp only [Ty.le, hc, Option.map]; rfl, by simp only [Ty.gt, hc, Option.map]; rfl, by simp only [Ty.ge, hc, Option.map]; rfl⟩,
    e, fun x y => decide (c x y = .less), ?_⟩
  intro x y
  have ee : ∀ x y, e x y = decide (c x y = .equal) := fun x y => by
    have := h.agree x y
    cases hb : e x y <;> simp [hb] at this ⊢ <;> simp [this]
  have fl := h.flip x y
  refine ⟨he' x y, by rw [bind_out (he' x y)]; rfl, by rw [bind_out (hc' x y)]; rfl, ?_, ?_, ?_, ?_, ?_, ?_, ?_, ?_, ?_⟩
  · rw [bind_out (hc' x y), ee]; simp [R.pure]
  · rw [bind_out (hc' x y)]; simp only [fl]; cases c x y <;> rfl
  · rw [bind_out (hc' x y), ee]; simp only [fl]; cases c x y <;> rfl
  · rw [ee, ee, fl]; cases c x y <;> rfl
  · intro z
    simp only [h.agree]
    intro h1 h2
    rw [h.subst x y z h1]; exact h2
  · intro z
    simp only [decide_eq_true_eq]
    exact h.trans x y z
  · simp only [ee, fl]; cases c x y <;> simp [Cmp.flip]
  · rw [h.agree]
    intro h1 z
    exact ⟨congrArg (fun r => decide (r = Cmp.less)) (h.subst x y z h1),
      congrArg (fun r => decide (r = Cmp.less)) (h.ord.substR h1)⟩
  · intro ht
    have := h.ordered ht x y
    have hx := h.ordered ht x x
    have fx := h.flip x x
    simp only [ee, fl]
    constructor
    · revert hx fx; cases c x x <;> simp [Cmp.flip]
    · revert this; cases c x y <;> simp [Cmp.flip]

/-- The outcome with its value, if it has one, turned into another one (specification). -/
def Out.onValue {α β : Type} (g : α → β) : Out α → Out β
  | .ok a => .ok (g a)
  | .threw => .threw
  | .terminated => .terminated
  | .illFormed => .illFormed

/-- **C99.** The operators that the language derives from `==` and `<=>` call exactly what these call, and if these throw, so do
they: nothing is called twice, and no exception is turned into anything else. -/
theorem derived_operators (t : Ty Ev) :
    (∀ e, t.eq = some e → ∃ ne, t.ne = some ne ∧
      ∀ a b, (ne a b).calls = (e a b).calls ∧ (ne a b).out = (e a b).out.onValue (fun r => !r)) ∧
    (∀ c, t.cmp = some c → ∃ le gt ge, t.le = some le ∧ t.gt = some gt ∧ t.ge = some ge ∧ ∀ a b,
      ((le a b).calls = (c a b).calls ∧ (le a b).out = (c a b).out.onValue (fun r => r == .less || r == .equal)) ∧
      ((gt a b).calls = (c a b).calls ∧ (gt a b).out = (c a b).out.onValue (fun r => r == .greater)) ∧
      ((ge a b).calls = (c a b).calls ∧ (ge a b).out = (c a b).out.onValue (fun r => r == .greater || r == .equal))) ∧
    (∀ c, t.lt = none → t.cmp = some c → ∃ lt, t.less = some lt ∧
      ∀ a b, (lt a b).calls = (c a b).calls ∧ (lt a b).out = (c a b).out.onValue (fun r => r == .less)) := by
  refine ⟨fun e he => ?_, fun c hc => ?_, fun c hl hc => ?_⟩
  · refine ⟨_, by simp only [Ty.ne, he, Option.map]; rfl, fun a b => ?_⟩
    rcases e a b with ⟨cs, _ | _ | _ | _⟩ <;> simp [R.bind, R.pure, Out.onValue]
  · refine ⟨_, _, _, by simp only [Ty.le, hc, Option.map]; rfl, by simp only [Ty.gt, hc, Option.map]; rfl,
      by simp only [Ty.ge, hc, Option.map]; rfl, fun a b => ?_⟩
    rcases c a b with ⟨cs, r | _ | _ | _⟩ <;> simp [R.bind, R.pure, Out.onValue]
    cases r <;> decide
  · refine ⟨_, by simp only [Ty.less, hl, hc, Option.map]; rfl, fun a b => ?_⟩
    rcases c a b with ⟨cs, r | _ | _ | _⟩ <;> simp [R.bind, R.pure, Out.onValue]
    cases r <;> decide

/-! ### Examples -/

/-- Numbers. -/
abbrev number : Ty (Nat × Nat) where
  carrier := Nat
  eq := some fun x y => ⟨[(x, y)], .ok (decide (x = y))⟩
  lt := none
  cmp := some fun x y => ⟨[(x, y)], .ok (natCmp x y)⟩

theorem natCmp_equal {a b : Nat} : natCmp a b = .equal ↔ a = b := by
  unfold natCmp
  by_cases h : a < b
  · simp [h]; omega
  · by_cases h' : a = b <;> simp [h, h']

theorem natCmp_less {a b : Nat} : natCmp a b = .less ↔ a < b := by
  unfold natCmp
  by_cases h : a < b
  · simp [h]
  · by_cases h' : a = b <;> simp [h, h']

theorem natCmp_flip (x y : Nat) : natCmp y x = (natCmp x y).flip := by
  unfold natCmp
  rcases Nat.lt_trichotomy x y with h | h | h
  · have h1 : ¬ y < x := by omega
    have h2 : y ≠ x := by omega
    simp [h, h1, h2, Cmp.flip]
  · simp [h, Cmp.flip]
  · have h1 : ¬ x < y := by omega
    have h2 : x ≠ y := by omega
    simp [h, h1, h2, Cmp.flip]

theorem natCmp_ordered (x y : Nat) : natCmp x y ≠ .unordered := by
  unfold natCmp
  split
  · simp
  · split <;> simp

/-- Numbers meet the laws. -/
theorem number_lawful : Lawful true number := by
  refine ⟨fun x y => decide (x = y), natCmp, ⟨_, rfl, fun _ _ => rfl⟩, ⟨_, rfl, fun _ _ => rfl⟩, fun x y => ?_, fun x y => ?_, fun x y z => ?_,
    fun x y z => ?_, fun _ x y => ?_⟩
  · simp [natCmp_equal]
  · exact natCmp_flip x y
  · rw [natCmp_equal]; rintro rfl; rfl
  · simp only [natCmp_less]; exact Nat.lt_trans
  · exact natCmp_ordered x y

/-- A variant2 of a tuple of flex_arrays and a number. -/
example : Lawful true (variant2 (tuple [flex (.limited 3) number, flex .vector number]) number) :=
  made_lawful (user := fun t => t = number) (fun _ h => h ▸ number_lawful)
    (.variant2 (.tuple (by
      intro t ht
      simp only [List.mem_cons, List.not_mem_nil, or_false] at ht
      rcases ht with rfl | rfl
      · exact .flex _ (.user rfl)
      · exact .flex _ (.user rfl))) (.user rfl))

example : ∃ f, (flex (.limited 3) touchy).cmp = some f ∧ ∀ a b : FlexVal (.limited 3) Nat,
    Runs .equal (List.zipWith (fun x y => ⟨[(x, y)], if x = 13 ∨ y = 13 then .threw else .ok (natCmp x y)⟩) a.val b.val)
      (natCmp a.val.length b.val.length) (f a b) := flex_cmp_runs (.limited 3) (t := touchy) rfl rfl

example : (flex .small lessOnly).cmp = none := (flex_cmp_less .small (t := lessOnly) rfl rfl).1

/-- Two equal elements, then one that throws. -/
example : (noexcept (eqLoop (Ev := Nat × Nat) (fun x y => ⟨[(x, y)], if x = 13 then .threw else .ok (decide (x = y))⟩)
    [1, 2, 13, 5] [1, 2, 3, 4])).out = .terminated :=
  (runs_terminated (eqLoop_runs _ _ _)).1.2 ⟨[⟨[(1, 1)], .ok true⟩, ⟨[(2, 2)], .ok true⟩], ⟨[(13, 3)], .threw⟩, [⟨[(5, 4)], .ok false⟩], rfl,
    by simp, .inl rfl⟩

example : Laws true (flex (.static 2) number) (fun a b => allEq (fun x y => decide (x = y)) a.val b.val)
    (fun a b => lex natCmp a.val b.val) := by
  obtain ⟨e, c, l⟩ := number_lawful
  have he : e = fun x y => decide (x = y) := by
    obtain ⟨f, hf, hf'⟩ := l.eq
    obtain rfl := Option.some.inj hf
    funext x y
    exact (Out.ok.inj (hf' x y)).symm
  have hc : c = natCmp := by
    obtain ⟨f, hf, hf'⟩ := l.cmp
    obtain rfl := Option.some.inj hf
    funext x y
    exact (Out.ok.inj (hf' x y)).symm
  subst he hc
  exact flex_laws _ l

example : Lawful true (tuple [number, number]) ∧ Lawful true (integralTuple [number]) ∧ Lawful true (integralVariant [number, number]) :=
  ⟨tuple_laws (by simp [number_lawful]), integral_tuple_laws (by simp [number_lawful]), integral_variant_laws (by simp [number_lawful])⟩

example := operators_fit number_lawful rfl

/-! ### Hashes -/

/-- The held value and its position, hashed. -/
def hashAlt (h : (t : Ty Ev) → t.carrier → R Ev Nat) : (ts : List (Ty Ev)) → Alts ts → R Ev Nat
  | [], x => nomatch x
  | t :: _, .inl x => h t x
  | _ :: ts, .inr x => hashAlt h ts x

theorem altsHash_eq (h : (t : Ty Ev) → t.carrier → R Ev Nat) : ∀ (ts : List (Ty Ev)) (k : Nat) (x : Alts ts),
    altsHash ts h k x = (hashAlt h ts x).bind fun n => .pure (k + position ts x + n)
  | [], _, x => nomatch x
  | _ :: _, k, .inl x => by simp [altsHash, hashAlt, position]
  | _ :: ts, k, .inr x => by
    simp only [altsHash, hashAlt, position, altsHash_eq h ts (k + 1) x]
    congr 1
    funext n
    rw [show k + 1 + position ts x = k + (position ts x + 1) by omega]

/-- **C99, hash of integral_template_variant.** The hash of the held value is computed once and the position added; if computing it
throws, the program terminates. -/
theorem integral_variant_hash (ts : List (Ty Ev)) (h : (t : Ty Ev) → t.carrier → R Ev Nat) (npos : Nat) :
    integralVariantHash ts h npos none = ⟨[], .ok npos⟩ ∧
    ∀ x, (integralVariantHash ts h npos (some x)).calls = (hashAlt h ts x).calls ∧
      match (hashAlt h ts x).out with
      | .ok n => (integralVariantHash ts h npos (some x)).out = .ok (position ts x + n)
      | .threw | .terminated => (integralVariantHash ts h npos (some x)).out = .terminated
      | .illFormed => (integralVariantHash ts h npos (some x)).out = .illFormed := by
  refine ⟨rfl, fun x => ?_⟩
  have e : integralVariantHash ts h npos (some x) = noexcept ((hashAlt h ts x).bind fun n => .pure (position ts x + n)) := by
    have := altsHash_eq h ts 0 x
    simp only [Nat.zero_add] at this
    rw [← this]; rfl
  rw [e]
  rcases hashAlt h ts x with ⟨c, _ | _ | _ | _⟩ <;> simp [R.bind, noexcept, R.pure]

/-- **C99, hash of variant2.** As for integral_template_variant; and hashing a valueless variant2 terminates the program. -/
theorem variant2_hash (t u : Ty Ev) (hsz : Nat → Nat) (h : (t : Ty Ev) → t.carrier → R Ev Nat) :
    variant2Hash t u hsz h none = ⟨[], .terminated⟩ ∧
    (∀ x, (variant2Hash t u hsz h (some (.inl x))).calls = (h t x).calls ∧
      (∀ n, (h t x).out = .ok n → (variant2Hash t u hsz h (some (.inl x))).out = .ok (hsz 0 + n)) ∧
      ((variant2Hash t u hsz h (some (.inl x))).out = .terminated ↔ (h t x).out = .threw ∨ (h t x).out = .terminated)) ∧
    (∀ x, (variant2Hash t u hsz h (some (.inr x))).calls = (h u x).calls ∧
      (∀ n, (h u x).out = .ok n → (variant2Hash t u hsz h (some (.inr x))).out = .ok (hsz 1 + n)) ∧
      ((variant2Hash t u hsz h (some (.inr x))).out = .terminated ↔ (h u x).out = .threw ∨ (h u x).out = .terminated)) := by
  refine ⟨rfl, fun x => ?_, fun x => ?_⟩
  · have e : variant2Hash t u hsz h (some (.inl x)) = noexcept ((h t x).bind fun n => .pure (hsz 0 + n)) := rfl
    rw [e]
    rcases h t x with ⟨c, _ | _ | _ | _⟩ <;> simp [R.bind, noexcept, R.pure]
  · have e : variant2Hash t u hsz h (some (.inr x)) = noexcept ((h u x).bind fun n => .pure (hsz 1 + n)) := rfl
    rw [e]
    rcases h u x with ⟨c, _ | _ | _ | _⟩ <;> simp [R.bind, noexcept, R.pure]

/-- A type whose comparisons throw on 13: so does `!=` and `<=`, after the same calls. -/
example : ∃ ne le, touchy.ne = some ne ∧ touchy.le = some le ∧ ne (1 : Nat) (13 : Nat) = ⟨[(1, 13)], .threw⟩ ∧
    le (1 : Nat) (2 : Nat) = ⟨[(1, 2)], .ok true⟩ := by
  have _use := derived_operators touchy
  exact ⟨_, _, rfl, rfl, rfl, rfl⟩

example : integralVariantHash [number, number] (fun _ _ => ⟨[(1, 1)], .ok 7⟩) 0 (some (.inr (.inl (5 : Nat)))) = ⟨[(1, 1)], .ok 8⟩ ∧
    integralVariantHash [number, number] (fun _ _ => ⟨[(1, 1)], .threw⟩) 0 (some (.inr (.inl (5 : Nat)))) = ⟨[(1, 1)], .terminated⟩ :=
  ⟨rfl, rfl⟩

end Verif.Compare
