import Verif.FlexArray.Model

/-! Properties C18 - C20 of `flex_array`. -/
namespace Verif.FlexArray

variable {α : Type}

/-- The arrays a program can create in mode `m`, by any history of operations. -/
inductive Reach (env : Env α) : Mode → FA α → Prop
  | dflt (m) : Reach env m (dflt env m)
  | ofInit {m xs a} (h : ofInit env m xs = .ok a) : Reach env m a
  | ofRange {m ra xs a} (h : ofRange env m ra xs = .ok a) : Reach env m a
  | toStatic {m n b a} (hb : Reach env m b) (h : toStatic env n b = .ok a) : Reach env (.static n) a
  | ofStatic {m n b a} (hb : Reach env (.static n) b) (h : ofStatic env m b = some a) : Reach env m a
  | resize {m b k a} (hb : Reach env m b) (h : resize env m b k = some (.ok a)) : Reach env m a
  | write {m b i x} (hb : Reach env m b) (hi : i < b.size) : Reach env m (write b i x)

/-- Well-formed storage. -/
def Wf (m : Mode) (a : FA α) : Prop :=
  match m with
  | .static n => a.size = n ∧ a.data.length = n
  | .limited k => a.size ≤ k ∧ a.data.length = k
  | .dynamic => a.data.length = a.size

theorem overwrite_length : ∀ (cs : List (Option α)) (xs : List α), (overwrite cs xs).length = cs.length
  | cs, [] => by cases cs <;> rfl
  | [], _ :: _ => rfl
  | _ :: cs, x :: xs => by simp [overwrite, overwrite_length cs xs]

theorem overwrite_eq : ∀ (cs : List (Option α)) (xs : List α), xs.length ≤ cs.length →
    overwrite cs xs = xs.map some ++ cs.drop xs.length
  | cs, [], _ => by cases cs <;> simp [overwrite]
  | [], _ :: _, h => by simp at h
  | _ :: cs, x :: xs, h => by
    simp [overwrite, overwrite_eq cs xs (by simpa using h)]

theorem overwriteCells_length : ∀ (cs xs : List (Option α)), (overwriteCells cs xs).length = cs.length
  | cs, [] => by cases cs <;> rfl
  | [], _ :: _ => rfl
  | _ :: cs, x :: xs => by simp [overwriteCells, overwriteCells_length cs xs]

theorem overwriteCells_eq : ∀ (cs xs : List (Option α)), xs.length ≤ cs.length →
    overwriteCells cs xs = xs ++ cs.drop xs.length
  | cs, [], _ => by cases cs <;> simp [overwriteCells]
  | [], _ :: _, h => by simp at h
  | _ :: cs, x :: xs, h => by
    simp [overwriteCells, overwriteCells_eq cs xs (by simpa using h)]

theorem take_map_some (xs : List α) : (xs.map some).take xs.length = xs.map some :=
  List.take_of_length_le (by simp)

theorem fill_ok {check : Bool} {max : Nat} : ∀ {cs : List (Option α)} {ix : Nat} {xs : List α} {r},
    fill check max cs ix xs = .ok r → r.1.length = cs.length ∧ r.2 = ix + xs.length ∧ (check = true → xs ≠ [] → r.2 ≤ max)
  | cs, ix, [], r, h => by simp [fill] at h; subst h; simp
  | cs, ix, x :: xs, r, h => by
    simp only [fill] at h
    split at h
    · cases h
    · rename_i hc
      have := fill_ok h
      refine ⟨by simpa using this.1, by simp [this.2.1]; omega, ?_⟩
      intro hck _
      cases xs with
      | nil => rw [this.2.1]; simp; simp [hck] at hc; omega
      | cons y ys => exact this.2.2 hck (by simp)

theorem fill_eq {check : Bool} {max : Nat} : ∀ (xs : List α) (ys : List (Option α)) (cs : List (Option α)),
    xs.length ≤ cs.length → (check = true → ys.length + xs.length ≤ max) →
    fill check max (ys ++ cs) ys.length xs = .ok (ys ++ (xs.map some ++ cs.drop xs.length), ys.length + xs.length)
  | [], ys, cs, _, _ => by simp [fill]
  | x :: xs, ys, [], h, _ => by simp at h
  | x :: xs, ys, c :: cs, h, hm => by
    have hn : ¬ (check = true ∧ max ≤ ys.length) := by
      rintro ⟨h1, h2⟩; have := hm h1; simp at this; omega
    simp only [fill, if_neg hn]
    have e : (ys ++ c :: cs).set ys.length (some x) = (ys ++ [some x]) ++ cs := by simp
    have ih := fill_eq xs (ys ++ [some x]) cs (by simpa using h) (by intro hc; have := hm hc; simp at this ⊢; omega)
      (check := check) (max := max)
    rw [e]
    simp only [List.length_append, List.length_cons, List.length_nil, Nat.zero_add] at ih
    rw [ih]
    simp; omega

theorem fill_error {max : Nat} : ∀ (xs : List α) (cs : List (Option α)) (ix : Nat), max < ix + xs.length →
    ix ≤ max → fill true max cs ix xs = .error .lengthError
  | [], cs, ix, h, h2 => by simp at h; omega
  | x :: xs, cs, ix, h, h2 => by
    simp only [fill]
    by_cases hc : max ≤ ix
    · simp [hc]
    · rw [if_neg (by simp [hc])]
      exact fill_error xs _ (ix + 1) (by simp at h; omega) (by omega)

/-! ### Exact behaviour of the constructors -/

/-- **C18/C19.** Construction from an initializer list of `xs` succeeds iff the number of elements is representable, and
the live elements are then exactly `xs`; otherwise it throws `length_error`. -/
theorem init_spec (env : Env α) (m : Mode) (xs : List α) :
    let fits := match m with | .static n => xs.length = n | .limited k => xs.length ≤ k | .dynamic => True
    (fits → ∃ a, ofInit env m xs = .ok a ∧ a.size = xs.length ∧ a.live = xs.map some) ∧
    (¬ fits → ofInit env m xs = .error .lengthError) := by
  cases m with
  | static n =>
    constructor
    · intro h
      subst h
      have e : (Mode.static xs.length).tooMany xs.length = false := by simp [Mode.tooMany]
      simp only [ofInit, e, ne_eq, not_true_eq_false, if_false]
      refine ⟨_, rfl, rfl, ?_⟩
      rw [FA.live, overwrite_eq _ _ (by simp [dflt])]
      simp [dflt, take_map_some]
    · intro h
      simp only [ofInit]
      rw [if_pos h]; split <;> rfl
  | limited k =>
    constructor
    · intro h
      have e : (Mode.limited k).tooMany xs.length = false := by simp [Mode.tooMany]; exact h
      simp only [ofInit, e]
      refine ⟨_, rfl, rfl, ?_⟩
      rw [FA.live, overwrite_eq _ _ (by simpa [dflt, setSize] using h)]
      simp [setSize, dflt, take_map_some]
    · intro h
      have e : (Mode.limited k).tooMany xs.length = true := by simp [Mode.tooMany] at h ⊢; exact h
      simp only [ofInit, e]
  | dynamic =>
    refine ⟨fun _ => ⟨_, rfl, rfl, ?_⟩, fun h => absurd trivial h⟩
    rw [FA.live, overwrite_eq _ _ (by simp [setSize, dflt])]
    simp [setSize, dflt, take_map_some]

example : ofInit (⟨none, 0⟩ : Env Nat) (.limited 3) [1, 2] = .ok ⟨2, [some 1, some 2, none]⟩ ∧
    ofInit (⟨none, 0⟩ : Env Nat) (.limited 1) [1, 2] = .error .lengthError ∧
    ofInit (⟨none, 0⟩ : Env Nat) (.static 3) [1, 2] = .error .lengthError := ⟨rfl, rfl, rfl⟩

/-- **C18/C19.** Construction from an iterator range of `xs`, for every kind of iterator: it throws `length_error` iff `xs`
has more than `max_size()` elements; for dynamic extents the live elements are then exactly `xs`. -/
theorem range_spec (env : Env α) (m : Mode) (ra : Bool) (xs : List α) :
    let fits := match m with | .static n => xs.length ≤ n | .limited k => xs.length ≤ k | .dynamic => True
    (fits → ∃ a, ofRange env m ra xs = .ok a ∧
      (match m with
        | .static n => a.size = n ∧ a.live = xs.map some ++ List.replicate (n - xs.length) env.fresh
        | _ => a.size = xs.length ∧ a.live = xs.map some)) ∧
    (¬ fits → ofRange env m ra xs = .error .lengthError) := by
  have key : ∀ n (cs : List (Option α)), cs.length = n → xs.length ≤ n →
      fill (!ra) n cs 0 xs = .ok (xs.map some ++ cs.drop xs.length, xs.length) := by
    intro n cs hc hx
    have := fill_eq (check := !ra) (max := n) xs [] cs (by omega) (by intro _; simp; omega)
    simpa using this
  have bad : ∀ n (cs : List (Option α)), n < xs.length → ra = false → fill (!ra) n cs 0 xs = .error .lengthError := by
    intro n cs h hr
    rw [hr]; exact fill_error xs cs 0 (by omega) (by omega)
  cases m with
  | static n =>
    simp only [ofRange, dflt]
    constructor
    · intro h
      rw [if_neg (by omega), key n _ (by simp) h]
      refine ⟨_, rfl, rfl, ?_⟩
      simp only [FA.live]
      rw [List.take_of_length_le (by simp; omega)]
      simp
    · intro h
      by_cases hr : ra = true
      · rw [if_pos ⟨hr, by omega⟩]
      · rw [if_neg (by simp [hr]), bad n _ (by omega) (by simpa using hr)]
  | limited k =>
    simp only [ofRange, dflt]
    constructor
    · intro h
      rw [if_neg (by omega), key k _ (by simp) h]
      refine ⟨_, rfl, rfl, ?_⟩
      simp [FA.live, take_map_some]
    · intro h
      by_cases hr : ra = true
      · rw [if_pos ⟨hr, by omega⟩]
      · rw [if_neg (by simp [hr]), bad k _ (by omega) (by simpa using hr)]
  | dynamic =>
    refine ⟨fun _ => ⟨_, rfl, by simp [dflt], by simp [dflt, FA.live, take_map_some]⟩, fun h => absurd trivial h⟩

/-- A forward range and a random-access range, fitting and too long. -/
example : ofRange (⟨none, 0⟩ : Env Nat) (.limited 3) false [1, 2] = .ok ⟨2, [some 1, some 2, none]⟩ ∧
    ofRange (⟨none, 0⟩ : Env Nat) (.limited 1) true [1, 2] = .error .lengthError ∧
    ofRange (⟨none, 0⟩ : Env Nat) (.limited 1) false [1, 2] = .error .lengthError := ⟨rfl, rfl, rfl⟩

/-- **C18, refuted.** A static extent accepts a range that is too short; part of the array is left uninitialised. -/
theorem range_short_refuted :
    ∃ (a : FA Nat), ofRange ⟨none, 0⟩ (.static 3) true [7] = .ok a ∧ a.size = 3 ∧ a.live = [some 7, none, none] :=
  ⟨_, rfl, rfl, rfl⟩

theorem live_length {m : Mode} {a : FA α} (h : Wf m a) : a.live.length = a.size := by
  cases m <;> simp [Wf, FA.live] at h ⊢ <;> omega

/-- **C18.** The storage invariant: in every reachable state the size is within the extent. -/
theorem reach_wf {env : Env α} {m : Mode} {a : FA α} (h : Reach env m a) : Wf m a := by
  induction h with
  | dflt m => cases m <;> simp [Wf, dflt]
  | @ofInit m xs a h =>
    cases m with
    | static n =>
      simp only [ofInit, dflt] at h
      split at h
      · cases h
      · split at h
        · cases h
        · injection h with h; subst h; simp [Wf, overwrite_length]
    | limited k =>
      simp only [ofInit] at h
      split at h
      · cases h
      · rename_i hc
        injection h with h; subst h; simp [Wf, overwrite_length, setSize, dflt, Mode.tooMany] at hc ⊢; omega
    | dynamic =>
      simp only [ofInit] at h
      split at h
      · cases h
      · injection h with h; subst h; simp [Wf, overwrite_length, setSize, dflt]
  | @ofRange m ra xs a h =>
    have hs := range_spec env m ra xs
    cases m with
    | static n =>
      simp only [ofRange, dflt] at h
      split at h
      · cases h
      · split at h
        · cases h
        · rename_i hf
          injection h with h; subst h
          have := (fill_ok hf).1
          simp [Wf]; simpa using this
    | limited k =>
      simp only [ofRange, dflt] at h
      split at h
      · cases h
      · rename_i hc
        split at h
        · cases h
        · rename_i hf
          injection h with h; subst h
          have h1 := fill_ok hf
          simp [Wf]
          refine ⟨?_, by simpa using h1.1⟩
          have h2 := h1.2.1
          have h3 := h1.2.2
          simp at h2 h3
          cases ra with
          | true => simp at hc; omega
          | false =>
            cases xs with
            | nil => simp at h2; omega
            | cons x xs => simpa using h3 rfl
    | dynamic =>
      simp only [ofRange, dflt] at h
      injection h with h; subst h; simp [Wf]
  | @toStatic m n b a hb h ih =>
    simp only [toStatic, dflt] at h
    split at h
    · cases h
    · injection h with h; subst h; simp [Wf, overwriteCells_length]
  | @ofStatic m n b a hb h ih =>
    cases m with
    | static k => cases h
    | limited k =>
      simp only [ofStatic, dflt, setSize] at h
      split at h
      · injection h with h; subst h; simp [Wf, overwriteCells_length]; assumption
      · cases h
    | dynamic =>
      simp only [ofStatic, dflt, setSize] at h
      injection h with h; subst h; simp [Wf, overwriteCells_length]
  | @resize m b k a hb h ih =>
    cases m with
    | static n => cases h
    | limited max =>
      simp only [resize, setSize] at h
      injection h with h
      split at h
      · cases h
      · injection h with h; subst h; simp [Wf] at ih ⊢; omega
    | dynamic =>
      simp only [resize, setSize] at h
      injection h with h; injection h with h; subst h
      simp [Wf] at ih ⊢; omega
  | @write m b i x hb hi ih =>
    cases m <;> simp [Wf, write] at ih ⊢ <;> exact ih

/-- **C18.** `size()` never exceeds `max_size()`, and there are always `size()` elements to iterate over. -/
theorem size_le_max {env : Env α} {m : Mode} {a : FA α} (h : Reach env m a) :
    (∀ k, m.max = some k → a.size ≤ k) ∧ a.live.length = a.size ∧ (∀ n, m = .static n → m.max = some n ∧ a.size = n) ∧
    (∀ n, m = .limited n → m.max = some n) ∧ (m = .dynamic → m.max = none) := by
  have hw := reach_wf h
  refine ⟨?_, live_length hw, ?_, ?_, ?_⟩
  · intro k hk
    cases m <;> simp [Mode.max, Wf] at hk hw <;> omega
  · rintro n rfl
    simp [Wf] at hw
    exact ⟨rfl, by omega⟩
  · rintro n rfl; rfl
  · rintro rfl; rfl

example : ∃ a, Reach (⟨none, 0⟩ : Env Nat) (.limited 4) a ∧ a.size = 3 :=
  ⟨_, .resize (.ofInit (m := .limited 4) (xs := [1, 2]) rfl) (k := 3) rfl, rfl⟩

/-- **C18.** `resize` succeeds iff the new size is representable; on failure nothing is modified (the model returns no new
array). The common prefix is kept, and the size is the requested one. -/
theorem resize_spec {env : Env α} {m : Mode} {a : FA α} (h : Reach env m a) (hm : ∀ n, m ≠ .static n) (k : Nat) :
    ((∀ max, m.max = some max → k ≤ max) →
      ∃ a', resize env m a k = some (.ok a') ∧ a'.size = k ∧ a'.live.take (min a.size k) = a.live.take (min a.size k)) ∧
    ((∃ max, m.max = some max ∧ max < k) → resize env m a k = some (.error .invalidArgument)) := by
  have hw := reach_wf h
  cases m with
  | static n => exact absurd rfl (hm n)
  | limited max =>
    simp only [resize, setSize, Mode.max]
    constructor
    · intro hk
      have := hk max rfl
      rw [if_neg (by omega)]
      refine ⟨_, rfl, rfl, ?_⟩
      simp only [FA.live, List.take_take]
      congr 1; omega
    · rintro ⟨x, hx, hlt⟩
      injection hx with hx
      rw [if_pos (by omega)]
  | dynamic =>
    simp only [resize, setSize, Mode.max]
    refine ⟨fun _ => ⟨_, rfl, rfl, ?_⟩, by rintro ⟨x, hx, _⟩; cases hx⟩
    simp only [Wf] at hw
    simp only [FA.live, List.take_take]
    rw [List.take_append_of_le_length (by simp; omega), List.take_take]
    congr 1; omega

example : resize (⟨none, 0⟩ : Env Nat) .dynamic ⟨2, [some 1, some 2]⟩ 3 = some (.ok ⟨3, [some 1, some 2, some 0]⟩) ∧
    Reach (⟨none, 0⟩ : Env Nat) .dynamic ⟨2, [some 1, some 2]⟩ ∧
    resize (⟨none, 0⟩ : Env Nat) (.limited 2) ⟨2, [some 1, some 2]⟩ 3 = some (.error .invalidArgument) :=
  ⟨rfl, .ofInit (xs := [1, 2]) rfl, rfl⟩

/-- **C19, refuted.** Growing an array of bounded extent exposes elements that were never written: uninitialised ones, or
stale ones from before the array was shrunk - while a vector-backed array value-initialises them. -/
theorem resize_exposes_refuted :
    (∃ a a' : FA Nat, Reach ⟨none, 0⟩ (.limited 4) a ∧ a.size = 0 ∧ resize ⟨none, 0⟩ (.limited 4) a 2 = some (.ok a') ∧
      a'.live = [none, none]) ∧
    (∃ a b c : FA Nat, ofInit ⟨none, 0⟩ (.limited 4) [7, 8] = .ok a ∧ resize ⟨none, 0⟩ (.limited 4) a 0 = some (.ok b) ∧
      b.live = [] ∧ resize ⟨none, 0⟩ (.limited 4) b 2 = some (.ok c) ∧ c.live = [some 7, some 8]) ∧
    (∃ a b c : FA Nat, ofInit ⟨none, 0⟩ .dynamic [7, 8] = .ok a ∧ resize ⟨none, 0⟩ .dynamic a 0 = some (.ok b) ∧
      b.live = [] ∧ resize ⟨none, 0⟩ .dynamic b 2 = some (.ok c) ∧ c.live = [some 0, some 0]) :=
  ⟨⟨_, _, .dflt _, rfl, rfl, rfl⟩, ⟨_, _, _, rfl, rfl, rfl, rfl, rfl⟩, ⟨_, _, _, rfl, rfl, rfl, rfl, rfl⟩⟩

/-- **C19.** For element types whose default initialisation produces a value (all class types with a default constructor),
every element of every reachable array, in every mode, is initialised. -/
theorem elements_initialised {env : Env α} {m : Mode} {a : FA α} (h : Reach env m a) (hf : env.fresh ≠ none) :
    ∀ x ∈ a.live, x ≠ none := by
  have key : ∀ x ∈ a.data, x ≠ none := by
    have hov : ∀ (cs : List (Option α)) (xs : List α), (∀ x ∈ cs, x ≠ none) → ∀ x ∈ overwrite cs xs, x ≠ none := by
      intro cs xs
      induction cs generalizing xs with
      | nil => cases xs <;> simp [overwrite]
      | cons c cs ih =>
        intro h x hx
        cases xs with
        | nil => exact h x (by simpa [overwrite] using hx)
        | cons y ys =>
          simp [overwrite] at hx
          rcases hx with rfl | hx
          · simp
          · exact ih ys (fun z hz => h z (by simp [hz])) x hx
    have hovc : ∀ (cs xs : List (Option α)), (∀ x ∈ cs, x ≠ none) → (∀ x ∈ xs, x ≠ none) →
        ∀ x ∈ overwriteCells cs xs, x ≠ none := by
      intro cs xs
      induction cs generalizing xs with
      | nil => cases xs <;> simp [overwriteCells]
      | cons c cs ih =>
        intro h h2 x hx
        cases xs with
        | nil => exact h x (by simpa [overwriteCells] using hx)
        | cons y ys =>
          simp [overwriteCells] at hx
          rcases hx with rfl | hx
          · exact h2 _ (by simp)
          · exact ih ys (fun z hz => h z (by simp [hz])) (fun z hz => h2 z (by simp [hz])) x hx
    have hfill : ∀ (check : Bool) (max : Nat) (xs : List α) (cs : List (Option α)) (ix : Nat) r,
        (∀ x ∈ cs, x ≠ none) → fill check max cs ix xs = .ok r → ∀ x ∈ r.1, x ≠ none := by
      intro check max xs
      induction xs with
      | nil => intro cs ix r hc h; simp [fill] at h; subst h; exact hc
      | cons y ys ih =>
        intro cs ix r hc h
        simp only [fill] at h
        split at h
        · cases h
        · refine ih _ _ r ?_ h
          intro x hx
          rcases List.mem_or_eq_of_mem_set hx with hx | hx
          · exact hc x hx
          · rw [hx]; simp
    have hd : ∀ m, ∀ x ∈ (dflt env m).data, x ≠ none := by
      intro m x hx
      cases m <;> simp [dflt] at hx
      · rw [hx.2]; exact hf
      · rw [hx.2]; exact hf
    have hss : ∀ m (b : FA α) k, (∀ x ∈ b.data, x ≠ none) → ∀ x ∈ (setSize env m b k).data, x ≠ none := by
      intro m b k hb x hx
      cases m with
      | static n => exact hb x hx
      | limited n => exact hb x hx
      | dynamic =>
        simp [setSize] at hx
        rcases hx with hx | hx
        · exact hb x (List.mem_of_mem_take hx)
        · rw [hx.2]; simp
    have hlive : ∀ b : FA α, (∀ x ∈ b.data, x ≠ none) → ∀ x ∈ b.live, x ≠ none :=
      fun b hb x hx => hb x (List.mem_of_mem_take hx)
    induction h with
    | dflt m => exact hd m
    | @ofInit m xs a h =>
      simp only [ofInit] at h
      split at h
      · cases h
      · split at h
        · split at h
          · cases h
          · injection h with h; subst h; exact hov _ _ (hd _)
        · injection h with h; subst h; exact hov _ _ (hss _ _ _ (hd _))
    | @ofRange m ra xs a h =>
      simp only [ofRange] at h
      split at h
      · injection h with h; subst h; simp [dflt]
      · split at h
        · cases h
        · split at h
          · cases h
          · rename_i hfl
            injection h with h; subst h; exact hfill _ _ _ _ _ _ (hd _) hfl
      · split at h
        · cases h
        · split at h
          · cases h
          · rename_i hfl
            injection h with h; subst h; exact hfill _ _ _ _ _ _ (hd _) hfl
    | @toStatic m n b a hb h ih =>
      simp only [toStatic] at h
      split at h
      · cases h
      · injection h with h; subst h; exact hovc _ _ (hd _) (hlive b ih)
    | @ofStatic m n b a hb h ih =>
      simp only [ofStatic] at h
      split at h
      · cases h
      · split at h
        · injection h with h; subst h; exact hovc _ _ (hss _ _ _ (hd _)) (hlive b ih)
        · cases h
      · injection h with h; subst h; exact hovc _ _ (hss _ _ _ (hd _)) (hlive b ih)
    | @resize m b k a hb h ih =>
      simp only [resize] at h
      split at h
      · cases h
      · injection h with h
        split at h
        · cases h
        · injection h with h; subst h; exact hss _ _ _ ih
      · injection h with h; injection h with h; subst h; exact hss _ _ _ ih
    | @write m b i x hb hi ih =>
      intro y hy
      rcases List.mem_or_eq_of_mem_set hy with hy | hy
      · exact ih y hy
      · rw [hy]; simp
  intro x hx
  exact key x (List.mem_of_mem_take hx)

/-- An element type with a default constructor (`fresh` is not `none`), in an array that was enlarged. -/
example : ∃ a, Reach (⟨some 9, 0⟩ : Env Nat) (.limited 4) a ∧ a.live = [some 1, some 2, some 9] :=
  ⟨_, .resize (.ofInit (m := .limited 4) (xs := [1, 2]) rfl) (k := 3) rfl, rfl⟩

/-- **C19.** Writing an element through `operator[]` changes that element and no other. -/
theorem write_spec {env : Env α} {m : Mode} {a : FA α} (h : Reach env m a) {i : Nat} (hi : i < a.size) (x : α) (j : Nat) :
    (write a i x).live[j]? = if j = i then some (some x) else a.live[j]? := by
  have hl := live_length (reach_wf h)
  simp only [write, FA.live, List.getElem?_take, List.getElem?_set]
  by_cases hj : j = i
  · subst hj
    have : j < a.data.length := by
      simp [FA.live] at hl; omega
    simp [hi, this]
  · have : ¬ i = j := fun e => hj e.symm
    simp [hj, this]

example : Reach (⟨none, 0⟩ : Env Nat) (.limited 3) ⟨2, [some 1, some 2, none]⟩ ∧
    (write (⟨2, [some 1, some 2, none]⟩ : FA Nat) 1 7).live = [some 1, some 7] := ⟨.ofInit (xs := [1, 2]) rfl, rfl⟩

/-- **C18/C19.** Conversion from a dynamic to a static extent succeeds iff the sizes agree, and keeps the elements. -/
theorem to_static_spec {env : Env α} {m : Mode} {b : FA α} (h : Reach env m b) (n : Nat) :
    (b.size = n → ∃ a, toStatic env n b = .ok a ∧ a.size = n ∧ a.live = b.live) ∧
    (b.size ≠ n → toStatic env n b = .error .lengthError) := by
  have hl := live_length (reach_wf h)
  constructor
  · intro hn
    subst hn
    refine ⟨⟨b.size, overwriteCells (dflt env (.static b.size)).data b.live⟩, by simp [toStatic]; rfl, rfl, ?_⟩
    rw [FA.live, overwriteCells_eq _ _ (by simp [dflt, hl])]
    simp [dflt, hl]
    rw [List.take_of_length_le (by omega)]
  · intro hn; simp [toStatic, hn]

example : Reach (⟨none, 0⟩ : Env Nat) (.limited 3) ⟨2, [some 1, some 2, none]⟩ ∧
    toStatic (⟨none, 0⟩ : Env Nat) 2 ⟨2, [some 1, some 2, none]⟩ = .ok ⟨2, [some 1, some 2]⟩ ∧
    toStatic (⟨none, 0⟩ : Env Nat) 3 ⟨2, [some 1, some 2, none]⟩ = .error .lengthError := ⟨.ofInit (xs := [1, 2]) rfl, rfl, rfl⟩

/-- **C18/C19.** Conversion from a static extent to a dynamic one that is large enough keeps the elements. -/
theorem of_static_spec {env : Env α} {n : Nat} {b : FA α} (h : Reach env (.static n) b) (m : Mode)
    (hm : ∀ k, m ≠ .static k) (hk : ∀ k, m.max = some k → n ≤ k) :
    ∃ a, ofStatic env m b = some a ∧ a.size = n ∧ a.live = b.live := by
  have hw := reach_wf h
  have hl := live_length hw
  have hs : b.size = n := hw.1
  cases m with
  | static k => exact absurd rfl (hm k)
  | limited k =>
    have := hk k rfl
    refine ⟨_, by simp only [ofStatic, hs, this, if_true]; rfl, rfl, ?_⟩
    rw [FA.live, overwriteCells_eq _ _ (by simp [setSize, dflt]; omega)]
    simp [setSize, hl, hs]
  | dynamic =>
    refine ⟨_, rfl, hs, ?_⟩
    rw [FA.live, overwriteCells_eq _ _ (by simp [setSize, dflt, hl])]
    simp [setSize, dflt, hl]
    rw [List.take_of_length_le (by omega)]

/-- **C19.** Converting a static array to a dynamic one and back yields the same elements. -/
theorem static_dynamic_roundtrip {env : Env α} {n : Nat} {b : FA α} (h : Reach env (.static n) b) (m : Mode)
    (hm : ∀ k, m ≠ .static k) (hk : ∀ k, m.max = some k → n ≤ k) :
    ∃ a c, ofStatic env m b = some a ∧ toStatic env n a = .ok c ∧ c.size = b.size ∧ c.live = b.live := by
  obtain ⟨a, h1, h2, h3⟩ := of_static_spec h m hm hk
  obtain ⟨c, g1, g2, g3⟩ := (to_static_spec (.ofStatic h h1) n).1 h2
  exact ⟨a, c, h1, g1, by rw [g2, (reach_wf h).1], by rw [g3, h3]⟩

example : Reach (⟨none, 0⟩ : Env Nat) (.static 2) ⟨2, [some 5, some 6]⟩ ∧ (∀ k, Mode.limited 3 ≠ .static k) ∧
    (∀ k, (Mode.limited 3).max = some k → 2 ≤ k) :=
  ⟨.ofInit (xs := [5, 6]) rfl, by simp, by simp [Mode.max]⟩

/-! ### C20 -/

/-- Lexicographic order, declaratively: the first position where the elements are not equal decides; a proper prefix is
smaller. -/
inductive LexSpec {β : Type} (c : α → β → Cmp) : List α → List β → Cmp → Prop
  | same {xs ys} (hl : xs.length = ys.length) (h : ∀ (i : Nat) x y, xs[i]? = some x → ys[i]? = some y → c x y = .equal) :
      LexSpec c xs ys .equal
  | shorter {xs ys} (hl : xs.length < ys.length)
      (h : ∀ (i : Nat) x y, xs[i]? = some x → ys[i]? = some y → c x y = .equal) : LexSpec c xs ys .less
  | longer {xs ys} (hl : ys.length < xs.length)
      (h : ∀ (i : Nat) x y, xs[i]? = some x → ys[i]? = some y → c x y = .equal) : LexSpec c xs ys .greater
  | differ {xs ys} (k : Nat) {x y r} (hx : xs[k]? = some x) (hy : ys[k]? = some y) (hr : c x y = r) (hne : r ≠ .equal)
      (h : ∀ (i : Nat) x y, i < k → xs[i]? = some x → ys[i]? = some y → c x y = .equal) : LexSpec c xs ys r

theorem lexCmp_spec {β : Type} (c : α → β → Cmp) : ∀ xs ys, LexSpec c xs ys (lexCmp c xs ys)
  | [], [] => .same rfl (by simp)
  | [], _ :: _ => .shorter (by simp) (by simp)
  | _ :: _, [] => .longer (by simp) (by simp)
  | x :: xs, y :: ys => by
    have lift : ∀ {P : Nat → Prop}, c x y = .equal →
        (∀ (i : Nat) x' y', P i → xs[i]? = some x' → ys[i]? = some y' → c x' y' = .equal) →
        ∀ (i : Nat) x' y', (∀ j, i = j + 1 → P j) → (x :: xs)[i]? = some x' → (y :: ys)[i]? = some y' → c x' y' = .equal := by
      intro P hc h i x' y' hp hx hy
      cases i with
      | zero => simp at hx hy; subst hx hy; exact hc
      | succ i => exact h i x' y' (hp i rfl) (by simpa using hx) (by simpa using hy)
    cases hc : c x y with
    | equal =>
      have ih := lexCmp_spec c xs ys
      simp only [lexCmp, hc]
      generalize lexCmp c xs ys = r at ih ⊢
      cases ih with
      | same hl h => exact .same (by simp [hl]) (fun i x' y' => lift (P := fun _ => True) hc (fun i a b _ => h i a b) i x' y' (by simp))
      | shorter hl h => exact .shorter (by simpa using hl) (fun i x' y' => lift (P := fun _ => True) hc (fun i a b _ => h i a b) i x' y' (by simp))
      | longer hl h => exact .longer (by simpa using hl) (fun i x' y' => lift (P := fun _ => True) hc (fun i a b _ => h i a b) i x' y' (by simp))
      | differ k hx hy hr hne h =>
        refine .differ (k + 1) (by simpa using hx) (by simpa using hy) hr hne ?_
        intro i x' y' hi
        exact lift (P := fun i => i < k) hc h i x' y' (by intro j hj; omega)
    | less => simp only [lexCmp, hc]; exact .differ 0 rfl rfl hc (by simp) (by intro i; omega)
    | greater => simp only [lexCmp, hc]; exact .differ 0 rfl rfl hc (by simp) (by intro i; omega)
    | unordered => simp only [lexCmp, hc]; exact .differ 0 rfl rfl hc (by simp) (by intro i; omega)

theorem values_map : ∀ xs : List α, values (xs.map some) = some xs
  | [] => rfl
  | x :: xs => by simp [values, values_map xs]

/-- **C20.** `a <=> b` is the lexicographic order of the live elements, in every mode, whatever lies beyond `size()`. -/
theorem three_way_lex {c : α → α → Cmp} {a b : FA α} {xs ys : List α} (ha : a.live = xs.map some)
    (hb : b.live = ys.map some) : ∃ r, threeWay c a b = some r ∧ LexSpec c xs ys r := by
  refine ⟨lexCmp c xs ys, ?_, lexCmp_spec c xs ys⟩
  simp [threeWay, ha, hb, values_map]

example : ∃ r, threeWay (fun a b : Nat => if a < b then Cmp.less else if a = b then Cmp.equal else Cmp.greater) ⟨2, [some 1, some 2, none]⟩ ⟨3, [some 1, some 2, some 0]⟩ = some r ∧
    LexSpec (fun a b : Nat => if a < b then Cmp.less else if a = b then Cmp.equal else Cmp.greater) [1, 2] [1, 2, 0] r := three_way_lex rfl rfl

theorem all_zip_iff {eq : α → α → Bool} : ∀ {xs ys : List α}, xs.length = ys.length →
    ((xs.zip ys).all (fun p => eq p.1 p.2) = true ↔
      ∀ (i : Nat) x y, xs[i]? = some x → ys[i]? = some y → eq x y = true)
  | [], [], _ => by simp
  | [], _ :: _, h => by simp at h
  | _ :: _, [], h => by simp at h
  | x :: xs, y :: ys, h => by
    have ih := all_zip_iff (eq := eq) (xs := xs) (ys := ys) (by simpa using h)
    rw [List.zip_cons_cons, List.all_cons, Bool.and_eq_true, ih]
    constructor
    · rintro ⟨h1, h2⟩ i x' y' hx hy
      cases i with
      | zero => simp at hx hy; subst hx hy; exact h1
      | succ i => exact h2 i x' y' (by simpa using hx) (by simpa using hy)
    · intro h
      exact ⟨h 0 x y rfl rfl, fun i x' y' hx hy => h (i + 1) x' y' (by simpa using hx) (by simpa using hy)⟩

/-- **C20.** `a == b` iff sizes agree and the live elements are pairwise equal, in every mode, whatever lies beyond
`size()`. -/
theorem equals_iff {eq : α → α → Bool} {a b : FA α} {xs ys : List α} (ha : a.live = xs.map some)
    (hb : b.live = ys.map some) :
    ∃ r, equals eq a b = some r ∧
      (r = true ↔ xs.length = ys.length ∧ ∀ (i : Nat) x y, xs[i]? = some x → ys[i]? = some y → eq x y = true) := by
  refine ⟨rangeEq eq xs ys, ?_, ?_⟩
  · simp [equals, ha, hb, values_map]
  · simp only [rangeEq]
    split
    · rename_i h; simp [h]
    · rename_i h
      have h : xs.length = ys.length := Decidable.not_not.1 h
      rw [all_zip_iff h]; simp [h]

theorem rangeEq_iff_lexCmp {c : α → α → Cmp} {eq : α → α → Bool} (hc : ∀ x y, c x y = .equal ↔ eq x y = true) :
    ∀ xs ys : List α, rangeEq eq xs ys = true ↔ lexCmp c xs ys = .equal
  | [], [] => by simp [rangeEq, lexCmp]
  | [], _ :: _ => by simp [rangeEq, lexCmp]
  | _ :: _, [] => by simp [rangeEq, lexCmp]
  | x :: xs, y :: ys => by
    have ih := rangeEq_iff_lexCmp hc xs ys
    have hxy := hc x y
    have e : rangeEq eq (x :: xs) (y :: ys) = (eq x y && rangeEq eq xs ys) := by
      simp only [rangeEq]
      by_cases hl : xs.length = ys.length <;> simp [hl]
    rw [e, Bool.and_eq_true, ih, ← hxy]
    simp only [lexCmp]
    cases c x y <;> simp

/-- **C20.** The six relational operators are consistent with each other, for every element type whose `==` and `<=>` are:
exactly one of `<`, `==`, `>` or "unordered" holds, `!=` negates `==`, `<=` is `<` or `==`, `>=` is `>` or `==`. -/
theorem operators_consistent {c : α → α → Cmp} {eq : α → α → Bool} (hc : ∀ x y, c x y = .equal ↔ eq x y = true)
    {a b : FA α} {xs ys : List α} (ha : a.live = xs.map some) (hb : b.live = ys.map some) :
    ∃ lt gt e : Bool, opLt c a b = some lt ∧ opGt c a b = some gt ∧ equals eq a b = some e ∧
      opNe eq a b = some (!e) ∧ opLe c a b = some (lt || e) ∧ opGe c a b = some (gt || e) ∧
      ¬ (lt = true ∧ gt = true) ∧ ¬ (lt = true ∧ e = true) ∧ ¬ (gt = true ∧ e = true) ∧
      (threeWay c a b = some .unordered ↔ lt = false ∧ gt = false ∧ e = false) := by
  have e1 : threeWay c a b = some (lexCmp c xs ys) := by simp [threeWay, ha, hb, values_map]
  have e2 : equals eq a b = some (rangeEq eq xs ys) := by simp [equals, ha, hb, values_map]
  have e3 : rangeEq eq xs ys = decide (lexCmp c xs ys = .equal) := by
    rw [Bool.eq_iff_iff, decide_eq_true_iff]
    exact rangeEq_iff_lexCmp hc xs ys
  simp only [opLt, opGt, opLe, opGe, opNe, e1, e2, e3, Option.map_some]
  refine ⟨_, _, _, rfl, rfl, rfl, rfl, ?_⟩
  cases lexCmp c xs ys <;> simp

/-- Two arrays that differ only beyond `size()` meet the hypotheses. -/
example : (⟨2, [some 1, some 2, some 9]⟩ : FA Nat).live = [1, 2].map some ∧
    (⟨2, [some 1, some 2, none]⟩ : FA Nat).live = [1, 2].map some := ⟨rfl, rfl⟩

/-- The operators `!=` and `<=` of the inner types, which `flex_array` never uses, are wrong: `!=` holds only if *all*
elements differ, and `[1, 3] <= [1, 2]` holds because the equal first elements already decide. -/
theorem inner_operators_wrong :
    innerNe (fun (x y : Nat) => decide (x ≠ y)) [1, 2] [1, 3] = false ∧
    innerLe (fun (x y : Nat) => decide (x ≤ y)) [1, 3] [1, 2] = true ∧
    (∀ le : Nat → Nat → Bool, innerLe le [] [] = false) := ⟨by decide, by decide, fun _ => rfl⟩


/-- What the private inner types compare with (flex_array.hpp:109-127, 207-225): there is a position up to which neither element precedes the other, and there either
the first sequence ends and the second does not, or the element of the first precedes that of the second. -/
theorem lexLess_iff {α : Type} (less : α → α → Bool) : ∀ xs ys : List α, lexLess less xs ys = true ↔
    ∃ i : Nat, (∀ j, j < i → ∃ x y, xs[j]? = some x ∧ ys[j]? = some y ∧ less x y = false ∧ less y x = false) ∧
      ((xs[i]? = none ∧ ∃ y, ys[i]? = some y) ∨ ∃ x y, xs[i]? = some x ∧ ys[i]? = some y ∧ less x y = true) := by
  intro xs
  induction xs with
  | nil =>
    intro ys
    cases ys with
    | nil =>
      simp [lexLess]
    | cons y ys =>
      simp only [lexLess, true_iff]
      exact ⟨0, fun j hj => absurd hj (Nat.not_lt_zero _), .inl ⟨rfl, y, rfl⟩⟩
  | cons x xs ih =>
    intro ys
    cases ys with
    | nil =>
      simp [lexLess]
    | cons y ys =>
      simp only [lexLess]
      constructor
      · intro h
        by_cases h1 : less x y = true
        · exact ⟨0, fun j hj => absurd hj (Nat.not_lt_zero _), .inr ⟨x, y, rfl, rfl, h1⟩⟩
        · rw [if_neg h1] at h
          by_cases h2 : less y x = true
          · rw [if_pos h2] at h; exact absurd h (by simp)
          · rw [if_neg h2] at h
            obtain ⟨i, a, b⟩ := (ih ys).1 h
            refine ⟨i + 1, fun j hj => ?_, by simpa using b⟩
            cases j with
            | zero => exact ⟨x, y, rfl, rfl, by simpa using h1, by simpa using h2⟩
            | succ j => simpa using a j (by omega)
      · rintro ⟨i, a, b⟩
        cases i with
        | zero =>
          rcases b with ⟨b, -⟩ | ⟨x', y', hx, hy, hl⟩
          · simp at b
          · simp only [List.getElem?_cons_zero, Option.some.injEq] at hx hy
            subst hx hy
            rw [if_pos hl]
        | succ i =>
          obtain ⟨x', y', hx, hy, h1, h2⟩ := a 0 (Nat.succ_pos _)
          simp only [List.getElem?_cons_zero, Option.some.injEq] at hx hy
          subst hx hy
          rw [h1, h2]
          simp only [Bool.false_eq_true, if_false]
          exact (ih ys).2 ⟨i, fun j hj => by simpa using a (j + 1) (by omega), by simpa using b⟩

example : lexLess (fun x y : Nat => decide (x < y)) [1, 2] [1, 2, 0] = true ∧ lexLess (fun x y : Nat => decide (x < y)) [1, 3] [1, 2, 0] = false := by decide

end Verif.FlexArray
