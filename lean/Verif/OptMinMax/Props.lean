import Verif.OptMinMax.Model

/-! Property C33: `opt_min`, `opt_max`, `opt_minmax`. -/
namespace Verif.OptMinMax

variable {α : Type}

/-! ### Specification -/

/-- Strict weak order. -/
structure StrictWeakOrder (cmp : α → α → Bool) : Prop where
  irrefl : ∀ a, cmp a a = false
  trans : ∀ a b c, cmp a b = true → cmp b c = true → cmp a c = true
  incomp : ∀ a b c, cmp a b = false → cmp b a = false → cmp b c = false → cmp c b = false → cmp a c = false ∧ cmp c a = false

/-- `m` is the first minimum of the present values: it is at some position `i`, everything before it is greater, and nothing is
less. -/
def IsFirstMin (cmp : α → α → Bool) (l : List (Option α)) (m : α) : Prop :=
  ∃ i : Nat, l[i]? = some (some m) ∧ (∀ (j : Nat) v, j < i → l[j]? = some (some v) → cmp m v = true) ∧
    ∀ (j : Nat) v, l[j]? = some (some v) → cmp v m = false

/-- `m` is the first maximum of the present values. -/
def IsFirstMax (cmp : α → α → Bool) (l : List (Option α)) (m : α) : Prop :=
  ∃ i : Nat, l[i]? = some (some m) ∧ (∀ (j : Nat) v, j < i → l[j]? = some (some v) → cmp v m = true) ∧
    ∀ (j : Nat) v, l[j]? = some (some v) → cmp m v = false

/-! ### Proofs -/

theorem StrictWeakOrder.cotrans {cmp : α → α → Bool} (h : StrictWeakOrder cmp) {a b : α} (c : α) (hab : cmp a b = true) :
    cmp a c = true ∨ cmp c b = true := by
  by_cases h1 : cmp a c = true
  · exact .inl h1
  by_cases h2 : cmp c b = true
  · exact .inr h2
  simp only [Bool.not_eq_true] at h1 h2
  by_cases h3 : cmp c a = true
  · have := h.trans _ _ _ h3 hab; rw [h2] at this; cases this
  by_cases h4 : cmp b c = true
  · have := h.trans _ _ _ hab h4; rw [h1] at this; cases this
  simp only [Bool.not_eq_true] at h3 h4
  have := (h.incomp a c b h1 h3 h2 h4).1
  rw [hab] at this; cases this

theorem StrictWeakOrder.flip {cmp : α → α → Bool} (h : StrictWeakOrder cmp) : StrictWeakOrder fun a b => cmp b a :=
  ⟨h.irrefl, fun a b c h1 h2 => h.trans c b a h2 h1, fun a b c h1 h2 h3 h4 => h.incomp a b c h2 h1 h4 h3 |>.symm⟩

theorem maxLoop_eq (cmp : α → α → Bool) (r : Option α) (l : List (Option α)) :
    maxLoop cmp r l = minLoop (fun a b => cmp b a) r l := by
  induction l generalizing r with
  | nil => simp only [maxLoop, minLoop]
  | cons x l ih =>
    rcases x with _ | v <;> rcases r with _ | m <;> simp only [maxLoop, minLoop, ih]

/-- Processing one more element. -/
theorem minLoop_inv {cmp : α → α → Bool} (h : StrictWeakOrder cmp) (l : List (Option α)) :
    ∀ (done : List (Option α)) (r : Option α),
      (∀ m, r = some m → IsFirstMin cmp done m) → (r = none → ∀ x ∈ done, x = none) →
      (∀ m, minLoop cmp r l = some m → IsFirstMin cmp (done ++ l) m) ∧
      (minLoop cmp r l = none → ∀ x ∈ done ++ l, x = none) := by
  induction l with
  | nil => intro done r h1 h2; simpa [minLoop] using ⟨h1, h2⟩
  | cons x l ih =>
    intro done r h1 h2
    have key : ∀ r', minLoop cmp r (x :: l) = minLoop cmp r' l →
        (∀ m, r' = some m → IsFirstMin cmp (done ++ [x]) m) → (r' = none → ∀ y ∈ done ++ [x], y = none) → 
        (∀ m, minLoop cmp r (x :: l) = some m → IsFirstMin cmp (done ++ x :: l) m) ∧
        (minLoop cmp r (x :: l) = none → ∀ y ∈ done ++ x :: l, y = none) := by
      intro r' e a b
      have := ih (done ++ [x]) r' a b
      rw [e]
      simpa [List.append_assoc] using this
    have ext : ∀ m, IsFirstMin cmp done m → (∀ v, x = some v → cmp v m = false) → IsFirstMin cmp (done ++ [x]) m := by
      rintro m ⟨i, hi, hlt, hall⟩ hx
      have hil : i < done.length := by
        rcases Nat.lt_or_ge i done.length with h | h
        · exact h
        · rw [List.getElem?_eq_none h] at hi; cases hi
      refine ⟨i, by rw [List.getElem?_append_left hil]; exact hi, ?_, ?_⟩
      · intro j v hj hv
        rw [List.getElem?_append_left (by omega)] at hv
        exact hlt j v hj hv
      · intro j v hv
        rcases Nat.lt_or_ge j done.length with hj | hj
        · rw [List.getElem?_append_left hj] at hv; exact hall j v hv
        · rw [List.getElem?_append_right hj] at hv
          rcases hk : j - done.length with _ | n
          · rw [hk] at hv
            simp only [List.getElem?_cons_zero, Option.some.injEq] at hv
            exact hx v hv
          · rw [hk] at hv; simp at hv
    have new : ∀ m, x = some m → (∀ (j : Nat) v, done[j]? = some (some v) → cmp m v = true) → IsFirstMin cmp (done ++ [x]) m := by
      intro m hx hd
      subst hx
      refine ⟨done.length, by simp, ?_, ?_⟩
      · intro j v hj hv
        rw [List.getElem?_append_left hj] at hv
        exact hd j v hv
      · intro j v hv
        rcases Nat.lt_or_ge j done.length with hj | hj
        · rw [List.getElem?_append_left hj] at hv
          have h1 := hd j v hv
          cases h2 : cmp v m with
          | false => rfl
          | true => have := h.trans _ _ _ h1 h2; rw [h.irrefl] at this; cases this
        · rw [List.getElem?_append_right hj] at hv
          rcases hk : j - done.length with _ | n
          · rw [hk] at hv
            simp only [List.getElem?_cons_zero, Option.some.injEq] at hv
            subst hv
            exact h.irrefl _
          · rw [hk] at hv; simp at hv
    rcases x with _ | v
    · refine key r ?_ (fun m hm => ext m (h1 m hm) (by simp)) ?_
      · cases r <;> rfl
      · intro hr y hy
        rcases List.mem_append.1 hy with h | h
        · exact h2 hr y h
        · simpa using h
    · rcases r with _ | m
      · refine key (some v) rfl ?_ (by simp)
        rintro m hm
        cases hm
        refine new v rfl ?_
        intro j u hu
        have := h2 rfl _ (List.mem_of_getElem? hu)
        cases this
      · by_cases hc : cmp v m = true
        · refine key (some v) (by simp [minLoop, hc]) ?_ (by simp)
          rintro m' hm
          cases hm
          refine new v rfl ?_
          intro j u hu
          obtain ⟨_, _, _, hall⟩ := h1 m rfl
          rcases h.cotrans u hc with h' | h'
          · exact h'
          · rw [hall j u hu] at h'; cases h'
        · refine key (some m) (by simp [minLoop, hc]) ?_ (by simp)
          rintro m' hm
          cases hm
          exact ext m (h1 m rfl) (by rintro u hu; cases hu; simpa using hc)

/-- The first minimum is unique. -/
theorem IsFirstMin.unique {cmp : α → α → Bool} {l : List (Option α)} {m m' : α} (h : IsFirstMin cmp l m)
    (h' : IsFirstMin cmp l m') : m = m' := by
  obtain ⟨i, hi, hlt, hall⟩ := h
  obtain ⟨j, hj, hlt', hall'⟩ := h'
  rcases Nat.lt_trichotomy i j with h | h | h
  · have := hlt' i m h hi; rw [hall j m' hj] at this; cases this
  · subst h; rw [hi] at hj; cases hj; rfl
  · have := hlt j m' h hj; rw [hall' i m hi] at this; cases this

/-- **C33.** `opt_min_element` returns the first minimum of the present values, and nothing iff there is none. -/
theorem optMinElement_spec {cmp : α → α → Bool} (h : StrictWeakOrder cmp) (l : List (Option α)) :
    (∀ m, optMinElement cmp l = some m ↔ IsFirstMin cmp l m) ∧ (optMinElement cmp l = none ↔ ∀ x ∈ l, x = none) := by
  obtain ⟨h1, h2⟩ := minLoop_inv h l [] none (by simp) (by simp)
  simp only [List.nil_append] at h1 h2
  have hnone : (∀ x ∈ l, x = none) → ∀ m, ¬ IsFirstMin cmp l m := by
    rintro hx m ⟨i, hi, _⟩
    have := hx _ (List.mem_of_getElem? hi)
    cases this
  refine ⟨fun m => ⟨h1 m, ?_⟩, h2, ?_⟩
  · intro hm
    cases hr : minLoop cmp none l with
    | none => exact absurd hm (hnone (h2 hr) m)
    | some m' => have := (h1 m' hr).unique hm; subst this; exact hr
  · intro hx
    cases hr : minLoop cmp none l with
    | none => exact hr
    | some m' => exact absurd (h1 m' hr) (hnone hx m')

/-- Pairs compared by their first component. -/
theorem byFirst : StrictWeakOrder (fun a b : Nat × Nat => decide (a.1 < b.1)) := by
  refine ⟨by simp, ?_, ?_⟩
  · intro a b c; simp only [decide_eq_true_iff]; omega
  · intro a b c; simp only [decide_eq_false_iff_not]; omega

example : IsFirstMin (fun a b : Nat × Nat => decide (a.1 < b.1)) [none, some (3, 0), some (1, 1), none, some (1, 2)] (1, 1) :=
  ((optMinElement_spec byFirst _).1 _).1 rfl

/-- **C33.** `opt_max_element` returns the first maximum of the present values, and nothing iff there is none. -/
theorem optMaxElement_spec {cmp : α → α → Bool} (h : StrictWeakOrder cmp) (l : List (Option α)) :
    (∀ m, optMaxElement cmp l = some m ↔ IsFirstMax cmp l m) ∧ (optMaxElement cmp l = none ↔ ∀ x ∈ l, x = none) := by
  have := optMinElement_spec h.flip l
  simp only [optMaxElement, maxLoop_eq]
  exact this

example : IsFirstMax (fun a b : Nat × Nat => decide (a.1 < b.1)) [none, some (3, 0), some (1, 1), none, some (3, 2)] (3, 0) :=
  ((optMaxElement_spec byFirst _).1 _).1 rfl

theorem minLoop_isSome (cmp : α → α → Bool) (m : α) (l : List (Option α)) : ∃ m', minLoop cmp (some m) l = some m' := by
  induction l generalizing m with
  | nil => exact ⟨m, rfl⟩
  | cons x l ih =>
    rcases x with _ | v
    · exact ih m
    · simp only [minLoop]; split
      · exact ih v
      · exact ih m

/-- **C33.** `opt_minmax_element` is the pair of `opt_min_element` and `opt_max_element`, for every comparator. -/
theorem optMinmaxElement_spec (cmp : α → α → Bool) (l : List (Option α)) :
    (∀ lo hi, optMinmaxElement cmp l = some (lo, hi) ↔ optMinElement cmp l = some lo ∧ optMaxElement cmp l = some hi) ∧
    (optMinmaxElement cmp l = none ↔ optMinElement cmp l = none) ∧ (optMinElement cmp l = none ↔ optMaxElement cmp l = none) := by
  have two : ∀ (l : List (Option α)) (a b : α),
      ∃ x y, minmaxLoop cmp (some (a, b)) l = some (x, y) ∧ minLoop cmp (some a) l = some x ∧ maxLoop cmp (some b) l = some y := by
    intro l
    induction l with
    | nil => intro a b; exact ⟨a, b, rfl, rfl, rfl⟩
    | cons x l ih =>
      intro a b
      rcases x with _ | v
      · exact ih a b
      · obtain ⟨x, y, h1, h2, h3⟩ := ih (if cmp v a then v else a) (if cmp b v then v else b)
        refine ⟨x, y, h1, ?_, ?_⟩
        · simp only [minLoop]; rw [← h2]; split <;> rfl
        · simp only [maxLoop]; rw [← h3]; split <;> rfl
  have all : (optMinmaxElement cmp l = none ∧ optMinElement cmp l = none ∧ optMaxElement cmp l = none) ∨
      ∃ x y, optMinmaxElement cmp l = some (x, y) ∧ optMinElement cmp l = some x ∧ optMaxElement cmp l = some y := by
    induction l with
    | nil => exact .inl ⟨rfl, rfl, rfl⟩
    | cons x l ih =>
      rcases x with _ | v
      · exact ih
      · exact .inr (two l v v)
  rcases all with ⟨h1, h2, h3⟩ | ⟨x, y, h1, h2, h3⟩
  · simp [h1, h2, h3]
  · simp [h1, h2, h3]

example : optMinmaxElement (fun a b : Nat => decide (a < b)) [none, some 3, some 1, none] = some (1, 3) ∧
    optMinmaxElement (fun a b : Nat => decide (a < b)) [none, none] = none := by decide

/-- **C33.** The two-argument forms agree with the range forms. -/
theorem two_arguments (cmp : α → α → Bool) (a b : Option α) :
    optMin cmp a b = optMinElement cmp [a, b] ∧ optMax cmp a b = optMaxElement cmp [a, b] ∧
    optMinmax cmp a b = optMinmaxElement cmp [a, b] ∧ (∀ l, optMinList cmp l = optMinElement cmp l) ∧
    (∀ l, optMaxList cmp l = optMaxElement cmp l) ∧ ∀ l, optMinmaxList cmp l = optMinmaxElement cmp l := by
  refine ⟨?_, ?_, rfl, fun _ => rfl, fun _ => rfl, fun _ => rfl⟩
  · rcases a with _ | a <;> rcases b with _ | b <;> simp [optMin, optMinElement, minLoop, stdMin]
    split <;> rfl
  · rcases a with _ | a <;> rcases b with _ | b <;> simp [optMax, optMaxElement, maxLoop, stdMax]
    split <;> rfl

example : optMin (fun a b : Nat => decide (a < b)) none (some 4) = some 4 ∧ optMax (fun a b : Nat => decide (a < b)) (some 5) (some 4) = some 5 := by
  decide

/-- **C33.** Absent values do not influence the results: they can be removed or inserted anywhere. -/
theorem absent_ignored (cmp : α → α → Bool) (l : List (Option α)) :
    optMinElement cmp (l.filter Option.isSome) = optMinElement cmp l ∧
    optMaxElement cmp (l.filter Option.isSome) = optMaxElement cmp l ∧
    optMinmaxElement cmp (l.filter Option.isSome) = optMinmaxElement cmp l := by
  have h1 : ∀ (cmp : α → α → Bool) (l : List (Option α)) r, minLoop cmp r (l.filter Option.isSome) = minLoop cmp r l := by
    intro cmp l
    induction l with
    | nil => intro r; rfl
    | cons x l ih => intro r; rcases x with _ | v <;> rcases r with _ | m <;> simp [minLoop, ih]
  refine ⟨h1 cmp l none, by simp only [optMaxElement, maxLoop_eq, h1], ?_⟩
  have h2 : ∀ (l : List (Option α)) r, minmaxLoop cmp r (l.filter Option.isSome) = minmaxLoop cmp r l := by
    intro l
    induction l with
    | nil => intro r; rfl
    | cons x l ih => intro r; rcases x with _ | v <;> rcases r with _ | ⟨lo, hi⟩ <;> simp [minmaxLoop, ih]
  exact h2 l none

example : optMaxElement (fun a b : Nat => decide (a < b)) [none, some 3, none, some 4] = optMaxElement (fun a b : Nat => decide (a < b)) [some 3, some 4] := by
  decide

/-- **C33.** The minimum (maximum) of a concatenation is the minimum (maximum) of the two results. -/
theorem append {cmp : α → α → Bool} (h : StrictWeakOrder cmp) (l l' : List (Option α)) :
    optMinElement cmp (l ++ l') = optMin cmp (optMinElement cmp l) (optMinElement cmp l') ∧
    optMaxElement cmp (l ++ l') = optMax cmp (optMaxElement cmp l) (optMaxElement cmp l') := by
  have app : ∀ (cmp : α → α → Bool) (l l' : List (Option α)) r, minLoop cmp r (l ++ l') = minLoop cmp (minLoop cmp r l) l' := by
    intro cmp l l'
    induction l with
    | nil => intro r; simp [minLoop]
    | cons x l ih => intro r; rcases x with _ | v <;> rcases r with _ | m <;> simp only [List.cons_append, minLoop, ih]
  have seed : ∀ {cmp : α → α → Bool}, StrictWeakOrder cmp → ∀ (l : List (Option α)) (m : α),
      minLoop cmp (some m) l = optMin cmp (some m) (minLoop cmp none l) := by
    intro cmp h l
    induction l with
    | nil => intro m; rfl
    | cons x l ih =>
      intro m
      rcases x with _ | v
      · exact ih m
      · simp only [minLoop, ih v]
        cases hr : minLoop cmp none l with
        | none =>
          by_cases hc : cmp v m = true <;> simp [hc, ih, hr, optMin, stdMin]
        | some w =>
          by_cases hc : cmp v m = true
          · simp only [hc, if_true, ih, hr, optMin, stdMin]
            by_cases hw : cmp w v = true
            · simp [hw, h.trans _ _ _ hw hc]
            · simp [hw, hc]
          · simp only [hc, Bool.false_eq_true, if_false, ih, hr, optMin, stdMin]
            by_cases hw : cmp w v = true
            · simp [hw]
            · simp only [hw]
              have : cmp w m = false := by
                cases hwm : cmp w m with
                | false => rfl
                | true =>
                  rcases h.cotrans v hwm with h' | h'
                  · exact absurd h' hw
                  · exact absurd h' hc
              simp [this, hc]
  have fin : ∀ {cmp : α → α → Bool}, StrictWeakOrder cmp →
      minLoop cmp none (l ++ l') = optMin cmp (minLoop cmp none l) (minLoop cmp none l') := by
    intro cmp h
    rw [app]
    cases hr : minLoop cmp none l with
    | none => rfl
    | some m => exact seed h l' m
  refine ⟨fin h, ?_⟩
  simp only [optMaxElement, maxLoop_eq, fin h.flip]
  cases minLoop (fun a b => cmp b a) none l <;> cases minLoop (fun a b => cmp b a) none l' <;>
    simp [optMin, optMax, stdMin, stdMax]

/-- A comparator with equivalent but different values (pairs compared by their first component) is a strict weak order, and the
first of them is found. -/
example : StrictWeakOrder (fun a b : Nat × Nat => decide (a.1 < b.1)) ∧
    optMinElement (fun a b : Nat × Nat => decide (a.1 < b.1)) [none, some (3, 0), some (1, 1), none, some (1, 2), some (3, 3)]
      = some (1, 1) ∧
    optMaxElement (fun a b : Nat × Nat => decide (a.1 < b.1)) [none, some (3, 0), some (1, 1), none, some (1, 2), some (3, 3)]
      = some (3, 0) := by
  refine ⟨⟨by simp, ?_, ?_⟩, rfl, rfl⟩
  · intro a b c; simp only [decide_eq_true_iff]; omega
  · intro a b c; simp only [decide_eq_false_iff_not]; omega

end Verif.OptMinMax
