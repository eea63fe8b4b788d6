import Verif.RangesAlgo.LazyModel
import Verif.RangesAlgo.Props

/-!
Specification and lemmas for C89: the positions a view keeps, and the loops over a view.
-/
namespace Verif.RangesAlgo

variable {α β τ : Type}

/-! ### Specification: positions that a view keeps -/

/-- Position `j` of the source holds a value that differs from all values before it. -/
def FirstAt (eq : α → α → Bool) (src : Src α) (j : Nat) : Prop :=
  ∃ x, src j = some x ∧ ∀ i, i < j → ∀ y, src i = some y → eq y x = false

/-- Position `j` of the source holds a value that does not match the one to be removed. -/
def OtherAt (pred : α → β → Bool) (value : β) (src : Src α) (j : Nat) : Prop := ∃ x, src j = some x ∧ pred x value = false

/-- The operations at one position in a loop: the search compares, dereferences; if the position is kept, the loop itself compares and
dereferences; increment. -/
def visit (K : Nat → Bool) (i : Nat) : List Ev :=
  if K i then [.cmp i, .deref i, .cmp i, .deref i, .inc i] else [.cmp i, .deref i, .inc i]

/-- The operations at the positions before `p`. -/
def visits (K : Nat → Bool) (p : Nat) : List Ev := (List.range p).flatMap (visit K)

/-- The values at kept positions before `p`. -/
def values (src : Src α) (K : Nat → Bool) (p : Nat) : List α := (List.range p).filterMap fun i => if K i then src i else none

/-- The number of kept positions before `p`. -/
def number (K : Nat → Bool) (p : Nat) : Nat := (List.range p).countP K

/-- The source ends at `e`. -/
def EndsAt (src : Src α) (e : Nat) : Prop := src e = none ∧ ∀ i, i < e → src i ≠ none

/-- The source does not end. -/
def Endless (src : Src α) : Prop := ∀ i, src i ≠ none

/-! ### The view as a search for kept positions -/

/-- `Finder v src K Good`: in a state that is `Good` for a position, the search stops exactly at kept positions. -/
structure Finder (src : Src α) (v : View τ) (K : Nat → Bool) (Good : τ → Nat → Prop) : Prop where
  init : Good v.init 0
  zero : ∀ t i log, v.find 0 t i log = none
  stop : ∀ n t i log, src i = none → v.find (n + 1) t i log = some (t, i, log ++ [.cmp i])
  keep : ∀ n t i log, Good t i → src i ≠ none → K i = true →
    ∃ t', v.find (n + 1) t i log = some (t', i, log ++ [.cmp i, .deref i]) ∧ Good t' (i + 1)
  skip : ∀ n t i log, Good t i → src i ≠ none → K i = false →
    ∃ t', v.find (n + 1) t i log = v.find n t' (i + 1) (log ++ [.cmp i, .deref i, .inc i]) ∧ Good t' (i + 1)

theorem unique_finder {src : Src α} {set : SetImpl α} {eq : α → α → Bool} (hs : Finds set eq) (hsym : ∀ x y, eq x y = eq y x)
    (htrans : ∀ x y z, eq x y = true → eq y z = true → eq x z = true) {K : Nat → Bool} (hK : ∀ j, K j = true ↔ FirstAt eq src j) :
    Finder src (uniqueV src set) K (fun seen i => ∀ x, set seen x = true ↔ ∃ j, j < i ∧ ∃ y, src j = some y ∧ eq y x = true) := by
  have first : ∀ {i x} (seen : List α), src i = some x →
      (∀ x, set seen x = true ↔ ∃ j, j < i ∧ ∃ y, src j = some y ∧ eq y x = true) → (set seen x = true ↔ K i = false) := by
    intro i x seen hx hg
    rw [hg x, ← Bool.not_eq_true, hK]
    constructor
    · rintro ⟨j, hj, y, hy, e⟩ ⟨x', hx', h⟩
      rw [hx] at hx'; cases hx'
      rw [h j hj y hy] at e; cases e
    · intro h
      apply Classical.byContradiction
      intro hno
      exact h ⟨x, hx, fun j hj y hy => Bool.eq_false_iff.mpr fun e => hno ⟨j, hj, y, hy, e⟩⟩
  refine ⟨fun x => ?_, fun _ _ _ => rfl, fun n t i log h => by simp [uniqueV, findNextUniqueL, h], ?_, ?_⟩
  · rw [hs]; simp [uniqueV]
  · intro n t i log hg hx hk
    obtain ⟨x, hx⟩ := Option.ne_none_iff_exists'.mp hx
    have hf : set t x = false := by
      rw [← Bool.not_eq_true, first t hx hg, hk]; simp
    refine ⟨x :: t, by simp [uniqueV, findNextUniqueL, hx, insert, hf], fun y => ?_⟩
    rw [hs]
    constructor
    · rintro ⟨z, hz, e⟩
      rcases List.mem_cons.mp hz with rfl | hz
      · exact ⟨i, by omega, z, hx, by rw [hsym]; exact e⟩
      · obtain ⟨j, hj, h⟩ := (hg y).mp ((hs t y).mpr ⟨z, hz, e⟩)
        exact ⟨j, by omega, h⟩
    · rintro ⟨j, hj, z, hz, e⟩
      by_cases hji : j = i
      · subst hji; rw [hx] at hz; cases hz
        exact ⟨x, by simp, by rw [hsym]; exact e⟩
      · obtain ⟨w, hw, h⟩ := (hs t y).mp ((hg y).mpr ⟨j, by omega, z, hz, e⟩)
        exact ⟨w, by simp [hw], h⟩
  · intro n t i log hg hx hk
    obtain ⟨x, hx⟩ := Option.ne_none_iff_exists'.mp hx
    have hf : set t x = true := (first t hx hg).mpr hk
    refine ⟨t, by simp [uniqueV, findNextUniqueL, hx, insert, hf], fun y => ?_⟩
    rw [hg y]
    constructor
    · rintro ⟨j, hj, h⟩; exact ⟨j, by omega, h⟩
    · rintro ⟨j, hj, z, hz, e⟩
      by_cases hji : j = i
      · subst hji; rw [hx] at hz; cases hz
        obtain ⟨k, hk', w, hw, e'⟩ := (hg x).mp hf
        exact ⟨k, hk', w, hw, htrans _ _ _ e' e⟩
      · exact ⟨j, by omega, z, hz, e⟩

theorem remove_finder {src : Src α} {pred : α → β → Bool} {value : β} {K : Nat → Bool} (hK : ∀ j, K j = true ↔ OtherAt pred value src j) :
    Finder src (removeV src pred value) K (fun _ _ => True) := by
  have other : ∀ {i x}, src i = some x → (pred x value = !K i) := by
    intro i x hx
    cases hk : K i
    · have : ¬ OtherAt pred value src i := by rw [← hK, hk]; simp
      cases hp : pred x value
      · exact absurd ⟨x, hx, hp⟩ this
      · rfl
    · obtain ⟨y, hy, h⟩ := (hK i).mp hk
      rw [hx] at hy; cases hy; exact h
  refine ⟨trivial, fun _ _ _ => rfl, fun n t i log h => by simp [removeV, findIfL, h], ?_, ?_⟩
  · intro n t i log _ hx hk
    obtain ⟨x, hx⟩ := Option.ne_none_iff_exists'.mp hx
    exact ⟨(), by simp [removeV, findIfL, hx, other hx, hk], trivial⟩
  · intro n t i log _ hx hk
    obtain ⟨x, hx⟩ := Option.ne_none_iff_exists'.mp hx
    exact ⟨(), by simp [removeV, findIfL, hx, other hx, hk], trivial⟩

/-! ### The loops -/

variable {src : Src α} {v : View τ} {K : Nat → Bool} {Good : τ → Nat → Prop}

/-- Kept values, operations and their number for the positions `i, ..., i + d - 1`. -/
def valuesFrom (src : Src α) (K : Nat → Bool) (i d : Nat) : List α := (List.range' i d).filterMap fun i => if K i then src i else none
/-- See `valuesFrom`. -/
def visitsFrom (K : Nat → Bool) (i d : Nat) : List Ev := (List.range' i d).flatMap (visit K)
/-- See `valuesFrom`. -/
def numberFrom (K : Nat → Bool) (i d : Nat) : Nat := (List.range' i d).countP K

@[simp] theorem valuesFrom_zero (i : Nat) : valuesFrom src K i 0 = [] := rfl
@[simp] theorem visitsFrom_zero (i : Nat) : visitsFrom K i 0 = [] := rfl
@[simp] theorem numberFrom_zero (i : Nat) : numberFrom K i 0 = 0 := rfl
theorem values_t {i d x} (h : K i = true) (hx : src i = some x) : valuesFrom src K i (d + 1) = x :: valuesFrom src K (i + 1) d := by
  simp [valuesFrom, List.range'_succ, h, hx]
theorem values_f {i d} (h : K i = false) : valuesFrom src K i (d + 1) = valuesFrom src K (i + 1) d := by
  simp [valuesFrom, List.range'_succ, h]
theorem visits_t {i d} (h : K i = true) :
    visitsFrom K i (d + 1) = [.cmp i, .deref i, .cmp i, .deref i, .inc i] ++ visitsFrom K (i + 1) d := by
  simp [visitsFrom, List.range'_succ, visit, h]
theorem visits_f {i d} (h : K i = false) : visitsFrom K i (d + 1) = [.cmp i, .deref i, .inc i] ++ visitsFrom K (i + 1) d := by
  simp [visitsFrom, List.range'_succ, visit, h]
theorem number_t {i d} (h : K i = true) : numberFrom K i (d + 1) = numberFrom K (i + 1) d + 1 := by
  simp [numberFrom, List.range'_succ, h]
theorem number_f {i d} (h : K i = false) : numberFrom K i (d + 1) = numberFrom K (i + 1) d := by
  simp [numberFrom, List.range'_succ, h]

theorem break_found (F : Finder src v K Good) {fuel D : Nat} (hD : D < fuel) : ∀ (d fA m n i : Nat) (t : τ) (log : List Ev), Good t i →
    d ≤ D → d < fA → n < m → (∀ j, j ≤ i + d → src j ≠ none) → K (i + d) = true → numberFrom K i d = n →
    (v.find fA t i log).bind (breakLoop src v fuel m n) =
      some (valuesFrom src K i (d + 1), log ++ visitsFrom K i d ++ [.cmp (i + d), .deref (i + d), .cmp (i + d), .deref (i + d)]) := by
  intro d
  induction d with
  | zero =>
    intro fA m n i t log hg _ hA hm hne hk hn
    obtain ⟨fA, rfl⟩ : ∃ k, fA = k + 1 := ⟨fA - 1, by omega⟩
    obtain ⟨m, rfl⟩ : ∃ k, m = k + 1 := ⟨m - 1, by omega⟩
    simp only [Nat.add_zero] at hk
    obtain ⟨t', e, _⟩ := F.keep fA t i log hg (hne i (by omega)) hk
    obtain ⟨x, hx⟩ := Option.ne_none_iff_exists'.mp (hne i (by omega))
    rw [numberFrom_zero] at hn; subst hn
    simp [e, breakLoop, hx, values_t hk hx]
  | succ d ih =>
    intro fA m n i t log hg hdD hA hm hne hk hn
    obtain ⟨fA, rfl⟩ : ∃ k, fA = k + 1 := ⟨fA - 1, by omega⟩
    obtain ⟨m, rfl⟩ : ∃ k, m = k + 1 := ⟨m - 1, by omega⟩
    obtain ⟨x, hx⟩ := Option.ne_none_iff_exists'.mp (hne i (by omega))
    have e1 : i + (d + 1) = i + 1 + d := by omega
    rw [e1] at hk hne ⊢
    cases hki : K i
    · obtain ⟨t', e, hg'⟩ := F.skip fA t i log hg (hne i (by omega)) hki
      rw [e, ih fA (m + 1) n (i + 1) t' _ hg' (by omega) (by omega) hm hne hk (by rw [← hn, number_f hki])]
      simp [values_f hki, visits_f hki]
    · obtain ⟨t', e, hg'⟩ := F.keep fA t i log hg (hne i (by omega)) hki
      rw [number_t hki] at hn; subst hn
      have := ih fuel m _ (i + 1) t' (log ++ [.cmp i, .deref i, .cmp i, .deref i, .inc i]) hg' (by omega) (by omega) (by omega) hne hk rfl
      simp only [e, Option.bind_some, breakLoop, hx, View.incr]
      simp only [List.append_assoc, List.cons_append, List.nil_append] at this ⊢
      rw [this]
      simp [values_t hki hx, visits_t hki]

theorem break_end (F : Finder src v K Good) {fuel D : Nat} (hD : D < fuel) : ∀ (d fA m n i : Nat) (t : τ) (log : List Ev), Good t i →
    d ≤ D → d < fA → d < m → (∀ j, j < i + d → src j ≠ none) → src (i + d) = none → numberFrom K i d ≤ n →
    (v.find fA t i log).bind (breakLoop src v fuel m n) =
      some (valuesFrom src K i d, log ++ visitsFrom K i d ++ [.cmp (i + d), .cmp (i + d)]) := by
  intro d
  induction d with
  | zero =>
    intro fA m n i t log hg _ hA hm hne hk hn
    obtain ⟨fA, rfl⟩ : ∃ k, fA = k + 1 := ⟨fA - 1, by omega⟩
    obtain ⟨m, rfl⟩ : ∃ k, m = k + 1 := ⟨m - 1, by omega⟩
    simp only [Nat.add_zero] at hk
    simp [F.stop fA t i log hk, breakLoop, hk]
  | succ d ih =>
    intro fA m n i t log hg hdD hA hm hne hk hn
    obtain ⟨fA, rfl⟩ : ∃ k, fA = k + 1 := ⟨fA - 1, by omega⟩
    obtain ⟨m, rfl⟩ : ∃ k, m = k + 1 := ⟨m - 1, by omega⟩
    obtain ⟨x, hx⟩ := Option.ne_none_iff_exists'.mp (hne i (by omega))
    have e1 : i + (d + 1) = i + 1 + d := by omega
    rw [e1] at hk hne ⊢
    cases hki : K i
    · obtain ⟨t', e, hg'⟩ := F.skip fA t i log hg (hne i (by omega)) hki
      rw [e, ih fA (m + 1) n (i + 1) t' _ hg' (by omega) (by omega) (by omega) hne hk (by rwa [number_f hki] at hn)]
      simp [values_f hki, visits_f hki]
    · obtain ⟨t', e, hg'⟩ := F.keep fA t i log hg (hne i (by omega)) hki
      rw [number_t hki] at hn
      obtain ⟨n, rfl⟩ : ∃ k, n = k + 1 := ⟨n - 1, by omega⟩
      have := ih fuel m n (i + 1) t' (log ++ [.cmp i, .deref i, .cmp i, .deref i, .inc i]) hg' (by omega) (by omega) (by omega) hne hk
        (by omega)
      simp only [e, Option.bind_some, breakLoop, hx, View.incr]
      simp only [List.append_assoc, List.cons_append, List.nil_append] at this ⊢
      rw [this]
      simp [values_t hki hx, visits_t hki]

theorem break_never (F : Finder src v K Good) (hinf : Endless src) (fuel : Nat) : ∀ (m fA n i : Nat) (t : τ) (log : List Ev), Good t i →
    (∀ d, numberFrom K i d ≤ n) → (v.find fA t i log).bind (breakLoop src v fuel m n) = none := by
  intro m
  induction m with
  | zero =>
    intro fA n i t log _ _
    cases v.find fA t i log <;> rfl
  | succ m ihm =>
    intro fA
    induction fA with
    | zero => intro n i t log _ _; rw [F.zero]; rfl
    | succ fA ih =>
      intro n i t log hg hn
      obtain ⟨x, hx⟩ := Option.ne_none_iff_exists'.mp (hinf i)
      cases hki : K i
      · obtain ⟨t', e, hg'⟩ := F.skip fA t i log hg (hinf i) hki
        rw [e]
        exact ih n (i + 1) t' _ hg' (fun d => by have := hn (d + 1); rwa [number_f hki] at this)
      · obtain ⟨t', e, hg'⟩ := F.keep fA t i log hg (hinf i) hki
        have h1 := hn 1
        rw [number_t hki] at h1
        obtain ⟨n, rfl⟩ : ∃ k, n = k + 1 := ⟨n - 1, by simp at h1; omega⟩
        simp only [e, Option.bind_some, breakLoop, hx, View.incr]
        rw [ihm fuel n (i + 1) t' _ hg' (fun d => by have := hn (d + 1); rw [number_t hki] at this; omega)]
        rfl

theorem take_found (F : Finder src v K Good) {fuel D : Nat} (hD : D < fuel) : ∀ (d fA m n i : Nat) (t : τ) (log : List Ev), Good t i →
    d ≤ D → d < fA → n < m → (∀ j, j ≤ i + d → src j ≠ none) → K (i + d) = true → numberFrom K i d = n →
    (v.find fA t i log).bind (takeLoop src v fuel m n) =
      some (valuesFrom src K i d, log ++ visitsFrom K i d ++ [.cmp (i + d), .deref (i + d)]) := by
  intro d
  induction d with
  | zero =>
    intro fA m n i t log hg _ hA hm hne hk hn
    obtain ⟨fA, rfl⟩ : ∃ k, fA = k + 1 := ⟨fA - 1, by omega⟩
    obtain ⟨m, rfl⟩ : ∃ k, m = k + 1 := ⟨m - 1, by omega⟩
    simp only [Nat.add_zero] at hk
    obtain ⟨t', e, _⟩ := F.keep fA t i log hg (hne i (by omega)) hk
    rw [numberFrom_zero] at hn; subst hn
    simp [e, takeLoop]
  | succ d ih =>
    intro fA m n i t log hg hdD hA hm hne hk hn
    obtain ⟨fA, rfl⟩ : ∃ k, fA = k + 1 := ⟨fA - 1, by omega⟩
    obtain ⟨m, rfl⟩ : ∃ k, m = k + 1 := ⟨m - 1, by omega⟩
    obtain ⟨x, hx⟩ := Option.ne_none_iff_exists'.mp (hne i (by omega))
    have e1 : i + (d + 1) = i + 1 + d := by omega
    rw [e1] at hk hne ⊢
    cases hki : K i
    · obtain ⟨t', e, hg'⟩ := F.skip fA t i log hg (hne i (by omega)) hki
      rw [e, ih fA (m + 1) n (i + 1) t' _ hg' (by omega) (by omega) hm hne hk (by rw [← hn, number_f hki])]
      simp [values_f hki, visits_f hki]
    · obtain ⟨t', e, hg'⟩ := F.keep fA t i log hg (hne i (by omega)) hki
      rw [number_t hki] at hn; subst hn
      have := ih fuel m _ (i + 1) t' (log ++ [.cmp i, .deref i, .cmp i, .deref i, .inc i]) hg' (by omega) (by omega) (by omega) hne hk rfl
      simp only [e, Option.bind_some, takeLoop, hx, View.incr]
      simp only [List.append_assoc, List.cons_append, List.nil_append] at this ⊢
      rw [this]
      simp [values_t hki hx, visits_t hki]

theorem take_end (F : Finder src v K Good) {fuel D : Nat} (hD : D < fuel) : ∀ (d fA m n i : Nat) (t : τ) (log : List Ev), Good t i →
    d ≤ D → d < fA → d < m → (∀ j, j < i + d → src j ≠ none) → src (i + d) = none → numberFrom K i d ≤ n →
    (v.find fA t i log).bind (takeLoop src v fuel m n) =
      some (valuesFrom src K i d, log ++ visitsFrom K i d ++
        (if numberFrom K i d = n then [.cmp (i + d)] else [.cmp (i + d), .cmp (i + d)])) := by
  intro d
  induction d with
  | zero =>
    intro fA m n i t log hg _ hA hm hne hk hn
    obtain ⟨fA, rfl⟩ : ∃ k, fA = k + 1 := ⟨fA - 1, by omega⟩
    obtain ⟨m, rfl⟩ : ∃ k, m = k + 1 := ⟨m - 1, by omega⟩
    simp only [Nat.add_zero] at hk
    cases n <;> simp [F.stop fA t i log hk, takeLoop, hk]
  | succ d ih =>
    intro fA m n i t log hg hdD hA hm hne hk hn
    obtain ⟨fA, rfl⟩ : ∃ k, fA = k + 1 := ⟨fA - 1, by omega⟩
    obtain ⟨m, rfl⟩ : ∃ k, m = k + 1 := ⟨m - 1, by omega⟩
    obtain ⟨x, hx⟩ := Option.ne_none_iff_exists'.mp (hne i (by omega))
    have e1 : i + (d + 1) = i + 1 + d := by omega
    rw [e1] at hk hne ⊢
    cases hki : K i
    · obtain ⟨t', e, hg'⟩ := F.skip fA t i log hg (hne i (by omega)) hki
      rw [e, ih fA (m + 1) n (i + 1) t' _ hg' (by omega) (by omega) (by omega) hne hk (by rwa [number_f hki] at hn)]
      simp [values_f hki, visits_f hki, number_f hki]
    · obtain ⟨t', e, hg'⟩ := F.keep fA t i log hg (hne i (by omega)) hki
      rw [number_t hki] at hn
      obtain ⟨n, rfl⟩ : ∃ k, n = k + 1 := ⟨n - 1, by omega⟩
      have := ih fuel m n (i + 1) t' (log ++ [.cmp i, .deref i, .cmp i, .deref i, .inc i]) hg' (by omega) (by omega) (by omega) hne hk
        (by omega)
      simp only [e, Option.bind_some, takeLoop, hx, View.incr]
      simp only [List.append_assoc, List.cons_append, List.nil_append] at this ⊢
      rw [this]
      simp [values_t hki hx, visits_t hki, number_t hki]

theorem take_never (F : Finder src v K Good) (hinf : Endless src) (fuel : Nat) : ∀ (m fA n i : Nat) (t : τ) (log : List Ev), Good t i →
    (∀ d, numberFrom K i d ≤ n) → (v.find fA t i log).bind (takeLoop src v fuel m n) = none := by
  intro m
  induction m with
  | zero =>
    intro fA n i t log _ _
    cases v.find fA t i log <;> rfl
  | succ m ihm =>
    intro fA
    induction fA with
    | zero => intro n i t log _ _; rw [F.zero]; rfl
    | succ fA ih =>
      intro n i t log hg hn
      obtain ⟨x, hx⟩ := Option.ne_none_iff_exists'.mp (hinf i)
      cases hki : K i
      · obtain ⟨t', e, hg'⟩ := F.skip fA t i log hg (hinf i) hki
        rw [e]
        exact ih n (i + 1) t' _ hg' (fun d => by have := hn (d + 1); rwa [number_f hki] at this)
      · obtain ⟨t', e, hg'⟩ := F.keep fA t i log hg (hinf i) hki
        have h1 := hn 1
        rw [number_t hki] at h1
        obtain ⟨n, rfl⟩ : ∃ k, n = k + 1 := ⟨n - 1, by simp at h1; omega⟩
        simp only [e, Option.bind_some, takeLoop, hx, View.incr]
        rw [ihm fuel n (i + 1) t' _ hg' (fun d => by have := hn (d + 1); rw [number_t hki] at this; omega)]
        rfl

theorem all_end (F : Finder src v K Good) {fuel D : Nat} (hD : D < fuel) : ∀ (d fA m i : Nat) (t : τ) (log : List Ev), Good t i →
    d ≤ D → d < fA → d < m → (∀ j, j < i + d → src j ≠ none) → src (i + d) = none →
    (v.find fA t i log).bind (allLoop src v fuel m) =
      some (valuesFrom src K i d, log ++ visitsFrom K i d ++ [.cmp (i + d), .cmp (i + d)]) := by
  intro d
  induction d with
  | zero =>
    intro fA m i t log hg _ hA hm hne hk
    obtain ⟨fA, rfl⟩ : ∃ k, fA = k + 1 := ⟨fA - 1, by omega⟩
    obtain ⟨m, rfl⟩ : ∃ k, m = k + 1 := ⟨m - 1, by omega⟩
    simp only [Nat.add_zero] at hk
    simp [F.stop fA t i log hk, allLoop, hk]
  | succ d ih =>
    intro fA m i t log hg hdD hA hm hne hk
    obtain ⟨fA, rfl⟩ : ∃ k, fA = k + 1 := ⟨fA - 1, by omega⟩
    obtain ⟨m, rfl⟩ : ∃ k, m = k + 1 := ⟨m - 1, by omega⟩
    obtain ⟨x, hx⟩ := Option.ne_none_iff_exists'.mp (hne i (by omega))
    have e1 : i + (d + 1) = i + 1 + d := by omega
    rw [e1] at hk hne ⊢
    cases hki : K i
    · obtain ⟨t', e, hg'⟩ := F.skip fA t i log hg (hne i (by omega)) hki
      rw [e, ih fA (m + 1) (i + 1) t' _ hg' (by omega) (by omega) (by omega) hne hk]
      simp [values_f hki, visits_f hki]
    · obtain ⟨t', e, hg'⟩ := F.keep fA t i log hg (hne i (by omega)) hki
      have := ih fuel m (i + 1) t' (log ++ [.cmp i, .deref i, .cmp i, .deref i, .inc i]) hg' (by omega) (by omega) (by omega) hne hk
      simp only [e, Option.bind_some, allLoop, hx, View.incr]
      simp only [List.append_assoc, List.cons_append, List.nil_append] at this ⊢
      rw [this]
      simp [values_t hki hx, visits_t hki]

theorem all_never (F : Finder src v K Good) (hinf : Endless src) (fuel : Nat) : ∀ (m fA i : Nat) (t : τ) (log : List Ev), Good t i →
    (v.find fA t i log).bind (allLoop src v fuel m) = none := by
  intro m
  induction m with
  | zero =>
    intro fA i t log _
    cases v.find fA t i log <;> rfl
  | succ m ihm =>
    intro fA
    induction fA with
    | zero => intro i t log _; rw [F.zero]; rfl
    | succ fA ih =>
      intro i t log hg
      obtain ⟨x, hx⟩ := Option.ne_none_iff_exists'.mp (hinf i)
      cases hki : K i
      · obtain ⟨t', e, hg'⟩ := F.skip fA t i log hg (hinf i) hki
        rw [e]
        exact ih (i + 1) t' _ hg'
      · obtain ⟨t', e, hg'⟩ := F.keep fA t i log hg (hinf i) hki
        simp only [e, Option.bind_some, allLoop, hx, View.incr]
        rw [ihm fuel (i + 1) t' _ hg']
        rfl

end Verif.RangesAlgo
