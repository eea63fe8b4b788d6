import Verif.RangesAlgo.LazyLemmas
import Mathlib.Data.Fintype.EquivFin
import Mathlib.Data.Fintype.Option

/-!
C89: how far the views and algorithms of ranges.hpp read, and when they return, for sources that need not end. `visits`, `values`,
`number`, `FirstAt` and `OtherAt` are defined in `LazyLemmas`, by positions of the source.
-/
namespace Verif.RangesAlgo

variable {α β τ ρ : Type}

theorem number_eq (K : Nat → Bool) (p : Nat) : numberFrom K 0 p = number K p := by simp [numberFrom, number, List.range_eq_range']
theorem values_eq (src : Src α) (K : Nat → Bool) (p : Nat) : valuesFrom src K 0 p = values src K p := by
  simp [valuesFrom, values, List.range_eq_range']
theorem visits_eq (K : Nat → Bool) (p : Nat) : visitsFrom K 0 p = visits K p := by simp [visitsFrom, visits, List.range_eq_range']

theorem number_le (K : Nat → Bool) (p : Nat) : number K p ≤ p := by
  have := List.countP_le_length (p := K) (l := List.range p); simpa [number] using this

/-- Every source ends or does not. -/
theorem ends_or (src : Src α) : (∃ e, EndsAt src e) ∨ Endless src := by
  by_cases h : ∃ e, src e = none
  · have : ∀ n, src n = none → ∃ e, EndsAt src e := by
      intro n
      induction n using Nat.strongRecOn with
      | _ n ih =>
        intro hn
        by_cases h' : ∃ i, i < n ∧ src i = none
        · obtain ⟨i, hi, hi'⟩ := h'; exact ih i hi hi'
        · exact ⟨n, hn, fun i hi e => h' ⟨i, hi, e⟩⟩
    obtain ⟨e, he⟩ := h
    exact .inl (this e he)
  · exact .inr fun i e => h ⟨i, e⟩

/-- What a loop that is left after `n + 1` values does, for a view that keeps the positions `K` of the source: if there is an
`(n + 1)`-st kept position `p`, it yields the values kept up to `p` and performs no operation behind position `p`, which it does not
increment; if the source ends at `e` before, it yields all kept values; otherwise it never returns. -/
def LazyBreak (src : Src α) (K : Nat → Bool) (loop : Nat → Option (List α × List Ev)) (n : Nat) : Prop :=
  (∀ p, (∀ j, j ≤ p → src j ≠ none) → K p = true → number K p = n → ∀ fuel, p < fuel →
    loop fuel = some (values src K (p + 1), visits K p ++ [.cmp p, .deref p, .cmp p, .deref p])) ∧
  (∀ e, EndsAt src e → number K e ≤ n → ∀ fuel, e < fuel → loop fuel = some (values src K e, visits K e ++ [.cmp e, .cmp e])) ∧
  (Endless src → (∀ p, number K p ≤ n) → ∀ fuel, loop fuel = none)

/-- What a loop over `view | take(n)` does: it yields the first `n` kept values, but searches on up to the kept position `p` after
them (or to the end `e`); if there is none, it never returns. -/
def LazyTake (src : Src α) (K : Nat → Bool) (loop : Nat → Option (List α × List Ev)) (n : Nat) : Prop :=
  (∀ p, (∀ j, j ≤ p → src j ≠ none) → K p = true → number K p = n → ∀ fuel, p < fuel →
    loop fuel = some (values src K p, visits K p ++ [.cmp p, .deref p])) ∧
  (∀ e, EndsAt src e → number K e ≤ n → ∀ fuel, e < fuel →
    loop fuel = some (values src K e, visits K e ++ (if number K e = n then [.cmp e] else [.cmp e, .cmp e]))) ∧
  (Endless src → (∀ p, number K p ≤ n) → ∀ fuel, loop fuel = none)

/-- What a loop over the whole view does. -/
def LazyAll (src : Src α) (K : Nat → Bool) (loop : Nat → Option (List α × List Ev)) : Prop :=
  (∀ e, EndsAt src e → ∀ fuel, e < fuel → loop fuel = some (values src K e, visits K e ++ [.cmp e, .cmp e])) ∧
  (Endless src → ∀ fuel, loop fuel = none)

theorem Finder.lazyBreak {src : Src α} {v : View τ} {K : Nat → Bool} {Good : τ → Nat → Prop} (F : Finder src v K Good) (n : Nat) :
    LazyBreak src K (fun fuel => forBreak src v fuel n) n := by
  refine ⟨?_, ?_, ?_⟩
  · intro p hp hk hn fuel hf
    have hle := number_le K p
    have := break_found F hf p fuel fuel n 0 v.init [] F.init (by omega) (by omega) (by omega) (by simpa using hp)
      (by simpa using hk) (by rw [number_eq]; exact hn)
    simpa [forBreak, View.begin, values_eq, visits_eq] using this
  · intro e he hn fuel hf
    have := break_end F hf e fuel fuel n 0 v.init [] F.init (by omega) (by omega) (by omega) (by simpa using he.2)
      (by simpa using he.1) (by rw [number_eq]; exact hn)
    simpa [forBreak, View.begin, values_eq, visits_eq] using this
  · intro hinf hn fuel
    exact break_never F hinf fuel fuel fuel n 0 v.init [] F.init (fun d => by rw [number_eq]; exact hn d)

theorem Finder.lazyTake {src : Src α} {v : View τ} {K : Nat → Bool} {Good : τ → Nat → Prop} (F : Finder src v K Good) (n : Nat) :
    LazyTake src K (fun fuel => forTake src v fuel n) n := by
  refine ⟨?_, ?_, ?_⟩
  · intro p hp hk hn fuel hf
    have hle := number_le K p
    have := take_found F hf p fuel fuel n 0 v.init [] F.init (by omega) (by omega) (by omega) (by simpa using hp)
      (by simpa using hk) (by rw [number_eq]; exact hn)
    simpa [forTake, View.begin, values_eq, visits_eq] using this
  · intro e he hn fuel hf
    have := take_end F hf e fuel fuel n 0 v.init [] F.init (by omega) (by omega) (by omega) (by simpa using he.2)
      (by simpa using he.1) (by rw [number_eq]; exact hn)
    simpa [forTake, View.begin, values_eq, visits_eq, number_eq] using this
  · intro hinf hn fuel
    exact take_never F hinf fuel fuel fuel n 0 v.init [] F.init (fun d => by rw [number_eq]; exact hn d)

theorem Finder.lazyAll {src : Src α} {v : View τ} {K : Nat → Bool} {Good : τ → Nat → Prop} (F : Finder src v K Good) :
    LazyAll src K (fun fuel => forAll src v fuel) := by
  refine ⟨?_, ?_⟩
  · intro e he fuel hf
    have := all_end F hf e fuel fuel 0 v.init [] F.init (by omega) (by omega) (by omega) (by simpa using he.2) (by simpa using he.1)
    simpa [forAll, View.begin, values_eq, visits_eq] using this
  · intro hinf fuel
    exact all_never F hinf fuel fuel fuel 0 v.init [] F.init

/-- **C89.** `unique` is lazy: loops over `src | unique` perform exactly the operations on the source that `LazyBreak`, `LazyTake` and
`LazyAll` describe, where the kept positions are those whose value differs from all values before; for either kind of set. -/
theorem unique_lazy {src : Src α} {set : SetImpl α} {eq : α → α → Bool} (hs : Finds set eq) (hsym : ∀ x y, eq x y = eq y x)
    (htrans : ∀ x y z, eq x y = true → eq y z = true → eq x z = true) {K : Nat → Bool} (hK : ∀ j, K j = true ↔ FirstAt eq src j)
    (n : Nat) :
    LazyBreak src K (fun fuel => forBreak src (uniqueV src set) fuel n) n ∧
    LazyTake src K (fun fuel => forTake src (uniqueV src set) fuel n) n ∧
    LazyAll src K (fun fuel => forAll src (uniqueV src set) fuel) :=
  ⟨(unique_finder hs hsym htrans hK).lazyBreak n, (unique_finder hs hsym htrans hK).lazyTake n, (unique_finder hs hsym htrans hK).lazyAll⟩

/-- **C89.** `remove_element` is lazy in the same way; the kept positions are those whose value does not match. -/
theorem remove_lazy {src : Src α} {pred : α → β → Bool} {value : β} {K : Nat → Bool} (hK : ∀ j, K j = true ↔ OtherAt pred value src j)
    (n : Nat) :
    LazyBreak src K (fun fuel => forBreak src (removeV src pred value) fuel n) n ∧
    LazyTake src K (fun fuel => forTake src (removeV src pred value) fuel n) n ∧
    LazyAll src K (fun fuel => forAll src (removeV src pred value) fuel) :=
  ⟨(remove_finder hK).lazyBreak n, (remove_finder hK).lazyTake n, (remove_finder hK).lazyAll⟩

/-! Examples of sources: one without end that repeats two values, one with an end. -/

/-- The set used in the examples: `std::unordered_set<int>` with the identity as hash (ranges.hpp:254-257). -/
def natSet : SetImpl Nat := hashSet (fun x => x) (fun _ h => h) (fun a b => a == b)

theorem natSet_finds : Finds natSet (fun a b => a == b) := hashSet_finds _ (by simp)

/-- `0, 1, 0, 1, ...` -/
def alternating : Src Nat := fun i => some (i % 2)

theorem alternating_first (j : Nat) : decide (j < 2) = true ↔ FirstAt (fun a b => a == b) alternating j := by
  simp only [decide_eq_true_eq, FirstAt, alternating]
  constructor
  · intro h
    refine ⟨_, rfl, fun i hi y hy => ?_⟩
    cases hy
    simp; omega
  · rintro ⟨x, hx, h⟩
    apply Classical.byContradiction
    intro hj
    have := h (j - 2) (by omega) _ rfl
    cases hx
    simp at this; omega

theorem alternating_number (p : Nat) : number (fun j => decide (j < 2)) p ≤ 2 := by
  have : ∀ d, numberFrom (fun j => decide (j < 2)) 2 d = 0 := by
    intro d; simp [numberFrom, List.countP_eq_zero]; omega
  rw [← number_eq]
  match p with
  | 0 => simp
  | 1 => simp [numberFrom]
  | p + 2 => simp [number_t, this]

/-- `3, 3, 5`, then the end -/
def finite : Src Nat := fun i => [3, 3, 5][i]?

theorem finite_first (j : Nat) : decide (j = 0 ∨ j = 2) = true ↔ FirstAt (fun a b => a == b) finite j := by
  match j with
  | 0 => simp [FirstAt, finite]
  | 1 =>
    simp only [FirstAt, finite]
    constructor
    · intro h; simp at h
    · rintro ⟨x, hx, h⟩
      simp at hx; subst hx
      simpa using h 0 (by decide) 3 rfl
  | 2 =>
    simp only [FirstAt, finite]
    refine ⟨fun _ => ⟨5, rfl, fun i hi y hy => ?_⟩, fun _ => by simp⟩
    match i, hi with
    | 0, _ => simp at hy; subst hy; rfl
    | 1, _ => simp at hy; subst hy; rfl
  | j + 3 => simp [FirstAt, finite]

example : ∀ fuel, 2 < fuel → forBreak finite (uniqueV finite natSet) fuel 1 =
    some ([3, 5], [.cmp 0, .deref 0, .cmp 0, .deref 0, .inc 0, .cmp 1, .deref 1, .inc 1, .cmp 2, .deref 2, .cmp 2, .deref 2]) :=
  (unique_lazy natSet_finds (by simp [Bool.beq_comm]) (by simp) finite_first 1).1.1 2
    (fun j hj => match j, hj with | 0, _ => by simp [finite] | 1, _ => by simp [finite] | 2, _ => by simp [finite]) rfl rfl

example : ∀ fuel, 2 < fuel → forBreak finite (removeV finite (fun a b => a == b) 3) fuel 0 =
    some ([5], [.cmp 0, .deref 0, .inc 0, .cmp 1, .deref 1, .inc 1, .cmp 2, .deref 2, .cmp 2, .deref 2]) :=
  (remove_lazy (src := finite) (pred := fun a b => a == b) (value := 3) (K := fun j => decide (j = 2))
    (fun j => match j with | 0 => by simp [OtherAt, finite] | 1 => by simp [OtherAt, finite] | 2 => by simp [OtherAt, finite] | j + 3 => by simp [OtherAt, finite])
    0).1.1 2 (fun j hj => match j, hj with | 0, _ => by simp [finite] | 1, _ => by simp [finite] | 2, _ => by simp [finite]) rfl rfl

/-- **C89.** When a loop over `view | take(n)` returns, exactly: iff the source ends or the view has more than `n` values. The claim that
it returns once `n` values were found is refuted by `take_never_returns_refuted`. -/
theorem take_returns_partial {src : Src α} {K : Nat → Bool} {loop : Nat → Option (List α × List Ev)} {n : Nat} (h : LazyTake src K loop n) :
    (∃ fuel, loop fuel ≠ none) ↔ (∃ e, EndsAt src e) ∨ ∃ p, n < number K p := by
  have first : ∀ p, n < number K p → ∃ q, q < p ∧ K q = true ∧ number K q = n := by
    intro p
    induction p with
    | zero => intro h; simp [number] at h
    | succ p ih =>
      intro h
      have e : number K (p + 1) = number K p + if K p then 1 else 0 := by simp [number, List.range_succ, List.countP_cons]
      rw [e] at h
      by_cases h' : n < number K p
      · obtain ⟨q, h1, h2⟩ := ih h'; exact ⟨q, by omega, h2⟩
      · cases hk : K p
        · rw [hk] at h; simp at h; omega
        · rw [hk] at h; exact ⟨p, by omega, hk, by simp at h; omega⟩
  rcases ends_or src with ⟨e, he⟩ | hinf
  · refine ⟨fun _ => .inl ⟨e, he⟩, fun _ => ?_⟩
    by_cases hn : number K e ≤ n
    · exact ⟨e + 1, by rw [h.2.1 e he hn _ (by omega)]; simp⟩
    · obtain ⟨q, h1, h2, h3⟩ := first e (by omega)
      exact ⟨q + 1, by rw [h.1 q (fun j hj => he.2 j (by omega)) h2 h3 _ (by omega)]; simp⟩
  · constructor
    · rintro ⟨fuel, hf⟩
      refine .inr (Classical.byContradiction fun hno => hf (h.2.2 hinf (fun p => ?_) fuel))
      apply Classical.byContradiction
      intro hp; exact hno ⟨p, by omega⟩
    · rintro (⟨e, he⟩ | ⟨p, hp⟩)
      · exact absurd he.1 (hinf e)
      · obtain ⟨q, h1, h2, h3⟩ := first p hp
        exact ⟨q + 1, by rw [h.1 q (fun j _ => hinf j) h2 h3 _ (by omega)]; simp⟩

example : ∃ fuel, forTake finite (uniqueV finite natSet) fuel 2 ≠ none :=
  (take_returns_partial (unique_lazy natSet_finds (by simp [Bool.beq_comm]) (by simp) finite_first 2).2.1).mpr
    (.inl ⟨3, rfl, fun j hj => match j, hj with | 0, _ => by simp [finite] | 1, _ => by simp [finite] | 2, _ => by simp [finite]⟩)

/-- **C89, refuted** for `take`: over `0, 1, 0, 1, ...` the values 0 and 1 can be read with a `break`, but a loop over
`unique | take(2)` never returns. Over `7, 7, 7, ...` not even `remove_element(7) | take(0)` returns. -/
theorem take_never_returns_refuted :
    (∀ fuel, 1 < fuel → (forBreak alternating (uniqueV alternating natSet) fuel 1).map Prod.fst = some [0, 1]) ∧
    (∀ fuel, forTake alternating (uniqueV alternating natSet) fuel 2 = none) ∧
    (∀ fuel, forTake (fun _ => some 7) (removeV (fun _ => some 7) (fun a b : Nat => a == b) 7) fuel 0 = none) := by
  have h := unique_lazy (src := alternating) natSet_finds (by simp [Bool.beq_comm]) (by simp) alternating_first
  refine ⟨fun fuel hf => ?_, fun fuel => ?_, fun fuel => ?_⟩
  · have := (h 1).1.1 1 (fun j _ => by simp [alternating]) rfl rfl fuel hf
    exact congrArg (Option.map Prod.fst) this
  · exact (h 2).2.1.2.2 (fun i => by simp [alternating]) alternating_number fuel
  · have := (remove_lazy (src := fun _ => some 7) (pred := fun a b : Nat => a == b) (value := 7) (K := fun _ => false)
      (fun j => by simp [OtherAt]) 0).2.1.2.2 (fun i => by simp) (fun p => by simp [number])
    exact this fuel

/-- **C89.** How often the source is dereferenced by a loop over a whole view: once at every position, and a second time at the kept
positions; every position is incremented once. So a function in `src | std::views::transform(f) | unique` is called twice for the values
that are kept: the claim that it is called once for each element is refuted. -/
theorem deref_twice_refuted {src : Src α} {K : Nat → Bool} {loop : Nat → Option (List α × List Ev)} (h : LazyAll src K loop) {e : Nat}
    (he : EndsAt src e) {fuel : Nat} (hf : e < fuel) : ∃ l log, loop fuel = some (l, log) ∧ ∀ i, i < e →
      log.count (.deref i) = (if K i then 2 else 1) ∧ log.count (.inc i) = 1 := by
  refine ⟨_, _, h.1 e he fuel hf, fun i hi => ?_⟩
  have key : ∀ (ev : Nat → Ev) (c : Nat), (∀ j, (visit K j).count (ev i) = if j = i then c else 0) → ∀ p,
      (visits K p).count (ev i) = if i < p then c else 0 := by
    intro ev c hv p
    induction p with
    | zero => simp [visits]
    | succ p ih =>
      have e1 : visits K (p + 1) = visits K p ++ visit K p := by simp [visits, List.range_succ]
      rw [e1, List.count_append, ih, hv]
      by_cases h1 : i < p
      · rw [if_pos h1, if_neg (by omega), if_pos (by omega)]; rfl
      · by_cases h2 : p = i
        · rw [if_neg h1, if_pos h2, if_pos (by omega)]; omega
        · rw [if_neg h1, if_neg h2, if_neg (by omega)]
  constructor
  · rw [List.count_append, key .deref (if K i then 2 else 1) (fun j => ?_) e]
    · simp [hi, List.count_cons]
    · by_cases hji : j = i
      · subst hji
        cases hk : K j <;> simp [visit, hk, List.count_cons]
      · cases hk : K j <;> simp [visit, hk, List.count_cons, hji]
  · rw [List.count_append, key .inc 1 (fun j => ?_) e]
    · simp [hi, List.count_cons]
    · by_cases hji : j = i
      · subst hji
        cases hk : K j <;> simp [visit, hk, List.count_cons]
      · cases hk : K j <;> simp [visit, hk, List.count_cons, hji]

example : ∃ l log, forAll finite (uniqueV finite natSet) 4 = some (l, log) ∧ log.count (.deref 2) = 2 := by
  obtain ⟨l, log, h1, h2⟩ := deref_twice_refuted
    (unique_lazy natSet_finds (by simp [Bool.beq_comm]) (by simp) finite_first 0).2.2 (e := 3)
    ⟨rfl, fun j hj => match j, hj with | 0, _ => by simp [finite] | 1, _ => by simp [finite] | 2, _ => by simp [finite]⟩ (fuel := 4) (by decide)
  exact ⟨l, log, h1, (h2 2 (by decide)).1⟩

/-! ### Iterating a view again -/

/-- **C89.** A `remove_element` view that has remembered its first position `p` from an earlier loop: as long as `p` is still the first
kept position of the source (or its end), a loop over the view yields exactly the kept values of the source as it is now, and looks at no
position before `p`. Otherwise it may yield anything: `remove_again_refuted`. -/
theorem remove_again_partial {src : Src α} {pred : α → β → Bool} {value : β} {K : Nat → Bool}
    (hK : ∀ j, K j = true ↔ OtherAt pred value src j) {e p : Nat} (he : EndsAt src e) (hp : p ≤ e) (hfirst : ∀ j, j < p → K j = false)
    (hkp : K p = true ∨ p = e) {fuel : Nat} (hf : e < fuel) :
    ∃ log, forAllCached src (removeV src pred value) (some p) fuel = some ((values src K e, log), some p) ∧
      ∃ pre, visits K e ++ [.cmp e, .cmp e] = pre ++ log ∧ pre = visits K p ++ (if p = e then [.cmp e] else [.cmp p, .deref p]) := by
  have F := remove_finder hK
  obtain ⟨m, rfl⟩ : ∃ m, fuel = m + 1 := ⟨fuel - 1, by omega⟩
  have hv : values src K p = [] := by
    simp only [values, List.filterMap_eq_nil_iff, List.mem_range]
    intro j hj; simp [hfirst j hj]
  have hsplit : ∀ d, p + d = e → values src K e = values src K p ++ valuesFrom src K p d ∧ visits K e = visits K p ++ visitsFrom K p d := by
    rintro d rfl
    have : List.range (p + d) = List.range p ++ List.range' p d := by
      rw [List.range_eq_range', List.range_eq_range', ← List.range'_append_1]; simp
    simp [values, visits, valuesFrom, visitsFrom, this]
  rcases Nat.eq_or_lt_of_le hp with rfl | hlt
  · refine ⟨[.cmp p], ?_, _, ?_, rfl⟩
    · simp [forAllCached, cachedBegin, allLoop, he.1, hv]
    · simp
  · have hk : K p = true := hkp.resolve_right (by omega)
    obtain ⟨x, hx⟩ := Option.ne_none_iff_exists'.mp (he.2 p hlt)
    obtain ⟨d, hd⟩ : ∃ d, e = p + 1 + d := ⟨e - (p + 1), by omega⟩
    obtain ⟨s1, s2⟩ := hsplit (d + 1) (by omega)
    have := all_end F (fuel := m + 1) (D := d) (by omega) d (m + 1) m (p + 1) () [.cmp p, .deref p, .inc p] trivial (by omega) (by omega)
      (by omega) (fun j hj => he.2 j (by omega)) (by rw [← hd]; exact he.1)
    refine ⟨[.cmp p, .deref p, .inc p] ++ visitsFrom K (p + 1) d ++ [.cmp e, .cmp e], ?_, _, ?_, rfl⟩
    · have e1 : (removeV src pred value).init = () := rfl
      simp only [forAllCached, cachedBegin, Option.bind_some, allLoop, hx, View.incr, List.nil_append, e1, List.cons_append] at this ⊢
      rw [this, s1, hv, values_t hk hx, hd]
      simp
    · rw [s2, visits_t hk, if_neg (by omega)]
      simp

example : ∃ log, forAllCached finite (removeV finite (fun a b => a == b) 3) (some 2) 4 = some (([5], log), some 2) :=
  (remove_again_partial (src := finite) (pred := fun a b => a == b) (value := 3) (K := fun j => decide (j = 2)) (p := 2) (e := 3)
    (fun j => match j with | 0 => by simp [OtherAt, finite] | 1 => by simp [OtherAt, finite] | 2 => by simp [OtherAt, finite] | j + 3 => by simp [OtherAt, finite])
    ⟨rfl, fun j hj => match j, hj with | 0, _ => by simp [finite] | 1, _ => by simp [finite] | 2, _ => by simp [finite]⟩
    (by decide) (fun j hj => by simp; omega) (.inl rfl) (fuel := 4) (by decide)).imp fun _ h => h.1

/-- **C89, refuted** for `remove_element`: after a loop over `{1, 2} | remove_element(1)`, the vector is changed to `{5, 1}`; the next loop
over the same view skips 5 and visits the value that should be removed. `unique` keeps nothing between loops. -/
theorem remove_again_refuted :
    (∀ log, forAllCached (fun i => [1, 2][i]?) (removeV (fun i => [1, 2][i]?) (fun a b : Nat => a == b) 1) none 3 = some (([2], log), some 1) →
      ∃ log', forAllCached (fun i => [5, 1][i]?) (removeV (fun i => [5, 1][i]?) (fun a b : Nat => a == b) 1) (some 1) 3 = some (([1], log'), some 1)) ∧
    ∃ log, forAllCached (fun i => [1, 2][i]?) (removeV (fun i => [1, 2][i]?) (fun a b : Nat => a == b) 1) none 3 = some (([2], log), some 1) :=
  ⟨fun _ _ => ⟨[.cmp 1, .deref 1, .inc 1, .cmp 2, .cmp 2], by decide⟩,
    ⟨[.cmp 0, .deref 0, .inc 0, .cmp 1, .deref 1, .cmp 1, .deref 1, .inc 1, .cmp 2, .cmp 2], by decide⟩⟩

/-- **C89, refuted** for single-pass sources: a loop over a unique view of a stream buffer is left at its first value; the next loop over
the same view begins with that value again, whatever follows. -/
theorem unique_again_refuted (set : SetImpl α) (hs : ∀ x, set [] x = false) (a : α) (l : List α) (fuel : Nat) :
    uniqueBreak (istreambufIt α) set (fuel + 1) 0 () (a :: l) = some ([a], a :: l) ∧
    ∀ r, unique (istreambufIt α) set (fuel + 1) () (a :: l) = some r → r.head? = some a := by
  constructor
  · simp [uniqueBreak, uniqueBreakLoop, findNextUnique, istreambufIt, insert, hs]
  · intro r h
    simp only [unique, findNextUnique, istreambufIt, insert, hs, List.head?_cons] at h
    simp [uniqueLoop] at h
    obtain ⟨st, _, h⟩ := Option.bind_eq_some_iff.mp h
    obtain ⟨r', _, h⟩ := Option.map_eq_some_iff.mp h
    rw [← h]; rfl

example : uniqueBreak (istreambufIt Nat) natSet 3 0 () [4, 4] = some ([4], [4, 4]) ∧
    unique (istreambufIt Nat) natSet 3 () [4, 4] = some [4] := by decide

/-- The model with records agrees with the model of `Verif.RangesAlgo.Model` for sources that are sequences. -/
theorem findNextUniqueL_eq (src : Src α) (set : SetImpl α) : ∀ fuel seen i log,
    (findNextUniqueL src set fuel seen i log).map (fun r => (r.1, r.2.1, ())) = findNextUnique (seqIt src) set fuel seen i () := by
  intro fuel
  induction fuel with
  | zero => intros; rfl
  | succ n ih =>
    intro seen i log
    simp only [findNextUniqueL, findNextUnique, seqIt]
    cases src i with
    | none => rfl
    | some x =>
      cases h : (insert set seen x).2
      · simp [h]; exact ih _ _ _
      · simp [h]

/-! ### Terminal algorithms on endless sources -/

theorem allOf_returns {src : Src α} {f : α → Bool} (hinf : Endless src) : ∀ d i x, src (i + d) = some x → f x = false →
    allOf (seqIt src) f (d + 1) i () ≠ none := by
  intro d
  induction d with
  | zero => intro i x hx hf; simp only [Nat.add_zero] at hx; simp [allOf, seqIt, hx, hf]
  | succ d ih =>
    intro i x hx hf
    obtain ⟨y, hy⟩ := Option.ne_none_iff_exists'.mp (hinf i)
    cases hfy : f y
    · simp [allOf, seqIt, hy, hfy]
    · have := ih (i + 1) x (by rw [← hx]; congr 1; omega) hf
      simpa [allOf, seqIt, hy, hfy] using this

theorem allOf_endless {src : Src α} (hinf : Endless src) (f : α → Bool) (i : Nat) :
    (∃ fuel, allOf (seqIt src) f fuel i () ≠ none) ↔ ∃ d x, src (i + d) = some x ∧ f x = false := by
  constructor
  · rintro ⟨fuel, h⟩
    apply Classical.byContradiction
    intro hno
    apply h
    have : ∀ fuel j, allOf (seqIt src) f fuel (i + j) () = none := by
      intro fuel
      induction fuel with
      | zero => intro j; rfl
      | succ n ih =>
        intro j
        obtain ⟨x, hx⟩ := Option.ne_none_iff_exists'.mp (hinf (i + j))
        have hf : f x = true := by
          cases hf : f x
          · exact absurd ⟨j, x, hx, hf⟩ hno
          · rfl
        simp [allOf, seqIt, hx, hf]
        exact ih (j + 1)
    exact this fuel 0
  · rintro ⟨d, x, hx, hf⟩
    exact ⟨d + 1, allOf_returns hinf d i x hx hf⟩

theorem anyOf_eq (it : It ρ τ α) (f : α → Bool) : ∀ fuel i s, anyOf it f fuel i s = (allOf it (fun x => !f x) fuel i s).map (!·) := by
  intro fuel
  induction fuel with
  | zero => intro i s; rfl
  | succ n ih =>
    intro i s
    simp only [anyOf, allOf]
    cases it.get i s with
    | none => rfl
    | some x => cases hf : f x <;> simp [hf, ih]

theorem noneOf_eq (it : It ρ τ α) (f : α → Bool) : ∀ fuel i s, noneOf it f fuel i s = allOf it (fun x => !f x) fuel i s := by
  intro fuel
  induction fuel with
  | zero => intro i s; rfl
  | succ n ih =>
    intro i s
    simp only [noneOf, allOf]
    cases it.get i s with
    | none => rfl
    | some x => cases hf : f x <;> simp [hf, ih]

/-- **C89.** When the quantifiers return on a source without end: exactly if an element decides the result. -/
theorem quantifiers_endless {src : Src α} (hinf : Endless src) (f : α → Bool) :
    ((∃ fuel, allOf (seqIt src) f fuel 0 () ≠ none) ↔ ∃ i x, src i = some x ∧ f x = false) ∧
    ((∃ fuel, anyOf (seqIt src) f fuel 0 () ≠ none) ↔ ∃ i x, src i = some x ∧ f x = true) ∧
    ((∃ fuel, noneOf (seqIt src) f fuel 0 () ≠ none) ↔ ∃ i x, src i = some x ∧ f x = true) := by
  refine ⟨?_, ?_, ?_⟩
  · rw [allOf_endless hinf]; simp
  · have := allOf_endless hinf (fun x => !f x) 0
    simp only [anyOf_eq, ne_eq, Option.map_eq_none_iff] at this ⊢
    rw [this]; simp
  · simp only [noneOf_eq]
    rw [allOf_endless hinf]; simp

example : ∃ fuel, anyOf (seqIt fun i => some (i * i)) (fun x => decide (50 < x)) fuel 0 () ≠ none :=
  (quantifiers_endless (fun i => by simp) _).2.1.mpr ⟨8, 64, rfl, rfl⟩

/-- **C89.** `all_equal` returns on a source without end exactly if some element differs from the first. -/
theorem all_equal_endless {src : Src α} (hinf : Endless src) (pred : α → α → Bool) {first : α} (h0 : src 0 = some first) :
    (∃ fuel, allEqual (seqIt src) pred fuel 0 () ≠ none) ↔ ∃ i x, src (i + 1) = some x ∧ pred x first = false := by
  have e : ∀ fuel, allEqual (seqIt src) pred fuel 0 () = allOf (seqIt src) (fun x => pred x first) fuel 1 () := by
    intro fuel; simp [allEqual, seqIt, h0]
  simp only [e]
  rw [allOf_endless hinf]
  simp only [Nat.add_comm]

example : ∃ fuel, allEqual (seqIt fun i => some (i / 9)) (fun a b : Nat => a == b) fuel 0 () ≠ none :=
  (all_equal_endless (src := fun i => some (i / 9)) (fun i => by simp) (fun a b => a == b) (first := 0) rfl).mpr ⟨8, 1, rfl, rfl⟩

/-- **C89.** `all_distinct` returns on a source without end exactly if a value occurs twice, with either kind of set. -/
theorem all_distinct_endless {src : Src α} (hinf : Endless src) {set : SetImpl α} {eq : α → α → Bool} (hs : Finds set eq) :
    (∃ fuel, allDistinct (seqIt src) set fuel 0 () ≠ none) ↔ ∃ i j x y, i < j ∧ src i = some x ∧ src j = some y ∧ eq y x = true := by
  obtain ⟨x0, hx0⟩ := Option.ne_none_iff_exists'.mp (hinf 0)
  have e : ∀ fuel, allDistinct (seqIt src) set fuel 0 () = allDistinctLoop (seqIt src) set fuel [] 0 () := by
    intro fuel; simp [allDistinct, seqIt, hx0]
  simp only [e]
  have good0 : ∀ y, (∃ z ∈ ([] : List α), eq y z = true) ↔ ∃ i, i < 0 ∧ ∃ x, src i = some x ∧ eq y x = true := by simp
  have push : ∀ {seen : List α} {j : Nat} {x : α}, src j = some x →
      (∀ y, (∃ z ∈ seen, eq y z = true) ↔ ∃ i, i < j ∧ ∃ x, src i = some x ∧ eq y x = true) →
      ∀ y, (∃ z ∈ x :: seen, eq y z = true) ↔ ∃ i, i < j + 1 ∧ ∃ x, src i = some x ∧ eq y x = true := by
    intro seen j x hx hg y
    simp only [List.mem_cons, exists_eq_or_imp, hg y]
    constructor
    · rintro (h | ⟨i, hi, h⟩)
      · exact ⟨j, by omega, x, hx, h⟩
      · exact ⟨i, by omega, h⟩
    · rintro ⟨i, hi, z, hz, h⟩
      by_cases hij : i = j
      · subst hij; rw [hx] at hz; cases hz; exact .inl h
      · exact .inr ⟨i, by omega, z, hz, h⟩
  constructor
  · rintro ⟨fuel, h⟩
    apply Classical.byContradiction
    intro hno
    apply h
    have : ∀ fuel j seen, (∀ y, (∃ z ∈ seen, eq y z = true) ↔ ∃ i, i < j ∧ ∃ x, src i = some x ∧ eq y x = true) →
        allDistinctLoop (seqIt src) set fuel seen j () = none := by
      intro fuel
      induction fuel with
      | zero => intro j seen _; rfl
      | succ n ih =>
        intro j seen hg
        obtain ⟨x, hx⟩ := Option.ne_none_iff_exists'.mp (hinf j)
        have hf : set seen x = false := by
          rw [← Bool.not_eq_true, hs, hg]
          rintro ⟨i, hi, z, hz, h⟩
          exact hno ⟨i, j, z, x, hi, hz, hx, h⟩
        have := ih (j + 1) (x :: seen) (push hx hg)
        simpa [allDistinctLoop, seqIt, hx, insert, hf] using this
    exact this fuel 0 [] good0
  · rintro ⟨i, j, x, y, hij, hx, hy, hxy⟩
    have : ∀ d k seen, k + d = j → (∀ y, (∃ z ∈ seen, eq y z = true) ↔ ∃ i, i < k ∧ ∃ x, src i = some x ∧ eq y x = true) →
        allDistinctLoop (seqIt src) set (d + 1) seen k () ≠ none := by
      intro d
      induction d with
      | zero =>
        rintro k seen rfl hg
        have hf : set seen y = true := by rw [hs, hg]; exact ⟨i, hij, x, hx, hxy⟩
        simp only [Nat.add_zero] at hy
        simp [allDistinctLoop, seqIt, hy, insert, hf]
      | succ d ih =>
        intro k seen hk hg
        obtain ⟨z, hz⟩ := Option.ne_none_iff_exists'.mp (hinf k)
        cases hf : set seen z
        · have := ih (k + 1) (z :: seen) (by omega) (push hz hg)
          simpa [allDistinctLoop, seqIt, hz, insert, hf] using this
        · simp [allDistinctLoop, seqIt, hz, insert, hf]
    exact ⟨j + 1, this j 0 [] (by omega) good0⟩

/-- **C89.** So `all_distinct` always returns if there are only finitely many values. -/
theorem all_distinct_finite [Finite α] {src : Src α} (hinf : Endless src) {set : SetImpl α} {eq : α → α → Bool} (hs : Finds set eq)
    (hrefl : ∀ x, eq x x = true) : ∃ fuel, allDistinct (seqIt src) set fuel 0 () ≠ none := by
  rw [all_distinct_endless hinf hs]
  have h := not_injective_infinite_finite src
  simp only [Function.Injective, not_forall] at h
  obtain ⟨i, j, hij, hne⟩ := h
  obtain ⟨x, hx⟩ := Option.ne_none_iff_exists'.mp (hinf i)
  rcases Nat.lt_or_gt_of_ne hne with h | h
  · exact ⟨i, j, x, x, h, hx, hij ▸ hx, hrefl x⟩
  · exact ⟨j, i, x, x, h, hij ▸ hx, hx, hrefl x⟩

example : ∃ fuel, allDistinct (seqIt fun i => some (decide (i % 3 = 0))) (treeSet fun a b => !a && b) fuel 0 () ≠ none :=
  all_distinct_finite (eq := fun a b => a == b) (fun i => by simp) (treeSet_finds (by decide)) (by decide)

/-- **C89.** `is_sorted_unique` returns on a source without end exactly if some element is not less than the next. -/
theorem is_sorted_unique_endless {src : Src α} (hinf : Endless src) (cmp : β → β → Bool) (proj : α → β) :
    (∃ fuel, isSortedUnique (seqIt src) cmp proj fuel 0 () ≠ none) ↔
      ∃ i x y, src i = some x ∧ src (i + 1) = some y ∧ cmp (proj x) (proj y) = false := by
  obtain ⟨x0, hx0⟩ := Option.ne_none_iff_exists'.mp (hinf 0)
  have e : ∀ fuel, isSortedUnique (seqIt src) cmp proj fuel 0 () = isSortedUniqueLoop (seqIt src) cmp proj fuel 0 0 () := by
    intro fuel; simp [isSortedUnique, seqIt, hx0]
  simp only [e]
  constructor
  · rintro ⟨fuel, h⟩
    apply Classical.byContradiction
    intro hno
    apply h
    have : ∀ fuel j, isSortedUniqueLoop (seqIt src) cmp proj fuel j j () = none := by
      intro fuel
      induction fuel with
      | zero => intro j; rfl
      | succ n ih =>
        intro j
        obtain ⟨x, hx⟩ := Option.ne_none_iff_exists'.mp (hinf j)
        obtain ⟨y, hy⟩ := Option.ne_none_iff_exists'.mp (hinf (j + 1))
        have hc : cmp (proj x) (proj y) = true := by
          cases hc : cmp (proj x) (proj y)
          · exact absurd ⟨j, x, y, hx, hy, hc⟩ hno
          · rfl
        have := ih (j + 1)
        simpa [isSortedUniqueLoop, seqIt, hx, hy, hc] using this
    exact this fuel 0
  · rintro ⟨i, x, y, hx, hy, hc⟩
    have : ∀ d k, k + d = i → isSortedUniqueLoop (seqIt src) cmp proj (d + 1) k k () ≠ none := by
      intro d
      induction d with
      | zero =>
        rintro k rfl
        simp only [Nat.add_zero] at hx hy
        simp [isSortedUniqueLoop, seqIt, hx, hy, hc]
      | succ d ih =>
        intro k hk
        obtain ⟨a, ha⟩ := Option.ne_none_iff_exists'.mp (hinf k)
        obtain ⟨b, hb⟩ := Option.ne_none_iff_exists'.mp (hinf (k + 1))
        cases hc' : cmp (proj a) (proj b)
        · simp [isSortedUniqueLoop, seqIt, ha, hb, hc']
        · have := ih (k + 1) (by omega)
          simpa [isSortedUniqueLoop, seqIt, ha, hb, hc'] using this
    exact ⟨i + 1, this i 0 (by omega)⟩

/-- **C89.** So `is_sorted_unique` always returns if there are only finitely many values, for every strict order. -/
theorem is_sorted_unique_finite [Finite α] {src : Src α} (hinf : Endless src) (cmp : α → α → Bool) (hirr : ∀ x, cmp x x = false)
    (htrans : ∀ x y z, cmp x y = true → cmp y z = true → cmp x z = true) :
    ∃ fuel, isSortedUnique (seqIt src) cmp (fun x => x) fuel 0 () ≠ none := by
  rw [is_sorted_unique_endless hinf]
  apply Classical.byContradiction
  intro hno
  have hstep : ∀ i x y, src i = some x → src (i + 1) = some y → cmp x y = true := by
    intro i x y hx hy
    cases hc : cmp x y
    · exact absurd ⟨i, x, y, hx, hy, hc⟩ hno
    · rfl
  have hlt : ∀ d i x y, src i = some x → src (i + 1 + d) = some y → cmp x y = true := by
    intro d
    induction d with
    | zero => intro i x y hx hy; exact hstep i x y hx hy
    | succ d ih =>
      intro i x y hx hy
      obtain ⟨z, hz⟩ := Option.ne_none_iff_exists'.mp (hinf (i + 1 + d))
      exact htrans x z y (ih i x z hx hz) (hstep _ z y hz hy)
  have h := not_injective_infinite_finite src
  simp only [Function.Injective, not_forall] at h
  obtain ⟨i, j, hij, hne⟩ := h
  obtain ⟨x, hx⟩ := Option.ne_none_iff_exists'.mp (hinf i)
  have : ∀ a b, a < b → src a = src b → src a = some x → False := by
    intro a b hab he hx
    have := hlt (b - a - 1) a x x hx (by rw [show a + 1 + (b - a - 1) = b by omega, ← he]; exact hx)
    rw [hirr] at this; cases this
  rcases Nat.lt_or_gt_of_ne hne with h | h
  · exact this i j h hij hx
  · exact this j i h hij.symm (hij ▸ hx)

example : ∃ fuel, isSortedUnique (seqIt fun i => some (decide (i % 3 = 0))) (fun a b => !a && b) (fun x => x) fuel 0 () ≠ none :=
  is_sorted_unique_finite (fun i => by simp) _ (by decide) (by decide)

open Verif.FlexArray (Cmp) in
/-- **C89.** `lexicographical_compare_three_way` of two sources without end returns exactly if they differ somewhere. -/
theorem lex_endless {src : Src α} {src' : Src β} (hinf : Endless src) (hinf' : Endless src') (cmp : α → β → Cmp) :
    (∃ fuel, lexCompare (seqIt src) (seqIt src') cmp fuel 0 () 0 () ≠ none) ↔
      ∃ i x y, src i = some x ∧ src' i = some y ∧ cmp x y ≠ .equal := by
  constructor
  · rintro ⟨fuel, h⟩
    apply Classical.byContradiction
    intro hno
    apply h
    have : ∀ fuel j, lexCompare (seqIt src) (seqIt src') cmp fuel j () j () = none := by
      intro fuel
      induction fuel with
      | zero => intro j; rfl
      | succ n ih =>
        intro j
        obtain ⟨x, hx⟩ := Option.ne_none_iff_exists'.mp (hinf j)
        obtain ⟨y, hy⟩ := Option.ne_none_iff_exists'.mp (hinf' j)
        have hc : cmp x y = .equal := Classical.byContradiction fun hc => hno ⟨j, x, y, hx, hy, hc⟩
        have := ih (j + 1)
        simpa [lexCompare, seqIt, hx, hy, hc] using this
    exact this fuel 0
  · rintro ⟨i, x, y, hx, hy, hc⟩
    have : ∀ d k, k + d = i → lexCompare (seqIt src) (seqIt src') cmp (d + 1) k () k () ≠ none := by
      intro d
      induction d with
      | zero =>
        rintro k rfl
        simp only [Nat.add_zero] at hx hy
        cases hc' : cmp x y <;> simp_all [lexCompare, seqIt]
      | succ d ih =>
        intro k hk
        obtain ⟨a, ha⟩ := Option.ne_none_iff_exists'.mp (hinf k)
        obtain ⟨b, hb⟩ := Option.ne_none_iff_exists'.mp (hinf' k)
        have := ih (k + 1) (by omega)
        cases hc' : cmp a b <;> simpa [lexCompare, seqIt, ha, hb, hc'] using this
    exact ⟨i + 1, this i 0 (by omega)⟩

example : ∃ fuel, lexCompare (seqIt fun i => some i) (seqIt fun i => some (i - i / 5)) (fun a b : Nat => if a = b then .equal else .less) fuel 0 () 0 () ≠ none :=
  (lex_endless (fun i => by simp) (fun i => by simp) _).mpr ⟨5, 5, 4, rfl, rfl, by decide⟩

end Verif.RangesAlgo
