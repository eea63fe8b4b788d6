import Verif.OptMinMax.Effects

/-!
C105: what `opt_min`, `opt_max` and `opt_minmax` call, and which types they have.
-/
namespace Verif.OptMinMax

variable {α β : Type}

/-! ## Specification -/

/-- The values that are present (for opt_minmax.hpp:70, 90, 110). -/
def present (l : List (Option α)) : List α := l.filterMap id

/-- The elements read, in order (for opt_minmax.hpp:70, 90, 110). -/
def reads (log : List (Call α)) : List α := log.filterMap fun | .read x => some x | _ => none

/-- The comparisons, in order, with their arguments (for opt_minmax.hpp:72, 92, 112, 115). -/
def comparisons (log : List (Call α)) : List (α × α) := log.filterMap fun | .cmp a b => some (a, b) | _ => none

/-- The copies into the result, in order (for opt_minmax.hpp:73, 76, 93, 96, 113, 116, 119). -/
def puts (log : List (Call α)) : List α := log.filterMap fun | .put x => some x | _ => none

/-- The comparator is a function (a requirement of a strict weak order on `cmp` in opt_minmax.hpp:65, 85, 105). -/
def Pure (cmp : Cmp α) (c : α → α → Bool) : Prop := ∀ log a b, cmp log a b = c a b

/-- What a run with faults does, given what a run without faults does: it does the same up to the first call that throws, and
then nothing more (for opt_minmax.hpp:64-125, 140-150, 174-184). -/
def Stops (f : Run α → Option β × Run α) : Prop :=
  ∀ log, ∃ x ext, f ⟨log, []⟩ = (some x, ⟨log ++ ext, []⟩) ∧ ∀ fs : List Bool,
    (∃ k, k < ext.length ∧ fs[k]? = some true ∧ (∀ j, j < k → fs[j]? ≠ some true) ∧
      f ⟨log, fs⟩ = (none, ⟨log ++ ext.take (k + 1), fs.drop (k + 1)⟩)) ∨
    ((∀ j, j < ext.length → fs[j]? ≠ some true) ∧ f ⟨log, fs⟩ = (some x, ⟨log ++ ext, fs.drop ext.length⟩))

/-! ## Lemmas -/

theorem stops_pure (x : β) : Stops (fun r : Run α => (some x, r)) :=
  fun log => ⟨x, [], by simp, fun fs => .inr ⟨fun j hj => absurd hj (Nat.not_lt_zero j), by simp⟩⟩

theorem stops_call {c : Call α} {k : Run α → Option β × Run α} (h : Stops k) : Stops (call c k) := by
  intro log
  obtain ⟨x, ext, h1, h2⟩ := h (log ++ [c])
  refine ⟨x, c :: ext, by simp [call, h1], fun fs => ?_⟩
  cases fs with
  | nil =>
    refine .inr ⟨fun j _ => by simp, ?_⟩
    simp [call, h1]
  | cons b fs =>
    cases b with
    | true =>
      exact .inl ⟨0, by simp, rfl, fun j hj => absurd hj (Nat.not_lt_zero j), by simp [call]⟩
    | false =>
      have e : call c k ⟨log, false :: fs⟩ = k ⟨log ++ [c], fs⟩ := rfl
      rcases h2 fs with ⟨n, g1, g2, g3, g4⟩ | ⟨g1, g2⟩
      · refine .inl ⟨n + 1, by simp; omega, g2, fun j hj => ?_, by rw [e, g4]; simp⟩
        cases j with
        | zero => simp
        | succ j => exact g3 j (by omega)
      · refine .inr ⟨fun j hj => ?_, by rw [e, g2]; simp⟩
        cases j with
        | zero => simp
        | succ j => exact g1 j (by simpa using hj)

theorem stops_invoke {cmp : Cmp α} {a b : α} {k : Bool → Run α → Option β × Run α} (h : ∀ x, Stops (k x)) : Stops (invoke cmp a b k) := by
  intro log
  have e : ∀ fs : List Bool, invoke cmp a b k ⟨log, fs⟩ = call (.cmp a b) (k (cmp log a b)) ⟨log, fs⟩ := fun fs => rfl
  simp only [e]
  exact stops_call (h _) log

theorem stops_ite {p : Bool} {f g : Run α → Option β × Run α} (hf : Stops f) (hg : Stops g) : Stops (if p then f else g) := by
  cases p
  · exact hg
  · exact hf

theorem stops_min (cmp : Cmp α) : ∀ (l : List (Option α)) (ret : Option α), Stops (minRun cmp ret l)
  | [], ret => by cases ret <;> exact stops_pure _
  | none :: l, ret => by cases ret <;> exact stops_min cmp l _
  | some v :: l, none => stops_call (stops_call (stops_min cmp l _))
  | some v :: l, some m => stops_call (stops_invoke fun less => stops_ite (stops_call (stops_min cmp l _)) (stops_min cmp l _))

theorem stops_max (cmp : Cmp α) : ∀ (l : List (Option α)) (ret : Option α), Stops (maxRun cmp ret l)
  | [], ret => by cases ret <;> exact stops_pure _
  | none :: l, ret => by cases ret <;> exact stops_max cmp l _
  | some v :: l, none => stops_call (stops_call (stops_max cmp l _))
  | some v :: l, some m => stops_call (stops_invoke fun less => stops_ite (stops_call (stops_max cmp l _)) (stops_max cmp l _))

theorem stops_minmax (cmp : Cmp α) : ∀ (l : List (Option α)) (ret : Option (α × α)), Stops (minmaxRun cmp ret l)
  | [], ret => by cases ret <;> exact stops_pure _
  | none :: l, ret => by cases ret <;> exact stops_minmax cmp l _
  | some v :: l, none => stops_call (stops_call (stops_call (stops_minmax cmp l _)))
  | some v :: l, some (lo, hi) =>
    have up : ∀ lo', Stops (invoke cmp hi v fun less => if less then call (.put v) (minmaxRun cmp (some (lo', v)) l) else minmaxRun cmp (some (lo', hi)) l) :=
      fun lo' => stops_invoke fun less => stops_ite (stops_call (stops_minmax cmp l _)) (stops_minmax cmp l _)
    stops_call (stops_invoke fun less => stops_ite (stops_call (up v)) (up lo))

theorem stops_optMin (cmp : Cmp α) (a b : Option α) : Stops (optMinRun cmp a b) := by
  rcases a with _ | a <;> rcases b with _ | b
  · exact stops_pure _
  · exact stops_call (stops_pure _)
  · exact stops_call (stops_pure _)
  · show Stops (invoke cmp b a fun less => call (.put (if less then b else a)) fun r => (some (some (if less then b else a)), r))
    exact stops_invoke fun less => stops_call (stops_pure _)

theorem stops_optMax (cmp : Cmp α) (a b : Option α) : Stops (optMaxRun cmp a b) := by
  rcases a with _ | a <;> rcases b with _ | b
  · exact stops_pure _
  · exact stops_call (stops_pure _)
  · exact stops_call (stops_pure _)
  · show Stops (invoke cmp a b fun less => call (.put (if less then b else a)) fun r => (some (some (if less then b else a)), r))
    exact stops_invoke fun less => stops_call (stops_pure _)

/-- A run without faults of `opt_min_element`, once there is a result so far. -/
theorem min_from (cmp : Cmp α) : ∀ (l : List (Option α)) (m : α) (log : List (Call α)), ∃ x ext,
    minRun cmp (some m) l ⟨log, []⟩ = (some (some x), ⟨log ++ ext, []⟩) ∧ reads ext = present l ∧ (comparisons ext).map (·.1) = present l ∧
    (puts ext).getLastD m = x ∧ x ∈ m :: present l ∧
    (∀ (k : Nat) (a b : α), (comparisons ext)[k]? = some (a, b) → b ∈ m :: (present l).take k) ∧
    ∀ c, Pure cmp c → minLoop c (some m) l = some x ∧
      ∀ (k : Nat) (a b : α), (comparisons ext)[k]? = some (a, b) → minLoop c (some m) (((present l).take k).map some) = some b
  | [], m, log => ⟨m, [], by simp [minRun], rfl, rfl, rfl, by simp [present], fun k a b h => by simp [comparisons] at h,
      fun c _ => ⟨rfl, fun k a b h => by simp [comparisons] at h⟩⟩
  | none :: l, m, log => by
    obtain ⟨x, ext, h1, h2⟩ := min_from cmp l m log
    exact ⟨x, ext, h1, h2⟩
  | some v :: l, m, log => by
    cases hb : cmp (log ++ [.read v]) v m with
    | false =>
      obtain ⟨x, ext, h1, h2, h3, h4, h5, h6, h7⟩ := min_from cmp l m (log ++ [.read v] ++ [.cmp v m])
      refine ⟨x, .read v :: .cmp v m :: ext, ?_, ?_, ?_, ?_, ?_, ?_, ?_⟩
      · simp [minRun, call, invoke, hb] at h1 ⊢
        rw [h1]
      · simp only [reads, List.filterMap_cons, present, id] at h2 ⊢; rw [h2]
      · simp only [comparisons, List.filterMap_cons, List.map_cons, present, id] at h3 ⊢; rw [h3]
      · exact h4
      · simp only [present, List.filterMap_cons, id, List.mem_cons] at h5 ⊢
        exact h5.imp_right .inr
      · intro k a b hk
        cases k with
        | zero => simp [comparisons] at hk; simp [hk]
        | succ k =>
          have := h6 k a b (by simpa [comparisons] using hk)
          simp only [present, List.filterMap_cons, id, List.take_succ_cons, List.mem_cons] at this ⊢
          exact this.imp_right .inr
      · intro c hc
        have hcv : c v m = false := by rw [← hc, hb]
        obtain ⟨g1, g2⟩ := h7 c hc
        refine ⟨by simp [minLoop, hcv, g1], fun k a b hk => ?_⟩
        cases k with
        | zero => simp [comparisons] at hk; simp [minLoop, hk]
        | succ k =>
          have := g2 k a b (by simpa [comparisons] using hk)
          simp only [present, List.filterMap_cons, id, List.take_succ_cons, List.map_cons, minLoop, hcv] at this ⊢
          exact this
    | true =>
      obtain ⟨x, ext, h1, h2, h3, h4, h5, h6, h7⟩ := min_from cmp l v (log ++ [.read v] ++ [.cmp v m] ++ [.put v])
      refine ⟨x, .read v :: .cmp v m :: .put v :: ext, ?_, ?_, ?_, ?_, ?_, ?_, ?_⟩
      · simp [minRun, call, invoke, hb] at h1 ⊢
        rw [h1]
      · simp only [reads, List.filterMap_cons, present, id] at h2 ⊢; rw [h2]
      · simp only [comparisons, List.filterMap_cons, List.map_cons, present, id] at h3 ⊢; rw [h3]
      · show (v :: puts ext).getLastD m = x
        rw [List.getLastD_cons]; exact h4
      · simp only [present, List.filterMap_cons, id, List.mem_cons] at h5 ⊢
        exact .inr h5
      · intro k a b hk
        cases k with
        | zero => simp [comparisons] at hk; simp [hk]
        | succ k =>
          have := h6 k a b (by simpa [comparisons] using hk)
          simp only [present, List.filterMap_cons, id, List.take_succ_cons, List.mem_cons] at this ⊢
          exact .inr this
      · intro c hc
        have hcv : c v m = true := by rw [← hc, hb]
        obtain ⟨g1, g2⟩ := h7 c hc
        refine ⟨by simp [minLoop, hcv, g1], fun k a b hk => ?_⟩
        cases k with
        | zero => simp [comparisons] at hk; simp [minLoop, hk]
        | succ k =>
          have := g2 k a b (by simpa [comparisons] using hk)
          simp only [present, List.filterMap_cons, id, List.take_succ_cons, List.map_cons, minLoop, hcv] at this ⊢
          exact this


/-- Exchanges the arguments of the comparisons (opt_minmax.hpp:72 and 92). -/
def mirror : Call α → Call α
  | .cmp a b => .cmp b a
  | c => c

theorem mirror_mirror (l : List (Call α)) : (l.map mirror).map mirror = l := by
  rw [List.map_map]
  conv => rhs; rw [← List.map_id l]
  exact List.map_congr_left fun c _ => by cases c <;> rfl

theorem mirror_comp : (mirror ∘ mirror : Call α → Call α) = id := by funext c; cases c <;> rfl

theorem reads_mirror (l : List (Call α)) : reads (l.map mirror) = reads l := by
  unfold reads; rw [List.filterMap_map]
  congr 1; funext c; cases c <;> rfl

theorem puts_mirror (l : List (Call α)) : puts (l.map mirror) = puts l := by
  unfold puts; rw [List.filterMap_map]
  congr 1; funext c; cases c <;> rfl

theorem comparisons_mirror (l : List (Call α)) : comparisons (l.map mirror) = (comparisons l).map fun p => (p.2, p.1) := by
  unfold comparisons; rw [List.filterMap_map, List.map_filterMap]
  congr 1; funext c; cases c <;> rfl

/-- `opt_max_element` is `opt_min_element` with the arguments of the comparator exchanged. -/
theorem max_mirror (cmp : Cmp α) : ∀ (l : List (Option α)) (ret : Option α) (log : List (Call α)),
    maxRun cmp ret l ⟨log, []⟩ = ((minRun (fun lg a b => cmp (lg.map mirror) b a) ret l ⟨log.map mirror, []⟩).1,
      ⟨(minRun (fun lg a b => cmp (lg.map mirror) b a) ret l ⟨log.map mirror, []⟩).2.log.map mirror,
        (minRun (fun lg a b => cmp (lg.map mirror) b a) ret l ⟨log.map mirror, []⟩).2.faults⟩)
  | [], ret, log => by cases ret <;> simp [maxRun, minRun, mirror_comp]
  | none :: l, ret, log => by cases ret <;> exact max_mirror cmp l _ log
  | some v :: l, none, log => by
    have h := max_mirror cmp l (some v) (log ++ [.read v] ++ [.put v])
    simpa [maxRun, minRun, call, mirror] using h
  | some v :: l, some m, log => by
    have h1 := max_mirror cmp l (some v) (log ++ [.read v] ++ [.cmp m v] ++ [.put v])
    have h2 := max_mirror cmp l (some m) (log ++ [.read v] ++ [.cmp m v])
    cases hb : cmp (log ++ [.read v]) m v
    · simpa [maxRun, minRun, call, invoke, mirror, mirror_comp, hb] using h2
    · simpa [maxRun, minRun, call, invoke, mirror, mirror_comp, hb] using h1

/-! ## C105 -/

/-- **C105.** `opt_min_element`, whatever the comparator answers: each element with a value is read once, in order; each but the first
is compared once, as the first argument, to an earlier one; the result is one of the values, the last that was copied into
it, and empty exactly if there is none. -/
theorem min_calls (cmp : Cmp α) (l : List (Option α)) : ∃ ret log, minRun cmp none l ⟨[], []⟩ = (some ret, ⟨log, []⟩) ∧
    reads log = present l ∧ (comparisons log).map (·.1) = (present l).drop 1 ∧
    (∀ (k : Nat) (a b : α), (comparisons log)[k]? = some (a, b) → b ∈ (present l).take (k + 1)) ∧
    (puts log).getLast? = ret ∧ (ret = none ↔ present l = []) ∧ ∀ x, ret = some x → x ∈ present l := by
  induction l with
  | nil => exact ⟨none, [], rfl, rfl, rfl, by simp [comparisons], rfl, by simp [present], by simp⟩
  | cons o l ih =>
    cases o with
    | none => exact ih
    | some v =>
      obtain ⟨x, ext, h1, h2, h3, h4, h5, h6, -⟩ := min_from cmp l v [.read v, .put v]
      refine ⟨some x, .read v :: .put v :: ext, ?_, ?_, ?_, ?_, ?_, ?_, ?_⟩
      · exact h1
      · simp only [reads, List.filterMap_cons, present, id] at h2 ⊢; rw [h2]
      · simpa [comparisons, present] using h3
      · intro k a b hk
        simpa [present] using h6 k a b (by simpa [comparisons] using hk)
      · show (v :: puts ext).getLast? = some x
        rw [List.getLast?_cons, ← h4, List.getLastD_eq_getLast?]
      · simp [present]
      · intro y hy
        obtain rfl := Option.some.inj hy
        simpa [present] using h5

example : minRun (fun _ a b => decide (a < b)) none [some 5, none, some 3, some 4] ⟨[], []⟩ =
    (some (some 3), ⟨[.read 5, .put 5, .read 3, .cmp 3 5, .put 3, .read 4, .cmp 4 3], []⟩) := by decide

/-- **C105.** If the comparator is a function, the result is that of C33, and each value is compared to the result for the
values before it. -/
theorem min_compared {cmp : Cmp α} {c : α → α → Bool} (hc : Pure cmp c) (l : List (Option α)) :
    ∃ log, minRun cmp none l ⟨[], []⟩ = (some (optMinElement c l), ⟨log, []⟩) ∧
      ∀ (k : Nat) (a b : α), (comparisons log)[k]? = some (a, b) → (present l)[k + 1]? = some a ∧ optMinElement c (((present l).take (k + 1)).map some) = some b := by
  induction l with
  | nil => exact ⟨[], rfl, by simp [comparisons]⟩
  | cons o l ih =>
    cases o with
    | none => exact ih
    | some v =>
      obtain ⟨x, ext, h1, -, h3, -, -, -, h7⟩ := min_from cmp l v [.read v, .put v]
      obtain ⟨g1, g2⟩ := h7 c hc
      refine ⟨.read v :: .put v :: ext, ?_, fun k a b hk => ⟨?_, ?_⟩⟩
      · show minRun cmp (some v) l ⟨[.read v, .put v], []⟩ = _
        rw [h1]; unfold optMinElement; rw [minLoop, g1]; rfl
      · have hk' : (comparisons ext)[k]? = some (a, b) := by simpa [comparisons] using hk
        have := congrArg (·[k]?) h3
        simp only [List.getElem?_map, hk'] at this
        simpa [present] using this.symm
      · have := g2 k a b (by simpa [comparisons] using hk)
        simpa [optMinElement, minLoop, present] using this

example : Pure (fun _ a b => decide (a < b)) (fun a b : Nat => decide (a < b)) := fun _ _ _ => rfl

/-- **C105.** `opt_max_element` does the same with the arguments of the comparator exchanged: each value is the second argument. -/
theorem max_calls (cmp : Cmp α) (l : List (Option α)) : ∃ ret log, maxRun cmp none l ⟨[], []⟩ = (some ret, ⟨log, []⟩) ∧
    reads log = present l ∧ (comparisons log).map (·.2) = (present l).drop 1 ∧
    (∀ (k : Nat) (a b : α), (comparisons log)[k]? = some (a, b) → a ∈ (present l).take (k + 1)) ∧
    (puts log).getLast? = ret ∧ (ret = none ↔ present l = []) ∧ ∀ x, ret = some x → x ∈ present l := by
  obtain ⟨ret, log, h1, h2, h3, h4, h5, h6, h7⟩ := min_calls (fun lg a b => cmp (lg.map mirror) b a) l
  refine ⟨ret, log.map mirror, ?_, by rw [reads_mirror, h2], ?_, ?_, by rw [puts_mirror, h5], h6, h7⟩
  · rw [max_mirror]; simp only [List.map_nil, h1]
  · rw [comparisons_mirror, List.map_map]; exact h3
  · intro k a b hk
    rw [comparisons_mirror, List.getElem?_map] at hk
    cases hq : (comparisons log)[k]? with
    | none => rw [hq] at hk; cases hk
    | some q =>
      rw [hq] at hk
      obtain ⟨rfl, rfl⟩ := Prod.mk.inj (Option.some.inj hk)
      exact h4 k q.1 q.2 hq

example : maxRun (fun _ a b => decide (a < b)) none [some 5, none, some 3, some 6] ⟨[], []⟩ =
    (some (some 6), ⟨[.read 5, .put 5, .read 3, .cmp 5 3, .read 6, .cmp 5 6, .put 6], []⟩) := by decide

/-- **C105.** With a comparator that is a function, the result of `opt_max_element` is that of C33. -/
theorem max_compared {cmp : Cmp α} {c : α → α → Bool} (hc : Pure cmp c) (l : List (Option α)) :
    ∃ log, maxRun cmp none l ⟨[], []⟩ = (some (optMaxElement c l), ⟨log, []⟩) ∧
      ∀ (k : Nat) (a b : α), (comparisons log)[k]? = some (a, b) → (present l)[k + 1]? = some b ∧ optMaxElement c (((present l).take (k + 1)).map some) = some a := by
  obtain ⟨log, h1, h2⟩ := min_compared (cmp := fun lg a b => cmp (lg.map mirror) b a) (c := fun a b => c b a) (fun lg a b => hc _ b a) l
  refine ⟨log.map mirror, ?_, ?_⟩
  · rw [max_mirror]; simp only [List.map_nil, h1]
    unfold optMaxElement; rw [maxLoop_eq]; rfl
  · intro k a b hk
    rw [comparisons_mirror, List.getElem?_map] at hk
    cases hq : (comparisons log)[k]? with
    | none => rw [hq] at hk; cases hk
    | some q =>
      rw [hq] at hk
      obtain ⟨rfl, rfl⟩ := Prod.mk.inj (Option.some.inj hk)
      obtain ⟨g1, g2⟩ := h2 k q.1 q.2 hq
      refine ⟨g1, ?_⟩
      unfold optMaxElement; rw [maxLoop_eq]; exact g2

/-- A run without faults of `opt_minmax_element`, once there is a result so far. -/
theorem minmax_from (cmp : Cmp α) : ∀ (l : List (Option α)) (lo hi : α) (log : List (Call α)), ∃ x y ext,
    minmaxRun cmp (some (lo, hi)) l ⟨log, []⟩ = (some (some (x, y)), ⟨log ++ ext, []⟩) ∧ reads ext = present l ∧
    (∃ los his, los.length = (present l).length ∧ his.length = (present l).length ∧
      comparisons ext = (List.zip (present l) (List.zip los his)).flatMap (fun p => [(p.1, p.2.1), (p.2.2, p.1)]) ∧
      (∀ (k : Nat) (b : α), los[k]? = some b → b ∈ lo :: (present l).take k) ∧ (∀ (k : Nat) (b : α), his[k]? = some b → b ∈ hi :: (present l).take k) ∧
      ∀ c, Pure cmp c → (∀ (k : Nat) (b : α), los[k]? = some b → minLoop c (some lo) (((present l).take k).map some) = some b) ∧
        ∀ (k : Nat) (b : α), his[k]? = some b → maxLoop c (some hi) (((present l).take k).map some) = some b) ∧
    x ∈ lo :: present l ∧ y ∈ hi :: present l ∧
    ∀ c, Pure cmp c → minmaxLoop c (some (lo, hi)) l = some (x, y)
  | [], lo, hi, log => ⟨lo, hi, [], by simp [minmaxRun], rfl, ⟨[], [], rfl, rfl, rfl, by simp, by simp, by simp⟩, by simp, by simp, fun c _ => rfl⟩
  | none :: l, lo, hi, log => by
    obtain ⟨x, y, ext, h⟩ := minmax_from cmp l lo hi log
    exact ⟨x, y, ext, h⟩
  | some v :: l, lo, hi, log => by
    have key : ∀ (lo' hi' : α) (mid : List (Call α)), (lo' = lo ∨ lo' = v) → (hi' = hi ∨ hi' = v) → reads mid = [v] → comparisons mid = [(v, lo), (hi, v)] →
        (minmaxRun cmp (some (lo, hi)) (some v :: l) ⟨log, []⟩ = minmaxRun cmp (some (lo', hi')) l ⟨log ++ mid, []⟩) →
        (∀ c, Pure cmp c → lo' = (if c v lo then v else lo) ∧ hi' = (if c hi v then v else hi)) →
        ∃ x y ext, minmaxRun cmp (some (lo, hi)) (some v :: l) ⟨log, []⟩ = (some (some (x, y)), ⟨log ++ ext, []⟩) ∧ reads ext = present (some v :: l) ∧
          (∃ los his, los.length = (present (some v :: l)).length ∧ his.length = (present (some v :: l)).length ∧
            comparisons ext = (List.zip (present (some v :: l)) (List.zip los his)).flatMap (fun p => [(p.1, p.2.1), (p.2.2, p.1)]) ∧
            (∀ (k : Nat) (b : α), los[k]? = some b → b ∈ lo :: (present (some v :: l)).take k) ∧ (∀ (k : Nat) (b : α), his[k]? = some b → b ∈ hi :: (present (some v :: l)).take k) ∧
            ∀ c, Pure cmp c → (∀ (k : Nat) (b : α), los[k]? = some b → minLoop c (some lo) (((present (some v :: l)).take k).map some) = some b) ∧
              ∀ (k : Nat) (b : α), his[k]? = some b → maxLoop c (some hi) (((present (some v :: l)).take k).map some) = some b) ∧
          x ∈ lo :: present (some v :: l) ∧ y ∈ hi :: present (some v :: l) ∧
          ∀ c, Pure cmp c → minmaxLoop c (some (lo, hi)) (some v :: l) = some (x, y) := by
      intro lo' hi' mid e1 e2 e3 e4 e5 e6
      obtain ⟨x, y, ext, h1, h2, ⟨los, his, h3, h4, h5, l1, l2, l3⟩, h6, h7, h8⟩ := minmax_from cmp l lo' hi' (log ++ mid)
      have ep : present (some v :: l) = v :: present l := rfl
      refine ⟨x, y, mid ++ ext, by rw [e5, h1, List.append_assoc], ?_, ⟨lo :: los, hi :: his, by rw [ep]; simp [h3], by rw [ep]; simp [h4], ?_, ?_, ?_, ?_⟩, ?_, ?_, ?_⟩
      · rw [ep, ← h2]
        have : reads (mid ++ ext) = reads mid ++ reads ext := by simp [reads]
        rw [this, e3]; rfl
      · have : comparisons (mid ++ ext) = comparisons mid ++ comparisons ext := by simp [comparisons]
        rw [this, e4, h5, ep]; simp
      · intro k b hk
        cases k with
        | zero => simp at hk; simp [hk]
        | succ k =>
          have := l1 k b (by simpa using hk)
          rw [ep, List.take_succ_cons]
          rcases List.mem_cons.1 this with h | h
          · subst h; rcases e1 with h | h <;> simp [h]
          · simp [h]
      · intro k b hk
        cases k with
        | zero => simp at hk; simp [hk]
        | succ k =>
          have := l2 k b (by simpa using hk)
          rw [ep, List.take_succ_cons]
          rcases List.mem_cons.1 this with h | h
          · subst h; rcases e2 with h | h <;> simp [h]
          · simp [h]
      · intro c hc
        obtain ⟨g1, g2⟩ := e6 c hc
        constructor
        · intro k b hk
          cases k with
          | zero => simp at hk; simp [minLoop, hk]
          | succ k =>
            have := (l3 c hc).1 k b (by simpa using hk)
            rw [ep, List.take_succ_cons, List.map_cons, minLoop, ← this, g1]
            split <;> rfl
        · intro k b hk
          cases k with
          | zero => simp at hk; simp [maxLoop, hk]
          | succ k =>
            have := (l3 c hc).2 k b (by simpa using hk)
            rw [ep, List.take_succ_cons, List.map_cons, maxLoop, ← this, g2]
            split <;> rfl
      · rw [ep]
        rcases List.mem_cons.1 h6 with h | h
        · subst h; rcases e1 with h | h <;> simp [h]
        · simp [h]
      · rw [ep]
        rcases List.mem_cons.1 h7 with h | h
        · subst h; rcases e2 with h | h <;> simp [h]
        · simp [h]
      · intro c hc
        obtain ⟨g1, g2⟩ := e6 c hc
        simp only [minmaxLoop]
        rw [← g1, ← g2]; exact h8 c hc
    cases hb : cmp (log ++ [.read v]) v lo with
    | false =>
      cases hd : cmp (log ++ [.read v, .cmp v lo]) hi v with
      | false =>
        refine key lo hi [.read v, .cmp v lo, .cmp hi v] (.inl rfl) (.inl rfl) rfl rfl ?_ fun c hc => ?_
        · simp [minmaxRun, call, invoke, hb, hd]
        · rw [← hc (log ++ [.read v]) v lo, ← hc (log ++ [.read v, .cmp v lo]) hi v, hb, hd]; simp
      | true =>
        refine key lo v [.read v, .cmp v lo, .cmp hi v, .put v] (.inl rfl) (.inr rfl) rfl rfl ?_ fun c hc => ?_
        · simp [minmaxRun, call, invoke, hb, hd]
        · rw [← hc (log ++ [.read v]) v lo, ← hc (log ++ [.read v, .cmp v lo]) hi v, hb, hd]; simp
    | true =>
      cases hd : cmp (log ++ [.read v, .cmp v lo, .put v]) hi v with
      | false =>
        refine key v hi [.read v, .cmp v lo, .put v, .cmp hi v] (.inr rfl) (.inl rfl) rfl rfl ?_ fun c hc => ?_
        · simp [minmaxRun, call, invoke, hb, hd]
        · rw [← hc (log ++ [.read v]) v lo, ← hc (log ++ [.read v, .cmp v lo, .put v]) hi v, hb, hd]; simp
      | true =>
        refine key v v [.read v, .cmp v lo, .put v, .cmp hi v, .put v] (.inr rfl) (.inr rfl) rfl rfl ?_ fun c hc => ?_
        · simp [minmaxRun, call, invoke, hb, hd]
        · rw [← hc (log ++ [.read v]) v lo, ← hc (log ++ [.read v, .cmp v lo, .put v]) hi v, hb, hd]; simp

/-- **C105.** `opt_minmax_element`, whatever the comparator answers: each element with a value is read once, in order; for each but the
first the comparator is called twice, first with it and the minimum so far, then with the maximum so far and it; both results
are values of the range. With a comparator that is a function the result is that of C33. -/
theorem minmax_calls (cmp : Cmp α) (l : List (Option α)) : ∃ ret log, minmaxRun cmp none l ⟨[], []⟩ = (some ret, ⟨log, []⟩) ∧
    reads log = present l ∧
    (∃ los his, los.length = (present l).length - 1 ∧ his.length = (present l).length - 1 ∧
      comparisons log = (List.zip ((present l).drop 1) (List.zip los his)).flatMap (fun p => [(p.1, p.2.1), (p.2.2, p.1)]) ∧
      (∀ (k : Nat) (b : α), los[k]? = some b ∨ his[k]? = some b → b ∈ (present l).take (k + 1)) ∧
      ∀ c, Pure cmp c → (∀ (k : Nat) (b : α), los[k]? = some b → optMinElement c (((present l).take (k + 1)).map some) = some b) ∧
        ∀ (k : Nat) (b : α), his[k]? = some b → optMaxElement c (((present l).take (k + 1)).map some) = some b) ∧
    (ret = none ↔ present l = []) ∧ (∀ x y, ret = some (x, y) → x ∈ present l ∧ y ∈ present l) ∧
    ∀ c, Pure cmp c → optMinmaxElement c l = ret := by
  induction l with
  | nil => exact ⟨none, [], rfl, rfl, ⟨[], [], rfl, rfl, rfl, by simp, by simp⟩, by simp [present], by simp, fun c _ => rfl⟩
  | cons o l ih =>
    cases o with
    | none => exact ih
    | some v =>
      obtain ⟨x, y, ext, h1, h2, ⟨los, his, h3, h4, h5, l1, l2, l3⟩, h6, h7, h8⟩ := minmax_from cmp l v v [.read v, .put v, .put v]
      refine ⟨some (x, y), .read v :: .put v :: .put v :: ext, h1, ?_, ⟨los, his, ?_, ?_, ?_, ?_, ?_⟩, by simp [present], ?_, fun c hc => h8 c hc⟩
      · simp only [reads, List.filterMap_cons, present, id] at h2 ⊢; rw [h2]
      · simpa [present] using h3
      · simpa [present] using h4
      · simpa [comparisons, present] using h5
      · rintro k b (hk | hk)
        · simpa [present] using l1 k b hk
        · simpa [present] using l2 k b hk
      · intro c hc
        exact ⟨fun k b hk => by simpa [present, optMinElement, minLoop] using (l3 c hc).1 k b hk,
          fun k b hk => by simpa [present, optMaxElement, maxLoop] using (l3 c hc).2 k b hk⟩
      · intro x' y' h
        obtain ⟨rfl, rfl⟩ := Prod.mk.inj (Option.some.inj h)
        exact ⟨by simpa [present] using h6, by simpa [present] using h7⟩

example : minmaxRun (fun _ a b => decide (a < b)) none [some 5, some 6] ⟨[], []⟩ =
    (some (some (5, 6)), ⟨[.read 5, .put 5, .put 5, .read 6, .cmp 6 5, .cmp 5 6, .put 6], []⟩) := by decide

/-- **C105.** An exception of a copy or of the comparator leaves all these functions at once: up to the call that throws everything is
as without exceptions, and after it no element is read, compared or copied. Without a throwing call nothing differs. -/
theorem exceptions (cmp : Cmp α) (l : List (Option α)) (a b : Option α) :
    Stops (minRun cmp none l) ∧ Stops (maxRun cmp none l) ∧ Stops (minmaxRun cmp none l) ∧ Stops (optMinRun cmp a b) ∧ Stops (optMaxRun cmp a b) :=
  ⟨stops_min cmp l none, stops_max cmp l none, stops_minmax cmp l none, stops_optMin cmp a b, stops_optMax cmp a b⟩

example : minRun (fun _ a b => decide (a < b)) none [some 5, none, some 3, some 4] ⟨[], [false, false, false, true]⟩ =
    (none, ⟨[.read 5, .put 5, .read 3, .cmp 3 5], []⟩) := by decide

/-- **C105.** The forms for two arguments make at most one comparison and one copy, and have the results of C33. -/
theorem two_calls {cmp : Cmp α} {c : α → α → Bool} (hc : Pure cmp c) (a b : Option α) :
    ∃ l1 l2, optMinRun cmp a b ⟨[], []⟩ = (some (optMin c a b), ⟨l1, []⟩) ∧ optMaxRun cmp a b ⟨[], []⟩ = (some (optMax c a b), ⟨l2, []⟩) ∧
      puts l1 = (optMin c a b).toList ∧ puts l2 = (optMax c a b).toList ∧ reads l1 = [] ∧ reads l2 = [] ∧
      comparisons l1 = (match a, b with | some a, some b => [(b, a)] | _, _ => []) ∧
      comparisons l2 = (match a, b with | some a, some b => [(a, b)] | _, _ => []) := by
  rcases a with _ | a <;> rcases b with _ | b
  · exact ⟨_, _, rfl, rfl, rfl, rfl, rfl, rfl, rfl, rfl⟩
  · exact ⟨_, _, rfl, rfl, rfl, rfl, rfl, rfl, rfl, rfl⟩
  · exact ⟨_, _, rfl, rfl, rfl, rfl, rfl, rfl, rfl, rfl⟩
  · refine ⟨[.cmp b a, .put (if c b a then b else a)], [.cmp a b, .put (if c a b then b else a)], ?_, ?_, rfl, rfl, rfl, rfl, rfl, rfl⟩
    · simp [optMinRun, invoke, call, optMin, stdMin, hc _ b a]
    · simp [optMaxRun, invoke, call, optMax, stdMax, hc _ a b]

/-! ### Types -/

/-- **C105.** The result type is an optional of what `deref` gives, and `opt_minmax_result` has members of that type: exactly one
level of optional is taken off, and none if there is none. -/
theorem result_types (t : Ty) : intoOptional t = .opt (minmaxOf t) ∧ (∀ v w, v.ofTy t = true → valueOf t v = some w → w.ofTy (minmaxOf t) = true) ∧
    (∀ u, t = .opt u → minmaxOf t = u) ∧ ((∀ u, t ≠ .opt u) → minmaxOf t = t) := by
  cases t with
  | plain n =>
    refine ⟨rfl, fun v w h hw => ?_, fun u h => ?_, fun _ => rfl⟩
    · cases v <;> simp_all [valueOf, minmaxOf]
    · cases h
  | opt u =>
    refine ⟨rfl, fun v w h hw => ?_, fun u' h => by cases h; rfl, fun h => absurd rfl (h u)⟩
    cases v <;> simp_all [valueOf, minmaxOf, Val.ofTy]

theorem minLoop_mem (c : α → α → Bool) : ∀ (l : List (Option α)) (ret : Option α) (x : α), minLoop c ret l = some x → ret = some x ∨ some x ∈ l
  | [], ret, x, h => by cases ret <;> exact .inl h
  | none :: l, ret, x, h => by
    have : minLoop c ret l = some x := by cases ret <;> exact h
    exact (minLoop_mem c l ret x this).imp_right (List.mem_cons_of_mem _)
  | some v :: l, none, x, h => by
    rcases minLoop_mem c l (some v) x h with h | h
    · exact .inr (h ▸ List.mem_cons_self)
    · exact .inr (List.mem_cons_of_mem _ h)
  | some v :: l, some m, x, h => by
    unfold minLoop at h
    rcases minLoop_mem c l _ x h with h | h
    · split at h
      · exact .inr (h ▸ List.mem_cons_self)
      · exact .inl h
    · exact .inr (List.mem_cons_of_mem _ h)

/-- **C105.** For elements of type `t` the result is a value of type `into_optional<t>`. It is empty exactly if all elements are empty
optionals (or there are none); otherwise its value is that of an element. -/
theorem only_outer_level (cmp : Val → Val → Bool) (t : Ty) (l : List Val) (hl : ∀ v ∈ l, v.ofTy t = true) :
    (optMinTyped cmp t l).ofTy (intoOptional t) = true ∧ (optMinTyped cmp t l = .empty ↔ ∀ v ∈ l, v = .empty) ∧
    ∀ w, optMinTyped cmp t l = .full w → ∃ v ∈ l, valueOf t v = some w := by
  have hv : ∀ v, v.ofTy t = true → (valueOf t v = none ↔ v = .empty) := by
    intro v h
    cases t <;> cases v <;> simp_all [valueOf, Val.ofTy]
  have h3 : ∀ w, optMinTyped cmp t l = .full w → ∃ v ∈ l, valueOf t v = some w := by
    intro w h
    have h' : minLoop cmp none (l.map (valueOf t)) = some w := by
      unfold optMinTyped optMinElement at h
      cases hm : minLoop cmp none (l.map (valueOf t)) <;> rw [hm] at h <;> simp_all [asOptional]
    rcases minLoop_mem cmp _ _ _ h' with h | h
    · cases h
    · obtain ⟨v, h1, h2⟩ := List.mem_map.1 h
      exact ⟨v, h1, h2⟩
  refine ⟨?_, ?_, h3⟩
  · rw [(result_types t).1]
    cases hr : optMinTyped cmp t l with
    | plain n => unfold optMinTyped at hr; cases ho : optMinElement cmp (l.map (valueOf t)) <;> rw [ho] at hr <;> cases hr
    | empty => rfl
    | full w =>
      obtain ⟨v, h1, h2⟩ := h3 w hr
      exact (result_types t).2.1 v w (hl v h1) h2
  · obtain ⟨ret, log, h1, -, -, -, -, h6, -⟩ := min_calls (fun _ => cmp) (l.map (valueOf t))
    obtain ⟨log', g1, -⟩ := min_compared (cmp := fun _ => cmp) (c := cmp) (fun _ _ _ => rfl) (l.map (valueOf t))
    rw [h1] at g1
    have hret : ret = optMinElement cmp (l.map (valueOf t)) := Option.some.inj (Prod.mk.inj g1).1
    have he : optMinTyped cmp t l = .empty ↔ ret = none := by
      rw [hret]; unfold optMinTyped
      cases optMinElement cmp (l.map (valueOf t)) <;> simp [asOptional]
    rw [he, h6]
    simp only [present, List.filterMap_eq_nil_iff, List.mem_map, id]
    constructor
    · exact fun h v hv' => (hv v (hl v hv')).1 (h _ ⟨v, hv', rfl⟩)
    · rintro h o ⟨v, hv', rfl⟩
      exact (hv v (hl v hv')).2 (h v hv')

example : ∀ v ∈ [Val.full .empty, .empty, .full .empty], v.ofTy (.opt (.opt (.plain 0))) = true := by decide

/-- **C105.** An inner optional that is empty is a value: if all elements are optionals of an empty optional, so is the result, which
is not empty. -/
theorem empty_inside (cmp : Val → Val → Bool) (u : Ty) (l : List Val) (hne : l ≠ []) (hl : ∀ v ∈ l, v = .full .empty) :
    optMinTyped cmp (.opt (.opt u)) l = .full .empty := by
  obtain ⟨h1, h2, h3⟩ := only_outer_level cmp (.opt (.opt u)) l fun v hv => by rw [hl v hv]; rfl
  cases hr : optMinTyped cmp (.opt (.opt u)) l with
  | plain n => rw [hr] at h1; cases h1
  | empty =>
    obtain ⟨v, hv⟩ := List.exists_mem_of_ne_nil l hne
    have := h2.1 hr v hv
    rw [hl v hv] at this; cases this
  | full w =>
    obtain ⟨v, hv, hw⟩ := h3 w hr
    rw [hl v hv] at hw
    obtain rfl := Option.some.inj hw
    rfl

example : optMinTyped (fun _ _ => false) (.opt (.opt (.plain 0))) [.full .empty, .full .empty] = .full .empty := by decide

end Verif.OptMinMax
