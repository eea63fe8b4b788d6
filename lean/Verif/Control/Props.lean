import Verif.Control.Model
import Verif.Integral.Props

/-! Properties C48, C49 and C50 of switch_cases.hpp, for.hpp and tuple_algorithm.hpp. -/
namespace Verif.Control

open Verif.Range (ITy Compat compat_add compat_sub has_promote Wf.one)
open Verif.Integral (seq)

variable {σ ι ρ κ : Type}

/-! ## C48: switch_cases, switch_bool -/

theorem promote_promote (I : ITy) : I.promote.promote = I.promote := by
  unfold ITy.promote
  by_cases h : I.bits < 32
  · rw [if_pos h]; decide
  · rw [if_neg h, if_neg h]

/-- The case that is executed. -/
theorem executeCase_eq (I : ITy) (i max min value : Int) (hmm : min < max) (h1 : i ≤ value) (h2 : value < max) :
    executeCase I i max min value = ⟨if value = i then I else I.promote, value⟩ := by
  rw [executeCase, if_neg (by omega)]
  by_cases h : i < max - 1
  · rw [dif_pos h]
    by_cases hv : value = i
    · rw [if_neg (by simpa using hv), if_pos hv, hv]
    · rw [if_pos hv, if_neg hv, executeCase_eq I.promote (i + 1) max min value hmm (by omega) h2, promote_promote]
      simp
  · rw [dif_neg h, if_pos (by omega)]
    congr 1; omega
termination_by (max - i).toNat

/-- What is called: the function exactly for conditions within the range, with a constant equal to the condition. -/
theorem switchTarget_eq (I : ITy) (first last condition : Int) : switchTarget I first last condition =
    if min first last ≤ condition ∧ condition < max first last then
      some ⟨if condition = min first last then I else I.promote, condition⟩
    else none := by
  unfold switchTarget
  simp only
  by_cases h : min first last ≤ condition ∧ condition < max first last
  · rw [if_pos (by omega), if_pos h, if_pos h, executeCase_eq _ _ _ _ _ (by omega) h.1 h.2]
  · rw [if_neg h]
    split <;> rfl

/-- **C48.** With `[min, max)` the range spanned by `first` and `last` (in any order): `switch_cases` calls the function once, with a
constant equal to the condition, if the condition is in the range, otherwise it calls the default function once; it returns what the call
returns and throws what the call throws. -/
theorem switch_cases_spec (I : ITy) (first last condition : Int) (f : Fn σ Const ρ) (d : σ → σ × Option ρ) (s : σ) :
    ((min first last ≤ condition ∧ condition < max first last) → ∃ J, (J = I ∨ J = I.promote) ∧
      switchCases I first last condition f d s = .ofCall (f s ⟨J, condition⟩)) ∧
    (¬(min first last ≤ condition ∧ condition < max first last) → switchCases I first last condition f d s = .ofCall (d s)) := by
  unfold switchCases
  rw [switchTarget_eq]
  constructor
  · intro h
    rw [if_pos h]
    refine ⟨_, ?_, rfl⟩
    split <;> simp
  · intro h
    rw [if_neg h]

/-- A value inside of `[2, 5)` and one outside. -/
example (f : Fn (List Int) Const Unit) (d : List Int → List Int × Option Unit) :
    (∃ J : ITy, (J = ⟨8, true⟩ ∨ J = ITy.promote ⟨8, true⟩) ∧ switchCases ⟨8, true⟩ 2 5 4 f d [] = .ofCall (f [] ⟨J, 4⟩)) ∧
    switchCases ⟨8, true⟩ 2 5 7 f d [] = .ofCall (d []) :=
  ⟨(switch_cases_spec _ 2 5 4 f d []).1 (by decide), (switch_cases_spec _ 2 5 7 f d []).2 (by decide)⟩

/-- **C48.** The overload with `first` fixed to 0. -/
theorem switch_cases_to_spec (I : ITy) (last condition : Int) (f : Fn σ Const ρ) (d : σ → σ × Option ρ) (s : σ) :
    ((min 0 last ≤ condition ∧ condition < max 0 last) → ∃ J, (J = I ∨ J = I.promote) ∧
      switchCasesTo I last condition f d s = .ofCall (f s ⟨J, condition⟩)) ∧
    (¬(min 0 last ≤ condition ∧ condition < max 0 last) → switchCasesTo I last condition f d s = .ofCall (d s)) :=
  switch_cases_spec I 0 last condition f d s

example (f : Fn (List Int) Const Unit) (d : List Int → List Int × Option Unit) :
    (∃ J : ITy, (J = ⟨8, true⟩ ∨ J = ITy.promote ⟨8, true⟩) ∧ switchCasesTo ⟨8, true⟩ 5 4 f d [] = .ofCall (f [] ⟨J, 4⟩)) ∧
    switchCasesTo ⟨8, true⟩ 5 5 f d [] = .ofCall (d []) :=
  ⟨(switch_cases_to_spec _ 5 4 f d []).1 (by decide), (switch_cases_to_spec _ 5 5 f d []).2 (by decide)⟩

/-- **C48.** The overloads without default function: undefined (or a failed assertion) exactly if the condition is not in the range. -/
theorem switch_cases_no_default (I : ITy) (first last condition : Int) (f : Fn σ Const ρ) (s : σ) :
    ((min first last ≤ condition ∧ condition < max first last) → ∃ J, (J = I ∨ J = I.promote) ∧
      switchCasesNoDefault I first last condition f s = .ofCall (f s ⟨J, condition⟩)) ∧
    (¬(min first last ≤ condition ∧ condition < max first last) → switchCasesNoDefault I first last condition f s = .unreachable) := by
  unfold switchCasesNoDefault
  rw [switchTarget_eq]
  constructor
  · intro h
    rw [if_pos h]
    refine ⟨_, ?_, rfl⟩
    split <;> simp
  · intro h
    rw [if_neg h]

example (f : Fn (List Int) Const Unit) :
    (∃ J : ITy, (J = ⟨8, true⟩ ∨ J = ITy.promote ⟨8, true⟩) ∧ switchCasesNoDefault ⟨8, true⟩ 2 5 4 f [] = .ofCall (f [] ⟨J, 4⟩)) ∧
    switchCasesNoDefault ⟨8, true⟩ 2 5 7 f [] = .unreachable :=
  ⟨(switch_cases_no_default _ 2 5 4 f []).1 (by decide), (switch_cases_no_default _ 2 5 7 f []).2 (by decide)⟩

/-- **C48.** `switch_cases<last>(condition, f)` uses the range between 0 and `last`. -/
theorem switch_cases_to_no_default (I : ITy) (last condition : Int) (f : Fn σ Const ρ) (s : σ) :
    ((min 0 last ≤ condition ∧ condition < max 0 last) → ∃ J, (J = I ∨ J = I.promote) ∧
      switchCasesToNoDefault I last condition f s = .ofCall (f s ⟨J, condition⟩)) ∧
    (¬(min 0 last ≤ condition ∧ condition < max 0 last) → switchCasesToNoDefault I last condition f s = .unreachable) :=
  switch_cases_no_default I 0 last condition f s

example (f : Fn (List Int) Const Unit) :
    (∃ J : ITy, (J = ⟨8, true⟩ ∨ J = ITy.promote ⟨8, true⟩) ∧ switchCasesToNoDefault ⟨8, true⟩ 5 0 f [] = .ofCall (f [] ⟨J, 0⟩)) ∧
    switchCasesToNoDefault ⟨8, true⟩ 5 5 f [] = .unreachable :=
  ⟨(switch_cases_to_no_default _ 5 0 f []).1 (by decide), (switch_cases_to_no_default _ 5 5 f []).2 (by decide)⟩

/-- **C48.** All forms return what the function called returns, with the effects of one call, and throw what it throws. -/
theorem switch_result (I : ITy) (first last condition : Int) (f : Fn σ Const ρ) (d : σ → σ × Option ρ) (s : σ) :
    ((min first last ≤ condition ∧ condition < max first last) → ∃ c, c.value = condition ∧
      (∀ s' r, f s c = (s', some r) → switchCases I first last condition f d s = .returned s' r ∧
        switchCasesNoDefault I first last condition f s = .returned s' r) ∧
      (∀ s', f s c = (s', none) → switchCases I first last condition f d s = .threw s' ∧
        switchCasesNoDefault I first last condition f s = .threw s')) ∧
    (¬(min first last ≤ condition ∧ condition < max first last) →
      (∀ s' r, d s = (s', some r) → switchCases I first last condition f d s = .returned s' r) ∧
      (∀ s', d s = (s', none) → switchCases I first last condition f d s = .threw s')) := by
  refine ⟨fun h => ?_, fun h => ?_⟩
  · have ht := switchTarget_eq I first last condition
    rw [if_pos h] at ht
    refine ⟨⟨if condition = min first last then I else I.promote, condition⟩, rfl, fun s' r hf => ?_, fun s' hf => ?_⟩ <;>
      simp only [switchCases, switchCasesNoDefault, ht] <;> rw [hf] <;> exact ⟨rfl, rfl⟩
  · have ht := switchTarget_eq I first last condition
    rw [if_neg h] at ht
    refine ⟨fun s' r hf => ?_, fun s' hf => ?_⟩ <;> simp only [switchCases, ht] <;> rw [hf] <;> rfl

example : (min (2 : Int) 5 ≤ 4 ∧ (4 : Int) < max 2 5) ∧ ¬(min (2 : Int) 5 ≤ 7 ∧ (7 : Int) < max 2 5) := by decide

/-- A function logging its calls: the number of calls and the value is observable. -/
def logging : Fn (List Int) Const Int := fun s c => (c.value :: s, some (c.value * 2))

example : switchCases ⟨32, true⟩ 7 3 5 logging (fun s => (s, some 0)) [] = .returned [5] 10 := by
  obtain ⟨J, _, h⟩ := (switch_cases_spec ⟨32, true⟩ 7 3 5 logging (fun s => (s, some 0)) []).1 (by decide)
  rw [h]; rfl

/-- **C48.** The type of the constant is the type of `first`, for types at least as wide as `int`. -/
theorem switch_type_wide {I : ITy} (hI : 32 ≤ I.bits) {first last condition : Int} {c : Const}
    (h : switchTarget I first last condition = some c) : c.type = I := by
  have hp : I.promote = I := by unfold ITy.promote; rw [if_neg (by omega)]
  rw [switchTarget_eq] at h
  split at h
  · injection h with h
    rw [← h, hp]; simp
  · simp at h

example : switchTarget ⟨64, false⟩ 0 3 2 = some ⟨⟨64, false⟩, 2⟩ := by rw [switchTarget_eq]; decide

/-- **C48, refuted** for narrower types: the type of the constant is the type of `first` for the smallest case only, and `int` for the
others. -/
theorem switch_type_refuted : switchTarget ⟨8, false⟩ 0 3 0 = some ⟨⟨8, false⟩, 0⟩ ∧ switchTarget ⟨8, false⟩ 0 3 1 = some ⟨⟨32, true⟩, 1⟩ := by
  rw [switchTarget_eq, switchTarget_eq]; decide

theorem caseInstances_mem (I : ITy) (i max min : Int) (hmm : min < max) (h1 : i < max) (v : Int) :
    v ∈ (caseInstances I i max min).map (·.value) ↔ i ≤ v ∧ v < max := by
  rw [caseInstances]
  simp only [if_neg (show ¬ max = min by omega)]
  by_cases h : i < max - 1
  · rw [dif_pos h, List.map_cons, List.mem_cons, caseInstances_mem I.promote (i + 1) max min hmm (by omega) v]
    simp only; omega
  · rw [dif_neg h]
    simp only [List.map_cons, List.map_nil, List.mem_singleton]; omega
termination_by (max - i).toNat

/-- **C48.** With a default function, the function is instantiated exactly for the values in the range. -/
theorem switch_instances (I : ITy) (first last v : Int) :
    v ∈ (switchInstances I first last).map (·.value) ↔ min first last ≤ v ∧ v < max first last := by
  unfold switchInstances
  simp only
  by_cases h : min first last ≠ max first last
  · rw [if_pos h, caseInstances_mem I _ _ _ (by omega) (by omega)]
  · rw [if_neg h]
    simp; omega

example : (2 : Int) ∈ (switchInstances ⟨32, true⟩ 4 1).map (·.value) := by rw [switch_instances]; decide

/-- **C48, refuted** without default function: it is instantiated for the value `last`, which is outside of the range, so functions that are
only valid for the values in the range (like `get<i>` of a tuple of `last` elements) do not compile. -/
theorem switch_instances_no_default_refuted (I : ITy) (last : Int) (h : 0 < last) :
    ∃ c ∈ switchInstancesToNoDefault I last, ¬(min 0 last ≤ c.value ∧ c.value < max 0 last) :=
  ⟨⟨I, last⟩, by simp [switchInstancesToNoDefault], by simp only; omega⟩

/-- The same for `switch_cases<first, last>` with `first` the upper bound, and for an empty range. -/
theorem switch_instances_no_default_refuted' (I : ITy) (first last : Int) (h : last ≤ first) :
    ∃ c ∈ switchInstancesNoDefault I first last, ¬(min first last ≤ c.value ∧ c.value < max first last) :=
  ⟨⟨I, first⟩, by simp [switchInstancesNoDefault], by simp only; omega⟩

/-- **C48.** Without default function but with `first < last`, the function is instantiated exactly for the values in the range. -/
theorem switch_instances_no_default (I : ITy) {first last : Int} (h : first < last) (v : Int) :
    v ∈ (switchInstancesNoDefault I first last).map (·.value) ↔ first ≤ v ∧ v < last := by
  unfold switchInstancesNoDefault
  rw [List.map_cons, List.mem_cons, switch_instances]
  simp only; omega

example : 3 ∈ (switchInstancesNoDefault ⟨32, true⟩ 2 5).map (·.value) ↔ (2 : Int) ≤ 3 ∧ (3 : Int) < 5 :=
  switch_instances_no_default _ (by decide) 3

/-- **C48.** Without default function, `switch_cases<last>` instantiates the function for the values in the range and for `last`, nothing else. -/
theorem switch_instances_to_no_default (I : ITy) (last v : Int) :
    v ∈ (switchInstancesToNoDefault I last).map (·.value) ↔ (min 0 last ≤ v ∧ v < max 0 last) ∨ v = last := by
  unfold switchInstancesToNoDefault
  rw [List.map_cons, List.mem_cons, switch_instances]
  simp only; omega

/-- **C48.** `switch_bool` calls the function once, with the condition, and returns or throws what it returns or throws. -/
theorem switch_bool_spec (b : Bool) (f : Fn σ Bool ρ) (s : σ) :
    (∀ s' r, f s b = (s', some r) → switchBool b f s = .returned s' r) ∧ (∀ s', f s b = (s', none) → switchBool b f s = .threw s') := by
  refine ⟨fun s' r h => ?_, fun s' h => ?_⟩ <;> cases b <;> simp only [switchBool, h] <;> rfl

example : switchBool true (fun (s : List Bool) b => (b :: s, some (!b))) [] = .returned [true] false := rfl

/-! ## C49: for_types, for_values, for_range -/

/-- Calling `f` for each item in turn, starting in state `s`, returns normally each time and ends in `s'`. -/
inductive CallsAll (f : Fn σ ι ρ) : σ → List ι → σ → Prop
  | nil (s : σ) : CallsAll f s [] s
  | cons {s s' s'' : σ} {x : ι} {xs : List ι} {r : ρ} : f s x = (s', some r) → CallsAll f s' xs s'' → CallsAll f s (x :: xs) s''

/-- Either all calls return, or the first ones do and then one throws. -/
theorem calls_cases (f : Fn σ ι ρ) (s : σ) (xs : List ι) :
    (∃ s', CallsAll f s xs s') ∨
    (∃ pre x post s' s'', xs = pre ++ x :: post ∧ CallsAll f s pre s' ∧ f s' x = (s'', none)) := by
  induction xs generalizing s with
  | nil => exact .inl ⟨s, .nil s⟩
  | cons x xs ih =>
    cases h : f s x with
    | mk s1 r =>
      cases r with
      | none => exact .inr ⟨[], x, xs, s, s1, rfl, .nil s, h⟩
      | some r =>
        rcases ih s1 with ⟨s', h'⟩ | ⟨pre, y, post, s', s'', e, hc, hf⟩
        · exact .inl ⟨s', .cons h h'⟩
        · exact .inr ⟨x :: pre, y, post, s', s'', by rw [e]; rfl, .cons h hc, hf⟩

theorem sequence_all {f : Fn σ ι ρ} {s s' : σ} {xs : List ι} (h : CallsAll f s xs s') : sequence f s xs = .returned s' () := by
  induction h with
  | nil s => rfl
  | cons hf _ ih => rw [sequence, hf]; exact ih

theorem sequence_throw {f : Fn σ ι ρ} {s s' s'' : σ} {pre post : List ι} {x : ι} (h : CallsAll f s pre s') (hx : f s' x = (s'', none)) :
    sequence f s (pre ++ x :: post) = .threw s'' := by
  induction h with
  | nil s => rw [List.nil_append, sequence, hx]
  | cons hf _ ih => rw [List.cons_append, sequence, hf]; exact ih hx

/-- **C49.** `for_types` calls the function once for each type, in order. -/
theorem for_types_returns {ne : ι → Bool} {f : Fn σ ι ρ} {s s' : σ} {xs : List ι} (h : CallsAll f s xs s') :
    forTypes ne f s xs = .returned s' () := by
  unfold forTypes
  rw [sequence_all h]
  cases xs.all ne <;> rfl

example : forTypes (fun _ => false) (fun (s : List Nat) x => (s ++ [x], some ())) [] [7, 8] = .returned [7, 8] () :=
  for_types_returns (.cons rfl (.cons rfl (.nil _)))

/-- **C49.** If one call throws, `for_types` passes on the exception and does not call the function for the types after it, provided that
the function's declaration does not promise otherwise. -/
theorem for_types_throws {ne : ι → Bool} {f : Fn σ ι ρ} {s s' s'' : σ} {pre post : List ι} {x : ι} (h : CallsAll f s pre s')
    (hx : f s' x = (s'', none)) (hne : ne x = false) : forTypes ne f s (pre ++ x :: post) = .threw s'' := by
  unfold forTypes
  have hall : (pre ++ x :: post).all ne = false := by
    rw [List.all_append, List.all_cons, hne]; simp
  rw [sequence_throw h hx, hall]
  rfl

/-- The second call throws. -/
example : forTypes (fun _ => false) (fun (s : List Nat) x => (s ++ [x], if x = 8 then none else some ())) [] [7, 8, 9] = .threw [7, 8] :=
  for_types_throws (pre := [7]) (x := 8) (s' := [7]) (.cons rfl (.nil _)) rfl rfl

/-- **C49.** The same for `for_values`, as long as calls of the function as it was passed promise no more than calls of it as an lvalue. -/
theorem for_values_spec {ne : ι → Bool} {f : Fn σ ι ρ} {s s' : σ} :
    (∀ {xs}, CallsAll f s xs s' → forValues ne f s xs = .returned s' ()) ∧
    (∀ {pre x post s''}, CallsAll f s pre s' → f s' x = (s'', none) → ne x = false →
      forValues ne f s (pre ++ x :: post) = .threw s'') :=
  ⟨fun h => for_types_returns h, fun h hx hne => for_types_throws h hx hne⟩

example : CallsAll (fun (s : List Nat) x => (x :: s, some ())) [] [1, 2, 3] [3, 2, 1] :=
  .cons rfl (.cons rfl (.cons rfl (.nil _)))

/-- **C49, refuted** for the exception specification of `for_values`: a callable passed as an rvalue, with a non-throwing call operator for
rvalues and a throwing one for lvalues, terminates the program, since it is called as an lvalue. -/
theorem for_values_noexcept_refuted :
    forValues (fun _ : Nat => true) (fun s _ => ((s : Nat), (none : Option Unit))) 0 [1] = .terminated := rfl

theorem rangeConsts_eq {I : ITy} (hI : I.Wf) {first last : Int} (hf : I.Has first) (hl : I.Has last) :
    rangeConsts I first last = if ((last - first).natAbs : Int) ≤ I.max then some ((seq first last).map fun v => ⟨I.promote, v⟩)
      else none := by
  have hw := Integral.wf_has hI
  unfold rangeConsts
  by_cases hlt : first < last
  · rw [if_pos hlt, Integral.diff_eval hI hl hf (by omega), show ((last - first).natAbs : Int) = last - first by omega]
    split
    · rename_i hm
      simp only [Option.bind_some]
      rw [Integral.transform_some (g := fun x => (⟨I.promote, first + x⟩ : Const))]
      · congr 1
        unfold seq Integral.stdSequence
        rw [List.map_map, List.map_map, show (last - first).toNat = (last - first).natAbs by omega]
        apply List.map_congr_left
        intro i _
        simp [hlt]
      · intro x hx
        simp only [Integral.stdSequence, List.mem_map, List.mem_range] at hx
        obtain ⟨i, hi, rfl⟩ := hx
        have hh : I.Has (first + i) := by unfold ITy.Has at *; omega
        rw [Integral.binop_exact compat_add hI hf (by unfold ITy.Has at *; omega) (has_promote (Range.Wf.one hI) hh)]
        rfl
    · rfl
  · rw [if_neg hlt, Integral.diff_eval hI hf hl (by omega), show ((last - first).natAbs : Int) = first - last by omega]
    split
    · rename_i hm
      simp only [Option.bind_some]
      rw [Integral.transform_some (g := fun x => (⟨I.promote, first - x⟩ : Const))]
      · congr 1
        unfold seq Integral.stdSequence
        rw [List.map_map, List.map_map, show (first - last).toNat = (last - first).natAbs by omega]
        apply List.map_congr_left
        intro i _
        simp [hlt]
      · intro x hx
        simp only [Integral.stdSequence, List.mem_map, List.mem_range] at hx
        obtain ⟨i, hi, rfl⟩ := hx
        have hh : I.Has (first - i) := by unfold ITy.Has at *; omega
        rw [Integral.binop_exact compat_sub hI hf (by unfold ITy.Has at *; omega) (has_promote (Range.Wf.one hI) hh)]
        rfl
    · rfl

/-- **C49 (partial).** `for_range<first, last>` calls the function for `first`, `first ± 1`, ... up or down to but excluding `last`, in order,
once each, with constants of the promoted type of `first`; if a call throws, the exception is passed on and there are no further calls. It
is well-formed iff the number of values is itself a value of the type: missing for the full claim are the longer ranges of signed types. -/
theorem for_range_partial {I : ITy} (hI : I.Wf) {first last : Int} (hf : I.Has first) (hl : I.Has last) (ne : Const → Bool)
    (f : Fn σ Const ρ) (s : σ) :
    ((forRange I first last ne f s).isSome ↔ ((last - first).natAbs : Int) ≤ I.max) ∧
    ∀ o, forRange I first last ne f s = some o →
      let cs := (seq first last).map fun v => (⟨I.promote, v⟩ : Const)
      (∀ s', CallsAll f s cs s' → o = .returned s' ()) ∧
      (∀ pre c post s' s'', cs = pre ++ c :: post → CallsAll f s pre s' → f s' c = (s'', none) → ne c = false → o = .threw s'') := by
  unfold forRange
  rw [rangeConsts_eq hI hf hl]
  by_cases hm : ((last - first).natAbs : Int) ≤ I.max
  · rw [if_pos hm]
    refine ⟨by simp [hm], ?_⟩
    intro o ho
    simp only [Option.map_some, Option.some.injEq] at ho
    subst ho
    refine ⟨fun s' h => for_types_returns h, ?_⟩
    intro pre c post s' s'' e h hc hn
    rw [e]
    exact for_types_throws h hc hn
  · rw [if_neg hm]
    exact ⟨by simp [hm], by simp⟩

example : forRange ⟨32, true⟩ 3 0 (fun _ => false) (fun (s : List Int) c => (s ++ [c.value], some ())) [] = some (.returned [3, 2, 1] ()) := by
  decide

/-- **C49, refuted** for long ranges of signed types: `for_range<int8_t{-128}, int8_t{127}>` is ill-formed. -/
theorem for_range_refuted (f : Fn σ Const ρ) (s : σ) : forRange ⟨8, true⟩ (-128) 127 (fun _ => false) f s = none := by
  have : rangeConsts ⟨8, true⟩ (-128) 127 = none := by decide
  unfold forRange
  rw [this]; rfl

/-! ## C50: tuple_fold, tuple_for_each -/

/-- Folding with `f` over the elements from the left, all calls returning. -/
inductive FoldsTo {α : Type} (f : Fn σ (α × ι) α) : σ → α → List ι → σ → α → Prop
  | nil (s : σ) (a : α) : FoldsTo f s a [] s a
  | cons {s s' s'' : σ} {a a' a'' : α} {x : ι} {xs : List ι} : f s (a, x) = (s', some a') → FoldsTo f s' a' xs s'' a'' →
    FoldsTo f s a (x :: xs) s'' a''

theorem foldLoop_all {α : Type} {f : Fn σ (α × ι) α} {s s' : σ} {a a' : α} {xs : List ι} (h : FoldsTo f s a xs s' a') :
    foldLoop f s a xs = .returned s' a' := by
  induction h with
  | nil s a => rfl
  | cons hf _ ih => rw [foldLoop, hf]; exact ih

theorem foldLoop_throw {α : Type} {f : Fn σ (α × ι) α} {s s' s'' : σ} {a a' : α} {pre post : List ι} {x : ι}
    (h : FoldsTo f s a pre s' a') (hx : f s' (a', x) = (s'', none)) : foldLoop f s a (pre ++ x :: post) = .threw s'' := by
  induction h with
  | nil s a => rw [List.nil_append, foldLoop, hx]
  | cons hf _ ih => rw [List.cons_append, foldLoop, hf]; exact ih hx

/-- **C50 (partial).** `tuple_fold` (`tuple_type_fold`) with an rvalue as initial value is the left fold over the elements (types) in index
order. Missing for the full claim: other initial values and throwing functions, see `tuple_fold_refuted`. -/
theorem tuple_fold_partial {α : Type} {f : Fn σ (α × ι) α} {s s' : σ} {a a' : α} {xs : List ι} (h : FoldsTo f s a xs s' a') :
    tupleFold .rvalue f s a xs = some (.returned s' (.value a')) := by
  unfold tupleFold
  rw [foldLoop_all h]
  rfl

example : FoldsTo (fun (s : Nat) (ax : Int × Int) => (s + 1, some (ax.1 * 10 + ax.2))) 0 0 [1, 2, 3] 3 123 :=
  .cons rfl (.cons rfl (.cons rfl (.nil _ _)))

/-- For pure functions the spec is the usual left fold. -/
theorem foldsTo_pure {α : Type} (g : α → ι → α) (s : σ) (a : α) (xs : List ι) :
    FoldsTo (fun s ax => (s, some (g ax.1 ax.2))) s a xs s (xs.foldl g a) := by
  induction xs generalizing a with
  | nil => exact .nil _ _
  | cons x xs ih => exact .cons rfl (ih (g a x))

/-- **C50, refuted** for initial values that are lvalues: const ones give a dangling reference as the result, others are ill-formed. -/
theorem tuple_fold_refuted {α : Type} {f : Fn σ (α × ι) α} {s s' : σ} {a a' : α} {xs : List ι} (h : FoldsTo f s a xs s' a') :
    tupleFold .constLvalue f s a xs = some (.returned s' .dangling) ∧ tupleFold .lvalue f s a xs = none := by
  unfold tupleFold
  rw [foldLoop_all h]
  exact ⟨rfl, rfl⟩

/-- **C50.** A throwing function terminates the program: `tuple_fold` is unconditionally `noexcept`. -/
theorem tuple_fold_terminates {α : Type} {f : Fn σ (α × ι) α} {s s' s'' : σ} {a a' : α} {pre post : List ι} {x : ι}
    (h : FoldsTo f s a pre s' a') (hx : f s' (a', x) = (s'', none)) :
    tupleFold .rvalue f s a (pre ++ x :: post) = some .terminated := by
  unfold tupleFold
  rw [foldLoop_throw h hx]
  rfl

example : tupleFold .rvalue (fun (s : Nat) (ax : Nat × Nat) => (s, if ax.2 = 0 then none else some (ax.1 / ax.2))) 0 100 [5, 0, 1] =
    some .terminated := by decide

/-- Calling `f` for each item in turn returns each time; `r` is the result of the last call, if any. -/
inductive CallsAllRet (f : Fn σ ι ρ) : σ → List ι → σ → Option ρ → Prop
  | nil (s : σ) : CallsAllRet f s [] s none
  | snoc {s s' s'' : σ} {x : ι} {xs : List ι} {r : ρ} : CallsAll f s xs s' → f s' x = (s'', some r) →
    CallsAllRet f s (xs ++ [x]) s'' (some r)

theorem forEachLoop_last {f : Fn σ ι ρ} {s s' s'' : σ} {xs : List ι} {x : ι} {r : ρ} (h : CallsAll f s xs s')
    (hx : f s' x = (s'', some r)) : forEachLoop f s (xs ++ [x]) = .returned s'' (some r) := by
  induction h with
  | nil s => rw [List.nil_append, forEachLoop, hx]
  | @cons s s1 s2 y ys r' hf hc ih =>
    have := ih hx
    cases ys with
    | nil => rw [List.cons_append, List.nil_append, forEachLoop, hf] <;> simp_all
    | cons z zs => rw [List.cons_append, List.cons_append, forEachLoop, hf] <;> simp_all

theorem forEachLoop_throw {f : Fn σ ι ρ} {s s' s'' : σ} {pre post : List ι} {x : ι} (h : CallsAll f s pre s') (hx : f s' x = (s'', none)) :
    forEachLoop f s (pre ++ x :: post) = .threw s'' := by
  induction h with
  | nil s =>
    cases post with
    | nil => rw [List.nil_append, forEachLoop, hx]
    | cons z zs => rw [List.nil_append, forEachLoop, hx]; simp
  | @cons s s1 s2 y ys r' hf hc ih =>
    have := ih hx
    cases ys with
    | nil => rw [List.cons_append, List.nil_append, forEachLoop, hf] <;> simp_all
    | cons z zs => rw [List.cons_append, List.cons_append, forEachLoop, hf] <;> simp_all

/-- **C50.** `tuple_for_each` (`tuple_type_for_each`) calls the function once per element (type) in index order and returns what the last
call returned (nothing for the empty tuple). The callable passed in is itself unchanged: the calls are made on a copy. -/
theorem tuple_for_each_returns {f : Fn (κ × σ) ι ρ} {own own' : κ} {s s' : σ} {xs : List ι} {r : Option ρ}
    (h : CallsAllRet f (own, s) xs (own', s') r) : tupleForEach f own s xs = .returned (own, s') r := by
  unfold tupleForEach
  generalize hs : (own, s) = s0 at h
  generalize hs' : (own', s') = s1 at h
  cases h with
  | nil => subst hs; injection hs' with h1 h2; subst h2; rfl
  | snoc hc hx => subst hs hs'; rw [forEachLoop_last hc hx]

/-- The callable counts its calls in its own member: the caller's callable is not changed, a copy is called. -/
example : tupleForEach (fun (s : Nat × List Nat) x => ((s.1 + 1, s.2 ++ [x]), some s.1)) 0 [] [7, 8] = .returned (0, [7, 8]) (some 1) :=
  tuple_for_each_returns (own' := 2) (.snoc (xs := [7]) (.cons rfl (.nil _)) rfl)

/-- **C50.** If a call throws, the exception is passed on and the elements after it are not visited. -/
theorem tuple_for_each_throws {f : Fn (κ × σ) ι ρ} {own own' own'' : κ} {s s' s'' : σ} {pre post : List ι} {x : ι}
    (h : CallsAll f (own, s) pre (own', s')) (hx : f (own', s') x = ((own'', s''), none)) :
    tupleForEach f own s (pre ++ x :: post) = .threw (own, s'') := by
  unfold tupleForEach
  rw [forEachLoop_throw h hx]

example : tupleForEach (fun (ks : Nat × List Nat) x => ((ks.1 + x, x :: ks.2), some (ks.1 + x))) 0 [] [1, 2, 3] =
    .returned (0, [3, 2, 1]) (some 6) := by decide

end Verif.Control
