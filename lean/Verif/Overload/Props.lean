import Verif.Overload.Model
import Mathlib.Data.List.Perm.Basic
import Mathlib.Data.List.Nodup

/-! Property C65 of overloaded.hpp. -/
namespace Verif.Overload

variable {Key Arg Conv Ret Val Res Own σ : Type} [DecidableEq Key] [DecidableEq Ret]

/-- What is used about "better than": no conversion sequence is better than itself, two are not better than each other, and neither are two
functions by tie-breakers. -/
structure Lawful (R : Rules Key Conv) : Prop where
  lt_asymm : ∀ c d, R.lt c d = true → R.lt d c = false
  tie_asymm : ∀ f g, R.tie f g = true → R.tie g f = false

/-- The function a user expects to be called for an argument: it can take the argument, and compared to any other function that can, either
the conversion of the argument is better, or it is not worse and the function wins by tie-breakers. -/
def Best (R : Rules Key Conv) (a : Arg) (fs : List (FnType Key Arg Conv Ret)) (f : FnType Key Arg Conv Ret) : Prop :=
  f ∈ fs ∧ ∃ c, f.conv a = some c ∧ ∀ g ∈ fs, g.key ≠ f.key → ∀ d, g.conv a = some d →
    R.lt c d = true ∨ (R.lt d c = false ∧ R.tie f.key g.key = true)

/-! ## Example: the functions of tests_overloaded.cpp -/

inductive Ty | int | double | float | string
deriving DecidableEq, Repr

/-- 0: same type, 1: promotion, 2: conversion. -/
def convTo (p a : Ty) : Option Nat :=
  if p = a then some 0
  else match p, a with
    | .double, .float => some 1
    | .string, _ => none
    | _, .string => none
    | _, _ => some 2

/-- The generic function (number 9) loses ties. -/
def exampleRules : Rules Nat Nat := ⟨fun c d => c < d, fun f g => f != 9 && g == 9⟩

theorem exampleRules_lawful : Lawful exampleRules :=
  ⟨by simp [exampleRules]; omega, by simp [exampleRules]⟩

/-- A function object with parameter type `p` that counts its calls, writes its number to the outside, and returns 10 times its number. -/
def takes (key : Nat) (p : Ty) : Fn Nat Ty Nat Unit Nat Nat Nat (List Nat) :=
  ⟨⟨key, .cls, convTo p, fun _ => ()⟩, 0, fun n _ w => (n + 1, key :: w, .ok (10 * key))⟩

def generic : Fn Nat Ty Nat Unit Nat Nat Nat (List Nat) :=
  ⟨⟨9, .cls, fun _ => some 0, fun _ => ()⟩, 0, fun n _ w => (n + 1, 9 :: w, .ok 90)⟩

def exampleFns : List (Fn Nat Ty Nat Unit Nat Nat Nat (List Nat)) := [takes 1 .int, takes 2 .double, generic]

example : accepted exampleRules [.int, .double, .float] (exampleFns.map (·.toFnType)) = true := by decide
example : ([Ty.int, .double, .float].map fun a => resolve exampleRules a (exampleFns.map (·.toFnType))) = [some 0, some 1, some 2] := by
  decide

/-! ## Resolution -/

theorem isBest_iff {R : Rules Key Conv} (hR : Lawful R) {a : Arg} {fs : List (FnType Key Arg Conv Ret)}
    (hn : (fs.map (·.key)).Nodup) {i : Nat} :
    isBest R a fs i = true ↔ ∃ f, fs[i]? = some f ∧ Best R a fs f := by
  unfold isBest
  cases hf : fs[i]? with
  | none => simp
  | some f =>
    simp only [Option.some.injEq, exists_eq_left', Bool.and_eq_true, List.all_eq_true, List.mem_range, Bool.or_eq_true, beq_iff_eq]
    have hmem := List.mem_of_getElem? hf
    have hi : i < fs.length := by
      by_contra h
      rw [List.getElem?_eq_none (by omega)] at hf
      cases hf
    have hinj : ∀ j g, fs[j]? = some g → g.key = f.key → j = i := by
      intro j g hg hk
      have hj : j < fs.length := by
        by_contra h
        rw [List.getElem?_eq_none (by omega)] at hg
        cases hg
      have h1 : (fs.map (·.key))[j]? = some f.key := by rw [List.getElem?_map, hg]; simp [hk]
      have h2 : (fs.map (·.key))[i]? = some f.key := by rw [List.getElem?_map, hf]; rfl
      exact (List.getElem?_inj (by simpa using hj) hn).1 (h1.trans h2.symm)
    constructor
    · rintro ⟨hv, hall⟩
      unfold viable at hv
      obtain ⟨c, hc⟩ := Option.isSome_iff_exists.1 hv
      refine ⟨hmem, c, hc, ?_⟩
      intro g hg hk d hd
      obtain ⟨j, hj, rfl⟩ := List.getElem_of_mem hg
      rcases hall j hj with h | h
      · subst h
        rw [List.getElem?_eq_getElem hj] at hf
        injection hf with hf
        rw [hf] at hk
        exact absurd rfl hk
      · rw [List.getElem?_eq_getElem hj] at h
        simp only [viable, hd, better, hc, Option.isSome_some, Bool.not_true, Bool.false_eq_true, false_or, Bool.and_eq_true,
          Bool.or_eq_true, Bool.not_eq_true'] at h
        rcases h.2 with h2 | h2
        · exact .inl h2
        · exact .inr ⟨h.1, h2⟩
    · rintro ⟨-, c, hc, hall⟩
      refine ⟨by simp [viable, hc], ?_⟩
      intro j hj
      by_cases hji : j = i
      · exact .inl hji
      · right
        rw [List.getElem?_eq_getElem hj]
        simp only [Bool.or_eq_true, Bool.not_eq_true']
        cases hd : fs[j].conv a with
        | none => left; simp [viable, hd]
        | some d =>
          right
          have hk : fs[j].key ≠ f.key := fun h => hji (hinj j _ (List.getElem?_eq_getElem hj) h)
          have := hall _ (List.getElem_mem hj) hk d hd
          simp only [better, hc, hd, Bool.and_eq_true, Bool.not_eq_true', Bool.or_eq_true]
          rcases this with h | ⟨h, h'⟩
          · exact ⟨hR.lt_asymm _ _ h, .inl h⟩
          · exact ⟨h, .inr h'⟩

/-- There is at most one best function. -/
theorem Best.unique {R : Rules Key Conv} (hR : Lawful R) {a : Arg} {fs : List (FnType Key Arg Conv Ret)} (hn : (fs.map (·.key)).Nodup)
    {f g : FnType Key Arg Conv Ret} (hf : Best R a fs f) (hg : Best R a fs g) : f = g := by
  obtain ⟨mf, c, hc, hf⟩ := hf
  obtain ⟨mg, d, hd, hg⟩ := hg
  by_cases hk : g.key = f.key
  · exact (List.inj_on_of_nodup_map hn mg mf hk).symm
  · exfalso
    have h1 := hf g mg hk d hd
    have h2 := hg f mf (fun h => hk h.symm) c hc
    have a1 := hR.lt_asymm c d
    have a2 := hR.tie_asymm f.key g.key
    rcases h1 with h1 | ⟨h1, h1'⟩ <;> rcases h2 with h2 | ⟨h2, h2'⟩ <;> simp_all

theorem resolve_spec {R : Rules Key Conv} (hR : Lawful R) {a : Arg} {fs : List (FnType Key Arg Conv Ret)}
    (hn : (fs.map (·.key)).Nodup) {f : FnType Key Arg Conv Ret} :
    Best R a fs f ↔ ∃ i, resolve R a fs = some i ∧ fs[i]? = some f := by
  constructor
  · intro h
    have : (resolve R a fs).isSome = true := by
      unfold resolve
      rw [List.find?_isSome]
      obtain ⟨i, hi, e⟩ := List.getElem_of_mem h.1
      exact ⟨i, List.mem_range.2 hi, (isBest_iff hR hn).2 ⟨f, by rw [List.getElem?_eq_getElem hi, e], h⟩⟩
    obtain ⟨i, hi⟩ := Option.isSome_iff_exists.1 this
    refine ⟨i, hi, ?_⟩
    obtain ⟨g, hg, hb⟩ := (isBest_iff hR hn).1 (List.find?_some hi)
    rw [hg, Best.unique hR hn h hb]
  · rintro ⟨i, hi, hf⟩
    obtain ⟨g, hg, hb⟩ := (isBest_iff hR hn).1 (List.find?_some hi)
    rw [hf] at hg
    injection hg with hg
    rw [hg]
    exact hb

theorem Best.perm {R : Rules Key Conv} {a : Arg} {fs gs : List (FnType Key Arg Conv Ret)} (hp : fs.Perm gs) {f : FnType Key Arg Conv Ret}
    (h : Best R a fs f) : Best R a gs f := by
  obtain ⟨m, c, hc, h⟩ := h
  exact ⟨hp.mem_iff.1 m, c, hc, fun g hg => h g (hp.mem_iff.2 hg)⟩

theorem validSet_iff (fs : List (FnType Key Arg Conv Ret)) :
    validSet fs = true ↔ (∀ f ∈ fs, f.shape = .cls) ∧ (fs.map (·.key)).Nodup := by
  simp [validSet]

/-- **C65.** A call of `match` compiles iff all functions are classes that may be derived from, no two have the same type, for each
alternative exactly one function is the best, and the functions called for any two alternatives return the same type. -/
theorem match_accepted_iff {R : Rules Key Conv} (hR : Lawful R) (alts : List Arg) (fs : List (FnType Key Arg Conv Ret)) :
    accepted R alts fs = true ↔ (∀ f ∈ fs, f.shape = .cls) ∧ (fs.map (·.key)).Nodup ∧ (∀ a ∈ alts, ∃! f, Best R a fs f) ∧
      ∀ a ∈ alts, ∀ b ∈ alts, ∀ f g, Best R a fs f → Best R b fs g → f.ret a = g.ret b := by
  unfold accepted
  simp only [Bool.and_eq_true, validSet_iff, List.all_eq_true]
  constructor
  · rintro ⟨⟨⟨h1, hn⟩, h3⟩, h4⟩
    refine ⟨h1, hn, ?_, ?_⟩
    · intro a ha
      obtain ⟨i, hi⟩ := Option.isSome_iff_exists.1 (h3 a ha)
      obtain ⟨f, hf, hb⟩ := (isBest_iff hR hn).1 (List.find?_some hi)
      exact ⟨f, hb, fun g hg => Best.unique hR hn hg hb⟩
    · intro a ha b hb f g hf hg
      obtain ⟨i, hi, ei⟩ := (resolve_spec hR hn).1 hf
      obtain ⟨j, hj, ej⟩ := (resolve_spec hR hn).1 hg
      have := h4 a ha b hb
      simpa [hi, hj, ei, ej] using this
  · rintro ⟨h1, hn, h3, h4⟩
    refine ⟨⟨⟨h1, hn⟩, ?_⟩, ?_⟩
    · intro a ha
      obtain ⟨f, hf, -⟩ := h3 a ha
      obtain ⟨i, hi, -⟩ := (resolve_spec hR hn).1 hf
      simp [hi]
    · intro a ha b hb
      obtain ⟨f, hf, -⟩ := h3 a ha
      obtain ⟨g, hg, -⟩ := h3 b hb
      obtain ⟨i, hi, ei⟩ := (resolve_spec hR hn).1 hf
      obtain ⟨j, hj, ej⟩ := (resolve_spec hR hn).1 hg
      simp [hi, hj, ei, ej, h4 a ha b hb f g hf hg]

/-- Without a function for `std::string`, with two equally good ones, or with the same function twice the call does not compile. -/
example : accepted exampleRules [.int, .string] ([takes 1 .int, takes 2 .double].map (·.toFnType)) = false ∧
    accepted exampleRules [.int, .string] ([takes 1 .int, takes 2 .int, generic].map (·.toFnType)) = false ∧
    accepted exampleRules [.int] ([takes 1 .int, takes 1 .int].map (·.toFnType)) = false := by decide

/-- **C65.** If the variant holds a value, exactly one function is called, once, with that value: the best one for the alternative held. What
it returns or throws and its effects are those of `match`. -/
theorem match_selects {R : Rules Key Conv} (hR : Lawful R) {alts : List Arg} {fs : List (Fn Key Arg Conv Ret Val Res Own σ)}
    (ha : accepted R alts (fs.map (·.toFnType)) = true) {k : Nat} {a : Arg} (hk : alts[k]? = some a) (v : Val) (w : σ) :
    ∃ f ∈ fs, Best R a (fs.map (·.toFnType)) f.toFnType ∧ ∃ r, «match» R alts fs (some (k, v)) w = some r ∧
      r.calls = [(f.key, v)] ∧ r.world = (f.call f.own v w).2.1 ∧
      (∀ x, r.out = .ok x ↔ (f.call f.own v w).2.2 = .ok x) ∧ (∀ e, r.out = .threw e ↔ (f.call f.own v w).2.2 = .error e) := by
  have hacc := (match_accepted_iff hR alts _).1 ha
  obtain ⟨f, hf, -⟩ := hacc.2.2.1 a (List.mem_of_getElem? hk)
  obtain ⟨i, hi, ei⟩ := (resolve_spec hR hacc.2.1).1 hf
  rw [List.getElem?_map, Option.map_eq_some_iff] at ei
  obtain ⟨g, hg, rfl⟩ := ei
  refine ⟨g, List.mem_of_getElem? hg, hf, ?_⟩
  unfold «match»
  rw [if_pos ha]
  simp only [hk, hi, hg, Option.bind_some, Option.map_some]
  refine ⟨_, rfl, rfl, rfl, ?_, ?_⟩
  · intro x
    cases (g.call g.own v w).2.2 <;> simp
  · intro e
    cases (g.call g.own v w).2.2 <;> simp

example : («match» exampleRules [.int, .double, .float] exampleFns (some (2, 7)) []).map (fun r => (r.out, r.world, r.fns, r.calls)) =
    some (.ok 90, [9], [0, 0, 0], [(9, 7)]) := by decide

/-- **C65.** The order of the functions does not matter. -/
theorem match_order {R : Rules Key Conv} (hR : Lawful R) (alts : List Arg) {fs gs : List (Fn Key Arg Conv Ret Val Res Own σ)}
    (hp : fs.Perm gs) (held : Option (Nat × Val)) (w : σ) :
    («match» R alts fs held w).map (fun r => (r.out, r.world, r.calls)) =
      («match» R alts gs held w).map (fun r => (r.out, r.world, r.calls)) := by
  have hp' : (fs.map (·.toFnType)).Perm (gs.map (·.toFnType)) := hp.map _
  have hacc : accepted R alts (fs.map (·.toFnType)) = accepted R alts (gs.map (·.toFnType)) := by
    rw [Bool.eq_iff_iff, match_accepted_iff hR, match_accepted_iff hR]
    have hb : ∀ a f, Best R a (fs.map (·.toFnType)) f ↔ Best R a (gs.map (·.toFnType)) f := fun a f => ⟨.perm hp', .perm hp'.symm⟩
    simp only [hb, hp'.mem_iff, (hp'.map (·.key)).nodup_iff]
  cases hac : accepted R alts (fs.map (·.toFnType)) with
  | false =>
    unfold «match»
    rw [← hacc, hac]
    rfl
  | true =>
    have hac' := hacc ▸ hac
    match held with
    | none =>
      unfold «match»
      rw [hac, hac']
      rfl
    | some (k, v) =>
      cases hk : alts[k]? with
      | none => unfold «match»; rw [hac, hac']; simp [hk]
      | some a =>
        have hn := ((match_accepted_iff hR alts _).1 hac).2.1
        have hn' := ((match_accepted_iff hR alts _).1 hac').2.1
        obtain ⟨f, hf, hb, -⟩ := match_selects hR hac hk v w
        obtain ⟨i, hi, ei⟩ := (resolve_spec hR hn).1 hb
        obtain ⟨j, hj, ej⟩ := (resolve_spec hR hn').1 (hb.perm hp')
        rw [List.getElem?_map, Option.map_eq_some_iff] at ei ej
        obtain ⟨f1, e1, t1⟩ := ei
        obtain ⟨f2, e2, t2⟩ := ej
        have hkeys : (fs.map (·.key)).Nodup := by rw [List.map_map] at hn; exact hn
        have h12 : f1 = f2 := by
          refine List.inj_on_of_nodup_map hkeys (List.mem_of_getElem? e1) (hp.mem_iff.2 (List.mem_of_getElem? e2)) ?_
          rw [t1, t2]
        subst h12
        unfold «match»
        rw [if_pos hac, if_pos hac']
        simp only [hk, hi, hj, e1, e2, Option.bind_some, Option.map_some]

example : («match» exampleRules [.int, .double, .float] exampleFns (some (0, 7)) []).map (fun r => (r.out, r.world, r.calls)) =
    («match» exampleRules [.int, .double, .float] [generic, takes 1 .int, takes 2 .double] (some (0, 7)) []).map
      (fun r => (r.out, r.world, r.calls)) :=
  match_order exampleRules_lawful _ (by
    refine List.Perm.symm ?_
    exact List.perm_append_comm (l₁ := [generic]) (l₂ := [takes 1 .int, takes 2 .double])) _ _

/-- **C65.** Visiting a variant without value throws `std::bad_variant_access` and calls nothing. -/
theorem match_valueless (R : Rules Key Conv) {alts : List Arg} {fs : List (Fn Key Arg Conv Ret Val Res Own σ)}
    (ha : accepted R alts (fs.map (·.toFnType)) = true) (w : σ) :
    ∃ r, «match» R alts fs none w = some r ∧ r.out = .badVariantAccess ∧ r.world = w ∧ r.calls = [] := by
  unfold «match»
  rw [if_pos ha]
  exact ⟨_, rfl, rfl, rfl, rfl⟩

example : («match» exampleRules [.int, .double, .float] exampleFns none []).map (fun r => (r.out, r.calls)) =
    some (.badVariantAccess, []) := by decide

/-- **C65.** The exception of a visitor and `std::bad_variant_access` are told apart: the latter is only thrown for variants without value. -/
theorem match_bad_access_iff {R : Rules Key Conv} (hR : Lawful R) {alts : List Arg} {fs : List (Fn Key Arg Conv Ret Val Res Own σ)}
    {held : Option (Nat × Val)} {w : σ} {r : After Key Val Res Own σ} (h : «match» R alts fs held w = some r) :
    r.out = .badVariantAccess ↔ held = none := by
  have ha : accepted R alts (fs.map (·.toFnType)) = true := by
    unfold «match» at h
    by_contra hc
    rw [if_neg hc] at h
    cases h
  match held with
  | none =>
    obtain ⟨r', e, h1, -⟩ := match_valueless R ha w
    rw [h] at e
    injection e with e
    subst e
    simp [h1]
  | some (k, v) =>
    cases hk : alts[k]? with
    | none => unfold «match» at h; rw [if_pos ha] at h; simp [hk] at h
    | some a =>
      obtain ⟨f, -, -, r', e, -, -, h1, h2⟩ := match_selects hR ha hk v w
      rw [h] at e
      injection e with e
      subst e
      cases hc : (f.call f.own v w).2.2 with
      | ok x => rw [(h1 x).2 hc]; simp
      | error x => rw [(h2 x).2 hc]; simp

example : («match» exampleRules [.int, .double, .float] exampleFns none []).map (fun r => decide (r.out = .badVariantAccess)) = some true := by
  decide

/-! ## Generic functions -/

/-- A function that takes everything as it is, and loses ties, like a lambda with parameter `auto &&` among functions that are no
templates. -/
structure Fallback (R : Rules Key Conv) (g : FnType Key Arg Conv Ret) (fs : List (FnType Key Arg Conv Ret)) (exact : Conv) : Prop where
  takes : ∀ a, g.conv a = some exact
  best : ∀ c, R.lt c exact = false
  loses : ∀ f ∈ fs, R.tie f.key g.key = true

/-- **C65.** Adding a generic function does not change what is called where another function fits exactly. -/
theorem match_exact_before_generic {R : Rules Key Conv} {a : Arg} {fs : List (FnType Key Arg Conv Ret)} {g f : FnType Key Arg Conv Ret}
    {exact c : Conv} (hg : Fallback R g fs exact) (hf : Best R a fs f) (hc : f.conv a = some c) (he : R.lt exact c = false) :
    Best R a (g :: fs) f := by
  obtain ⟨m, c', hc', h⟩ := hf
  rw [hc] at hc'
  injection hc' with hc'
  subst hc'
  refine ⟨List.mem_cons_of_mem _ m, c, hc, ?_⟩
  intro x hx hk d hd
  rcases List.mem_cons.1 hx with rfl | hx
  · rw [hg.takes] at hd
    injection hd with hd
    subst hd
    exact .inr ⟨he, hg.loses f m⟩
  · exact h x hx hk d hd

/-- **C65.** Where no other function fits exactly, the generic function is called, even if others could take the argument by conversion. -/
theorem match_generic {R : Rules Key Conv} {a : Arg} {fs : List (FnType Key Arg Conv Ret)} {g : FnType Key Arg Conv Ret} {exact : Conv}
    (hg : Fallback R g fs exact) (h : ∀ f ∈ fs, ∀ c, f.conv a = some c → R.lt exact c = true) : Best R a (g :: fs) g := by
  refine ⟨List.mem_cons_self .., exact, hg.takes a, ?_⟩
  intro x hx hk d hd
  rcases List.mem_cons.1 hx with rfl | hx
  · exact absurd rfl hk
  · exact .inl (h x hx d hd)

/-- In the test, `float` goes to the generic function and not to the one taking `double`. -/
example : Fallback exampleRules generic.toFnType ([takes 1 .int, takes 2 .double].map (·.toFnType)) 0 ∧
    Best exampleRules .float ([generic, takes 1 .int, takes 2 .double].map (·.toFnType)) generic.toFnType := by
  have h : Fallback exampleRules generic.toFnType ([takes 1 .int, takes 2 .double].map (·.toFnType)) 0 :=
    ⟨fun _ => rfl, by simp [exampleRules], by simp [exampleRules, takes, generic]⟩
  exact ⟨h, match_generic h (by simp [takes, convTo, exampleRules])⟩

example : Best exampleRules .double ([generic, takes 1 .int, takes 2 .double].map (·.toFnType)) (takes 2 .double).toFnType :=
  match_exact_before_generic (fs := [takes 1 .int, takes 2 .double].map (·.toFnType)) (exact := 0) (c := 0)
    ⟨fun _ => rfl, by simp [exampleRules], by simp [exampleRules, takes, generic]⟩
    ⟨by simp, 0, rfl, by simp [takes, convTo, exampleRules]⟩ rfl rfl

/-! ## Function objects with state -/

/-- **C65.** The caller's function objects are not changed by `match`. -/
theorem match_keeps_functions {R : Rules Key Conv} {alts : List Arg} {fs : List (Fn Key Arg Conv Ret Val Res Own σ)}
    {held : Option (Nat × Val)} {w : σ} {r : After Key Val Res Own σ} (h : «match» R alts fs held w = some r) :
    r.fns = fs.map (·.own) := by
  unfold «match» at h
  split at h
  · split at h
    · injection h with h; rw [← h]
    · simp only [Option.bind_eq_some_iff, Option.map_eq_some_iff] at h
      obtain ⟨_, _, _, _, _, _, e⟩ := h
      rw [← e]
  · cases h

example : («match» exampleRules [.int] [takes 1 .int] (some (0, 7)) []).map (·.fns) = some [0] := by decide

/-- **C65, refuted** for functions that are to keep what they saw in themselves: calling the function directly changes its state, calling it
through `match` does not, even if it is passed as an lvalue. -/
theorem match_state_refuted : ∃ (f : Fn Nat Ty Nat Unit Nat Nat Nat (List Nat)) (r : After Nat Nat Nat Nat (List Nat)),
    «match» exampleRules [.int] [f] (some (0, 7)) [] = some r ∧ r.calls = [(f.key, 7)] ∧ (f.call f.own 7 []).1 ≠ f.own ∧
    r.fns = [f.own] := by
  refine ⟨takes 1 .int, ⟨.ok 10, [1], [0], [(1, 7)]⟩, ?_, rfl, by decide, rfl⟩
  rfl

end Verif.Overload
