import Verif.LazyCond.Model

namespace Verif.LazyCond

variable {τ : Type}

/-! ## Specification -/

/-- Condition and provider of a case. -/
def Case.cond : Case → Bool
  | .case_ c _ => c
  | .other c _ => c

def Case.provider : Case → Nat
  | .case_ _ p => p
  | .other _ p => p

/-- The provider is fine: it has a `::type`. -/
def Prov.type? : Prov τ → Option τ
  | .ok t => some t
  | _ => none

/-- Cases written with `case_`. -/
def Case.Proper : Case → Prop
  | .case_ _ _ => True
  | .other _ _ => False

/-! ## lazy_conditional -/

/-- Providers: 0 is `int`, 1 is `double`, 2 has no type, others are broken. -/
def sample : Env String
  | 0 => .ok "int"
  | 1 => .ok "double"
  | 2 => .noMember
  | _ => .broken

/-- **C55.** `lazy_conditional` gives the selected branch's type and looks at nothing else: the other branch may be anything. -/
theorem lazyConditional_selects (env : Env τ) (b : Bool) (t f : Nat) :
    let r := lazyConditional b (fun _ => member env t) (fun _ => member env f)
    r.type = (env (if b then t else f)).type? ∧ r.touched = [if b then t else f] := by
  cases b <;> simp only [lazyConditional, member] <;> split <;> rename_i h <;> simp [h, Prov.type?]

/-- Changing providers which are not selected does not change the result. -/
theorem lazyConditional_indep (env env' : Env τ) (b : Bool) (t f : Nat) (h : env (if b then t else f) = env' (if b then t else f)) :
    lazyConditional b (fun _ => member env t) (fun _ => member env f) =
    lazyConditional b (fun _ => member env' t) (fun _ => member env' f) := by
  cases b <;> simp_all [lazyConditional, member]

example : lazyConditional true (fun _ => member (fun p => if p = 0 then .ok "int" else .broken) 0)
    (fun _ => member (fun p => if p = 0 then .ok "int" else .broken) 1) = ⟨some "int", [0]⟩ := by decide

/-! ## Switches -/

theorem member_type (env : Env τ) (p : Nat) : (member env p).type = (env p).type? ∧ (member env p).touched = [p] := by
  unfold member; split <;> rename_i h <;> simp [h, Prov.type?]

/-- Both switches: the first case decides, if it is a `case_` with a usable provider. -/
theorem firstCase_spec (env : Env τ) (c : Case) (rest : Unit → Inst τ) (hc : c.Proper) {t : τ} (ht : env c.provider = .ok t) :
    (firstCase env c rest).type = (if c.cond then some t else (rest ()).type) ∧
    (∀ p, p ∈ (firstCase env c rest).touched ↔ p = c.provider ∨ (c.cond = false ∧ p ∈ (rest ()).touched)) := by
  cases c with
  | other _ _ => exact hc.elim
  | case_ b p =>
    simp only [Case.provider] at ht
    simp only [firstCase, typeProvider, ht, Case.cond, Case.provider]
    cases b <;> simp [lazyConditional, member, ht]

theorem firstCase_bad (env : Env τ) (c : Case) (rest : Unit → Inst τ) (h : (env c.provider).type? = none) :
    (firstCase env c rest).type = none := by
  cases c with
  | other _ _ => rfl
  | case_ b p =>
    simp only [Case.provider] at h
    simp only [firstCase, typeProvider]
    cases hp : env p with
    | ok t => rw [hp] at h; simp [Prov.type?] at h
    | noMember => rfl
    | broken => rfl

/-- **C55 (partial).** `lazy_switch_default`: the first case whose condition holds is selected, whatever the cases after it and the default are;
of the providers only those up to the selected one are looked at. Missing for the full claim: the cases before the selected one must have a
usable `::type` although they are not selected. -/
theorem switch_default_selects_partial {env : Env τ} {dflt : Nat} {before after : List Case} {c : Case}
    (hb : ∀ d ∈ before, d.Proper ∧ d.cond = false ∧ ∃ t, env d.provider = .ok t)
    (hc : c.Proper ∧ c.cond = true) :
    (lazySwitchDefault env dflt (before ++ c :: after)).type = (env c.provider).type? ∧
    (∀ p ∈ (lazySwitchDefault env dflt (before ++ c :: after)).touched, p = c.provider ∨ ∃ d ∈ before, p = d.provider) := by
  induction before with
  | nil =>
    simp only [List.nil_append, lazySwitchDefault]
    obtain ⟨h1, h2⟩ := hc
    cases c with
    | other _ _ => exact h1.elim
    | case_ b p =>
      simp only [Case.cond] at h2
      subst h2
      simp only [firstCase, typeProvider, Case.provider]
      cases hp : env p <;> simp [lazyConditional, member, hp, Prov.type?]
  | cons d ds ih =>
    obtain ⟨d1, d2, t, d3⟩ := hb d (by simp)
    obtain ⟨i1, i2⟩ := ih fun e he => hb e (by simp [he])
    obtain ⟨f1, f2⟩ := firstCase_spec env d (fun _ => lazySwitchDefault env dflt (ds ++ c :: after)) d1 d3
    simp only [List.cons_append, lazySwitchDefault]
    refine ⟨by rw [f1, d2]; simpa using i1, ?_⟩
    intro p hp
    rcases (f2 p).1 hp with rfl | ⟨_, h⟩
    · exact .inr ⟨d, by simp, rfl⟩
    · rcases i2 p h with h | ⟨e, he, h⟩
      · exact .inl h
      · exact .inr ⟨e, by simp [he], h⟩

example : (∀ d ∈ [Case.case_ false 0], d.Proper ∧ d.cond = false ∧ ∃ t, sample d.provider = .ok t) ∧
    lazySwitchDefault sample 7 ([.case_ false 0] ++ .case_ true 1 :: [.case_ true 8]) = ⟨some "double", [0, 1, 1]⟩ := by
  refine ⟨?_, by decide⟩
  intro d hd
  simp at hd
  subst hd
  exact ⟨trivial, rfl, "int", rfl⟩

/-- **C55 (partial).** If no condition holds the default is selected. -/
theorem switch_default_default_partial {env : Env τ} {dflt : Nat} {cases : List Case}
    (hb : ∀ d ∈ cases, d.Proper ∧ d.cond = false ∧ ∃ t, env d.provider = .ok t) :
    (lazySwitchDefault env dflt cases).type = (env dflt).type? ∧
    (∀ p ∈ (lazySwitchDefault env dflt cases).touched, p = dflt ∨ ∃ d ∈ cases, p = d.provider) := by
  induction cases with
  | nil => simp [lazySwitchDefault, member_type]
  | cons d ds ih =>
    obtain ⟨d1, d2, t, d3⟩ := hb d (by simp)
    obtain ⟨i1, i2⟩ := ih fun e he => hb e (by simp [he])
    obtain ⟨f1, f2⟩ := firstCase_spec env d (fun _ => lazySwitchDefault env dflt ds) d1 d3
    simp only [lazySwitchDefault]
    refine ⟨by rw [f1, d2]; simpa using i1, ?_⟩
    intro p hp
    rcases (f2 p).1 hp with rfl | ⟨_, h⟩
    · exact .inr ⟨d, by simp, rfl⟩
    · rcases i2 p h with h | ⟨e, he, h⟩
      · exact .inl h
      · exact .inr ⟨e, by simp [he], h⟩

example : (lazySwitchDefault sample 1 [.case_ false 0]).type = some "double" := by decide

/-- **C55 (partial).** The same for `lazy_switch`. -/
theorem switch_selects_partial {env : Env τ} {before after : List Case} {c : Case}
    (hb : ∀ d ∈ before, d.Proper ∧ d.cond = false ∧ ∃ t, env d.provider = .ok t)
    (hc : c.Proper ∧ c.cond = true) :
    (lazySwitch env (before ++ c :: after)).type = (env c.provider).type? ∧
    (∀ p ∈ (lazySwitch env (before ++ c :: after)).touched, p = c.provider ∨ ∃ d ∈ before, p = d.provider) := by
  induction before with
  | nil =>
    simp only [List.nil_append, lazySwitch]
    obtain ⟨h1, h2⟩ := hc
    cases c with
    | other _ _ => exact h1.elim
    | case_ b p =>
      simp only [Case.cond] at h2
      subst h2
      simp only [firstCase, typeProvider, Case.provider]
      cases hp : env p <;> simp [lazyConditional, member, hp, Prov.type?]
  | cons d ds ih =>
    obtain ⟨d1, d2, t, d3⟩ := hb d (by simp)
    obtain ⟨i1, i2⟩ := ih fun e he => hb e (by simp [he])
    obtain ⟨f1, f2⟩ := firstCase_spec env d (fun _ => lazySwitch env (ds ++ c :: after)) d1 d3
    simp only [List.cons_append, lazySwitch]
    refine ⟨by rw [f1, d2]; simpa using i1, ?_⟩
    intro p hp
    rcases (f2 p).1 hp with rfl | ⟨_, h⟩
    · exact .inr ⟨d, by simp, rfl⟩
    · rcases i2 p h with h | ⟨e, he, h⟩
      · exact .inl h
      · exact .inr ⟨e, by simp [he], h⟩

example : (lazySwitch sample ([.case_ false 0] ++ .case_ true 1 :: [.case_ true 8])).type = some "double" := by decide

/-- **C55.** Without a matching case `lazy_switch` is ill-formed. -/
theorem switch_no_match {env : Env τ} {cases : List Case} (h : ∀ d ∈ cases, d.cond = false) : (lazySwitch env cases).type = none := by
  induction cases with
  | nil => rfl
  | cons d ds ih =>
    simp only [lazySwitch]
    cases hd : (env d.provider).type? with
    | none => exact firstCase_bad env d _ hd
    | some t =>
      have ih := ih fun e he => h e (by simp [he])
      have hc := h d (by simp)
      cases d with
      | other _ _ => rfl
      | case_ b p =>
        simp only [Case.cond] at hc
        subst hc
        have hp : env p = .ok t := by
          simp only [Case.provider] at hd
          cases hp : env p <;> rw [hp] at hd <;> simp [Prov.type?] at hd
          rw [hd]
        rw [(firstCase_spec env (.case_ false p) _ trivial hp).1]
        simpa [Case.cond] using ih

example : (lazySwitch sample [.case_ false 0, .case_ false 1]).type = none := by decide

example : (∀ d ∈ [Case.case_ false 0], d.Proper ∧ d.cond = false ∧ ∃ t, sample d.provider = .ok t) ∧ (Case.case_ true 1).Proper ∧
    lazySwitchDefault sample 7 ([.case_ false 0] ++ .case_ true 1 :: [.case_ true 8, .case_ false 2]) = ⟨some "double", [0, 1, 1]⟩ := by
  refine ⟨?_, trivial, by decide⟩
  intro d hd
  simp at hd
  subst hd
  exact ⟨trivial, rfl, "int", rfl⟩

/-- **C55, refuted**: a broken provider in a case that is not selected makes the switch ill-formed, and one without `::type` does too. Only
cases after the selected one are not looked at. -/
theorem unselected_harmless_refuted :
    (lazySwitchDefault sample 0 [.case_ false 3, .case_ true 1]).type = none ∧
    (lazySwitchDefault sample 0 [.case_ false 2, .case_ true 1]).type = none ∧
    (lazySwitchDefault sample 0 [.case_ false 3]).type = none ∧
    (lazySwitch sample [.case_ false 3, .case_ true 1]).type = none ∧
    (lazySwitchDefault sample 0 [.case_ true 1, .case_ false 3]).type = some "double" := by decide

/-- **C55.** In general: a switch is ill-formed as soon as one case before the selected one has no usable `::type`. -/
theorem unusable_before {env : Env τ} {dflt : Nat} {before after : List Case} {c : Case}
    (hb : ∀ d ∈ before, d.cond = false) (hc : (env c.provider).type? = none) :
    (lazySwitchDefault env dflt (before ++ c :: after)).type = none ∧ (lazySwitch env (before ++ c :: after)).type = none := by
  induction before with
  | nil => exact ⟨firstCase_bad env c _ hc, firstCase_bad env c _ hc⟩
  | cons d ds ih =>
    have ih := ih fun e he => hb e (by simp [he])
    have hcond := hb d (by simp)
    simp only [List.cons_append, lazySwitchDefault, lazySwitch]
    cases hd : (env d.provider).type? with
    | none => exact ⟨firstCase_bad env d _ hd, firstCase_bad env d _ hd⟩
    | some t =>
      cases d with
      | other _ _ => exact ⟨rfl, rfl⟩
      | case_ b p =>
        simp only [Case.cond] at hcond
        subst hcond
        have hp : env p = .ok t := by
          simp only [Case.provider] at hd
          cases hp : env p <;> rw [hp] at hd <;> simp [Prov.type?] at hd
          rw [hd]
        rw [(firstCase_spec env (.case_ false p) _ trivial hp).1, (firstCase_spec env (.case_ false p) _ trivial hp).1]
        simpa [Case.cond] using ih

example : (∀ d ∈ [Case.case_ false 0], d.cond = false) ∧ (sample (Case.case_ false 3).provider).type? = none := by decide

/-- **C55, refuted** for classes which fulfil the concept `lazy_case` but are not `case_`: there is no specialization for them. -/
theorem other_case_refuted : (lazySwitchDefault sample 0 [.other true 1]).type = none ∧ (lazySwitch sample [.other true 1]).type = none := by
  decide

end Verif.LazyCond
