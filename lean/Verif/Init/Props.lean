import Verif.Init.Model
/-!
# Properties of the choice of an alternative (C94)

The specification is the rule of `std::variant` ([variant.ctor], P0608 and P1957): an alternative `X` takes part if `X x[] = {std::forward<S>(s)};` is
well-formed, that is if there is an implicit conversion which is not narrowing; among those, overload resolution for functions taking the alternatives
by value decides.
-/
namespace Verif.Init

/-! ### Specification -/

/-- The values of the types with integral values: `[lo, hi]`. -/
def Ty.bounds : Ty → Option (Int × Int)
  | .bool => some (0, 1)
  | .int w true => some (-(2 ^ (w - 1) : Nat), (2 ^ (w - 1) : Nat) - 1)
  | .int w false => some (0, (2 ^ w : Nat) - 1)
  | _ => none

/-- Narrowing conversions of values that are not constant expressions ([dcl.init.list]/7). -/
def narrowing (s t : Ty) : Bool :=
  match s, t with
  | .flt w, .flt w' => decide (w' < w)
  | .ptr, .bool => true
  | s, t => match s.bounds, t.bounds, s, t with
    | some (l, h), some (l', h'), _, _ => !(decide (l' ≤ l) && decide (h ≤ h'))
    | some _, none, _, .flt _ => true
    | none, some _, .flt _, _ => true
    | _, _, _, _ => false

/-- `X x[] = {std::forward<S>(s)};` is well-formed: there is a conversion, it is not ambiguous, and it does not end with a narrowing conversion. -/
def initializes (env : Env) (s t : Ty) : Bool :=
  match conv env s t with
  | some (.std _) => !narrowing s t
  | some (.user (.conv m k) _) => !((env.convs m)[k]?.any fun q => narrowing q t)
  | some (.user _ _) => true
  | _ => false

/-- The alternative selected by `std::variant<T, U>`. -/
inductive StdChoice where
  | none | ambiguous | one (u : Bool)
  deriving DecidableEq, Repr

/-- The choice of `std::variant`: overload resolution among functions `F(X)`, one for each alternative that takes part. -/
def stdChoose (env : Env) (a : Alts) (s : Ty) : StdChoice :=
  match initializes env s a.T, initializes env s a.U with
  | false, false => .none
  | true, false => .one false
  | false, true => .one true
  | true, true => match conv env s a.T, conv env s a.U with
    | some i, some j => if i.better j then .one false else if j.better i then .one true else .ambiguous
    | _, _ => .none

/-- What `variant2` does, seen in the same way. -/
def chosen (c : Choice) : StdChoice :=
  match c with
  | .none => .none
  | .ambiguous => .ambiguous
  | .one (.alt u) _ => .one u
  | .one .self _ => .none

/-! ### Orders -/

theorem Std.better_irrefl (a : Std) : a.better a = false := by simp [Std.better]

theorem Std.better_asymm {a b : Std} (h : a.better b = true) : b.better a = false := by
  simp [Std.better] at *; omega

theorem Ics.better_irrefl (i : Ics) : i.better i = false := by
  cases i <;> simp [Ics.better, Std.better_irrefl]

theorem Ics.better_asymm {i j : Ics} (h : i.better j = true) : j.better i = false := by
  cases i <;> cases j <;> simp [Ics.better] at * <;> first | exact Std.better_asymm h | (intro _; exact Std.better_asymm h.2)

theorem Cand.better_asymm {c d : Cand} (h : c.better d = true) : d.better c = false := by
  simp only [Cand.better, Bool.or_eq_true, Bool.and_eq_true] at h
  rcases h with h | ⟨⟨⟨h1, h2⟩, h3⟩, h4⟩
  · simp [Cand.better, Ics.better_asymm h, h]
  · have h1' : d.ics.better c.ics = false := by simpa using h1
    have h4' : d.rv = false := by simpa using h4
    simp [Cand.better, h1', h4']

/-- Each overload that can be called is the one for its parameter. -/
theorem mem_cands {env : Env} {a : Alts} {s : Src} {c : Cand} : c ∈ cands env a s ↔
    icsTo env a s c.to = some c.ics ∧ (c.rv = true → ∀ x u, s = .expr x true → c.to = .alt u → related env x (a.get u) = false) := by
  obtain ⟨to, rv, ics⟩ := c
  simp only [cands, List.mem_flatMap]
  constructor
  · rintro ⟨t, ht, hm⟩
    split at hm
    · cases hm
    · rename_i i hi
      rcases List.mem_cons.mp hm with h | h
      · cases h; exact ⟨hi, fun h => by cases h⟩
      · split at h
        · rename_i x u
          split at h
          · cases h
          · rename_i hr
            rw [List.mem_singleton] at h
            cases h
            refine ⟨hi, fun _ x' u' hx hu => ?_⟩
            cases hx; cases hu; simpa using hr
        · rename_i hne
          rw [List.mem_singleton] at h
          cases h
          exact ⟨hi, fun _ x u hx hu => (hne x u hx hu).elim⟩
  · rintro ⟨hi, hr⟩
    refine ⟨to, by rcases to with ⟨_ | _⟩ | _ <;> simp, ?_⟩
    rw [hi]
    dsimp only
    cases rv with
    | false => exact List.mem_cons_self
    | true =>
      refine List.mem_cons_of_mem _ ?_
      split
      · rename_i x u
        rw [if_neg]
        · exact List.mem_singleton.mpr rfl
        · simp [hr rfl x u rfl rfl]
      · exact List.mem_singleton.mpr rfl

theorem cand_unique {env : Env} {a : Alts} {s : Src} {c d : Cand} (hc : c ∈ cands env a s) (hd : d ∈ cands env a s) (ht : d.to = c.to)
    (hr : d.rv = c.rv) : d = c := by
  have h1 := (mem_cands.mp hc).1
  have h2 := (mem_cands.mp hd).1
  rw [ht, h1] at h2
  cases c; cases d; simp_all

/-- A candidate better than all others is chosen. -/
theorem choose_best {env : Env} {a : Alts} {s : Src} {c : Cand} (hc : c ∈ cands env a s) (hi : c.ics ≠ .ambiguous)
    (hb : ∀ d ∈ cands env a s, (d.to = c.to ∧ d.rv = c.rv) ∨ c.better d = true) : choose env a s = .one c.to c.rv := by
  unfold choose
  have hne : cands env a s ≠ [] := List.ne_nil_of_mem hc
  have hmem : c ∈ (cands env a s).filter fun c => (cands env a s).all fun d => decide (d.to = c.to ∧ d.rv = c.rv) || c.better d := by
    rw [List.mem_filter]
    refine ⟨hc, ?_⟩
    rw [List.all_eq_true]
    intro d hd
    rcases hb d hd with h | h <;> simp [h]
  dsimp only
  rw [if_neg hne]
  split
  · rename_i c' l heq
    have hc' : c' ∈ (cands env a s).filter fun c => (cands env a s).all fun d => decide (d.to = c.to ∧ d.rv = c.rv) || c.better d := by
      rw [heq]; exact List.mem_cons_self
    rw [List.mem_filter, List.all_eq_true] at hc'
    have h1 := hc'.2 c hc
    have he : c' = c := by
      rcases hb c' hc'.1 with h2 | h2
      · exact cand_unique hc hc'.1 h2.1 h2.2
      · have h3 := Cand.better_asymm h2
        simp only [h3, Bool.or_false, decide_eq_true_eq] at h1
        exact cand_unique hc hc'.1 h1.1.symm h1.2.symm
    rw [he, if_neg hi]
  · rename_i heq; rw [heq] at hmem; cases hmem

/-- If something can be called but nothing is better than all others, the call is ambiguous; so it is if the conversion is. -/
theorem choose_ambiguous {env : Env} {a : Alts} {s : Src} (hne : cands env a s ≠ [])
    (hb : ∀ c ∈ cands env a s, c.ics = .ambiguous ∨ ∃ d ∈ cands env a s, (d.to ≠ c.to ∨ d.rv ≠ c.rv) ∧ c.better d = false) :
    choose env a s = .ambiguous := by
  unfold choose
  dsimp only
  rw [if_neg hne]
  split
  · rename_i c l heq
    have hc : c ∈ (cands env a s).filter fun c => (cands env a s).all fun d => decide (d.to = c.to ∧ d.rv = c.rv) || c.better d := by
      rw [heq]; exact List.mem_cons_self
    rw [List.mem_filter, List.all_eq_true] at hc
    rcases hb c hc.1 with h | ⟨d, hd, hn, hbd⟩
    · rw [if_pos h]
    · have := hc.2 d hd
      simp only [hbd, Bool.or_false, decide_eq_true_eq] at this
      rcases hn with hn | hn
      · exact absurd this.1 hn
      · exact absurd this.2 hn
  · rfl

theorem choose_none {env : Env} {a : Alts} {s : Src} (h : cands env a s = []) : choose env a s = .none := by
  unfold choose; simp [h]

theorem cands_nil {env : Env} {a : Alts} {s : Src} : cands env a s = [] ↔ ∀ t, icsTo env a s t = none := by
  constructor
  · intro h t
    cases ht : icsTo env a s t with
    | none => rfl
    | some i =>
      have : (⟨t, false, i⟩ : Cand) ∈ cands env a s := mem_cands.mpr ⟨ht, fun h => by cases h⟩
      rw [h] at this; cases this
  · intro h
    rw [List.eq_nil_iff_forall_not_mem]
    intro c hc
    have := (mem_cands.mp hc).1
    rw [h] at this; cases this

/-! ### Reduction to two by-value candidates -/

/-- Whether the overload with `X &&` is called. -/
def byMove (env : Env) (s : Ty) (lv : Bool) (t : Ty) : Bool := !(lv && related env s t)

theorem stdConv_exact {env : Env} {s t : Ty} {c : Std} (h : stdConv env s t = some c) (hr : c.rank = 0) : s = t := by
  unfold stdConv at h
  split at h
  · assumption
  · split at h <;> (try split at h) <;> cases h <;> simp at hr

theorem self_ics {env : Env} {a : Alts} {s : Ty} {lv : Bool} {i : Ics} (h : icsTo env a (.expr s lv) .self = some i) :
    (∀ c, i ≠ .std c) ∧ ((∃ c, stdConv env s a.T = some c) ∨ ∃ c, stdConv env s a.U = some c) := by
  simp only [icsTo] at h
  split at h
  · cases h
  · rename_i c h1 h2; cases h; exact ⟨fun _ => Ics.noConfusion, .inl ⟨c, h1⟩⟩
  · rename_i c h1 h2; cases h; exact ⟨fun _ => Ics.noConfusion, .inr ⟨c, h2⟩⟩
  · rename_i c d h1 h2
    cases h
    refine ⟨fun e h => ?_, .inl ⟨c, h1⟩⟩
    split at h
    · cases h
    · split at h <;> cases h

/-- Two standard conversions to different types are equally good only if both make a new object. -/
theorem tie_unrelated {env : Env} {s t u : Ty} (hne : t ≠ u) {c d : Std} (hc : stdConv env s t = some c) (hd : stdConv env s u = some d)
    (h1 : c.better d = false) (h2 : d.better c = false) : related env s t = false := by
  have hcd : c = d := by
    obtain ⟨r, e⟩ := c; obtain ⟨r', e'⟩ := d
    simp [Std.better] at h1 h2
    have : r = r' := by omega
    subst this
    have : e = e' := by have := h1.2 rfl; have := h2.2 rfl; omega
    subst this; rfl
  subst hcd
  unfold related
  rw [Bool.or_eq_false_iff]
  constructor
  · simp only [decide_eq_false_iff_not]
    intro h
    subst h
    have hr : c.rank = 0 := by
      unfold stdConv at hc; simp at hc; subst hc; rfl
    exact hne (stdConv_exact hd hr)
  · split
    · rename_i d' b
      simp only [decide_eq_false_iff_not]
      intro hm
      have hne1 : Ty.cls d' ≠ Ty.cls b := by
        intro h
        cases h
        have hr : c.rank = 0 := by unfold stdConv at hc; simp at hc; subst hc; rfl
        exact hne (stdConv_exact hd hr)
      have hcv : c = ⟨2, (env.bases d').idxOf b⟩ := by
        unfold stdConv at hc; rw [if_neg hne1] at hc; simp [hm] at hc; exact hc.symm
      cases u with
      | cls b' =>
        have hne2 : Ty.cls d' ≠ Ty.cls b' := by
          intro h
          have hr : c.rank = 0 := by unfold stdConv at hd; rw [if_pos h] at hd; cases hd; rfl
          rw [hcv] at hr; cases hr
        unfold stdConv at hd
        rw [if_neg hne2] at hd
        simp only at hd
        split at hd
        · rename_i hm'
          rw [hcv] at hd
          simp at hd
          have h3 : (env.bases d')[(env.bases d').idxOf b]? = some b := by
            rw [List.getElem?_eq_getElem (List.idxOf_lt_length_of_mem hm)]; simp
          have h4 : (env.bases d')[(env.bases d').idxOf b']? = some b' := by
            rw [List.getElem?_eq_getElem (List.idxOf_lt_length_of_mem hm')]; simp
          rw [hd, h3] at h4
          cases h4; exact hne rfl
        · cases hd
      | _ => simp [stdConv] at hd
    · rfl

theorem conv_std {env : Env} {s t : Ty} {c : Std} (h : stdConv env s t = some c) : conv env s t = some (.std c) := by simp [conv, h]

theorem std_of_conv {env : Env} {s t : Ty} {c : Std} (h : conv env s t = some (.std c)) : stdConv env s t = some c := by
  unfold conv at h
  split at h
  · rename_i d hd; cases h; exact hd
  · unfold bestUser at h
    split at h
    · cases h
    · split at h <;> cases h

/-- What `choose` does for values, in terms of the conversions to the two alternatives. -/
def outcome (env : Env) (a : Alts) (s : Ty) (lv : Bool) : Choice :=
  match conv env s a.T, conv env s a.U with
  | none, none => .none
  | some i, none => if i = .ambiguous then .ambiguous else .one (.alt false) (byMove env s lv a.T)
  | none, some j => if j = .ambiguous then .ambiguous else .one (.alt true) (byMove env s lv a.U)
  | some i, some j => if i.better j then .one (.alt false) (byMove env s lv a.T)
    else if j.better i then .one (.alt true) (byMove env s lv a.U) else .ambiguous

/-- The winner among the alternatives wins against all overloads. -/
theorem choose_alt {env : Env} {a : Alts} {s : Ty} {lv : Bool} (u : Bool) {i : Ics} (hi : conv env s (a.get u) = some i) (hamb : i ≠ .ambiguous)
    (hj : ∀ j, conv env s (a.get (!u)) = some j → i.better j = true) :
    choose env a (.expr s lv) = .one (.alt u) (byMove env s lv (a.get u)) := by
  have hc : (⟨.alt u, byMove env s lv (a.get u), i⟩ : Cand) ∈ cands env a (.expr s lv) := by
    rw [mem_cands]
    refine ⟨hi, fun h x v hx hv => ?_⟩
    cases hx; cases hv
    simpa [byMove] using h
  refine choose_best hc hamb fun d hd => ?_
  obtain ⟨hd1, hd2⟩ := mem_cands.mp hd
  obtain ⟨to, rv, k⟩ := d
  cases to with
  | alt v =>
    by_cases hv : v = u
    · subst hv
      rw [show icsTo env a (.expr s lv) (.alt v) = conv env s (a.get v) from rfl, hi] at hd1
      cases hd1
      cases hm : byMove env s lv (a.get v) with
      | true =>
        cases rv with
        | true => exact .inl ⟨rfl, rfl⟩
        | false => refine .inr ?_; cases k <;> simp_all [Cand.better, Ics.better_irrefl, Ics.comparable]
      | false =>
        cases rv with
        | false => exact .inl ⟨rfl, rfl⟩
        | true =>
          exfalso
          simp [byMove] at hm
          have := hd2 rfl s v (by rw [hm.1]) rfl
          rw [hm.2] at this; cases this
    · have : v = !u := by cases u <;> cases v <;> simp_all
      subst this
      exact .inr (by simp [Cand.better, hj k hd1])
  | self =>
    refine .inr ?_
    obtain ⟨h1, h2⟩ := self_ics hd1
    have hstd : ∃ c, i = .std c := by
      have hor : (∃ c, stdConv env s (a.get u) = some c) ∨ ∃ c, stdConv env s (a.get (!u)) = some c := by
        cases u
        · exact h2
        · exact h2.symm
      rcases hor with ⟨c, hc⟩ | ⟨c, hc⟩
      · rw [conv_std hc] at hi; cases hi; exact ⟨c, rfl⟩
      · have := hj _ (conv_std hc)
        cases i with
        | std c => exact ⟨c, rfl⟩
        | user f c => simp [Ics.better] at this
        | ambiguous => exact absurd rfl hamb
    obtain ⟨c, rfl⟩ := hstd
    cases k with
    | std d => exact absurd rfl (h1 d)
    | user f d => simp [Cand.better, Ics.better]
    | ambiguous => simp [Cand.better, Ics.better]

theorem related_std {env : Env} {s t : Ty} (h : related env s t = true) : ∃ c, stdConv env s t = some c := by
  unfold related at h
  rw [Bool.or_eq_true] at h
  by_cases he : s = t
  · exact ⟨⟨0, 0⟩, by simp [stdConv, he]⟩
  · rcases h with h | h
    · exact absurd (by simpa using h) he
    · split at h
      · rename_i d b
        exact ⟨_, by unfold stdConv; rw [if_neg he]; simp only; rw [if_pos (by simpa using h)]⟩
      · cases h

/-- If neither conversion is better, an overload with an rvalue reference can be called for either alternative. -/
theorem tie_related {env : Env} {s t u : Ty} (hne : t ≠ u) {i j : Ics} (hi : conv env s t = some i) (hj : conv env s u = some j)
    (h1 : i.better j = false) (h2 : j.better i = false) : related env s t = false := by
  cases hr : related env s t with
  | false => rfl
  | true =>
    obtain ⟨c, hc⟩ := related_std hr
    rw [conv_std hc] at hi
    cases hi
    cases j with
    | std d => rw [← hr]; exact tie_unrelated hne hc (std_of_conv hj) h1 h2
    | user f d => simp [Ics.better] at h1
    | ambiguous => simp [Ics.better] at h1

theorem tie_ambiguous {env : Env} {a : Alts} {s : Ty} {lv : Bool} (hne : a.T ≠ a.U) {i j : Ics} (hi : conv env s a.T = some i)
    (hj : conv env s a.U = some j) (h1 : i.better j = false) (h2 : j.better i = false) : choose env a (.expr s lv) = .ambiguous := by
  have hT : ∀ b, (⟨.alt false, b, i⟩ : Cand) ∈ cands env a (.expr s lv) := fun b => by
    rw [mem_cands]
    refine ⟨hi, fun _ x v hx hv => ?_⟩
    cases hx; cases hv
    exact tie_related hne hi hj h1 h2
  have hU : ∀ b, (⟨.alt true, b, j⟩ : Cand) ∈ cands env a (.expr s lv) := fun b => by
    rw [mem_cands]
    refine ⟨hj, fun _ x v hx hv => ?_⟩
    cases hx; cases hv
    exact tie_related (Ne.symm hne) hj hi h2 h1
  refine choose_ambiguous (List.ne_nil_of_mem (hT true)) fun c hc => .inr ?_
  obtain ⟨to, rv, k⟩ := c
  have hk := (mem_cands.mp hc).1
  rcases to with ⟨_ | _⟩ | _
  · have : k = i := by
      have : conv env s a.T = some k := hk
      rw [hi] at this; cases this; rfl
    subst this
    exact ⟨_, hU true, .inl (by simp), by simp [Cand.better, h1]⟩
  · have : k = j := by
      have : conv env s a.U = some k := hk
      rw [hj] at this; cases this; rfl
    subst this
    exact ⟨_, hT true, .inl (by simp), by simp [Cand.better, h2]⟩
  · refine ⟨_, hT true, .inl (by simp), ?_⟩
    obtain ⟨hs1, hs2⟩ := self_ics hk
    have hstd : ∃ c, i = .std c := by
      rcases hs2 with ⟨c, hc⟩ | ⟨c, hc⟩
      · rw [conv_std hc] at hi; cases hi; exact ⟨c, rfl⟩
      · rw [conv_std hc] at hj; cases hj
        cases i with
        | std d => exact ⟨d, rfl⟩
        | user f d => simp [Ics.better] at h2
        | ambiguous => simp [Ics.better] at h2
    obtain ⟨c, rfl⟩ := hstd
    cases k with
    | std d => exact absurd rfl (hs1 d)
    | user f d => simp [Cand.better, Ics.better]
    | ambiguous => simp [Cand.better, Ics.better]

theorem only_ambiguous {env : Env} {a : Alts} {s : Ty} {lv : Bool} (u : Bool) (hi : conv env s (a.get u) = some .ambiguous)
    (hj : conv env s (a.get (!u)) = none) : choose env a (.expr s lv) = .ambiguous := by
  have hc : (⟨.alt u, false, .ambiguous⟩ : Cand) ∈ cands env a (.expr s lv) := mem_cands.mpr ⟨hi, fun h => by cases h⟩
  refine choose_ambiguous (List.ne_nil_of_mem hc) fun c hc => .inl ?_
  obtain ⟨to, rv, k⟩ := c
  have hk := (mem_cands.mp hc).1
  cases to with
  | alt v =>
    have hk : conv env s (a.get v) = some k := hk
    by_cases hv : v = u
    · subst hv; rw [hi] at hk; cases hk; rfl
    · have : v = !u := by cases u <;> cases v <;> simp_all
      subst this
      rw [hj] at hk; cases hk
  | self =>
    exfalso
    have h2 := (self_ics hk).2
    have hor : (∃ c, stdConv env s (a.get u) = some c) ∨ ∃ c, stdConv env s (a.get (!u)) = some c := by
      cases u
      · exact h2
      · exact h2.symm
    rcases hor with ⟨c, hc⟩ | ⟨c, hc⟩
    · rw [conv_std hc] at hi; cases hi
    · rw [conv_std hc] at hj; cases hj

theorem better_ne_ambiguous {i j : Ics} (h : i.better j = true) : i ≠ .ambiguous := by
  intro he; subst he; cases j <;> simp [Ics.better] at h

theorem choose_expr {env : Env} {a : Alts} {s : Ty} {lv : Bool} (hne : a.T ≠ a.U) : choose env a (.expr s lv) = outcome env a s lv := by
  unfold outcome
  split
  · rename_i h1 h2
    refine choose_none (cands_nil.mpr fun t => ?_)
    rcases t with ⟨_ | _⟩ | _
    · exact h1
    · exact h2
    · cases h : icsTo env a (.expr s lv) .self with
      | none => rfl
      | some i =>
        rcases (self_ics h).2 with ⟨c, hc⟩ | ⟨c, hc⟩
        · rw [conv_std hc] at h1; cases h1
        · rw [conv_std hc] at h2; cases h2
  · rename_i i hT hU
    split
    · rename_i h; subst h; exact only_ambiguous false hT hU
    · rename_i h; exact choose_alt false hT h fun j hj => by rw [show a.get (!false) = a.U from rfl, hU] at hj; cases hj
  · rename_i i hT hU
    split
    · rename_i h; subst h; exact only_ambiguous true hU hT
    · rename_i h; exact choose_alt true hU h fun j hj => by rw [show a.get (!true) = a.T from rfl, hT] at hj; cases hj
  · rename_i i j hT hU
    split
    · rename_i h
      exact choose_alt false hT (better_ne_ambiguous h) fun k hk => by rw [show a.get (!false) = a.U from rfl, hU] at hk; cases hk; exact h
    · rename_i h1
      split
      · rename_i h
        exact choose_alt true hU (better_ne_ambiguous h) fun k hk => by rw [show a.get (!true) = a.T from rfl, hT] at hk; cases hk; exact h
      · rename_i h2
        exact tie_ambiguous hne hT hU (by simpa using h1) (by simpa using h2)

/-! ### The properties -/

theorem narrowing_self (s : Ty) : narrowing s s = false := by
  cases s with
  | int w sg => cases sg <;> simp [narrowing, Ty.bounds]
  | _ => simp [narrowing, Ty.bounds]

theorem conv_self (env : Env) (s : Ty) : conv env s s = some (.std ⟨0, 0⟩) := conv_std (by simp [stdConv])

theorem exact_better {env : Env} {s t : Ty} (hne : s ≠ t) {j : Ics} (hj : conv env s t = some j) : (Ics.std ⟨0, 0⟩).better j = true := by
  cases j with
  | std c =>
    have hr : c.rank ≠ 0 := fun h => hne (stdConv_exact (std_of_conv hj) h)
    simp [Ics.better, Std.better]; omega
  | user f c => rfl
  | ambiguous => rfl

theorem get_ne {a : Alts} (hne : a.T ≠ a.U) (u : Bool) : a.get u ≠ a.get (!u) := by
  cases u
  · exact hne
  · exact Ne.symm hne

theorem initializes_conv {env : Env} {s t : Ty} (h : initializes env s t = true) : ∃ i, conv env s t = some i ∧ i ≠ .ambiguous := by
  unfold initializes at h
  split at h <;> first | cases h | skip
  all_goals rename_i hc; exact ⟨_, hc, by simp⟩

/-- **C94.** A value of the type of an alternative always goes to that alternative, both when constructing and when assigning, and whatever conversions
exist between the alternatives; it is copied from an lvalue and moved from an rvalue. `std::variant` makes the same choice. -/
theorem exact_type (env : Env) (a : Alts) (hne : a.T ≠ a.U) (u lv : Bool) :
    choose env a (.expr (a.get u) lv) = .one (.alt u) (!lv) ∧ stdChoose env a (a.get u) = .one u := by
  refine ⟨?_, ?_⟩
  · rw [choose_alt u (conv_self env _) (by simp) fun j hj => exact_better (get_ne hne u) hj]
    simp [byMove, related]
  · have hi : initializes env (a.get u) (a.get u) = true := by simp [initializes, conv_self, narrowing_self]
    have hb := fun j hj => exact_better (get_ne hne u) (j := j) (env := env) hj
    have hc := conv_self env (a.get u)
    cases u
    · simp only [Alts.get, Bool.not_false] at *
      unfold stdChoose
      rw [hi]
      cases hU : initializes env a.T a.U with
      | false => rfl
      | true =>
        obtain ⟨j, hj, _⟩ := initializes_conv hU
        simp [hc, hj, hb j hj]
    · simp only [Alts.get, Bool.not_true] at *
      unfold stdChoose
      rw [hi]
      cases hU : initializes env a.U a.T with
      | false => rfl
      | true =>
        obtain ⟨j, hj, _⟩ := initializes_conv hU
        simp [hc, hj, hb j hj, Ics.better_asymm (hb j hj)]

example : (⟨.int32, .cls 0⟩ : Alts).T ≠ (⟨.int32, .cls 0⟩ : Alts).U := by simp

/-- **C94.** What `variant2` does with a value, compared with `std::variant`: a value that no alternative takes is rejected by both. A value that goes to
an alternative goes to the same one in `std::variant` if it initializes it without narrowing, otherwise to the other one or nowhere. Where `variant2` is
ambiguous, `std::variant` is only if both alternatives can be initialized without narrowing, otherwise it uses the only one that can, if any. -/
theorem same_choice_partial (env : Env) (a : Alts) (hne : a.T ≠ a.U) (s : Ty) (lv : Bool) :
    (choose env a (.expr s lv) = .none ∧ stdChoose env a s = .none) ∨
    (∃ u m, choose env a (.expr s lv) = .one (.alt u) m ∧ initializes env s (a.get u) = true ∧ stdChoose env a s = .one u) ∨
    (∃ u m, choose env a (.expr s lv) = .one (.alt u) m ∧ initializes env s (a.get u) = false ∧
      stdChoose env a s = if initializes env s (a.get (!u)) then .one (!u) else .none) ∨
    (choose env a (.expr s lv) = .ambiguous ∧
      (stdChoose env a s = .ambiguous ↔ ∀ u, initializes env s (a.get u) = true) ∧
      (∀ u, stdChoose env a s = .one u ↔ initializes env s (a.get u) = true ∧ initializes env s (a.get (!u)) = false)) := by
  rw [choose_expr hne]
  have hT : initializes env s a.T = true → ∃ i, conv env s a.T = some i ∧ i ≠ .ambiguous := initializes_conv
  have hU : initializes env s a.U = true → ∃ i, conv env s a.U = some i ∧ i ≠ .ambiguous := initializes_conv
  unfold outcome
  split
  · rename_i h1 h2
    refine .inl ⟨rfl, ?_⟩
    have h3 : initializes env s a.T = false := by simp [initializes, h1]
    have h4 : initializes env s a.U = false := by simp [initializes, h2]
    simp [stdChoose, h3, h4]
  · rename_i i h1 h2
    have h4 : initializes env s a.U = false := by simp [initializes, h2]
    split
    · rename_i hi
      subst hi
      have h3 : initializes env s a.T = false := by simp [initializes, h1]
      refine .inr (.inr (.inr ⟨rfl, ?_, fun u => ?_⟩))
      · simp [stdChoose, h3, h4, Alts.get]
      · cases u <;> simp [stdChoose, h3, h4, Alts.get]
    · cases h3 : initializes env s a.T with
      | true => exact .inr (.inl ⟨false, _, rfl, h3, by simp [stdChoose, h3, h4]⟩)
      | false => exact .inr (.inr (.inl ⟨false, _, rfl, h3, by simp [stdChoose, h3, h4, Alts.get]⟩))
  · rename_i i h1 h2
    have h4 : initializes env s a.T = false := by simp [initializes, h1]
    split
    · rename_i hi
      subst hi
      have h3 : initializes env s a.U = false := by simp [initializes, h2]
      refine .inr (.inr (.inr ⟨rfl, ?_, fun u => ?_⟩))
      · simp [stdChoose, h3, h4, Alts.get]
      · cases u <;> simp [stdChoose, h3, h4, Alts.get]
    · cases h3 : initializes env s a.U with
      | true => exact .inr (.inl ⟨true, _, rfl, h3, by simp [stdChoose, h3, h4]⟩)
      | false => exact .inr (.inr (.inl ⟨true, _, rfl, h3, by simp [stdChoose, h3, h4, Alts.get]⟩))
  · rename_i i j h1 h2
    split
    · rename_i hb
      cases h3 : initializes env s a.T with
      | true =>
        refine .inr (.inl ⟨false, _, rfl, h3, ?_⟩)
        cases h4 : initializes env s a.U <;> simp [stdChoose, h3, h4, h1, h2, hb]
      | false =>
        refine .inr (.inr (.inl ⟨false, _, rfl, h3, ?_⟩))
        cases h4 : initializes env s a.U <;> simp [stdChoose, h3, h4, Alts.get]
    · rename_i hb'
      split
      · rename_i hb
        cases h3 : initializes env s a.U with
        | true =>
          refine .inr (.inl ⟨true, _, rfl, h3, ?_⟩)
          cases h4 : initializes env s a.T <;> simp [stdChoose, h3, h4, h1, h2, hb, hb']
        | false =>
          refine .inr (.inr (.inl ⟨true, _, rfl, h3, ?_⟩))
          cases h4 : initializes env s a.T <;> simp [stdChoose, h3, h4, Alts.get]
      · rename_i hb
        refine .inr (.inr (.inr ⟨rfl, ?_, fun u => ?_⟩))
        · cases h3 : initializes env s a.T <;> cases h4 : initializes env s a.U <;> simp [stdChoose, h3, h4, Alts.get, h1, h2, hb, hb']
        · cases h3 : initializes env s a.T <;> cases h4 : initializes env s a.U <;> cases u <;>
            simp [stdChoose, h3, h4, Alts.get, h1, h2, hb, hb']

theorem related_iff {env : Env} {s t : Ty} : related env s t = true ↔ (s = t ∨ ∃ d b, s = .cls d ∧ t = .cls b ∧ b ∈ env.bases d) := by
  unfold related
  rw [Bool.or_eq_true, decide_eq_true_eq]
  refine or_congr Iff.rfl ?_
  split
  · rename_i d b
    simp
  · rename_i hn
    refine ⟨fun h => absurd h (by simp), ?_⟩
    rintro ⟨d, b, rfl, rfl, _⟩
    exact (hn d b rfl rfl).elim

/-- **C94.** A value is moved from only if it is an rvalue: for an lvalue whose type is an alternative, or derived from one, the overload that moves is never
called; for other lvalues it moves from a temporary made by the conversion. -/
theorem lvalue_not_moved (env : Env) (a : Alts) (hne : a.T ≠ a.U) (s : Ty) (lv u m : Bool) (h : choose env a (.expr s lv) = .one (.alt u) m) :
    m = false ↔ lv = true ∧ (s = a.get u ∨ ∃ d b, s = .cls d ∧ a.get u = .cls b ∧ b ∈ env.bases d) := by
  have hm : m = byMove env s lv (a.get u) := by
    rw [choose_expr hne] at h
    unfold outcome at h
    split at h
    · cases h
    · split at h
      · cases h
      · cases h; rfl
    · split at h
      · cases h
      · cases h; rfl
    · split at h
      · cases h; rfl
      · split at h
        · cases h; rfl
        · cases h
  subst hm
  rw [← related_iff]
  cases lv <;> simp [byMove]

/-- A `std::string` (class 0, made from a pointer) and a class 1 that is made from an `int`. -/
def lib : Env where
  bases := fun _ => []
  ctors := fun n => if n = 0 then [.ptr] else if n = 1 then [.int32] else []
  convs := fun _ => []
  dflt := fun n => decide (n = 0)

example : choose lib ⟨.int32, .cls 0⟩ (.expr .int32 true) ≠ .ambiguous := by
  rcases same_choice_partial lib ⟨.int32, .cls 0⟩ (by simp) .int32 true with ⟨h, -⟩ | ⟨u, m, h, -⟩ | ⟨u, m, h, -⟩ | ⟨h, -⟩
  · rw [h]; simp
  · rw [h]; simp
  · rw [h]; simp
  · exact absurd h (by decide)
example : choose lib ⟨.int32, .cls 0⟩ (.expr .ptr true) = .one (.alt true) true := by decide

/-- **C94, refuted.** `variant2` is not a drop-in replacement: a string literal given to a `variant2<std::string, bool>` becomes `true`, `3.7` given to a
`variant2<int, std::string>` is accepted and loses its fraction, an `int` given to a `variant2<double, C>`, where `C` is made from integers, becomes a
`double`, and for a `variant2<long, double>` an `int` is rejected as ambiguous; `std::variant` selects the string, rejects the value, selects `C` and
selects `long`. -/
theorem same_choice_refuted :
    (choose lib ⟨.cls 0, .bool⟩ (.expr .ptr true) = .one (.alt true) true ∧ stdChoose lib ⟨.cls 0, .bool⟩ .ptr = .one false) ∧
    (choose lib ⟨.int32, .cls 0⟩ (.expr (.flt 64) false) = .one (.alt false) true ∧ stdChoose lib ⟨.int32, .cls 0⟩ (.flt 64) = .none) ∧
    (choose lib ⟨.flt 64, .cls 1⟩ (.expr .int32 false) = .one (.alt false) true ∧ stdChoose lib ⟨.flt 64, .cls 1⟩ .int32 = .one true) ∧
    (choose lib ⟨.int 64 true, .flt 64⟩ (.expr .int32 false) = .ambiguous ∧ stdChoose lib ⟨.int 64 true, .flt 64⟩ .int32 = .one false) := by
  decide

/-- The integral and floating point promotions. -/
def Ty.promoted : Ty → Option Ty
  | .bool => some .int32
  | .int w _ => if w < 32 then some .int32 else none
  | .flt w => if w = 32 then some (.flt 64) else none
  | _ => none

/-- The arithmetic types. -/
def Ty.arithmetic : Ty → Bool
  | .bool => true
  | .int _ _ => true
  | .flt _ => true
  | _ => false

theorem stdConv_arith {env : Env} {s t : Ty} (hs : s.arithmetic = true) (ht : t.arithmetic = true) (hne : s ≠ t) :
    stdConv env s t = some (if s.promoted = some t then ⟨1, 0⟩ else ⟨2, 0⟩) := by
  unfold stdConv
  rw [if_neg hne]
  cases s <;> cases t <;> simp [Ty.arithmetic] at hs ht <;> simp [Ty.promoted]
  · exact absurd rfl hne
  · rename_i w sg
    by_cases h1 : w = 32 <;> cases sg <;> simp [h1, @eq_comm _ 32 w]
  · rename_i w sg w' sg'
    by_cases h1 : w < 32 <;> by_cases h2 : w' = 32 <;> cases sg' <;> simp [h1, h2, @eq_comm _ 32 w']
  · rename_i w w'
    by_cases h1 : w = 32 <;> by_cases h2 : w' = 64 <;> simp [h1, h2, Ne.symm]

/-- **C94.** Between arithmetic alternatives of other types than the value, the one that the value is promoted to is selected; in all other cases the
program is ill-formed, even if only one of the alternatives can represent the value. -/
theorem arithmetic_choice (env : Env) (a : Alts) (hne : a.T ≠ a.U) (s : Ty) (lv : Bool) (hs : s.arithmetic = true) (hT : a.T.arithmetic = true)
    (hU : a.U.arithmetic = true) (h1 : s ≠ a.T) (h2 : s ≠ a.U) : choose env a (.expr s lv) =
      if s.promoted = some a.T then .one (.alt false) true else if s.promoted = some a.U then .one (.alt true) true else .ambiguous := by
  have hr : ∀ t : Ty, t.arithmetic = true → s ≠ t → byMove env s lv t = true := by
    intro t ht hn
    have : related env s t = false := by
      cases hr : related env s t with
      | false => rfl
      | true =>
        rcases related_iff.mp hr with h | ⟨d, b, rfl, rfl, _⟩
        · exact absurd h hn
        · simp [Ty.arithmetic] at hs
    simp [byMove, this]
  rw [choose_expr hne]
  simp only [outcome, conv_std (stdConv_arith hs hT h1), conv_std (stdConv_arith hs hU h2), hr _ hT h1, hr _ hU h2]
  by_cases p1 : s.promoted = some a.T
  · have p2 : s.promoted ≠ some a.U := fun h => hne (Option.some.inj (p1.symm.trans h))
    simp [p1, Ics.better, Std.better, hne]
  · by_cases p2 : s.promoted = some a.U
    · simp [p2, Ics.better, Std.better, Ne.symm hne]
    · simp [p1, p2, Ics.better, Std.better]

example : choose ⟨fun _ => [], fun _ => [], fun _ => [], fun _ => false⟩ ⟨.int32, .flt 64⟩ (.expr (.flt 32) true) = .one (.alt true) true := by decide

/-- `true` for classes. -/
def Ty.isClass : Ty → Bool
  | .cls _ => true
  | _ => false

/-- The type can be made from nothing. -/
def Ty.dflt (env : Env) : Ty → Bool
  | .cls n => env.dflt n
  | _ => true

/-- **C94.** `v = {}` assigns to the only alternative that is not a class, whichever it is; if neither or both are classes it is ambiguous, unless
neither can be made from nothing, when the variant is assigned as a whole. -/
theorem assign_braces (env : Env) (a : Alts) (hne : a.T ≠ a.U) : choose env a .braces =
    if a.T.isClass && a.U.isClass then (if a.T.dflt env || a.U.dflt env then .ambiguous else .one .self true)
    else if a.T.isClass then .one (.alt true) true
    else if a.U.isClass then .one (.alt false) true
    else .ambiguous := by
  have key : ∀ u, (∃ n, a.get u = .cls n ∧ (a.get u).isClass = true ∧ (a.get u).dflt env = env.dflt n ∧
        icsTo env a .braces (.alt u) = if env.dflt n then some (.user (.dflt n) ⟨0, 0⟩) else none) ∨
      ((a.get u).isClass = false ∧ icsTo env a .braces (.alt u) = some (.std ⟨0, 0⟩)) := by
    intro u
    cases h : a.get u with
    | cls n => exact .inl ⟨n, rfl, rfl, rfl, by simp [icsTo, h]⟩
    | _ => exact .inr ⟨rfl, by simp [icsTo, h]⟩
  have hS : icsTo env a .braces .self = some (.user .selfDflt ⟨0, 0⟩) := rfl
  rcases key false with ⟨n, hn, h1, h2, h3⟩ | ⟨h1, h3⟩ <;> rcases key true with ⟨m, hm, h4, h5, h6⟩ | ⟨h4, h6⟩ <;>
    simp only [Alts.get] at * <;> unfold choose cands <;> simp only [List.flatMap_cons, List.flatMap_nil, h3, h6, hS]
  · have hnm : n ≠ m := by rintro rfl; exact hne (hn.trans hm.symm)
    rw [h1, h4, h2, h5]
    cases env.dflt n <;> cases env.dflt m <;>
      simp [Cand.better, Ics.better, Ics.comparable, Std.better, hnm, Ne.symm hnm]
  · rw [h1, h4]
    cases env.dflt n <;> simp [Cand.better, Ics.better, Ics.comparable, Std.better]
  · rw [h1, h4]
    cases env.dflt m <;> simp [Cand.better, Ics.better, Ics.comparable, Std.better]
  · rw [h1, h4]
    simp [Cand.better, Ics.better, Ics.comparable, Std.better]

example : choose lib ⟨.int32, .cls 0⟩ .braces = .one (.alt false) true := (assign_braces lib ⟨.int32, .cls 0⟩ (by simp)).trans (by decide)

/-- **C94, refuted.** For a `variant2<std::string, int>` the assignment `v = {}` selects `int`, while the default constructor and `std::variant` select the
first alternative. -/
theorem assign_braces_refuted : choose lib ⟨.cls 0, .int32⟩ .braces = .one (.alt true) true := by decide

/-! ### Conversions to classes -/

theorem mem_ctors {env : Env} {s : Ty} {n : Nat} {c : UConv} (hs : ∀ m, s ≠ .cls m) : c ∈ userConvs env s (.cls n) ↔
    ∃ (k : Nat) (p : Ty) (d : Std), (env.ctors n)[k]? = some p ∧ stdConv env s p = some d ∧ c = ⟨.ctor n k, d, ⟨0, 0⟩⟩ := by
  have h2 : userConvs env s (.cls n) = (env.ctors n).zipIdx.filterMap fun p => (stdConv env s p.1).map fun c => ⟨.ctor n p.2, c, ⟨0, 0⟩⟩ := by
    unfold userConvs
    cases s <;> simp_all
  rw [h2, List.mem_filterMap]
  constructor
  · rintro ⟨⟨p, k⟩, hm, hc⟩
    rw [Option.map_eq_some_iff] at hc
    obtain ⟨d, hd, rfl⟩ := hc
    exact ⟨k, p, d, List.mem_zipIdx_iff_getElem?.mp hm, hd, rfl⟩
  · rintro ⟨k, p, d, hk, hd, rfl⟩
    exact ⟨(p, k), List.mem_zipIdx_iff_getElem?.mpr hk, by simp [hd]⟩

/-- Whether one standard conversion ranks before another. -/
def Before (c d : Std) : Prop := c.rank < d.rank ∨ (c.rank = d.rank ∧ c.depth < d.depth)

theorem better_iff (c d : Std) : c.better d = true ↔ Before c d := by simp [Std.better, Before]

/-- What converts a value to a class. -/
theorem converting_ctor {env : Env} {s : Ty} {n : Nat} (hs : ∀ m, s ≠ .cls m) :
    ((∀ (k : Nat) (p : Ty), (env.ctors n)[k]? = some p → stdConv env s p = none) → conv env s (.cls n) = none) ∧
    (∀ (k : Nat) (p : Ty) (c : Std), (env.ctors n)[k]? = some p → stdConv env s p = some c →
      (∀ (j : Nat) (q : Ty) (d : Std), j ≠ k → (env.ctors n)[j]? = some q → stdConv env s q = some d → Before c d) →
      conv env s (.cls n) = some (.user (.ctor n k) ⟨0, 0⟩)) ∧
    ((∃ (k : Nat) (p : Ty) (c : Std), (env.ctors n)[k]? = some p ∧ stdConv env s p = some c) →
      (∀ (k : Nat) (p : Ty) (c : Std), (env.ctors n)[k]? = some p → stdConv env s p = some c →
        ∃ (j : Nat) (q : Ty) (d : Std), j ≠ k ∧ (env.ctors n)[j]? = some q ∧ stdConv env s q = some d ∧ ¬Before c d) →
      conv env s (.cls n) = some .ambiguous) := by
  have hstd : stdConv env s (.cls n) = none := by
    unfold stdConv
    rw [if_neg (hs n)]
    cases s <;> simp_all
  unfold conv
  rw [hstd]
  dsimp only
  refine ⟨fun h => ?_, fun k p c hk hc hb => ?_, fun ⟨k0, p0, c0, hk0, hc0⟩ hb => ?_⟩
  · have : userConvs env s (.cls n) = [] := by
      rw [List.eq_nil_iff_forall_not_mem]
      intro u hu
      obtain ⟨k, p, d, hk, hd, _⟩ := (mem_ctors hs).mp hu
      rw [h k p hk] at hd; cases hd
    simp [bestUser, this]
  · have hmem : (⟨.ctor n k, c, ⟨0, 0⟩⟩ : UConv) ∈ userConvs env s (.cls n) := (mem_ctors hs).mpr ⟨k, p, c, hk, hc, rfl⟩
    unfold bestUser
    rw [if_neg (List.ne_nil_of_mem hmem)]
    have hin : (⟨.ctor n k, c, ⟨0, 0⟩⟩ : UConv) ∈
        (userConvs env s (.cls n)).filter fun c => (userConvs env s (.cls n)).all fun d => decide (d.fn = c.fn) || c.better d := by
      rw [List.mem_filter]
      refine ⟨hmem, ?_⟩
      rw [List.all_eq_true]
      intro d hd
      obtain ⟨j, q, e, hj, he, rfl⟩ := (mem_ctors hs).mp hd
      by_cases hjk : j = k
      · simp [hjk]
      · have := hb j q e hjk hj he
        rw [← better_iff] at this
        simp [UConv.better, this]
    cases hl : (userConvs env s (.cls n)).filter fun c => (userConvs env s (.cls n)).all fun d => decide (d.fn = c.fn) || c.better d with
    | nil => rw [hl] at hin; cases hin
    | cons u us =>
      have hu : u ∈ (userConvs env s (.cls n)).filter fun c => (userConvs env s (.cls n)).all fun d => decide (d.fn = c.fn) || c.better d := by
        rw [hl]; exact List.mem_cons_self ..
      rw [List.mem_filter, List.all_eq_true] at hu
      obtain ⟨hu1, hu2⟩ := hu
      obtain ⟨j, q, e, hj, he, rfl⟩ := (mem_ctors hs).mp hu1
      by_cases hjk : j = k
      · subst hjk; rfl
      · have h1 := hb j q e hjk hj he
        have h2 := hu2 _ hmem
        rw [Bool.or_eq_true] at h2
        rcases h2 with h2 | h2
        · simp at h2; exact absurd h2.symm hjk
        · have h3 : Before e c := by
            simp only [UConv.better, Bool.or_eq_true, Bool.and_eq_true, better_iff] at h2
            rcases h2 with h2 | ⟨_, h2⟩
            · exact h2
            · simp [Before] at h2
          simp only [Before] at h1 h3; omega
  · have hmem : (⟨.ctor n k0, c0, ⟨0, 0⟩⟩ : UConv) ∈ userConvs env s (.cls n) := (mem_ctors hs).mpr ⟨k0, p0, c0, hk0, hc0, rfl⟩
    unfold bestUser
    rw [if_neg (List.ne_nil_of_mem hmem)]
    have : ((userConvs env s (.cls n)).filter fun c => (userConvs env s (.cls n)).all fun d => decide (d.fn = c.fn) || c.better d) = [] := by
      rw [List.eq_nil_iff_forall_not_mem]
      intro u hu
      rw [List.mem_filter, List.all_eq_true] at hu
      obtain ⟨hu1, hu2⟩ := hu
      obtain ⟨k, p, c, hk, hc, rfl⟩ := (mem_ctors hs).mp hu1
      obtain ⟨j, q, d, hjk, hj, hd, hnb⟩ := hb k p c hk hc
      have h2 := hu2 _ ((mem_ctors hs).mpr ⟨j, q, d, hj, hd, rfl⟩)
      rw [Bool.or_eq_true] at h2
      rcases h2 with h2 | h2
      · simp at h2; exact hjk h2
      · simp only [UConv.better, Bool.or_eq_true, Bool.and_eq_true, better_iff] at h2
        rcases h2 with h2 | ⟨_, h2⟩
        · exact hnb h2
        · simp [Before] at h2
    rw [this]

/-- **C94.** A value that is not an object of a class, given to a variant of a class `n` and a type it does not convert to: it goes to the class if one of its
non-explicit constructors takes it by a better standard conversion than all others, and is then moved into the variant from a temporary; if several are
equally good the program is ill-formed, and also if there is none. -/
theorem converting_constructors (env : Env) (a : Alts) (hne : a.T ≠ a.U) (n : Nat) (hT : a.T = .cls n) (s : Ty) (lv : Bool) (hs : ∀ m, s ≠ .cls m) (hU : conv env s a.U = none) :
    ((∀ (k : Nat) (p : Ty), (env.ctors n)[k]? = some p → stdConv env s p = none) → choose env a (.expr s lv) = .none) ∧
    (∀ (k : Nat) (p : Ty) (c : Std), (env.ctors n)[k]? = some p → stdConv env s p = some c →
      (∀ (j : Nat) (q : Ty) (d : Std), j ≠ k → (env.ctors n)[j]? = some q → stdConv env s q = some d → Before c d) →
      choose env a (.expr s lv) = .one (.alt false) true) ∧
    ((∃ (k : Nat) (p : Ty) (c : Std), (env.ctors n)[k]? = some p ∧ stdConv env s p = some c) →
      (∀ (k : Nat) (p : Ty) (c : Std), (env.ctors n)[k]? = some p → stdConv env s p = some c →
        ∃ (j : Nat) (q : Ty) (d : Std), j ≠ k ∧ (env.ctors n)[j]? = some q ∧ stdConv env s q = some d ∧ ¬Before c d) →
      choose env a (.expr s lv) = .ambiguous) := by
  obtain ⟨h1, h2, h3⟩ := converting_ctor (env := env) (n := n) hs
  have hrel : related env s a.T = false := by
    rw [hT]; unfold related
    cases s <;> simp_all
  refine ⟨fun h => ?_, fun k p c hk hc hb => ?_, fun he hb => ?_⟩
  · rw [choose_expr hne, outcome, hT, h1 h, hU]
  · have hc' := h2 k p c hk hc hb
    rw [choose_expr hne, outcome, hT, hc', hU, ← hT]
    simp [byMove, hrel]
  · rw [choose_expr hne, outcome, hT, h3 he hb, hU]
    rfl

/-- A class that can be made from `long` and from `double`, like many numeric classes. -/
def numeric : Env := ⟨fun _ => [], fun _ => [.int 64 true, .flt 64], fun _ => [], fun _ => true⟩

/-- An `int` would be converted by both constructors, a `float` is promoted by one. -/
example : choose numeric ⟨.cls 0, .ptr⟩ (.expr .int32 false) = .ambiguous ∧ choose numeric ⟨.cls 0, .ptr⟩ (.expr (.flt 32) true) = .one (.alt false) true ∧
    conv numeric .int32 .ptr = none ∧ (∀ m, Ty.int32 ≠ .cls m) := by
  refine ⟨by decide, by decide, by decide, by simp⟩

/-- **C94.** If an object of a class `m` can be converted to an alternative both by a constructor of the alternative and by a conversion function of `m`, and
not to the other alternative, the program is ill-formed. -/
theorem both_ways_ambiguous (env : Env) (a : Alts) (hne : a.T ≠ a.U) (m n : Nat) (hT : a.T = .cls n) (hmn : m ≠ n) (hb : n ∉ env.bases m)
    (h1 : Ty.cls m ∈ env.ctors n) (h2 : Ty.cls n ∈ env.convs m) (lv : Bool) (hU : conv env (.cls m) a.U = none) :
    choose env a (.expr (.cls m) lv) = .ambiguous := by
  have hc : conv env (.cls m) (.cls n) = some .ambiguous := by
    unfold conv
    have : stdConv env (.cls m) (.cls n) = none := by simp [stdConv, hmn, hb]
    rw [this]; dsimp only
    obtain ⟨k, hk⟩ := List.mem_iff_getElem?.mp h1
    obtain ⟨j, hj⟩ := List.mem_iff_getElem?.mp h2
    have m1 : (⟨.ctor n k, ⟨0, 0⟩, ⟨0, 0⟩⟩ : UConv) ∈ userConvs env (.cls m) (.cls n) := by
      unfold userConvs
      rw [List.mem_append]; left
      rw [List.mem_filterMap]
      exact ⟨(.cls m, k), List.mem_zipIdx_iff_getElem?.mpr hk, by simp [stdConv]⟩
    have m2 : (⟨.conv m j, ⟨0, 0⟩, ⟨0, 0⟩⟩ : UConv) ∈ userConvs env (.cls m) (.cls n) := by
      unfold userConvs
      rw [List.mem_append]; right
      rw [List.mem_filterMap]
      exact ⟨(.cls n, j), List.mem_zipIdx_iff_getElem?.mpr hj, by simp [stdConv]⟩
    have hno : ∀ (c : UConv) (f : Fn), c.better ⟨f, ⟨0, 0⟩, ⟨0, 0⟩⟩ = false := by
      intro c f
      simp [UConv.better, Std.better]
    unfold bestUser
    rw [if_neg (List.ne_nil_of_mem m1)]
    have : ((userConvs env (.cls m) (.cls n)).filter fun c => (userConvs env (.cls m) (.cls n)).all fun d => decide (d.fn = c.fn) || c.better d) = [] := by
      rw [List.eq_nil_iff_forall_not_mem]
      intro u hu
      rw [List.mem_filter, List.all_eq_true] at hu
      have e1 := hu.2 _ m1
      have e2 := hu.2 _ m2
      rw [hno] at e1 e2
      simp only [Bool.or_false, decide_eq_true_eq] at e1 e2
      rw [← e1] at e2
      cases e2
    rw [this]
  rw [choose_expr hne, outcome, hT, hc, hU]
  rfl

/-- Two classes that convert to each other. -/
example : choose ⟨fun _ => [], fun n => if n = 0 then [.cls 1] else [], fun n => if n = 1 then [.cls 0] else [], fun _ => true⟩ ⟨.cls 0, .ptr⟩
    (.expr (.cls 1) false) = .ambiguous := by decide

end Verif.Init
