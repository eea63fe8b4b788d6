import Verif.Variant2.Model

/-! Properties C27 - C30 of `variant2`. -/
namespace Verif.Variant2

set_option linter.constructorNameAsVariable false

variable {V : Type}

/-! ### Specification: variants as values

A variant is `none` (valueless) or an alternative with a value. -/

abbrev Val (V : Type) := Option (Alt × V)

abbrev Vals (V : Type) := Nat → Option (Val V)

def SameAlt (x y : Val V) : Prop := x.map Prod.fst = y.map Prod.fst

instance (x y : Val V) : Decidable (SameAlt x y) := inferInstanceAs (Decidable (_ = _))

/-- What an assignment of `y` to a variant holding `x` may leave, depending on whether it threw: exactly `y`; or, after an
exception, something of the old alternative if that was the alternative to assign, and a valueless variant otherwise. -/
def AssignOk (x y z : Val V) (threw : Bool) : Prop :=
  match threw with
  | false => z = y
  | true => y ≠ none ∧ if SameAlt x y then SameAlt z x else z = none

/-- One operation on values; `threw` tells whether it threw. The source of a move keeps its alternative. -/
def Spec (st : Vals V) (op : Op V) (threw : Bool) (st' : Vals V) : Prop :=
  match op with
  | .new d _ x v _ =>
    if st d ≠ none ∨ threw then st' = st else st' = upd st d (some (some (x, v)))
  | .copyCtor d i _ => match st d, st i with
    | none, some y => if threw then st' = st else st' = upd st d (some y)
    | _, _ => st' = st
  | .moveCtor d i _ => match st d, st i with
    | none, some y => ∃ y', SameAlt y' y ∧ if threw then st' = upd st i (some y') else st' = upd (upd st i (some y')) d (some y)
    | _, _ => st' = st
  | .copyAssign i j _ => match st i, st j with
    | some x, some y => if i = j then st' = st else ∃ z, AssignOk x y z threw ∧ st' = upd st i (some z)
    | _, _ => st' = st
  | .moveAssign i j _ => match st i, st j with
    | some x, some y =>
      if i = j then st' = st
      else ∃ z y', AssignOk x y z threw ∧ SameAlt y' y ∧ st' = upd (upd st i (some z)) j (some y')
    | _, _ => st' = st
  | .set i _ x v _ => match st i with
    | none => st' = st
    | some y => ∃ z, AssignOk y (some (x, v)) z threw ∧ st' = upd st i (some z)
  | .emplace i x v _ => match st i with
    | none => st' = st
    | some _ => if threw then st' = upd st i (some none) else st' = upd st i (some (some (x, v)))
  | .swap i j _ _ _ => match st i, st j with
    | some x, some y =>
      if threw then ∃ x' y', st' = upd (upd st i (some x')) j (some y')
      else st' = upd (upd st i (some y)) j (some x)
    | _, _ => st' = st
  | .destroy i => st' = upd st i none

/-- Does an element operation throw during this operation? -/
def Op.throws : Op V → Bool
  | .new _ _ _ _ t => t
  | .copyCtor _ _ t => t
  | .moveCtor _ _ t => t
  | .copyAssign _ _ t => t
  | .moveAssign _ _ t => t
  | .set _ _ _ _ t => t
  | .emplace _ _ _ t => t
  | .swap _ _ t1 t2 t3 => t1 || t2 || t3
  | .destroy _ => false

/-- The element types for which the claims hold: assignment is trivial only if construction and destruction are, too. -/
def LegalCfg (cfg : Cfg) : Prop :=
  (cfg.trivCopyAssign = true → cfg.trivDtor = true ∧ cfg.trivCopyCtor = true) ∧
  (cfg.trivMoveAssign = true → cfg.trivDtor = true ∧ cfg.trivMoveCtor = true)

/-- `T{x}` copies (moves) `x`. -/
def Faithful (env : Env V) : Prop := (∀ x v, env.copyNew x v = v) ∧ (∀ x v, env.moveNew x v = v)

/-- No self-move and no self-swap (unless trivial), and nothing thrown from a constructor that is declared `noexcept`. -/
def Legal (cfg : Cfg) : Op V → Prop
  | .moveAssign i j _ => i = j → cfg.trivMoveAssign = true
  | .swap i j _ _ _ => i = j → cfg.trivMoveAssign = true
  | .new _ k x _ thr => k = .move → thr = true → cfg.nothrowCopy x = false
  | _ => True

/-- The variant that represents a value: the discriminant matches the object alive in the storage. -/
def mkVar : Val V → Var V
  | none => ⟨.valueless, none⟩
  | some (x, v) => ⟨x.disc, some (x, v)⟩

/-- The program state that represents `st`. -/
def rep (st : Vals V) : State V := fun i => (st i).map mkVar

/-! ### Proofs -/

theorem rep_upd (st : Vals V) (i : Nat) (x : Option (Val V)) : upd (rep st) i (x.map mkVar) = rep (upd st i x) := by
  funext j; simp only [upd, rep]; split <;> rfl

theorem rep_upd_some (st : Vals V) (i : Nat) (x : Val V) : upd (rep st) i (some (mkVar x)) = rep (upd st i (some x)) :=
  rep_upd st i (some x)

theorem rep_at (st : Vals V) (i : Nat) : rep st i = (st i).map mkVar := rfl

theorem upd_same {β : Type} (f : Nat → β) (i : Nat) : upd f i (f i) = f := by
  funext j; simp only [upd]; split
  · rename_i h; rw [h]
  · rfl

theorem newVar_eq (x : Alt) (v : V) (thr : Bool) :
    newVar x v thr = .ok (if thr then none else some (mkVar (some (x, v)))) := by
  cases thr <;> simp [newVar, constructAs, Except.bind, mkVar]

theorem copyCtor_ok {cfg : Cfg} {env : Env V} (hf : Faithful env) (y : Val V) (thr : Bool) :
    ∃ r, copyCtor cfg env (mkVar y) thr = .ok r ∧ (r = some (mkVar y) ∨ (r = none ∧ thr = true)) := by
  by_cases ht : cfg.trivCopyCtor = true
  · exact ⟨_, by simp only [copyCtor, ht, if_true], .inl rfl⟩
  · rcases y with _ | ⟨_ | _, v⟩ <;> cases thr <;>
      simp [copyCtor, ht, mkVar, Alt.disc, readAs, Except.bind, newVar_eq, hf.1]

theorem sameAlt_refl (x : Val V) : SameAlt x x := rfl

theorem moveCtor_ok {cfg : Cfg} {env : Env V} (hf : Faithful env) (y : Val V) (thr : Bool) :
    ∃ r y', moveCtor cfg env (mkVar y) thr = .ok (r, mkVar y') ∧ SameAlt y' y ∧
      (r = some (mkVar y) ∨ (r = none ∧ thr = true ∧ cfg.trivMoveCtor = false)) := by
  by_cases ht : cfg.trivMoveCtor = true
  · exact ⟨_, _, by simp only [moveCtor, ht, if_true], rfl, .inl rfl⟩
  · have ht' : cfg.trivMoveCtor = false := by simpa using ht
    rcases y with _ | ⟨x, v⟩
    · exact ⟨_, none, by simp [moveCtor, ht, mkVar], rfl, .inl rfl⟩
    · refine ⟨if thr then none else some (mkVar (some (x, v))), some (x, env.movedFrom x v), ?_, rfl, ?_⟩
      · cases x <;> simp [moveCtor, ht, mkVar, Alt.disc, readAs, Except.bind, newVar_eq, hf.2, moveOut]
      · cases thr <;> simp [ht']

theorem dtor_ok {cfg : Cfg} (x : Val V) : dtor cfg (mkVar x) = .ok () := by
  unfold dtor
  split
  · rfl
  · rcases x with _ | ⟨_ | _, v⟩ <;> simp [mkVar, Alt.disc, destroyAs, Except.bind]

theorem copyAssign_ok {cfg : Cfg} (hc : LegalCfg cfg) {env : Env V} (hf : Faithful env) (x y : Val V) (thr : Bool) :
    ∃ z t, copyAssign cfg env (mkVar x) (mkVar y) thr = .ok (mkVar z, t) ∧ AssignOk x y z t ∧ (t = true → thr = true) := by
  by_cases ht : cfg.trivCopyAssign = true
  · refine ⟨y, false, ?_, rfl, by simp⟩
    have := hc.1 ht
    simp [copyAssign, ht, bitwiseAssign, this.1, this.2]
  · rcases x with _ | ⟨a, u⟩ <;> rcases y with _ | ⟨b, v⟩
    · exact ⟨none, false, by simp [copyAssign, ht, mkVar], rfl, by simp⟩
    · cases thr
      · refine ⟨some (b, v), false, ?_, rfl, by simp⟩
        cases b <;> simp [copyAssign, ht, mkVar, Alt.disc, readAs, Except.bind, rawConstruct, constructAs, hf.1]
      · refine ⟨none, true, ?_, ⟨by simp, by simp [SameAlt]⟩, by simp⟩
        cases b <;> simp [copyAssign, ht, mkVar, Alt.disc, readAs, Except.bind, rawConstruct, constructAs]
    · refine ⟨none, false, ?_, rfl, by simp⟩
      cases a <;> simp [copyAssign, ht, mkVar, Alt.disc, destroyAs, Except.bind]
    · cases thr
      · refine ⟨some (b, v), false, ?_, rfl, by simp⟩
        cases a <;> cases b <;>
          simp [copyAssign, ht, mkVar, Alt.disc, readAs, destroyAs, Except.bind, tryConstruct, constructAs, assignAs, hf.1]
      · by_cases hab : a = b
        · subst hab
          refine ⟨some (a, env.broken a u), true, ?_, ⟨by simp, by simp [SameAlt]⟩, by simp⟩
          cases a <;> simp [copyAssign, ht, mkVar, Alt.disc, readAs, Except.bind, assignAs]
        · refine ⟨none, true, ?_, ⟨by simp, by simp [SameAlt, hab]⟩, by simp⟩
          cases a <;> cases b <;>
            simp [copyAssign, ht, mkVar, Alt.disc, readAs, destroyAs, Except.bind, tryConstruct, constructAs] at hab ⊢

theorem moveAssign_ok {cfg : Cfg} (hc : LegalCfg cfg) {env : Env V} (hf : Faithful env) (x y : Val V) (thr : Bool) :
    ∃ z y' t, moveAssign cfg env (mkVar x) (mkVar y) thr = .ok (mkVar z, mkVar y', t) ∧ AssignOk x y z t ∧ SameAlt y' y ∧
      (t = true → thr = true) := by
  by_cases ht : cfg.trivMoveAssign = true
  · refine ⟨y, y, false, ?_, rfl, rfl, by simp⟩
    have := hc.2 ht
    simp [moveAssign, ht, bitwiseAssign, this.1, this.2, Except.bind]
  · rcases x with _ | ⟨a, u⟩ <;> rcases y with _ | ⟨b, v⟩
    · exact ⟨none, none, false, by simp [moveAssign, ht, mkVar], rfl, rfl, by simp⟩
    · cases thr
      · refine ⟨some (b, v), some (b, env.movedFrom b v), false, ?_, rfl, rfl, by simp⟩
        cases b <;> simp [moveAssign, ht, mkVar, Alt.disc, readAs, Except.bind, rawConstruct, constructAs, hf.2, moveOut]
      · refine ⟨none, some (b, env.movedFrom b v), true, ?_, ⟨by simp, by simp [SameAlt]⟩, rfl, by simp⟩
        cases b <;> simp [moveAssign, ht, mkVar, Alt.disc, readAs, Except.bind, rawConstruct, constructAs, moveOut]
    · refine ⟨none, none, false, ?_, rfl, rfl, by simp⟩
      cases a <;> simp [moveAssign, ht, mkVar, Alt.disc, destroyAs, Except.bind]
    · cases thr
      · refine ⟨some (b, v), some (b, env.movedFrom b v), false, ?_, rfl, rfl, by simp⟩
        cases a <;> cases b <;>
          simp [moveAssign, ht, mkVar, Alt.disc, readAs, destroyAs, Except.bind, tryConstruct, constructAs, assignAs, hf.2,
            moveOut]
      · by_cases hab : a = b
        · subst hab
          refine ⟨some (a, env.broken a u), some (a, env.movedFrom a v), true, ?_, ⟨by simp, by simp [SameAlt]⟩, rfl, by simp⟩
          cases a <;> simp [moveAssign, ht, mkVar, Alt.disc, readAs, Except.bind, assignAs, moveOut]
        · refine ⟨none, some (b, env.movedFrom b v), true, ?_, ⟨by simp, by simp [SameAlt, hab]⟩, rfl, by simp⟩
          cases a <;> cases b <;>
            simp [moveAssign, ht, mkVar, Alt.disc, readAs, destroyAs, Except.bind, tryConstruct, constructAs, moveOut] at hab ⊢

theorem assignValue_ok {env : Env V} (y : Val V) (x : Alt) (v : V) (thr : Bool) :
    ∃ z t, assignValue env (mkVar y) x v v thr = .ok (mkVar z, t) ∧ AssignOk y (some (x, v)) z t ∧ (t = true → thr = true) := by
  cases thr
  · refine ⟨some (x, v), false, ?_, rfl, by simp⟩
    rcases y with _ | ⟨_ | _, u⟩ <;> cases x <;>
      simp [assignValue, mkVar, Alt.disc, destroyAs, Except.bind, tryConstruct, constructAs, assignAs, rawConstruct]
  · rcases y with _ | ⟨a, u⟩
    · refine ⟨none, true, ?_, ⟨by simp, by simp [SameAlt]⟩, by simp⟩
      cases x <;> simp [assignValue, mkVar, Except.bind, constructAs, rawConstruct]
    · by_cases hab : a = x
      · subst hab
        refine ⟨some (a, env.broken a u), true, ?_, ⟨by simp, by simp [SameAlt]⟩, by simp⟩
        cases a <;> simp [assignValue, mkVar, Alt.disc, Except.bind, assignAs]
      · refine ⟨none, true, ?_, ⟨by simp, by simp [SameAlt, hab]⟩, by simp⟩
        cases a <;> cases x <;>
          simp [assignValue, mkVar, Alt.disc, destroyAs, Except.bind, tryConstruct, constructAs] at hab ⊢

/-- **C28.** What `v = value` stores, also for elements whose constructor in braces does not make a copy: the value assigned if the variant
holds the same alternative, else the value the constructor makes. -/
theorem assignValue_value {env : Env V} (y : Val V) (x : Alt) (v w : V) :
    assignValue env (mkVar y) x v w false = .ok (mkVar (some (x, if y.map Prod.fst = some x then v else w)), false) := by
  rcases y with _ | ⟨_ | _, u⟩ <;> cases x <;>
    simp [assignValue, mkVar, Alt.disc, destroyAs, Except.bind, tryConstruct, constructAs, assignAs, rawConstruct]

example : assignValue (V := Nat) ⟨fun _ x => x, fun _ x => x, fun _ _ => 0, fun _ _ => 0⟩ (mkVar (some (.b, 1))) .a 2 3 false =
    .ok (mkVar (some (.a, 3)), false) := by
  rw [assignValue_value]; simp

theorem emplace_ok (y : Val V) (x : Alt) (v : V) (thr : Bool) :
    emplace (mkVar y) x v thr = .ok (if thr then (mkVar none, true) else (mkVar (some (x, v)), false)) := by
  rcases y with _ | ⟨_ | _, u⟩ <;> cases x <;> cases thr <;>
    simp [emplace, mkVar, Alt.disc, destroyAs, Except.bind, tryConstruct, constructAs]

theorem swap_ok {cfg : Cfg} (hc : LegalCfg cfg) {env : Env V} (hf : Faithful env) (x y : Val V) (t1 t2 t3 : Bool) :
    ∃ x' y' t, swap cfg env (mkVar x) (mkVar y) t1 t2 t3 = .ok (mkVar x', mkVar y', t) ∧
      (t = false → x' = y ∧ y' = x) ∧ (t = true → (t1 || t2 || t3) = true) := by
  obtain ⟨r, l, e1, hl, hr⟩ := moveCtor_ok (cfg := cfg) hf x t1
  unfold swap
  rcases hr with rfl | ⟨rfl, h1, hn⟩
  · obtain ⟨z, y1, t, e2, ha, _, ht⟩ := moveAssign_ok hc hf l y t2
    cases t with
    | true =>
      refine ⟨z, y1, true, ?_, by simp, by simp [ht rfl]⟩
      simp [e1, e2, Except.bind, dtor_ok]
    | false =>
      simp only [AssignOk] at ha
      subst ha
      obtain ⟨z2, tmp, t', e3, ha3, _, ht3⟩ := moveAssign_ok hc hf y1 x t3
      refine ⟨z, z2, t', ?_, ?_, fun h => by simp [ht3 h]⟩
      · simp [e1, e2, e3, Except.bind, dtor_ok]
      · rintro rfl; exact ⟨rfl, ha3⟩
  · have : cfg.trivMoveAssign = false := by
      cases h : cfg.trivMoveAssign with
      | false => rfl
      | true => have := (hc.2 h).2; rw [hn] at this; cases this
    refine ⟨l, y, true, ?_, by simp, by simp [h1]⟩
    simp [e1, Except.bind, this]

/-- **C27/C28, one step.** From any state in which every discriminant matches its storage, a legal operation has no lifetime
error, failed assertion or termination, leads to such a state again, throws only if an element operation does, and has the
effect on the values that the specification says. -/
theorem step_ok {cfg : Cfg} (hc : LegalCfg cfg) {env : Env V} (hf : Faithful env) (st : Vals V) {op : Op V}
    (hl : Legal cfg op) :
    ∃ st' t, step cfg env (rep st) op = .ok (rep st', t) ∧ Spec st op t st' ∧ (t = true → op.throws = true) := by
  cases op with
  | new d k x v thr =>
    simp only [step, rep_at]
    cases hd : st d with
    | some y => exact ⟨st, false, rfl, by simp [Spec, hd], by simp⟩
    | none =>
      have hm : k.made env x v = v := by cases k <;> simp [Kind.made, hf.1, hf.2]
      have hg : ¬ (k = .move ∧ thr = true ∧ cfg.nothrowCopy x = true) := by
        rintro ⟨h1, h2, h3⟩; have := hl h1 h2; rw [h3] at this; cases this
      simp only [Option.map_none, hg, if_false, newVar_eq, hm, Except.bind]
      cases thr with
      | true => exact ⟨st, true, rfl, by simp [Spec], by simp [Op.throws]⟩
      | false =>
        refine ⟨_, false, by simp only [Bool.false_eq_true, if_false, rep_upd_some]; rfl, by simp [Spec, hd], by simp⟩
  | copyCtor d i thr =>
    simp only [step, rep_at]
    cases hd : st d with
    | some y => exact ⟨st, false, rfl, by simp [Spec, hd], by simp⟩
    | none =>
      cases hi : st i with
      | none => exact ⟨st, false, rfl, by simp [Spec, hd, hi], by simp⟩
      | some y =>
        obtain ⟨r, e, hr⟩ := copyCtor_ok (cfg := cfg) hf y thr
        simp only [Option.map_none, Option.map_some, e, Except.bind]
        rcases hr with rfl | ⟨rfl, ht⟩
        · exact ⟨_, false, by simp only [rep_upd_some]; rfl, by simp [Spec, hd, hi], by simp⟩
        · exact ⟨st, true, rfl, by simp [Spec, hd, hi], by simp [Op.throws, ht]⟩
  | moveCtor d i thr =>
    simp only [step, rep_at]
    cases hd : st d with
    | some y => exact ⟨st, false, rfl, by simp [Spec, hd], by simp⟩
    | none =>
      cases hi : st i with
      | none => exact ⟨st, false, rfl, by simp [Spec, hd, hi], by simp⟩
      | some y =>
        obtain ⟨r, y', e, hs, hr⟩ := moveCtor_ok (cfg := cfg) hf y thr
        simp only [Option.map_none, Option.map_some, e, Except.bind]
        rcases hr with rfl | ⟨rfl, ht, _⟩
        · exact ⟨_, false, by simp only [rep_upd_some]; rfl, by simp only [Spec, hd, hi]; exact ⟨y', hs, rfl⟩, by simp⟩
        · exact ⟨_, true, by simp only [rep_upd_some]; rfl, by simp only [Spec, hd, hi]; exact ⟨y', hs, rfl⟩, by simp [Op.throws, ht]⟩
  | copyAssign i j thr =>
    simp only [step, rep_at]
    cases hi : st i with
    | none => exact ⟨st, false, rfl, by simp [Spec, hi], by simp⟩
    | some x =>
      cases hj : st j with
      | none => exact ⟨st, false, rfl, by simp [Spec, hi, hj], by simp⟩
      | some y =>
        by_cases hij : i = j
        · exact ⟨st, false, by simp [hij], by simp only [Spec, hi, hj, if_pos hij], by simp⟩
        · obtain ⟨z, t, e, ha, ht⟩ := copyAssign_ok hc hf x y thr
          refine ⟨_, t, by simp only [Option.map_some, hij, if_false, e, Except.bind, rep_upd_some]; rfl, ?_, ht⟩
          simp only [Spec, hi, hj, if_neg hij]
          exact ⟨z, ha, rfl⟩
  | moveAssign i j thr =>
    simp only [step, rep_at]
    cases hi : st i with
    | none => exact ⟨st, false, rfl, by simp [Spec, hi], by simp⟩
    | some x =>
      cases hj : st j with
      | none => exact ⟨st, false, rfl, by simp [Spec, hi, hj], by simp⟩
      | some y =>
        by_cases hij : i = j
        · exact ⟨st, false, by simp [hij, hl hij], by simp only [Spec, hi, hj, if_pos hij], by simp⟩
        · obtain ⟨z, y', t, e, ha, hs, ht⟩ := moveAssign_ok hc hf x y thr
          refine ⟨_, t, by simp only [Option.map_some, hij, if_false, e, Except.bind, rep_upd_some]; rfl, ?_, ht⟩
          simp only [Spec, hi, hj, if_neg hij]
          exact ⟨z, y', ha, hs, rfl⟩
  | set i k x v thr =>
    simp only [step, rep_at]
    cases hi : st i with
    | none => exact ⟨st, false, rfl, by simp [Spec, hi], by simp⟩
    | some y =>
      have hm : k.made env x v = v := by cases k <;> simp [Kind.made, hf.1, hf.2]
      obtain ⟨z, t, e, ha, ht⟩ := assignValue_ok (env := env) y x v thr
      refine ⟨_, t, by simp only [Option.map_some, hm, e, Except.bind, rep_upd_some]; rfl, ?_, ht⟩
      simp only [Spec, hi]
      exact ⟨z, ha, rfl⟩
  | emplace i x v thr =>
    simp only [step, rep_at]
    cases hi : st i with
    | none => exact ⟨st, false, rfl, by simp [Spec, hi], by simp⟩
    | some y =>
      simp only [Option.map_some, emplace_ok, Except.bind]
      cases thr with
      | true => exact ⟨_, true, by simp only [if_true, rep_upd_some]; rfl, by simp [Spec, hi], by simp [Op.throws]⟩
      | false => exact ⟨_, false, by simp only [Bool.false_eq_true, if_false, rep_upd_some]; rfl, by simp [Spec, hi], by simp⟩
  | swap i j t1 t2 t3 =>
    simp only [step, rep_at]
    cases hi : st i with
    | none => exact ⟨st, false, rfl, by simp [Spec, hi], by simp⟩
    | some x =>
      cases hj : st j with
      | none => exact ⟨st, false, rfl, by simp [Spec, hi, hj], by simp⟩
      | some y =>
        by_cases hij : i = j
        · have hm := hl hij
          subst hij
          rw [hi] at hj; cases hj
          obtain ⟨r, l, e1, _, hr⟩ := moveCtor_ok (cfg := cfg) hf x t1
          rcases hr with rfl | ⟨_, _, hn⟩
          · refine ⟨_, false, by simp only [Option.map_some, if_true, e1, Except.bind, hm, dtor_ok, rep_upd_some]; rfl, ?_, by simp⟩
            simp only [Spec, hi, Bool.false_eq_true, if_false]
            funext k; simp only [upd]; split <;> rfl
          · have := (hc.2 hm).2; rw [hn] at this; cases this
        · obtain ⟨x', y', t, e, ha, ht⟩ := swap_ok hc hf x y t1 t2 t3
          refine ⟨_, t, by simp only [Option.map_some, hij, if_false, e, Except.bind, rep_upd_some]; rfl, ?_, ht⟩
          simp only [Spec, hi, hj]
          cases t with
          | true => exact ⟨x', y', rfl⟩
          | false => rw [(ha rfl).1, (ha rfl).2]; rfl
  | destroy i =>
    simp only [step, rep_at]
    cases hi : st i with
    | none =>
      refine ⟨st, false, rfl, ?_, by simp⟩
      simp only [Spec]; rw [← hi, upd_same]
    | some x =>
      refine ⟨_, false, by simp only [Option.map_some, dtor_ok, Except.bind]; rw [← Option.map_none (f := mkVar), rep_upd], rfl, by simp⟩

/-- A history of the value semantics. -/
inductive SpecRun : Vals V → List (Op V) → Vals V → Prop
  | nil {st} : SpecRun st [] st
  | cons {st op t st' ops st''} (h : Spec st op t st') (r : SpecRun st' ops st'') : SpecRun st (op :: ops) st''

/-- **C27, partial; C28, partial.** Over every history, with exceptions anywhere: no inactive member is read, assigned or
destroyed, no live one overwritten or leaked, no assertion fails and the program is not terminated; the discriminants match
the storage at every point, and the values are those of the value semantics. Missing: self-swap and self-move of non-trivial
elements, element types whose assignment is trivial but whose construction or destruction is not, types for which `T{x}` is
not a copy of `x`, and moves that throw in a constructor declared `noexcept` (all refuted below). -/
theorem history_partial {cfg : Cfg} (hc : LegalCfg cfg) {env : Env V} (hf : Faithful env) {ops : List (Op V)}
    (hl : ∀ op ∈ ops, Legal cfg op) :
    ∃ st, run cfg env (fun _ => none) ops = .ok (rep st) ∧ SpecRun (fun _ => none) ops st := by
  have key : ∀ (ops : List (Op V)) (st : Vals V), (∀ op ∈ ops, Legal cfg op) →
      ∃ st', run cfg env (rep st) ops = .ok (rep st') ∧ SpecRun st ops st' := by
    intro ops
    induction ops with
    | nil => intro st _; exact ⟨st, rfl, .nil⟩
    | cons op ops ih =>
      intro st h
      obtain ⟨st1, t, e, hs, _⟩ := step_ok hc hf st (h op (by simp))
      obtain ⟨st2, e2, hs2⟩ := ih st1 (fun o ho => h o (by simp [ho]))
      exact ⟨st2, by simp only [run, e, Except.bind]; exact e2, .cons hs hs2⟩
  exact key ops (fun _ => none) hl

/-- The states of the previous theorem: in each of them the discriminant names the alternative that is alive. -/
theorem rep_matches (st : Vals V) (i : Nat) {s : Var V} (h : rep st i = some s) :
    (s.disc = .first ↔ ∃ v, s.store = some (.a, v)) ∧ (s.disc = .second ↔ ∃ v, s.store = some (.b, v)) ∧
    (s.disc = .valueless ↔ s.store = none) := by
  simp only [rep] at h
  cases hx : st i with
  | none => rw [hx] at h; cases h
  | some x =>
    rw [hx] at h; cases h
    rcases x with _ | ⟨_ | _, v⟩ <;> simp [mkVar, Alt.disc]

/-- A history with both kinds of element types that meets the hypotheses: assignments across alternatives, a throwing
emplace, a swap that throws half way. -/
example : LegalCfg ⟨false, false, false, false, false, fun _ => false⟩ ∧
    Faithful (⟨fun _ v => v, fun _ v => v, fun _ _ => 0, fun _ _ => 99⟩ : Env Nat) ∧
    (∀ op ∈ ([.new 0 .copy .a 1 false, .new 1 .move .b 2 false, .copyAssign 0 1 true, .emplace 1 .a 5 true,
      .moveAssign 1 0 false, .swap 0 1 false true false, .destroy 0] : List (Op Nat)),
      Legal ⟨false, false, false, false, false, fun _ => false⟩ op) := by
  refine ⟨by simp [LegalCfg], by simp [Faithful], ?_⟩
  simp [Legal]

/-! #### Refutations -/

/-- Elements that are non-trivial in every respect. -/
def plainCfg : Cfg := ⟨false, false, false, false, false, fun _ => false⟩

def plainEnv : Env Nat := ⟨fun _ v => v, fun _ v => v, fun _ v => v, fun _ v => v⟩

/-- **C28, refuted.** Swapping a variant with itself fails an assertion. -/
theorem self_swap_refuted :
    run plainCfg plainEnv (fun _ => none) [.new 0 .copy .a 1 false, .swap 0 0 false false false] = .error .assertion := rfl

/-- **C27, refuted.** If assignment of the elements is trivial but destruction is not, assignment between different
alternatives overwrites a live object without destroying it. -/
theorem trivial_assign_refuted :
    run ⟨false, false, true, true, false, fun _ => true⟩ plainEnv (fun _ => none)
      [.new 0 .copy .a 1 false, .new 1 .copy .b 2 false, .copyAssign 0 1 false] = .error .overwriteLive := rfl

/-- **C28, refuted.** For an element type with `T{x} ≠ x` (a sequence that can hold itself: the braces make a sequence with
one element) a copy is not equal to its source. -/
theorem brace_copy_refuted : ∃ σ : State Nat,
    run plainCfg { plainEnv with copyNew := fun _ v => v + 1 } (fun _ => none)
      [.new 0 .inplace .a 1 false, .copyCtor 1 0 false] = .ok σ ∧
    σ 0 = some ⟨.first, some (.a, 1)⟩ ∧ σ 1 = some ⟨.first, some (.a, 2)⟩ := ⟨_, rfl, rfl, rfl⟩

/-- **C27, refuted.** Construction from an rvalue whose move constructor throws terminates the program if the copy
constructor is `noexcept`. -/
theorem move_noexcept_refuted :
    run { plainCfg with nothrowCopy := fun _ => true } plainEnv (fun _ => none) [.new 0 .move .a 1 true]
      = .error .terminate := rfl

/-! ### C29 -/

/-- **C29.** All observers see the alternative and value the variant holds. -/
theorem observers_agree (x : Val V) :
    (index (mkVar x) = x.map fun p => match p.1 with | .a => 0 | .b => 1) ∧
    (valuelessByException (mkVar x) = true ↔ x = none) ∧
    (∀ k, holds (mkVar x) k = true ↔ ∃ v, x = some (k, v)) ∧
    (∀ k v, get (mkVar x) k = .ok v ↔ x = some (k, v)) ∧
    (∀ k, get (mkVar x) k = .badAccess ↔ ∀ v, x ≠ some (k, v)) ∧
    (∀ k v, getIf (some (mkVar x)) k = .ok (some v) ↔ x = some (k, v)) ∧
    (∀ k, getIf (some (mkVar x)) k = .ok none ↔ ∀ v, x ≠ some (k, v)) := by
  rcases x with _ | ⟨_ | _, u⟩
  · refine ⟨rfl, by simp [valuelessByException, mkVar], ?_, ?_, ?_, ?_, ?_⟩ <;> intro k <;> cases k <;>
      simp [holds, index, mkVar, get, getIf, readAs]
  · refine ⟨rfl, by simp [valuelessByException, mkVar, Alt.disc], ?_, ?_, ?_, ?_, ?_⟩ <;> intro k <;> cases k <;>
      simp [holds, index, mkVar, get, getIf, readAs, Alt.disc]
  · refine ⟨rfl, by simp [valuelessByException, mkVar, Alt.disc], ?_, ?_, ?_, ?_, ?_⟩ <;> intro k <;> cases k <;>
      simp [holds, index, mkVar, get, getIf, readAs, Alt.disc]

example : get (mkVar (some (Alt.b, 7))) .b = .ok 7 ∧ get (mkVar (some (Alt.b, 7))) .a = .badAccess := ⟨rfl, rfl⟩

/-- **C29.** `visit` calls the visitor exactly once with the stored value and returns its result, and throws
`bad_variant_access` without calling it iff the variant is valueless. -/
theorem visit_spec {β : Type} (x : Val V) (f : Alt → V → β) :
    visit (mkVar x) f = match x with
      | none => (.badAccess, [])
      | some (k, v) => (.ok (f k v), [(k, v)]) := by
  rcases x with _ | ⟨_ | _, u⟩ <;> simp [visit, mkVar, Alt.disc, readAs]

example : visit (mkVar (some (Alt.b, 7))) (fun _ v => v + 1) = (.ok 8, [(.b, 7)]) := rfl

/-- A null pointer passed to `get_if` gives a null pointer. -/
theorem getIf_null (k : Alt) : getIf (none : Option (Var V)) k = .ok none := rfl

example : getIf (some (mkVar (some (Alt.b, 7)))) .b = .ok (some 7) := rfl

/-- **C29.** In every state reached by a history, observing a variant is defined: its contents are those of some value. -/
theorem observers_defined {cfg : Cfg} (hc : LegalCfg cfg) {env : Env V} (hf : Faithful env) {ops : List (Op V)}
    (hl : ∀ op ∈ ops, Legal cfg op) {σ : State V} (h : run cfg env (fun _ => none) ops = .ok σ) {i : Nat} {s : Var V}
    (hs : σ i = some s) : ∃ x, s = mkVar x := by
  obtain ⟨st, e, _⟩ := history_partial hc hf hl
  rw [h] at e; cases e
  simp only [rep] at hs
  cases hx : st i with
  | none => rw [hx] at hs; cases hs
  | some x => rw [hx] at hs; cases hs; exact ⟨x, rfl⟩

/-! ### C30 -/

/-- Order of variants: valueless first, then by alternative, then by value. -/
def specCmp (c : Alt → V → V → Cmp) : Val V → Val V → Cmp
  | none, none => .equal
  | none, some _ => .less
  | some _, none => .greater
  | some (.a, u), some (.a, v) => c .a u v
  | some (.b, u), some (.b, v) => c .b u v
  | some (.a, _), some (.b, _) => .less
  | some (.b, _), some (.a, _) => .greater

/-- **C30.** `<=>` is that order; it is always defined. -/
theorem cmp_spec (c : Alt → V → V → Cmp) (x y : Val V) : cmp c (mkVar x) (mkVar y) = .ok (specCmp c x y) := by
  rcases x with _ | ⟨_ | _, u⟩ <;> rcases y with _ | ⟨_ | _, v⟩ <;> simp [cmp, mkVar, Alt.disc, specCmp, readAs, Disc.num]

example : cmp (fun _ (u v : Nat) => if u < v then .less else if u = v then .equal else .greater) (mkVar (some (.a, 7))) (mkVar (some (.b, 1))) =
    .ok .less := rfl

/-- **C30.** `==` holds iff both are valueless, or both hold the same alternative and equal values. -/
theorem eq_spec (e : Alt → V → V → Bool) (x y : Val V) :
    ∃ r, eq e (mkVar x) (mkVar y) = .ok r ∧
      (r = true ↔ (x = none ∧ y = none) ∨ ∃ k u v, x = some (k, u) ∧ y = some (k, v) ∧ e k u v = true) := by
  rcases x with _ | ⟨_ | _, u⟩ <;> rcases y with _ | ⟨_ | _, v⟩ <;> simp [eq, mkVar, Alt.disc, readAs]
  · exact ⟨fun h => ⟨.a, u, ⟨rfl, rfl⟩, v, ⟨rfl, rfl⟩, h⟩, by rintro ⟨_, _, ⟨rfl, rfl⟩, _, ⟨_, rfl⟩, h⟩; exact h⟩
  · exact ⟨fun h => ⟨.b, u, ⟨rfl, rfl⟩, v, ⟨rfl, rfl⟩, h⟩, by rintro ⟨_, _, ⟨rfl, rfl⟩, _, ⟨_, rfl⟩, h⟩; exact h⟩

example : eq (fun _ (u v : Nat) => u == v) (mkVar (some (.a, 7))) (mkVar (some (.b, 7))) = .ok false ∧
    eq (fun _ (u v : Nat) => u == v) (mkVar (some (.a, 7))) (mkVar (some (.a, 7))) = .ok true := ⟨rfl, rfl⟩

/-- The opposite outcome. -/
def Cmp.flip : Cmp → Cmp
  | .less => .greater
  | .greater => .less
  | r => r

/-- **C30.** If `==` is an equivalence on the elements, it is one on variants. -/
theorem eq_equivalence {e : Alt → V → V → Bool} (hr : ∀ k u, e k u u = true) (hs : ∀ k u v, e k u v = true → e k v u = true)
    (ht : ∀ k u v w, e k u v = true → e k v w = true → e k u w = true) :
    (∀ x : Val V, eq e (mkVar x) (mkVar x) = .ok true) ∧
    (∀ x y : Val V, eq e (mkVar x) (mkVar y) = .ok true → eq e (mkVar y) (mkVar x) = .ok true) ∧
    (∀ x y z : Val V, eq e (mkVar x) (mkVar y) = .ok true → eq e (mkVar y) (mkVar z) = .ok true →
      eq e (mkVar x) (mkVar z) = .ok true) := by
  refine ⟨?_, ?_, ?_⟩
  · intro x; rcases x with _ | ⟨_ | _, u⟩ <;> simp [eq, mkVar, Alt.disc, readAs, hr]
  · intro x y
    rcases x with _ | ⟨_ | _, u⟩ <;> rcases y with _ | ⟨_ | _, v⟩ <;> simp [eq, mkVar, Alt.disc, readAs] <;> exact hs _ _ _
  · intro x y z
    rcases x with _ | ⟨_ | _, u⟩ <;> rcases y with _ | ⟨_ | _, v⟩ <;> rcases z with _ | ⟨_ | _, w⟩ <;>
      simp [eq, mkVar, Alt.disc, readAs] <;> exact ht _ _ _ _

example : (∀ u : Nat, (u == u) = true) ∧ (∀ u v : Nat, (u == v) = true → (v == u) = true) ∧
    ∀ u v w : Nat, (u == v) = true → (v == w) = true → (u == w) = true := by
  simp +contextual

/-- **C30.** `<=>` is consistent with `==`, antisymmetric and transitive if it is on the elements, and never unordered if it
never is on the elements. -/
theorem cmp_order {c : Alt → V → V → Cmp} {e : Alt → V → V → Bool} (he : ∀ k u v, c k u v = .equal ↔ e k u v = true)
    (ha : ∀ k u v, c k v u = (c k u v).flip)
    (ht : ∀ k u v w, c k u v = .less → c k v w = .less → c k u w = .less) (x y z : Val V) :
    (specCmp c x y = .equal ↔ eq e (mkVar x) (mkVar y) = .ok true) ∧
    specCmp c y x = (specCmp c x y).flip ∧
    (specCmp c x y = .less → specCmp c y z = .less → specCmp c x z = .less) ∧
    ((∀ k u v, c k u v ≠ .unordered) → specCmp c x y ≠ .unordered) := by
  refine ⟨?_, ?_, ?_, ?_⟩
  · rcases x with _ | ⟨_ | _, u⟩ <;> rcases y with _ | ⟨_ | _, v⟩ <;> simp [eq, mkVar, Alt.disc, readAs, specCmp, he]
  · rcases x with _ | ⟨_ | _, u⟩ <;> rcases y with _ | ⟨_ | _, v⟩ <;> simp [specCmp, Cmp.flip] <;> exact ha _ _ _
  · rcases x with _ | ⟨_ | _, u⟩ <;> rcases y with _ | ⟨_ | _, v⟩ <;> rcases z with _ | ⟨_ | _, w⟩ <;>
      simp [specCmp] <;> exact ht _ _ _ _
  · intro hn
    rcases x with _ | ⟨_ | _, u⟩ <;> rcases y with _ | ⟨_ | _, v⟩ <;> simp [specCmp, hn]

/-- Integers meet the hypotheses. -/
example : let c : Alt → Int → Int → Cmp := fun _ u v => if u < v then .less else if u = v then .equal else .greater
    (∀ k u v, c k u v = .equal ↔ decide (u = v) = true) ∧ (∀ k u v, c k v u = (c k u v).flip) ∧
    (∀ k u v w, c k u v = .less → c k v w = .less → c k u w = .less) := by
  refine ⟨?_, ?_, ?_⟩
  · intro k u v
    by_cases h : u < v
    · have : u ≠ v := by omega
      simp [h, this]
    · by_cases h2 : u = v <;> simp [h2, h]
  · intro k u v
    by_cases h : u < v
    · have h1 : ¬ v < u := by omega
      have h2 : v ≠ u := by omega
      simp [h, h1, h2, Cmp.flip]
    · by_cases h2 : u = v
      · simp [h2, Cmp.flip]
      · have h3 : v < u := by omega
        simp [h, h2, h3, Cmp.flip]
  · intro k u v w
    by_cases h1 : u < v <;> by_cases h2 : v < w
    · have : u < w := by omega
      simp [this]
    · by_cases h3 : v = w <;> simp [h2, h3]
    · by_cases h3 : u = v <;> simp [h1, h3]
    · by_cases h3 : u = v <;> simp [h1, h3]

/-- **C30, partial.** Equal variants that hold a value have equal hashes, if that is so for the elements. Missing: valueless
variants, see `hash_valueless_refuted`. -/
theorem hash_eq_partial {hsz : Nat → Nat} {h : Alt → V → Nat} {e : Alt → V → V → Bool}
    (he : ∀ k u v, e k u v = true → h k u = h k v) {x y : Val V} (hx : x ≠ none)
    (hxy : eq e (mkVar x) (mkVar y) = .ok true) :
    ∃ n, hash hsz h (mkVar x) = .ok n ∧ hash hsz h (mkVar y) = .ok n := by
  rcases x with _ | ⟨_ | _, u⟩ <;> rcases y with _ | ⟨_ | _, v⟩ <;>
    simp [eq, mkVar, Alt.disc, readAs] at hx hxy ⊢ <;> simp [hash, visit, readAs, he _ _ _ hxy]

example : eq (fun _ (u v : Nat) => u % 4 == v % 4) (mkVar (some (.a, 7))) (mkVar (some (.a, 3))) = .ok true ∧
    hash id (fun _ (v : Nat) => v % 2) (mkVar (some (.a, 7))) = hash id (fun _ v => v % 2) (mkVar (some (.a, 3))) := ⟨rfl, rfl⟩

/-- **C30.** The alternative counts: elements of different alternatives that have the same hash `n` give the same hash of the variants iff the
hashes of the indices 0 and 1 agree (as `size_t`). -/
theorem hash_index {hsz : Nat → Nat} {h : Alt → V → Nat} {v u : V} (hv : h .a v = h .b u) :
    ∃ n m, hash hsz h (mkVar (some (.a, v))) = .ok n ∧ hash hsz h (mkVar (some (.b, u))) = .ok m ∧ n < 2 ^ 64 ∧ m < 2 ^ 64 ∧
      (n = m ↔ hsz 0 % 2 ^ 64 = hsz 1 % 2 ^ 64) := by
  refine ⟨(hsz 0 + h .a v) % 2 ^ 64, (hsz 1 + h .b u) % 2 ^ 64, by simp [hash, visit, readAs, mkVar, Alt.disc], by simp [hash, visit, readAs, mkVar, Alt.disc],
    by omega, by omega, ?_⟩
  rw [hv]
  omega

example : hash id (fun _ (v : Nat) => v) (mkVar (some (.a, 7))) = .ok 7 ∧ hash id (fun _ (v : Nat) => v) (mkVar (some (.b, 7))) = .ok 8 := ⟨rfl, rfl⟩

/-- **C30, refuted.** Hashing a valueless variant terminates the program; such a variant is reachable. -/
theorem hash_valueless_refuted : ∃ (σ : State Nat) (s : Var Nat),
    run plainCfg plainEnv (fun _ => none) [.new 0 .copy .a 1 false, .emplace 0 .b 2 true] = .ok σ ∧ σ 0 = some s ∧
    hash id (fun _ v => v) s = .error .terminate := ⟨_, ⟨.valueless, none⟩, rfl, rfl, rfl⟩

end Verif.Variant2
