import Verif.Qualifiers.Model

namespace Verif.Qualifiers

/-! ## Specification: what can be observed of a type

A type is determined by its kind of reference and, for what is referred to, constness, volatility and the type without qualifiers.
Function types have no qualifiers. -/

inductive Kind
  | none | lvalue | rvalue
deriving DecidableEq, Repr

def Ty.kind : Ty → Kind
  | .val _ => .none
  | .lref _ => .lvalue
  | .rref _ => .rvalue

/-- Function types, which cannot be const or volatile (arrays of functions do not exist). -/
def Obj.isFunc : Obj → Bool
  | .func _ _ => true
  | .arr e _ => e.isFunc
  | _ => false

/-- `std::is_const` (of the type itself, so false for references) -/
def Ty.topConst : Ty → Bool
  | .val o => o.isConst
  | _ => false

def Ty.topVolatile : Ty → Bool
  | .val o => o.isVolatile
  | _ => false

/-- The observations determine a type. -/
theorem obj_ext : ∀ {a b : Obj}, a.bare = b.bare → a.isConst = b.isConst → a.isVolatile = b.isVolatile → a = b
  | .named .., .named .., h, h1, h2 => by simp_all [Obj.bare, Obj.isConst, Obj.isVolatile]
  | .void .., .void .., h, h1, h2 => by simp_all [Obj.isConst, Obj.isVolatile]
  | .func .., .func .., h, h1, h2 => by simp_all [Obj.bare]
  | .arr a l, .arr b m, h, h1, h2 => by
    simp only [Obj.bare, Obj.arr.injEq] at h
    rw [obj_ext (a := a) (b := b) h.1 h1 h2, h.2]
  | .named .., .void .., h, _, _ => by simp [Obj.bare] at h
  | .named .., .func .., h, _, _ => by simp [Obj.bare] at h
  | .named .., .arr .., h, _, _ => by simp [Obj.bare] at h
  | .void .., .named .., h, _, _ => by simp [Obj.bare] at h
  | .void .., .func .., h, _, _ => by simp [Obj.bare] at h
  | .void .., .arr .., h, _, _ => by simp [Obj.bare] at h
  | .func .., .named .., h, _, _ => by simp [Obj.bare] at h
  | .func .., .void .., h, _, _ => by simp [Obj.bare] at h
  | .func .., .arr .., h, _, _ => by simp [Obj.bare] at h
  | .arr .., .named .., h, _, _ => by simp [Obj.bare] at h
  | .arr .., .void .., h, _, _ => by simp [Obj.bare] at h
  | .arr .., .func .., h, _, _ => by simp [Obj.bare] at h

theorem ty_ext {a b : Ty} (hk : a.kind = b.kind) (hb : a.obj.bare = b.obj.bare) (hc : a.obj.isConst = b.obj.isConst)
    (hv : a.obj.isVolatile = b.obj.isVolatile) : a = b := by
  have := obj_ext hb hc hv
  cases a <;> cases b <;> simp_all [Ty.kind, Ty.obj]

example : (Ty.lref (Obj.addConst (.named 3 false true))) = .lref (.named 3 true true) := ty_ext rfl rfl rfl rfl

/-! ## Adding qualifiers -/

theorem addConst_obs (o : Obj) : o.addConst.bare = o.bare ∧ o.addConst.isConst = !o.isFunc ∧ o.addConst.isVolatile = o.isVolatile ∧
    o.addConst.isFunc = o.isFunc ∧ o.addConst.referable = o.referable := by
  induction o with
  | arr e l ih =>
    obtain ⟨h1, h2, h3, h4, _⟩ := ih
    simp [Obj.addConst, Obj.bare, Obj.isConst, Obj.isVolatile, Obj.isFunc, Obj.referable, h1, h2, h3, h4]
  | _ => simp [Obj.addConst, Obj.bare, Obj.isConst, Obj.isVolatile, Obj.isFunc, Obj.referable]

theorem addVolatile_obs (o : Obj) : o.addVolatile.bare = o.bare ∧ o.addVolatile.isVolatile = !o.isFunc ∧ o.addVolatile.isConst = o.isConst ∧
    o.addVolatile.isFunc = o.isFunc ∧ o.addVolatile.referable = o.referable := by
  induction o with
  | arr e l ih =>
    obtain ⟨h1, h2, h3, h4, _⟩ := ih
    simp [Obj.addVolatile, Obj.bare, Obj.isConst, Obj.isVolatile, Obj.isFunc, Obj.referable, h1, h2, h3, h4]
  | _ => simp [Obj.addVolatile, Obj.bare, Obj.isConst, Obj.isVolatile, Obj.isFunc, Obj.referable]

theorem func_not_const (o : Obj) (h : o.isFunc = true) : o.isConst = false ∧ o.isVolatile = false := by
  induction o with
  | arr e l ih => exact ih h
  | func => exact ⟨rfl, rfl⟩
  | _ => simp [Obj.isFunc] at h

/-! ## C56: copy_* -/

/-- **C56.** `copy_const`: the target, if not a reference or function, becomes const iff it or the source is; nothing else changes. -/
theorem copyConst_spec (f t : Ty) :
    (copyConst f t).kind = t.kind ∧ (copyConst f t).obj.bare = t.obj.bare ∧ (copyConst f t).obj.isVolatile = t.obj.isVolatile ∧
    (copyConst f t).obj.isConst = (t.obj.isConst || (f.topConst && t.kind = .none && !t.obj.isFunc)) := by
  have key : ∀ o : Obj, (o.isConst || !o.isFunc) = !o.isFunc := fun o => by
    cases h : o.isFunc
    · simp
    · simp [(func_not_const o h).1]
  cases f with
  | lref o => simp [copyConst, Ty.topConst]
  | rref o => simp [copyConst, Ty.topConst]
  | val o =>
    simp only [copyConst, Ty.topConst]
    cases o.isConst
    · simp
    · cases t with
      | val u => obtain ⟨h1, h2, h3, _, _⟩ := addConst_obs u; simp [Ty.addConst, Ty.kind, Ty.obj, h1, h2, h3, key]
      | lref u => simp [Ty.addConst, Ty.kind, Ty.obj]
      | rref u => simp [Ty.addConst, Ty.kind, Ty.obj]

example : copyConst (.val (.named 0 true false)) (.val (.named 1 false true)) = .val (.named 1 true true) := by decide

/-- **C56.** `copy_volatile`, likewise. -/
theorem copyVolatile_spec (f t : Ty) :
    (copyVolatile f t).kind = t.kind ∧ (copyVolatile f t).obj.bare = t.obj.bare ∧ (copyVolatile f t).obj.isConst = t.obj.isConst ∧
    (copyVolatile f t).obj.isVolatile = (t.obj.isVolatile || (f.topVolatile && t.kind = .none && !t.obj.isFunc)) := by
  have key : ∀ o : Obj, (o.isVolatile || !o.isFunc) = !o.isFunc := fun o => by
    cases h : o.isFunc
    · simp
    · simp [(func_not_const o h).2]
  cases f with
  | lref o => simp [copyVolatile, Ty.topVolatile]
  | rref o => simp [copyVolatile, Ty.topVolatile]
  | val o =>
    simp only [copyVolatile, Ty.topVolatile]
    cases o.isVolatile
    · simp
    · cases t with
      | val u => obtain ⟨h1, h2, h3, _, _⟩ := addVolatile_obs u; simp [Ty.addVolatile, Ty.kind, Ty.obj, h1, h2, h3, key]
      | lref u => simp [Ty.addVolatile, Ty.kind, Ty.obj]
      | rref u => simp [Ty.addVolatile, Ty.kind, Ty.obj]

example : copyVolatile (.val (.named 0 true true)) (.val (.named 1 false false)) = .val (.named 1 false true) := by decide

/-- **C56.** `copy_cv` is `copy_const` and `copy_volatile`, in any order. -/
theorem copyCv_eq (f t : Ty) : copyCv f t = copyVolatile f (copyConst f t) ∧ copyCv f t = copyConst f (copyVolatile f t) := by
  have comm : ∀ o : Obj, o.addConst.addVolatile = o.addVolatile.addConst := fun o => by
    induction o with
    | arr e l ih => simp [Obj.addConst, Obj.addVolatile, ih]
    | _ => simp [Obj.addConst, Obj.addVolatile]
  cases f with
  | lref o => exact ⟨rfl, rfl⟩
  | rref o => exact ⟨rfl, rfl⟩
  | val o =>
    simp only [copyCv, copyConst, copyVolatile]
    cases o.isConst <;> cases o.isVolatile <;> cases t <;> simp [Ty.addConst, Ty.addVolatile, comm]

example : copyCv (.val (.named 0 true true)) (.val (.named 1 false false)) = .val (.named 1 true true) := by decide

/-- **C56.** `copy_cv` in terms of observations. -/
theorem copyCv_spec (f t : Ty) :
    (copyCv f t).kind = t.kind ∧ (copyCv f t).obj.bare = t.obj.bare ∧
    (copyCv f t).obj.isConst = (t.obj.isConst || (f.topConst && t.kind = .none && !t.obj.isFunc)) ∧
    (copyCv f t).obj.isVolatile = (t.obj.isVolatile || (f.topVolatile && t.kind = .none && !t.obj.isFunc)) := by
  rw [(copyCv_eq f t).1]
  obtain ⟨a1, a2, a3, a4⟩ := copyConst_spec f t
  obtain ⟨b1, b2, b3, b4⟩ := copyVolatile_spec f (copyConst f t)
  have hf : (copyConst f t).obj.isFunc = t.obj.isFunc := by
    cases f with
    | val o =>
      simp only [copyConst]
      cases o.isConst
      · rfl
      · cases t <;> simp [Ty.addConst, Ty.obj, (addConst_obs _).2.2.2.1]
    | _ => rfl
  refine ⟨b1.trans a1, b2.trans a2, b3.trans a4, ?_⟩
  rw [b4, a3, a1, hf]

/-- Qualifiers are not added to references. -/
example : copyCv (.val (.named 0 true true)) (.lref (.named 1 false false)) = .lref (.named 1 false false) := by decide

/-- Reference collapsing: an lvalue reference if either is one. -/
def collapse : Kind → Kind → Kind
  | .none, k => k
  | k, .none => k
  | .rvalue, .rvalue => .rvalue
  | _, _ => .lvalue

/-- There are references to every type but `void` and function types with qualifiers of their own. -/
theorem referable_iff (o : Obj) : o.referable = true ↔ (∀ c v, o ≠ .void c v) ∧ ∀ n, o ≠ .func n true := by
  cases o with
  | func n a => cases a <;> simp [Obj.referable]
  | _ => simp [Obj.referable]

/-- **C56.** `copy_reference`: the source's reference is added to the target, collapsing; nothing else changes. It is ill-formed exactly if
there are no references to the target. -/
theorem copyReference_spec (f t : Ty) :
    match copyReference f t with
    | some r => r.kind = collapse f.kind t.kind ∧ r.obj = t.obj
    | none => f.kind ≠ .none ∧ t.kind = .none ∧ t.obj.referable = false := by
  cases f <;> cases t <;> simp only [copyReference, Ty.addL, Ty.addR] <;>
    (try (simp [Ty.kind, Ty.obj, collapse]; done))
  all_goals
    rename_i o
    cases h : o.referable <;> simp [Ty.kind, Ty.obj, collapse, h]

example : copyReference (.rref (.named 0 true false)) (.lref (.named 1 false false)) = some (.lref (.named 1 false false)) ∧
    copyReference (.rref (.named 0 true false)) (.val (.void false false)) = none := by decide

/-- **C56.** `copy_cvref`: the qualifiers of the type the source refers to, and its reference. -/
theorem copyCvref_spec (f t : Ty) :
    match copyCvref f t with
    | some r => r.kind = collapse f.kind t.kind ∧ r.obj.bare = t.obj.bare ∧
        r.obj.isConst = (t.obj.isConst || (f.obj.isConst && t.kind = .none && !t.obj.isFunc)) ∧
        r.obj.isVolatile = (t.obj.isVolatile || (f.obj.isVolatile && t.kind = .none && !t.obj.isFunc))
    | none => f.kind ≠ .none ∧ t.kind = .none ∧ t.obj.referable = false := by
  obtain ⟨a1, a2, a3, a4⟩ := copyCv_spec (.val f.obj) t
  have href : (copyCv (.val f.obj) t).obj.referable = t.obj.referable := by
    simp only [copyCv]
    cases t <;> cases f.obj.isConst <;> cases f.obj.isVolatile <;>
      simp [Ty.addConst, Ty.addVolatile, Ty.obj, (addConst_obs _).2.2.2.2, (addVolatile_obs _).2.2.2.2]
  have h := copyReference_spec f (copyCv (.val f.obj) t)
  unfold copyCvref
  cases hr : copyReference f (copyCv (.val f.obj) t) with
  | none => rw [hr] at h; exact ⟨h.1, a1 ▸ h.2.1, href ▸ h.2.2⟩
  | some r =>
    rw [hr] at h
    refine ⟨by rw [h.1, a1], ?_⟩
    rw [h.2]
    exact ⟨a2, a3, a4⟩

example : copyCvref (.lref (.arr (.named 0 true true) (some 3))) (.val (.named 1 false false)) = some (.lref (.named 1 true true)) := by decide

/-- Copying from a type onto one without any qualifiers and then from the result onto another is the same as copying directly: what is copied
is exactly what is there. For `To` an object type. -/
theorem copyCvref_transfer (f : Ty) (n m : Nat) :
    (copyCvref f (.val (.named n false false))).bind (fun g => copyCvref g (.val (.named m false false))) =
    copyCvref f (.val (.named m false false)) := by
  cases f with
  | val o =>
    simp only [copyCvref, copyReference, copyCv, Ty.obj]
    cases o.isConst <;> cases o.isVolatile <;>
      simp [Ty.addConst, Ty.addVolatile, Obj.addConst, Obj.addVolatile, copyReference, Ty.obj, Obj.isConst, Obj.isVolatile]
  | lref o =>
    simp only [copyCvref, copyReference, copyCv, Ty.obj]
    cases o.isConst <;> cases o.isVolatile <;>
      simp [Ty.addConst, Ty.addVolatile, Obj.addConst, Obj.addVolatile, copyReference, Ty.obj, Obj.isConst, Obj.isVolatile, Ty.addL,
        Obj.referable]
  | rref o =>
    simp only [copyCvref, copyReference, copyCv, Ty.obj]
    cases o.isConst <;> cases o.isVolatile <;>
      simp [Ty.addConst, Ty.addVolatile, Obj.addConst, Obj.addVolatile, copyReference, Ty.obj, Obj.isConst, Obj.isVolatile, Ty.addR,
        Obj.referable]

/-- `int const volatile[3] &` onto `double`, `double &`, `void` -/
example : copyCvref (.lref (.arr (.named 0 true true) (some 3))) (.val (.named 1 false false)) = some (.lref (.named 1 true true)) ∧
    copyCvref (.rref (.named 0 true false)) (.lref (.named 1 false false)) = some (.lref (.named 1 false false)) ∧
    copyCvref (.rref (.named 0 true false)) (.val (.void false false)) = none := by decide

/-! ## C56: forward_like -/

/-- **C56.** `forward_like<T>(x)`: for every `T` to which there are references, and every object or function `x`, lvalue or rvalue: the result is
an lvalue iff `T` is an lvalue reference, otherwise an rvalue; const iff `x` or (the type referred to by) `T` is const (functions never are);
volatile iff `x` is; the same type otherwise. -/
theorem forwardLike_spec (t : Ty) (lv : Bool) (o : Obj) (ho : o.referable = true) (ht : t.kind ≠ .none ∨ t.obj.referable = true) :
    ∃ r, forwardLike t lv o = some r ∧ (r.kind = if t.kind = .lvalue then .lvalue else .rvalue) ∧ r.obj.bare = o.bare ∧
      r.obj.isConst = (o.isConst || (t.obj.isConst && !o.isFunc)) ∧ r.obj.isVolatile = o.isVolatile := by
  have hu : (deduced lv o).addL = some (.lref o) := by cases lv <;> simp [deduced, Ty.addL, ho]
  have hconst : ∀ b : Bool, (o.isConst || (b && !o.isFunc)) = if b then !o.isFunc else o.isConst := by
    intro b
    cases b
    · simp
    · cases hf : o.isFunc
      · simp
      · simp [(func_not_const o hf).1]
  obtain ⟨c1, c2, c3, _, _⟩ := addConst_obs o
  cases t with
  | val to =>
    have hr : to.referable = true := by rcases ht with h | h; exact absurd rfl h; exact h
    simp only [forwardLike, likeT, hu, Ty.addR, hr, Option.bind_some, like, Ty.obj, hconst]
    cases to.isConst <;> simp [Ty.kind, Ty.obj, c1, c2, c3]
  | lref to =>
    simp only [forwardLike, likeT, hu, Ty.addR, Option.bind_some, like, Ty.obj, hconst]
    cases to.isConst <;> simp [Ty.kind, Ty.obj, c1, c2, c3]
  | rref to =>
    simp only [forwardLike, likeT, hu, Ty.addR, Option.bind_some, like, Ty.obj, hconst]
    cases to.isConst <;> simp [Ty.kind, Ty.obj, c1, c2, c3]

example : (Obj.named 1 false true).referable = true ∧ (Ty.lref (.named 0 true false)).kind ≠ .none ∧
    forwardLike (.lref (.named 0 true false)) true (.named 1 false true) = some (.lref (.named 1 true true)) := by decide

/-- The cast in `forward_like` (type_traits.hpp:186) never drops a qualifier: the result refers to the same object. -/
theorem forwardLike_binds (t : Ty) (lv : Bool) (o : Obj) (ho : o.referable = true) (ht : t.kind ≠ .none ∨ t.obj.referable = true) :
    ∃ r, forwardLike t lv o = some r ∧ bindable o r.obj = true := by
  obtain ⟨r, h1, _, h3, h4, h5⟩ := forwardLike_spec t lv o ho ht
  refine ⟨r, h1, ?_⟩
  simp only [bindable, h3, h4, h5]
  cases o.isConst <;> cases o.isVolatile <;> simp

example : forwardLike (.lref (.named 0 true false)) true (.named 1 false true) = some (.lref (.named 1 true true)) ∧
    forwardLike (.val (.named 0 false false)) true (.named 1 false false) = some (.rref (.named 1 false false)) ∧
    forwardLike (.val (.void false false)) true (.named 1 false false) = none := by decide

/-! ## DICE_MOVE_IF_VALUE -/

/-- **C61.** What the documentation says (type_traits.hpp:192-209): `none`: no move. -/
def documentedMoves (d : Ty) : Bool := match d with
  | .val o => !o.isConst
  | .rref o => !o.isConst
  | .lref _ => false

/-- **C61.** For non-const, non-volatile values and rvalue references it gives an rvalue referring to the object: it is moved from. -/
theorem moveIfValue_moves {d : Ty} (hm : documentedMoves d = true) (hv : d.obj.isVolatile = false) (hr : d.obj.referable = true) :
    moveIfValue d = some (.ref (.rref d.obj)) := by
  have hc : d.obj.isConst = false := by cases d <;> simp_all [documentedMoves, Ty.obj]
  have hb : d.obj.bare = d.obj := by
    have : ∀ o : Obj, o.bare.bare = o.bare ∧ o.bare.isConst = false ∧ o.bare.isVolatile = false := fun o => by
      induction o with
      | arr e l ih => simp [Obj.bare, Obj.isConst, Obj.isVolatile, ih]
      | _ => simp [Obj.bare, Obj.isConst, Obj.isVolatile]
    exact obj_ext (this _).1 ((this _).2.1.trans hc.symm) ((this _).2.2.trans hv.symm)
  have hn : noMove d = false := by cases d <;> simp_all [documentedMoves, noMove, Ty.obj]
  have hbind : bindable d.obj d.obj = true := by simp [bindable]
  unfold moveIfValue
  simp only [hn, hb, hbind, moveIfValueType, Ty.addR, hr, Option.map_some]

example : documentedMoves (.val (.named 0 false false)) = true ∧ (Ty.val (.named 0 false false)).obj.isVolatile = false ∧
    (Ty.val (.named 0 false false)).obj.referable = true := by decide

/-- **C61.** Lvalue references are passed on as lvalues: no move. -/
theorem moveIfValue_lref (o : Obj) : moveIfValue (.lref o) = some (.ref (.lref o)) := rfl

example : moveIfValue (.lref (.named 0 true false)) = some (.ref (.lref (.named 0 true false))) := by decide

/-- **C61.** The type has the documented form: an rvalue reference to non-const iff it moves. -/
theorem moveIfValueType_spec {d : Ty} (hr : d.obj.referable = true) :
    ∃ t, moveIfValueType d = some t ∧ ((t.kind = .rvalue ∧ t.obj.isConst = false) ↔ documentedMoves d = true) := by
  have hbare : ∀ o : Obj, o.bare.isConst = false ∧ o.bare.referable = o.referable := fun o => by
    induction o with
    | arr e l ih => simp [Obj.bare, Obj.isConst, Obj.referable, ih]
    | _ => simp [Obj.bare, Obj.isConst, Obj.referable]
  cases d with
  | lref o => exact ⟨.lref o, rfl, by simp [Ty.kind, documentedMoves]⟩
  | rref o =>
    cases h : o.isConst
    · exact ⟨.rref o.bare, by simp_all [moveIfValueType, noMove, h, Ty.addR, Ty.obj], by simp [Ty.kind, documentedMoves, h, Ty.obj, hbare]⟩
    · exact ⟨.rref o, by simp [moveIfValueType, noMove, h], by simp [documentedMoves, h, Ty.obj]⟩
  | val o =>
    cases h : o.isConst
    · exact ⟨.rref o.bare, by simp_all [moveIfValueType, noMove, h, Ty.addR, Ty.obj], by simp [Ty.kind, documentedMoves, h, Ty.obj, hbare]⟩
    · exact ⟨.val o, by simp [moveIfValueType, noMove, h], by simp [Ty.kind, documentedMoves, h]⟩

example : moveIfValueType (.val (.named 0 false false)) = some (.rref (.named 0 false false)) := by decide

/-- **C61, refuted**: for `T const &&`, given as an example in the documentation, evaluating the macro is ill-formed; so is it for volatile
variables. (The unit test only looks at its `decltype`.) A const variable is copied, unless it is a reference. -/
theorem moveIfValue_refuted :
    moveIfValue (.rref (.named 0 true false)) = none ∧ moveIfValueType (.rref (.named 0 true false)) = some (.rref (.named 0 true false)) ∧
    moveIfValue (.val (.named 0 false true)) = none ∧
    moveIfValue (.val (.named 0 true false)) = some .copy := by decide

theorem moveIfValue_crref (o : Obj) (h : o.isConst = true) : moveIfValue (.rref o) = none := by simp [moveIfValue, noMove, h]

example : documentedMoves (.rref (.named 0 false false)) = true ∧ (Ty.rref (.named 0 false false)).obj.referable = true ∧
    moveIfValue (.rref (.named 0 false false)) = some (.ref (.rref (.named 0 false false))) := by decide

/-! ## is_strict_invocable_r -/

/-- **C62 (partial).** `is_strict_invocable_r` agrees with `std::is_invocable` (and the exact return type) if the function and all arguments are
given as lvalue references. Missing: everything else, since it calls with lvalues always. -/
theorem strict_invocable_partial (call : Call) (r f : Ty) (args : List Ty) (hf : f.kind = .lvalue) (ha : ∀ a ∈ args, a.kind = .lvalue) :
    isStrictInvocableR call r f args = isInvocableExact call r f args := by
  have h : ∀ a : Ty, a.kind = .lvalue → name a = declval a := fun a ha => by cases a <;> simp_all [Ty.kind, name, declval, Ty.obj]
  unfold isStrictInvocableR isInvocableExact
  rw [h f hf, List.map_congr_left fun a ha' => h a (ha a ha')]

example (call : Call) (r : Ty) : isStrictInvocableR call r (.lref (.named 9 false false)) [.lref (.named 1 true false)] =
    isInvocableExact call r (.lref (.named 9 false false)) [.lref (.named 1 true false)] := strict_invocable_partial call r _ _ rfl (by simp [Ty.kind])

/-- More generally it suffices that the call does not care about value categories. -/
theorem strict_invocable_of_indifferent (call : Call) (r f : Ty) (args : List Ty)
    (h : call (name f) (args.map name) = call (declval f) (args.map declval)) :
    isStrictInvocableR call r f args = isInvocableExact call r f args := by
  unfold isStrictInvocableR isInvocableExact; rw [h]

/-- `void(int &&)` and `void(int &)`, called through function pointers. -/
def takesRvalue : Call := fun _ args => if args = [⟨false, .named 0 false false⟩] then some (.val (.void false false)) else none
def takesLvalue : Call := fun _ args => if args = [⟨true, .named 0 false false⟩] then some (.val (.void false false)) else none

/-- **C62, refuted**: functions taking `int &&` are not recognized as callable with an `int`, functions taking `int &` are. -/
theorem strict_invocable_refuted :
    isInvocableExact takesRvalue (.val (.void false false)) (.val (.named 9 false false)) [.val (.named 0 false false)] = true ∧
    isStrictInvocableR takesRvalue (.val (.void false false)) (.val (.named 9 false false)) [.val (.named 0 false false)] = false ∧
    isInvocableExact takesLvalue (.val (.void false false)) (.val (.named 9 false false)) [.val (.named 0 false false)] = false ∧
    isStrictInvocableR takesLvalue (.val (.void false false)) (.val (.named 9 false false)) [.val (.named 0 false false)] = true := by
  decide

example : (Ty.lref (.named 9 false false)).kind = .lvalue ∧
    isStrictInvocableR takesLvalue (.val (.void false false)) (.lref (.named 9 false false)) [.lref (.named 0 false false)] = true := by decide

end Verif.Qualifiers
