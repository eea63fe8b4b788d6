import Verif.Variant2.AccessModel
import Verif.Variant2.Props

/-! C76: what access to a `variant2` gives. -/
namespace Verif.Variant2

open Verif.Qualifiers (Obj Ty)

variable {V : Type}

/-- Specification: the alternative, `const` if the variant is, an lvalue if the variant is one and else an rvalue. -/
def asSeenThrough (a : Ref) (alt : Obj) : Ty :=
  if a.lvalue then .lref (if a.isConst then alt.addConst else alt) else .rref (if a.isConst then alt.addConst else alt)

theorem bindable_refl (o : Obj) : Verif.Qualifiers.bindable o o = true := by
  simp only [Verif.Qualifiers.bindable, beq_self_eq_true, Bool.true_and]
  cases o.isConst <;> cases o.isVolatile <;> rfl

theorem referable_addConst (o : Obj) : o.addConst.referable = o.referable := by cases o <;> rfl

theorem resolve_self (a : Ref) : resolve a = some a := by
  rcases a with ⟨_ | _, _ | _⟩ <;> decide

/-- **C76.** `get<ix>(v)` and `get<X>(v)` on an expression `v` of any qualification and category call exactly one overload, and give a reference to
the alternative in the variant, as seen through `v`. The same for what `visit` passes to the visitor. -/
theorem access_type (a : Ref) (alt : Obj) (h : alt.referable = true) :
    getTy a alt = some (asSeenThrough a alt) ∧ visitTy a alt = some (asSeenThrough a alt) := by
  have h' : alt.addConst.referable = true := by rw [referable_addConst]; exact h
  rcases a with ⟨_ | _, _ | _⟩ <;>
    simp [getTy, visitTy, resolve_self, inner, getImpl, self, vCopyCvref, vCopyReference, vCopyConst, Ty.obj, Obj.isConst, Ty.addL, Ty.addR,
      Ty.addConst, member, declared, returnAs, bindable_refl, asSeenThrough, h, h']

/-- a rvalue of type `variant2<int, U>`: `int &&`; a const lvalue of it: `int const &` -/
example : getTy ⟨false, false⟩ (.named 1 false false) = some (.rref (.named 1 false false)) ∧
    visitTy ⟨true, true⟩ (.named 1 false false) = some (.lref (.named 1 true false)) :=
  ⟨(access_type ⟨false, false⟩ (.named 1 false false) rfl).1, (access_type ⟨true, true⟩ (.named 1 false false) rfl).2⟩

/-- **C76, partial.** `get_if` on a null pointer or a variant that holds something else gives a null pointer; else a pointer to the object in the
variant, to `const` iff the variant is. Missing: alternatives with their own `operator&` (see `get_if_amp_refuted`). -/
theorem get_if_partial (am : Alt → Amp) (x : Val V) (addr : Nat) (k : Alt) (h : (am k).amp addr = addr) (c : Bool) (alt : Obj) :
    getIfPtr am (none : Option (Var V × Nat)) k = none ∧
    (getIfPtr am (some (mkVar x, addr)) k = some addr ↔ ∃ v, x = some (k, v)) ∧
    (getIfPtr am (some (mkVar x, addr)) k = none ↔ ∀ v, x ≠ some (k, v)) ∧
    getIfTy c alt = (if c then alt.addConst else alt) ∧ placeAt (am k) addr = addr := by
  refine ⟨rfl, ?_, ?_, ?_, h⟩
  · rcases x with _ | ⟨_ | _, u⟩ <;> cases k <;> simp [getIfPtr, mkVar, Alt.disc, h]
  · rcases x with _ | ⟨_ | _, u⟩ <;> cases k <;> simp [getIfPtr, mkVar, Alt.disc]
  · cases c <;> simp [getIfTy, vCopyConst, Obj.isConst, Ty.obj, Ty.addConst]

example : getIfPtr (fun _ => ⟨fun p => p⟩) (some (mkVar (some (Alt.b, 7)), 100)) .b = some 100 :=
  (get_if_partial (fun _ => ⟨fun p => p⟩) (some (Alt.b, 7)) 100 .b rfl true (.named 1 false false)).2.1.2 ⟨7, rfl⟩

/-- **C76, refuted.** For an alternative with its own `operator&`, `get_if` gives what that returns, and construction uses it as the place for the
object. -/
theorem get_if_amp_refuted : ∃ am : Alt → Amp, getIfPtr am (some (mkVar (some (Alt.a, 7)), 100)) .a = some 500 ∧ placeAt (am .a) 100 = 500 :=
  ⟨fun _ => ⟨fun p => p + 400⟩, rfl, rfl⟩

/-- **C76.** Formatting gives `variant(...)` around the text of the held alternative; only the empty format specification is accepted; an
exception of the formatter of the alternative is passed on. -/
theorem format_spec (f : Alt → V → String × Bool) (x : Val V) (spec : List Char) :
    (parses spec = true ↔ spec = []) ∧
    (x = none → format f (mkVar x) = .ok ("variant(valueless by exception)", false)) ∧
    (∀ k v, x = some (k, v) → format f (mkVar x) =
      .ok ("variant(" ++ (f k v).1 ++ (if (f k v).2 then "" else ")"), (f k v).2)) := by
  refine ⟨by cases spec <;> simp [parses], ?_, ?_⟩
  · rintro rfl; rfl
  · rintro k v rfl
    cases hf : f k v with
    | mk t b => cases k <;> cases b <;> simp [format, valuelessByException, mkVar, Alt.disc, visit, readAs, hf]

example : format (fun _ v => (toString v, false)) (mkVar (some (Alt.b, 7))) = .ok ("variant(7)", false) := by decide +kernel

/-- **C76, partial.** `==` gives what the operator of the elements gives, as long as that does not throw; variants that hold different alternatives are unequal, two
valueless ones are equal. -/
theorem eq_throw_partial (e : Alt → V → V → Option Bool) (x y : Val V) :
    (eqThrow e (mkVar x) (mkVar y) = .error .terminate ↔ ∃ k u v, x = some (k, u) ∧ y = some (k, v) ∧ e k u v = none) ∧
    (∀ k u v r, x = some (k, u) → y = some (k, v) → e k u v = some r → eqThrow e (mkVar x) (mkVar y) = .ok r) ∧
    (x.map Prod.fst ≠ y.map Prod.fst → eqThrow e (mkVar x) (mkVar y) = .ok false) ∧
    (x = none → y = none → eqThrow e (mkVar x) (mkVar y) = .ok true) := by
  refine ⟨?_, ?_, ?_, ?_⟩
  · rcases x with _ | ⟨_ | _, u⟩ <;> rcases y with _ | ⟨_ | _, v⟩ <;> simp [eqThrow, mkVar, Alt.disc, readAs, Except.bind]
    · cases h : e .a u v with
      | none => exact ⟨fun _ => ⟨_, _, ⟨rfl, rfl⟩, _, ⟨rfl, rfl⟩, h⟩, fun _ => rfl⟩
      | some r => simp [h]
    · cases h : e .b u v with
      | none => exact ⟨fun _ => ⟨_, _, ⟨rfl, rfl⟩, _, ⟨rfl, rfl⟩, h⟩, fun _ => rfl⟩
      | some r => simp [h]
  · rintro k u v r rfl rfl h
    cases k <;> simp [eqThrow, mkVar, Alt.disc, readAs, Except.bind, h]
  · rcases x with _ | ⟨_ | _, u⟩ <;> rcases y with _ | ⟨_ | _, v⟩ <;> simp [eqThrow, mkVar, Alt.disc]
  · rintro rfl rfl; rfl

/-- **C76, refuted.** If the operator of the elements throws, comparison ends the program instead of passing the exception on. -/
theorem eq_throw_refuted : eqThrow (fun _ _ _ => none) (mkVar (some (Alt.a, 1))) (mkVar (some (Alt.a, 1))) = .error .terminate := rfl

/-- **C76, partial.** `std::hash` uses the index and hash of the held alternative iff the first one is not `const` and the second one is not the
first one with `const` added. -/
theorem hash_branch_partial (n m : Nat) (c c' v v' : Bool) (hne : Obj.named n c v ≠ Obj.named m c' v') :
    (hashBranch (.named n c v) (.named n c v) = .a ↔ c = false) ∧
    (hashBranch (.named n c v) (.named m c' v') = .b ↔ ¬ (m = n ∧ v' = v ∧ c = false)) := by
  constructor
  · cases c <;> simp [hashBranch]
  · simp only [hashBranch]
    by_cases h : m = n ∧ v' = v ∧ c = false
    · obtain ⟨rfl, rfl, rfl⟩ := h; simp
    · rw [if_neg]
      · simp [h]
      · intro e; injection e with e1 e2 e3; exact h ⟨e1, e3, e2.symm⟩

example : hashBranch (.named 1 false false) (.named 1 false false) = .a ∧ hashBranch (.named 1 false false) (.named 2 true false) = .b :=
  ⟨(hash_branch_partial 1 2 false true false false (by decide)).1.2 rfl, (hash_branch_partial 1 2 false true false false (by decide)).2.2 (by decide)⟩

/-- **C76, refuted.** `variant2<T const, U>` uses the hash of `U` for a `T`. -/
theorem hash_branch_refuted : hashBranch (.named 1 true false) (.named 1 true false) = .b := rfl

/-- **C76.** `variant<Ts...>` is `variant2` exactly for two types, with the types in order. -/
theorem select_spec (ts : List Obj) : (∀ t u, select ts = .two t u ↔ ts = [t, u]) ∧ (ts.length ≠ 2 → select ts = .std ts) := by
  match ts with
  | [] => simp [select]
  | [_] => simp [select]
  | [_, _] => simp [select]
  | _ :: _ :: _ :: _ => simp [select]

example : select [.named 1 false false, .named 2 false false, .named 3 false false] =
    .std [.named 1 false false, .named 2 false false, .named 3 false false] := (select_spec _).2 (by decide)

end Verif.Variant2
