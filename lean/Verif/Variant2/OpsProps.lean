import Verif.Variant2.Props

/-!
# Which operation of the elements makes the value (C28)

`history_partial` assumes elements for which `T{x}` is a copy of `x`. Here nothing is assumed about the elements: each theorem says which value is made,
in terms of what copying (`copyNew`), moving (`moveNew`) and assigning an element give, and what is left in the source of a move.
-/
namespace Verif.Variant2

variable {V : Type}

/-- A value with each element replaced by what `f` makes of it; a valueless variant stays so. -/
def Val.through (f : Alt → V → V) (y : Val V) : Val V := y.map fun p => (p.1, f p.1 p.2)

/-- Copies are made by the copy constructor of the element, of the alternative held; a trivial one copies the value. -/
theorem copy_ctor_value (cfg : Cfg) (env : Env V) (y : Val V) :
    copyCtor cfg env (mkVar y) false = .ok (some (mkVar (if cfg.trivCopyCtor then y else y.through env.copyNew))) := by
  by_cases ht : cfg.trivCopyCtor = true
  · simp [copyCtor, ht]
  · rcases y with _ | ⟨_ | _, v⟩ <;> simp [copyCtor, ht, mkVar, Alt.disc, readAs, Except.bind, newVar_eq, Val.through]

/-- Moves are made by the move constructor of the element, and the source keeps the alternative with what the move left. -/
theorem move_ctor_value (cfg : Cfg) (env : Env V) (y : Val V) :
    moveCtor cfg env (mkVar y) false =
      .ok (if cfg.trivMoveCtor then (some (mkVar y), mkVar y) else (some (mkVar (y.through env.moveNew)), mkVar (y.through env.movedFrom))) := by
  by_cases ht : cfg.trivMoveCtor = true
  · simp [moveCtor, ht]
  · rcases y with _ | ⟨_ | _, v⟩ <;> simp [moveCtor, ht, mkVar, Alt.disc, readAs, Except.bind, newVar_eq, moveOut, Val.through]

/-- Copy assignment assigns the element if both variants hold the same alternative, and copy constructs it otherwise. -/
theorem copy_assign_value (cfg : Cfg) (ht : cfg.trivCopyAssign = false) (env : Env V) (x y : Val V) :
    copyAssign cfg env (mkVar x) (mkVar y) false = .ok (mkVar (if SameAlt x y then y else y.through env.copyNew), false) := by
  rcases x with _ | ⟨_ | _, u⟩ <;> rcases y with _ | ⟨_ | _, v⟩ <;>
    simp [copyAssign, ht, mkVar, Alt.disc, readAs, destroyAs, Except.bind, tryConstruct, rawConstruct, constructAs, assignAs, Val.through, SameAlt]

example : copyAssign (V := Nat) ⟨false, false, false, false, false, fun _ => false⟩ ⟨fun _ v => v + 10, fun _ v => v, fun _ v => v, fun _ v => v⟩
    (mkVar (some (.a, 1))) (mkVar (some (.b, 2))) false = .ok (mkVar (some (.b, 12)), false) := by
  rw [copy_assign_value _ rfl]; rfl

/-- Move assignment assigns the element if both variants hold the same alternative, and move constructs it otherwise; the source keeps the
alternative. -/
theorem move_assign_value (cfg : Cfg) (ht : cfg.trivMoveAssign = false) (env : Env V) (x y : Val V) :
    moveAssign cfg env (mkVar x) (mkVar y) false =
      .ok (mkVar (if SameAlt x y then y else y.through env.moveNew), mkVar (y.through env.movedFrom), false) := by
  rcases x with _ | ⟨_ | _, u⟩ <;> rcases y with _ | ⟨_ | _, v⟩ <;>
    simp [moveAssign, ht, mkVar, Alt.disc, readAs, destroyAs, Except.bind, tryConstruct, rawConstruct, constructAs, assignAs, Val.through, SameAlt, moveOut]

example : moveAssign (V := Nat) ⟨false, false, false, false, false, fun _ => false⟩ ⟨fun _ v => v, fun _ v => v + 10, fun _ _ => 0, fun _ v => v⟩
    (mkVar (some (.a, 1))) (mkVar (some (.b, 2))) false = .ok (mkVar (some (.b, 12)), mkVar (some (.b, 0)), false) := by
  rw [move_assign_value _ rfl]; rfl

/-- What a constructor from a value makes of `v`: a copy of an lvalue, a move of an rvalue, and in place the object itself. -/
def Made (env : Env V) (k : Kind) (x : Alt) (v w : V) : Prop :=
  (k = .copy → w = env.copyNew x v) ∧ (k = .move → w = env.moveNew x v) ∧ (k = .inplace → w = v)

/-- Construction from an lvalue copies, from an rvalue moves, in place makes the object. -/
theorem new_value (cfg : Cfg) (env : Env V) (σ : State V) (d : Nat) (hd : σ d = none) (k : Kind) (x : Alt) (v : V) :
    ∃ w, Made env k x v w ∧ step cfg env σ (.new d k x v false) = .ok (upd σ d (some (mkVar (some (x, w)))), false) := by
  refine ⟨k.made env x v, ?_, ?_⟩
  · cases k <;> simp [Made, Kind.made]
  · simp [step, hd, newVar_eq, Except.bind]

example : (fun _ => none : State Nat) 0 = none := rfl

/-- `v = value` assigns if the variant holds the alternative, and otherwise copies an lvalue and moves an rvalue. -/
theorem set_value (cfg : Cfg) (env : Env V) (σ : State V) (i : Nat) (y : Val V) (hi : σ i = some (mkVar y)) (k : Kind) (x : Alt) (v : V) :
    ∃ w, Made env k x v w ∧ step cfg env σ (.set i k x v false) =
      .ok (upd σ i (some (mkVar (some (x, if y.map Prod.fst = some x then v else w)))), false) := by
  refine ⟨k.made env x v, ?_, ?_⟩
  · cases k <;> simp [Made, Kind.made]
  · simp [step, hi, assignValue_value, Except.bind]

example : (fun _ => some (mkVar (some (.a, 1))) : State Nat) 0 = some (mkVar (some (.a, 1))) := rfl

/-- `swap` moves three times: the first variant through a temporary, the second directly; with the same alternative the last two moves are assignments. -/
theorem swap_value (cfg : Cfg) (hc : cfg.trivMoveCtor = false) (ha : cfg.trivMoveAssign = false) (env : Env V) (x y : Val V) :
    swap cfg env (mkVar x) (mkVar y) false false false = .ok
      (mkVar (if SameAlt x y then y else y.through env.moveNew),
       mkVar (if SameAlt x y then x.through env.moveNew else (x.through env.moveNew).through env.moveNew), false) := by
  have hs : ∀ (f : Alt → V → V) (z : Val V), SameAlt (z.through f) z := fun f z => by cases z <;> simp [SameAlt, Val.through]
  have h1 : SameAlt (x.through env.movedFrom) y ↔ SameAlt x y := by rw [SameAlt, SameAlt, (hs _ x : _ = _)]
  have h2 : SameAlt (y.through env.movedFrom) (x.through env.moveNew) ↔ SameAlt x y := by
    rw [SameAlt, SameAlt, (hs _ x : _ = _), (hs _ y : _ = _)]; exact eq_comm
  unfold swap
  rw [move_ctor_value]
  simp only [hc, Bool.false_eq_true, if_false, Except.bind]
  rw [move_assign_value cfg ha]
  simp only
  rw [move_assign_value cfg ha]
  simp only [dtor_ok, h1, h2]

example : swap (V := Nat) ⟨false, false, false, false, false, fun _ => false⟩ ⟨fun _ v => v, fun _ v => v + 10, fun _ _ => 0, fun _ v => v⟩
    (mkVar (some (.a, 1))) (mkVar (some (.b, 2))) false false false = .ok (mkVar (some (.b, 12)), mkVar (some (.a, 21)), false) := by
  rw [swap_value _ rfl rfl]; rfl

end Verif.Variant2
