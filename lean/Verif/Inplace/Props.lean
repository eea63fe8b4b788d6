import Verif.Inplace.Model

/-! Properties C31 and C32 of `inplace_polymorphic`. -/
namespace Verif.Inplace

variable {V : Type}

/-! ### Specification: an object is valueless (`none`) or a dynamic type with a value -/

abbrev Val (V : Type) := Option (Nat × V)

abbrev Vals (V : Type) := Nat → Option (Val V)

/-- The result `z` of assigning `y` to an object that held `x`: `y`; after an exception nothing. With `keep`, assigning from a
valueless object has no effect (what the code does for trivially destructible classes without assertions). -/
def AssignOk (keep : Bool) (x y z : Val V) (threw : Bool) : Prop :=
  match threw with
  | true => y ≠ none ∧ z = none
  | false => if keep = true ∧ y = none then z = x else z = y

/-- The source of a move keeps its dynamic type, and a valueless one stays valueless. -/
def SameType (x y : Val V) : Prop := x.map Prod.fst = y.map Prod.fst

/-- One operation. -/
def Spec (keep : Bool) (st : Vals V) (op : Op V) (threw : Bool) (st' : Vals V) : Prop :=
  match op with
  | .create d k v _ => if st d ≠ none ∨ threw then st' = st else st' = upd st d (some (some (k, v)))
  | .copyCtor d i _ => match st d, st i with
    | none, some y => if threw then st' = st else st' = upd st d (some y)
    | _, _ => st' = st
  | .moveCtor d i _ => match st d, st i with
    | none, some y => ∃ y', SameType y' y ∧ if threw then st' = upd st i (some y') else st' = upd (upd st i (some y')) d (some y)
    | _, _ => st' = st
  | .copyAssign i j _ => match st i, st j with
    | some x, some y => if i = j then st' = st else ∃ z, AssignOk keep x y z threw ∧ st' = upd st i (some z)
    | _, _ => st' = st
  | .moveAssign i j _ => match st i, st j with
    | some x, some y => ∃ z y', AssignOk keep x y z threw ∧ SameType y' y ∧ st' = upd (upd st i (some z)) j (some y')
    | _, _ => st' = st
  | .emplace i k v _ => match st i with
    | none => st' = st
    | some _ => if threw then st' = upd st i (some none) else st' = upd st i (some (some (k, v)))
  | .modify i v => match st i with
    | some (some (k, _)) => threw = false ∧ st' = upd st i (some (some (k, v)))
    | some none => threw = true ∧ st' = st
    | none => st' = st
  | .destroy i => st' = upd st i none

/-- Does the element operation throw? (`modify` throws if the object is valueless.) -/
def Op.mayThrow : Op V → Bool
  | .create _ _ _ t => t
  | .copyCtor _ _ t => t
  | .moveCtor _ _ t => t
  | .copyAssign _ _ t => t
  | .moveAssign _ _ t => t
  | .emplace _ _ _ t => t
  | .modify _ _ => true
  | .destroy _ => false

/-- Element operations declared `noexcept` do not throw, and no object is moved onto itself. -/
def Legal (cfg : Cfg) : Op V → Prop
  | .create _ k _ t => t = true → cfg.noexceptCtor k = false
  | .copyCtor _ _ t => t = true → cfg.noexceptCopy = false
  | .moveCtor _ _ t => t = true → cfg.noexceptMove = false
  | .copyAssign _ _ t => t = true → cfg.noexceptCopy = false
  | .moveAssign i j t => i ≠ j ∧ (t = true → cfg.noexceptMove = false)
  | .emplace _ k _ t => t = true → cfg.noexceptCtor k = false
  | _ => True

/-- The object that represents a value. -/
def mk : Val V → Obj V
  | none => ⟨none, true⟩
  | some p => ⟨some p, false⟩

def rep (st : Vals V) : State V := fun i => (st i).map mk

theorem rep_upd (st : Vals V) (i : Nat) (x : Option (Val V)) : upd (rep st) i (x.map mk) = rep (upd st i x) := by
  funext j; simp only [upd, rep]; split <;> rfl

theorem rep_upd_some (st : Vals V) (i : Nat) (x : Val V) : upd (rep st) i (some (mk x)) = rep (upd st i (some x)) :=
  rep_upd st i (some x)

theorem rep_at (st : Vals V) (i : Nat) : rep st i = (st i).map mk := rfl

theorem upd_same {β : Type} (f : Nat → β) (i : Nat) : upd f i (f i) = f := by
  funext j; simp only [upd]; split
  · rename_i h; rw [h]
  · rfl

theorem tryNew_ok {cfg : Cfg} {ne : Bool} {x : Val V} (hx : x = none ∨ cfg.trivDtor = true) {k : Nat} {v : V} {thr : Bool}
    (hn : thr = true → ne = false) :
    tryNew cfg ne (mk x) k v thr = .ok (if thr then (mk none, true) else (mk (some (k, v)), false)) := by
  rcases x with _ | ⟨k', v'⟩
  · cases thr
    · simp [tryNew, placeNew, mk, Except.bind]
    · simp [tryNew, placeNew, mk, Except.bind, hn rfl]
  · have ht : cfg.trivDtor = true := by simpa using hx
    cases thr
    · simp [tryNew, placeNew, mk, Except.bind, ht]
    · simp [tryNew, placeNew, mk, Except.bind, ht, hn rfl]

/-- `drop` leaves a valueless object, or does nothing if destruction is trivial. -/
theorem drop_ok {cfg : Cfg} (x : Val V) : drop cfg (mk x) = .ok (mk (if cfg.trivDtor then x else none)) := by
  unfold drop
  cases cfg.trivDtor <;> rcases x with _ | ⟨k, v⟩ <;> simp [mk]

theorem dtor_ok {cfg : Cfg} (x : Val V) : dtor cfg (mk x) = .ok () := by
  simp only [dtor, drop_ok, Except.bind]
  cases cfg.trivDtor <;> rcases x with _ | ⟨k, v⟩ <;> simp [mk]

/-- Does the assertion of `copy_from`/`move_from` hold for an object holding `x`? -/
theorem assert_ok {cfg : Cfg} {x : Val V} (h : x = none ∨ cfg.ndebug = true) : assert cfg (mk x).valueless = .ok () := by
  rcases x with _ | ⟨k, v⟩
  · simp [assert, mk]
  · have : cfg.ndebug = true := by simpa using h
    simp [assert, this]

/-- `copy_from` into a valueless object, or, without assertions, into one that may be overwritten. -/
theorem copyFrom_ok {cfg : Cfg} {x : Val V} (hx : x = none ∨ (cfg.trivDtor = true ∧ cfg.ndebug = true)) (y : Val V) {thr : Bool}
    (hn : thr = true → cfg.noexceptCopy = false) :
    ∃ z t, copyFrom cfg (mk x) (mk y) thr = .ok (mk z, t) ∧ (t = true → thr = true ∧ y ≠ none ∧ z = none) ∧
      (t = false → z = if y = none then x else y) := by
  have ha : assert cfg (mk x).valueless = .ok () := assert_ok (hx.imp_right And.right)
  simp only [copyFrom, ha, Except.bind]
  rcases y with _ | ⟨k, v⟩
  · exact ⟨x, false, by simp [mk], by simp, by simp⟩
  · show ∃ z t, tryNew cfg cfg.noexceptCopy (mk x) k v thr = .ok (mk z, t) ∧ _
    rw [tryNew_ok (hx.imp_right And.left) hn]
    cases thr
    · exact ⟨some (k, v), false, rfl, by simp, by simp⟩
    · exact ⟨none, true, rfl, by simp, by simp⟩

theorem moveFrom_ok {cfg : Cfg} {mf : Nat → V → V} {x : Val V} (hx : x = none ∨ (cfg.trivDtor = true ∧ cfg.ndebug = true))
    (y : Val V) {thr : Bool} (hn : thr = true → cfg.noexceptMove = false) :
    ∃ z y' t, moveFrom cfg mf (mk x) (mk y) thr = .ok (mk z, mk y', t) ∧ SameType y' y ∧
      (t = true → thr = true ∧ y ≠ none ∧ z = none) ∧ (t = false → z = if y = none then x else y) := by
  have ha : assert cfg (mk x).valueless = .ok () := assert_ok (hx.imp_right And.right)
  simp only [moveFrom, ha, Except.bind]
  rcases y with _ | ⟨k, v⟩
  · exact ⟨x, none, false, by simp [mk], rfl, by simp, by simp⟩
  · show ∃ z y' t, (tryNew cfg cfg.noexceptMove (mk x) k v thr).bind _ = .ok (mk z, mk y', t) ∧ _
    rw [tryNew_ok (hx.imp_right And.left) hn]
    cases thr
    · exact ⟨some (k, v), some (k, mf k v), false, rfl, rfl, by simp, by simp⟩
    · exact ⟨none, some (k, mf k v), true, rfl, rfl, by simp, by simp⟩

/-- The configurations in which the library can be used at all: some class has a non-trivial destructor, or assertions are
compiled out. -/
def Usable (cfg : Cfg) : Prop := cfg.trivDtor = true → cfg.ndebug = true

theorem fresh_mk : (fresh : Obj V) = mk none := rfl

theorem dropped {cfg : Cfg} (hu : Usable cfg) (x : Val V) :
    (if cfg.trivDtor = true then x else none) = none ∨ (cfg.trivDtor = true ∧ cfg.ndebug = true) := by
  by_cases h : cfg.trivDtor = true
  · exact .inr ⟨h, hu h⟩
  · exact .inl (by simp [h])

theorem assignOk_of {cfg : Cfg} {x y z : Val V} {t thr : Bool} (h1 : t = true → thr = true ∧ y ≠ none ∧ z = none)
    (h2 : t = false → z = if y = none then (if cfg.trivDtor = true then x else none) else y) : AssignOk cfg.trivDtor x y z t := by
  cases t with
  | true => exact (h1 rfl).2
  | false =>
    have := h2 rfl
    simp only [AssignOk]
    by_cases hy : y = none
    · by_cases ht : cfg.trivDtor = true
      · simpa [hy, ht] using this
      · simpa [hy, ht] using this
    · simpa [hy] using this

/-- **C31/C32, one step.** From any state in which every flag matches the storage, a legal operation makes no lifetime error,
fails no assertion and does not terminate the program; it leads to such a state again, throws only if the element operation
does (or a valueless object is accessed), and has the specified effect. -/
theorem step_ok {cfg : Cfg} (hu : Usable cfg) (mf : Nat → V → V) (st : Vals V) {op : Op V} (hl : Legal cfg op) :
    ∃ st' t, step cfg mf (rep st) op = .ok (rep st', t) ∧ Spec cfg.trivDtor st op t st' ∧ (t = true → op.mayThrow = true) := by
  cases op with
  | create d k v thr =>
    simp only [step, rep_at]
    cases hd : st d with
    | some y => exact ⟨st, false, rfl, by simp [Spec, hd], by simp⟩
    | none =>
      simp only [Option.map_none, create, fresh_mk, tryNew_ok (.inl rfl) hl, Except.bind]
      cases thr with
      | true => exact ⟨st, true, rfl, by simp [Spec], by simp [Op.mayThrow]⟩
      | false => exact ⟨_, false, by simp only [Bool.false_eq_true, if_false, rep_upd_some]; rfl, by simp [Spec, hd], by simp⟩
  | copyCtor d i thr =>
    simp only [step, rep_at]
    cases hd : st d with
    | some y => exact ⟨st, false, rfl, by simp [Spec, hd], by simp⟩
    | none =>
      cases hi : st i with
      | none => exact ⟨st, false, rfl, by simp [Spec, hd, hi], by simp⟩
      | some y =>
        obtain ⟨z, t, e, h1, h2⟩ := copyFrom_ok (cfg := cfg) (.inl rfl) y hl
        simp only [Option.map_none, Option.map_some, copyCtor, fresh_mk, e, Except.bind]
        cases t with
        | true => exact ⟨st, true, rfl, by simp [Spec, hd, hi], fun _ => (h1 rfl).1⟩
        | false =>
          have hz : z = y := by
            have := h2 rfl
            rw [this]; split
            · rename_i h; exact h.symm
            · rfl
          subst hz
          exact ⟨_, false, by simp only [Bool.false_eq_true, if_false, rep_upd_some]; rfl, by simp [Spec, hd, hi], by simp⟩
  | moveCtor d i thr =>
    simp only [step, rep_at]
    cases hd : st d with
    | some y => exact ⟨st, false, rfl, by simp [Spec, hd], by simp⟩
    | none =>
      cases hi : st i with
      | none => exact ⟨st, false, rfl, by simp [Spec, hd, hi], by simp⟩
      | some y =>
        obtain ⟨z, y', t, e, hs, h1, h2⟩ := moveFrom_ok (cfg := cfg) (mf := mf) (.inl rfl) y hl
        simp only [Option.map_none, Option.map_some, moveCtor, fresh_mk, e, Except.bind]
        cases t with
        | true =>
          exact ⟨_, true, by simp only [if_true, rep_upd_some]; rfl, by simp only [Spec, hd, hi]; exact ⟨y', hs, rfl⟩, fun _ => (h1 rfl).1⟩
        | false =>
          have hz : z = y := by
            have := h2 rfl
            rw [this]; split
            · rename_i h; exact h.symm
            · rfl
          subst hz
          exact ⟨_, false, by simp only [Bool.false_eq_true, if_false, rep_upd_some]; rfl,
            by simp only [Spec, hd, hi]; exact ⟨y', hs, rfl⟩, by simp⟩
  | copyAssign i j thr =>
    simp only [step, rep_at]
    cases hi : st i with
    | none => exact ⟨st, false, rfl, by simp [Spec, hi], by simp⟩
    | some x =>
      cases hj : st j with
      | none => exact ⟨st, false, rfl, by simp [Spec, hi, hj], by simp⟩
      | some y =>
        by_cases hij : i = j
        · exact ⟨st, false, by simp [hij], by simp only [Spec, hi, hj, if_pos hij], by simp⟩
        · obtain ⟨z, t, e, h1, h2⟩ := copyFrom_ok (dropped hu x) y hl
          refine ⟨_, t, by simp only [Option.map_some, hij, if_false, copyAssign, drop_ok, e, Except.bind, rep_upd_some]; rfl, ?_,
            fun h => (h1 h).1⟩
          simp only [Spec, hi, hj, if_neg hij]
          exact ⟨z, assignOk_of h1 h2, rfl⟩
  | moveAssign i j thr =>
    simp only [step, rep_at]
    cases hi : st i with
    | none => exact ⟨st, false, rfl, by simp [Spec, hi], by simp⟩
    | some x =>
      cases hj : st j with
      | none => exact ⟨st, false, rfl, by simp [Spec, hi, hj], by simp⟩
      | some y =>
        obtain ⟨z, y', t, e, hs, h1, h2⟩ := moveFrom_ok (mf := mf) (dropped hu x) y hl.2
        refine ⟨_, t, by simp only [Option.map_some, hl.1, if_false, moveAssign, drop_ok, e, Except.bind, rep_upd_some]; rfl, ?_,
          fun h => (h1 h).1⟩
        simp only [Spec, hi, hj]
        exact ⟨z, y', assignOk_of h1 h2, hs, rfl⟩
  | emplace i k v thr =>
    simp only [step, rep_at]
    cases hi : st i with
    | none => exact ⟨st, false, rfl, by simp [Spec, hi], by simp⟩
    | some x =>
      simp only [Option.map_some, emplace, drop_ok, Except.bind]
      rw [tryNew_ok ((dropped hu x).imp_right And.left) hl]
      cases thr with
      | true => exact ⟨_, true, by simp only [if_true, rep_upd_some]; rfl, by simp [Spec, hi], by simp [Op.mayThrow]⟩
      | false => exact ⟨_, false, by simp only [Bool.false_eq_true, if_false, rep_upd_some]; rfl, by simp [Spec, hi], by simp⟩
  | modify i v =>
    simp only [step, rep_at]
    cases hi : st i with
    | none => exact ⟨st, false, rfl, by simp [Spec, hi], by simp⟩
    | some x =>
      rcases x with _ | ⟨k, u⟩
      · exact ⟨st, true, by simp [mk, get], by simp [Spec, hi], by simp [Op.mayThrow]⟩
      · refine ⟨upd st i (some (some (k, v))), false, ?_, by simp [Spec, hi], by simp⟩
        simp only [Option.map_some, mk, get]
        rw [← rep_upd_some]; rfl
  | destroy i =>
    simp only [step, rep_at]
    cases hi : st i with
    | none =>
      refine ⟨st, false, rfl, ?_, by simp⟩
      simp only [Spec]; rw [← hi, upd_same]
    | some x =>
      refine ⟨_, false, by simp only [Option.map_some, dtor_ok, Except.bind]; rw [← Option.map_none (f := mk), rep_upd], rfl, by simp⟩

/-- A history of the specification. -/
inductive SpecRun (keep : Bool) : Vals V → List (Op V) → Vals V → Prop
  | nil {st} : SpecRun keep st [] st
  | cons {st op t st' ops st''} (h : Spec keep st op t st') (r : SpecRun keep st' ops st'') : SpecRun keep st (op :: ops) st''

theorem run_ok {cfg : Cfg} (hu : Usable cfg) (mf : Nat → V → V) {ops : List (Op V)} (hl : ∀ op ∈ ops, Legal cfg op) :
    ∃ st, run cfg mf (fun _ => none) ops = .ok (rep st) ∧ SpecRun cfg.trivDtor (fun _ => none) ops st := by
  have key : ∀ (ops : List (Op V)) (st : Vals V), (∀ op ∈ ops, Legal cfg op) →
      ∃ st', run cfg mf (rep st) ops = .ok (rep st') ∧ SpecRun cfg.trivDtor st ops st' := by
    intro ops
    induction ops with
    | nil => intro st _; exact ⟨st, rfl, .nil⟩
    | cons op ops ih =>
      intro st h
      obtain ⟨st1, t, e, hs, _⟩ := step_ok hu mf st (h op (by simp))
      obtain ⟨st2, e2, hs2⟩ := ih st1 (fun o ho => h o (by simp [ho]))
      exact ⟨st2, by simp only [run, e, Except.bind]; exact e2, .cons hs hs2⟩
  exact key ops (fun _ => none) hl

/-- **C31, partial.** Over every history, with exceptions anywhere, in builds without assertions or with some class that has a
non-trivial destructor: no dead object is accessed, no live one overwritten or leaked, no assertion fails, the program is not
terminated, `valueless_by_exception()` is true iff no object is alive, and `get()` yields the live object and throws iff
valueless. Missing: trivially destructible classes with assertions (see `assign_trivial_refuted`) and moves onto itself
(see `self_move_refuted`). -/
theorem lifetime_partial {cfg : Cfg} (hu : Usable cfg) (mf : Nat → V → V) {ops : List (Op V)} (hl : ∀ op ∈ ops, Legal cfg op) :
    ∃ σ, run cfg mf (fun _ => none) ops = .ok σ ∧ ∀ i o, σ i = some o →
      (valuelessByException o = true ↔ o.store = none) ∧
      (∀ k v, get o = .obj k v ↔ o.store = some (k, v)) ∧ (get o = .badVariantAccess ↔ valuelessByException o = true) := by
  obtain ⟨st, e, _⟩ := run_ok hu mf hl
  refine ⟨_, e, ?_⟩
  intro i o ho
  simp only [rep] at ho
  cases hx : st i with
  | none => rw [hx] at ho; cases ho
  | some x =>
    rw [hx] at ho; cases ho
    rcases x with _ | ⟨k, v⟩ <;> simp [mk, valuelessByException, get]

example : Usable ⟨false, false, false, true, fun k => k == 1⟩ ∧
    ∀ op ∈ ([.create 0 0 5 false, .create 1 1 6 false, .emplace 0 2 7 true, .copyAssign 1 0 false, .destroy 0] : List (Op Nat)),
      Legal ⟨false, false, false, true, fun k => k == 1⟩ op := by
  refine ⟨by simp [Usable], ?_⟩
  simp [Legal]

/-- **C32.** If some class has a non-trivial destructor, every history has the documented effects. -/
theorem value_semantics_partial {cfg : Cfg} (hd : cfg.trivDtor = false) (mf : Nat → V → V) {ops : List (Op V)}
    (hl : ∀ op ∈ ops, Legal cfg op) :
    ∃ st, run cfg mf (fun _ => none) ops = .ok (rep st) ∧ SpecRun false (fun _ => none) ops st := by
  have := run_ok (cfg := cfg) (by intro h; rw [hd] at h; cases h) mf hl
  rw [hd] at this
  exact this

/-- A throwing `emplace` leaves object 0 valueless, and so is object 1 after the assignment. -/
example : (match run (V := Nat) ⟨false, false, false, true, fun k => k == 1⟩ (fun _ v => v) (fun _ => none)
      [.create 0 0 5 false, .create 1 1 6 false, .emplace 0 2 7 true, .copyAssign 1 0 false] with
    | .ok σ => some (σ 0, σ 1)
    | .error _ => none) = some (some ⟨none, true⟩, some ⟨none, true⟩) := by decide

/-- **C32.** What an object holding `x` looks like. -/
theorem observe (x : Val V) : valuelessByException (mk x) = x.isNone ∧
    get (mk x) = match x with | none => .badVariantAccess | some (k, v) => .obj k v := by
  rcases x with _ | ⟨k, v⟩ <;> simp [mk, valuelessByException, get]

example : get (mk (some (2, 7))) = .obj 2 7 ∧ get (mk (none : Val Nat)) = .badVariantAccess := ⟨rfl, rfl⟩

/-- **C31/C32.** For trivially destructible classes in builds without assertions everything is as documented except that
assigning a valueless object to one with a value does nothing. -/
theorem trivial_classes_partial {cfg : Cfg} (hd : cfg.trivDtor = true) (hn : cfg.ndebug = true) (mf : Nat → V → V) {ops : List (Op V)}
    (hl : ∀ op ∈ ops, Legal cfg op) :
    ∃ st, run cfg mf (fun _ => none) ops = .ok (rep st) ∧ SpecRun true (fun _ => none) ops st := by
  have := run_ok (cfg := cfg) (fun _ => hn) mf hl
  rw [hd] at this
  exact this

/-- A history that meets the hypotheses: throwing emplace, assignment from and to a valueless object. -/
example : Usable ⟨false, false, false, true, fun k => k == 1⟩ ∧
    ∀ op ∈ ([.create 0 0 5 false, .create 1 1 6 false, .emplace 0 2 7 true, .copyAssign 1 0 false, .moveAssign 0 1 false,
      .emplace 0 1 8 false, .moveCtor 2 0 false, .copyAssign 2 0 true, .destroy 0] : List (Op Nat)),
      Legal ⟨false, false, false, true, fun k => k == 1⟩ op := by
  refine ⟨by simp [Usable], ?_⟩
  simp [Legal]

/-! #### Refutations -/

/-- **C31, refuted.** With assertions, assigning to an object of trivially destructible classes that has a value always fails an
assertion. -/
theorem assign_trivial_refuted {cfg : Cfg} (hd : cfg.trivDtor = true) (hn : cfg.ndebug = false) (x : Nat × V) (y : Val V) (thr : Bool) :
    copyAssign cfg (mk (some x)) (mk y) thr = .error .assertion := by
  simp only [copyAssign, drop_ok, hd, Except.bind, copyFrom, assert, hn, if_true]
  rfl

example : copyAssign (⟨true, false, false, false, fun _ => false⟩ : Cfg) (mk (some (0, 5))) (mk (some (1, 6))) false = .error .assertion :=
  assign_trivial_refuted rfl rfl _ _ _

/-- Everything throws, all classes trivially destructible, no assertions. -/
def relCfg : Cfg := ⟨true, true, false, false, fun _ => false⟩

/-- **C32, refuted.** Without assertions, assigning a valueless object to an object of trivially destructible classes keeps the
old value. -/
theorem assign_from_valueless_refuted : ∃ σ : State Nat,
    run relCfg (fun _ v => v) (fun _ => none)
      [.create 0 0 5 false, .create 1 0 6 false, .emplace 1 0 7 true, .copyAssign 0 1 false] = .ok σ ∧
    σ 0 = some ⟨some (0, 5), false⟩ ∧ σ 1 = some ⟨none, true⟩ := ⟨_, rfl, rfl, rfl⟩

/-- **C31, refuted.** A move of an object onto itself fails an assertion, or without assertions destroys its value. -/
theorem self_move_refuted (x : Nat × V) (cfg : Cfg) (hd : cfg.trivDtor = false) :
    (cfg.ndebug = false → selfMove cfg (mk (some x)) = .error .assertion) ∧
    (cfg.ndebug = true → selfMove cfg (mk (some x)) = .ok (mk none)) := by
  constructor <;> intro hn <;> simp [selfMove, assert, hn, Except.bind, drop_ok, hd] <;> simp [mk]

example : selfMove (⟨false, true, false, false, fun _ => false⟩ : Cfg) (mk (some (0, 5))) = .ok (mk none) := (self_move_refuted _ _ rfl).2 rfl

end Verif.Inplace
