import Verif.Variant2.Props

/-!
`variant2` against `std::variant` (C71). README.md:159-161 and variant2.hpp:174-175 call `variant2` an optimized version of
`std::variant` for two types. `std::variant` is specified here as in the C++ standard ([variant.ctor], [variant.assign],
[variant.mod], [variant.swap]) on values: `none` is valueless, `some (k, v)` holds alternative `k` with value `v`.
-/
namespace Verif.Variant2

set_option linter.constructorNameAsVariable false

variable {V : Type}

/-! ### Specification: `std::variant` -/

/-- `is_nothrow_copy_constructible_v` and `is_nothrow_move_constructible_v` of the two alternatives (variant2.hpp:192-195). -/
structure Nothrow where
  copy : Alt → Bool
  move : Alt → Bool

/-- `emplace<k>(...)`: whatever was held is destroyed; if the construction throws, the variant is valueless (what variant2.hpp:649-716
is measured against). -/
def stdEmplace (k : Alt) (v : V) (thr : Bool) : Val V × Bool :=
  match thr with
  | true => (none, true)
  | false => (some (k, v), false)

/-- Assigning to the alternative that is held (what variant2.hpp:513-631 is measured against). -/
def stdAssignHeld (env : Env V) (k : Alt) (old v : V) (thr : Bool) : Val V × Bool :=
  match thr with
  | true => (some (k, env.broken k old), true)
  | false => (some (k, v), false)

/-- Assigning a copy of `v` of alternative `k` to a variant that holds something else: if the copy may throw and the move does not, the
copy is made first, so that an exception leaves the variant unchanged; otherwise `emplace` (what variant2.hpp:329-418, 513-535 is
measured against). -/
def stdCopyOther (n : Nothrow) (x : Val V) (k : Alt) (v : V) (thr : Bool) : Val V × Bool :=
  if n.copy k || !n.move k then stdEmplace k v thr
  else match thr with
    | true => (x, true)
    | false => stdEmplace k v false

/-- Copy assignment (what variant2.hpp:329-418 is measured against). -/
def stdCopyAssign (n : Nothrow) (env : Env V) (x y : Val V) (thr : Bool) : Val V × Bool :=
  match x, y with
  | _, none => (none, false)
  | none, some (k, v) => stdCopyOther n none k v thr
  | some (l, u), some (k, v) => if l = k then stdAssignHeld env k u v thr else stdCopyOther n (some (l, u)) k v thr

/-- Move assignment (what variant2.hpp:420-511 is measured against). -/
def stdMoveAssign (env : Env V) (x y : Val V) (thr : Bool) : Val V × Bool :=
  match x, y with
  | _, none => (none, false)
  | none, some (k, v) => stdEmplace k v thr
  | some (l, u), some (k, v) => if l = k then stdAssignHeld env k u v thr else stdEmplace k v thr

/-- Assignment of a value of one of the alternatives; `copies` if it is an lvalue (what variant2.hpp:513-631 is measured against). For an
rvalue construction and move are the same, so it is always an `emplace`. -/
def stdSet (n : Nothrow) (env : Env V) (copies : Bool) (x : Val V) (k : Alt) (v : V) (thr : Bool) : Val V × Bool :=
  match x with
  | none => if copies then stdCopyOther n none k v thr else stdEmplace k v thr
  | some (l, u) =>
    if l = k then stdAssignHeld env k u v thr
    else if copies then stdCopyOther n (some (l, u)) k v thr else stdEmplace k v thr

/-- The source of a move: it keeps its alternative (what variant2.hpp:232-257, 420-511 is measured against). -/
def stdMoved (env : Env V) : Val V → Val V
  | none => none
  | some (k, v) => some (k, env.movedFrom k v)

/-- The operations of `std::variant` on values (what variant2.hpp:199-722 is measured against). Trivial element operations do not throw.
What is left after a `swap` that throws is not specified by the standard and not modelled. -/
def stdStep (cfg : Cfg) (n : Nothrow) (env : Env V) (st : Vals V) : Op V → Vals V × Bool
  | .new d _ x v thr => match st d, thr with
    | none, false => (upd st d (some (some (x, v))), false)
    | none, true => (st, true)
    | some _, _ => (st, false)
  | .copyCtor d i thr => match st d, st i with
    | none, some none => (upd st d (some none), false)
    | none, some (some y) =>
      if thr && !cfg.trivCopyCtor then (st, true) else (upd st d (some (some y)), false)
    | _, _ => (st, false)
  | .moveCtor d i thr => match st d, st i with
    | none, some none => (upd st d (some none), false)
    | none, some (some y) =>
      if thr && !cfg.trivMoveCtor then (upd st i (some (stdMoved env (some y))), true)
      else (upd (upd st i (some (stdMoved env (some y)))) d (some (some y)), false)
    | _, _ => (st, false)
  | .copyAssign i j thr => match st i, st j with
    | some x, some y =>
      if i = j then (st, false)
      else let r := stdCopyAssign n env x y (thr && !cfg.trivCopyAssign); (upd st i (some r.1), r.2)
    | _, _ => (st, false)
  | .moveAssign i j thr => match st i, st j with
    | some x, some y =>
      if i = j then (st, false)
      else
        let r := stdMoveAssign env x y (thr && !cfg.trivMoveAssign)
        (upd (upd st i (some r.1)) j (some (stdMoved env y)), r.2)
    | _, _ => (st, false)
  | .set i k x v thr => match st i with
    | none => (st, false)
    | some y => let r := stdSet n env (k = .copy) y x v thr; (upd st i (some r.1), r.2)
  | .emplace i x v thr => match st i with
    | none => (st, false)
    | some _ => let r := stdEmplace x v thr; (upd st i (some r.1), r.2)
  | .swap i j _ _ _ => match st i, st j with
    | some x, some y => (upd (upd st i (some y)) j (some x), false)
    | _, _ => (st, false)
  | .destroy i => (upd st i none, false)

/-- A program using `std::variant` (what variant2.hpp:199-722 is measured against): the values, and which operations threw. -/
def stdRun (cfg : Cfg) (n : Nothrow) (env : Env V) : Vals V → List (Op V) → Vals V × List Bool
  | st, [] => (st, [])
  | st, op :: ops =>
    let r := stdStep cfg n env st op
    let r' := stdRun cfg n env r.1 ops
    (r'.1, r.2 :: r'.2)

/-- The same program using `variant2`: the final state and which operations threw (variant2.hpp:199-722). -/
def runLog (cfg : Cfg) (env : Env V) : State V → List (Op V) → Except Err (State V × List Bool)
  | σ, [] => .ok (σ, [])
  | σ, op :: ops => (step cfg env σ op).bind fun r => (runLog cfg env r.1 ops).bind fun r' => .ok (r'.1, r.2 :: r'.2)

/-- The operation copies an element into a variant by assignment, and that throws (variant2.hpp:329-418, 513-535, 573-595). -/
def Op.copyAssignThrows : Op V → Bool
  | .copyAssign _ _ t => t
  | .set _ .copy _ _ t => t
  | _ => false

/-- A `swap` that throws (variant2.hpp:718-722). -/
def Op.swapThrows : Op V → Bool
  | .swap _ _ t1 t2 t3 => t1 || t2 || t3
  | _ => false

/-! ### Proofs -/

theorem copyCtor_std {cfg : Cfg} {env : Env V} (hf : Faithful env) (y : Val V) (thr : Bool) :
    copyCtor cfg env (mkVar y) thr = .ok (match y with
      | none => some (mkVar none)
      | some y => if thr && !cfg.trivCopyCtor then none else some (mkVar (some y))) := by
  by_cases ht : cfg.trivCopyCtor = true
  · rcases y with _ | ⟨_ | _, v⟩ <;> simp [copyCtor, ht]
  · rcases y with _ | ⟨_ | _, v⟩ <;> cases thr <;>
      simp [copyCtor, ht, mkVar, Alt.disc, readAs, Except.bind, newVar_eq, hf.1]

theorem moveCtor_std {cfg : Cfg} {env : Env V} (hf : Faithful env)
    (hT : cfg.trivMoveCtor = true → ∀ x v, env.movedFrom x v = v) (y : Val V) (thr : Bool) :
    moveCtor cfg env (mkVar y) thr = .ok (match y with
      | none => (some (mkVar none), mkVar none)
      | some y => if thr && !cfg.trivMoveCtor then (none, mkVar (stdMoved env (some y)))
        else (some (mkVar (some y)), mkVar (stdMoved env (some y)))) := by
  by_cases ht : cfg.trivMoveCtor = true
  · rcases y with _ | ⟨_ | _, v⟩ <;> simp [moveCtor, ht, stdMoved, hT ht]
  · rcases y with _ | ⟨_ | _, v⟩ <;> cases thr <;>
      simp [moveCtor, ht, mkVar, Alt.disc, readAs, Except.bind, newVar_eq, hf.2, moveOut, stdMoved]

theorem copyAssign_std {cfg : Cfg} (hc : LegalCfg cfg) {n : Nothrow} {env : Env V} (hf : Faithful env) (x y : Val V) (thr : Bool)
    (hn : thr = true → ∀ k, n.move k = true → n.copy k = true) :
    copyAssign cfg env (mkVar x) (mkVar y) thr =
      .ok (mkVar (stdCopyAssign n env x y (thr && !cfg.trivCopyAssign)).1, (stdCopyAssign n env x y (thr && !cfg.trivCopyAssign)).2) := by
  have ho : ∀ z k (v : V) t, (t = true → thr = true) → stdCopyOther n z k v t = stdEmplace k v t := by
    intro z k v t ht
    cases t with
    | false => simp only [stdCopyOther]; split <;> rfl
    | true =>
      have := hn (ht rfl) k
      simp only [stdCopyOther]
      cases h1 : n.copy k <;> cases h2 : n.move k <;> simp_all
  by_cases ht : cfg.trivCopyAssign = true
  · have := hc.1 ht
    rcases x with _ | ⟨a, u⟩ <;> rcases y with _ | ⟨b, v⟩ <;>
      simp [copyAssign, ht, bitwiseAssign, this.1, this.2, stdCopyAssign, ho, stdEmplace, stdAssignHeld]
  · have ht' : cfg.trivCopyAssign = false := by simpa using ht
    rcases x with _ | ⟨_ | _, u⟩ <;> rcases y with _ | ⟨_ | _, v⟩ <;> cases thr <;>
      simp [copyAssign, ht', mkVar, Alt.disc, readAs, destroyAs, Except.bind, rawConstruct, tryConstruct, constructAs, assignAs, hf.1,
        stdCopyAssign, stdEmplace, stdAssignHeld, ho]

theorem moveAssign_std {cfg : Cfg} (hc : LegalCfg cfg) {env : Env V} (hf : Faithful env)
    (hT : cfg.trivMoveCtor = true → ∀ x v, env.movedFrom x v = v) (x y : Val V) (thr : Bool) :
    moveAssign cfg env (mkVar x) (mkVar y) thr =
      .ok (mkVar (stdMoveAssign env x y (thr && !cfg.trivMoveAssign)).1, mkVar (stdMoved env y),
        (stdMoveAssign env x y (thr && !cfg.trivMoveAssign)).2) := by
  by_cases ht : cfg.trivMoveAssign = true
  · have := hc.2 ht
    rcases x with _ | ⟨a, u⟩ <;> rcases y with _ | ⟨b, v⟩ <;>
      simp [moveAssign, ht, bitwiseAssign, this.1, this.2, stdMoveAssign, stdEmplace, stdAssignHeld, Except.bind, stdMoved, hT this.2]
  · have ht' : cfg.trivMoveAssign = false := by simpa using ht
    rcases x with _ | ⟨_ | _, u⟩ <;> rcases y with _ | ⟨_ | _, v⟩ <;> cases thr <;>
      simp [moveAssign, ht', mkVar, Alt.disc, readAs, destroyAs, Except.bind, rawConstruct, tryConstruct, constructAs, assignAs, hf.2,
        stdMoveAssign, stdEmplace, stdAssignHeld, moveOut, stdMoved]

theorem assignValue_std {n : Nothrow} {env : Env V} (c : Bool) (y : Val V) (x : Alt) (v : V) (thr : Bool)
    (hn : c = true → thr = true → ∀ k, n.move k = true → n.copy k = true) :
    assignValue env (mkVar y) x v v thr = .ok (mkVar (stdSet n env c y x v thr).1, (stdSet n env c y x v thr).2) := by
  have ho : c = true → ∀ z k (v : V), stdCopyOther n z k v thr = stdEmplace k v thr := by
    intro hc z k v
    cases thr with
    | false => simp only [stdCopyOther]; split <;> rfl
    | true =>
      have := hn hc rfl k
      simp only [stdCopyOther]
      cases h1 : n.copy k <;> cases h2 : n.move k <;> simp_all
  have ho' : ∀ z k (v : V), (if c = true then stdCopyOther n z k v thr else stdEmplace k v thr) = stdEmplace k v thr := by
    intro z k v; split
    · rename_i h; exact ho h z k v
    · rfl
  rcases y with _ | ⟨_ | _, u⟩ <;> cases x <;>
    simp only [stdSet, ho'] <;> cases thr <;>
    simp [assignValue, mkVar, Alt.disc, destroyAs, Except.bind, tryConstruct, constructAs, assignAs, rawConstruct, stdEmplace,
      stdAssignHeld]

theorem step_std {cfg : Cfg} (hc : LegalCfg cfg) {n : Nothrow} {env : Env V} (hf : Faithful env)
    (hT : cfg.trivMoveCtor = true → ∀ x v, env.movedFrom x v = v) (st : Vals V) {op : Op V} (hl : Legal cfg op)
    (hs : op.swapThrows = false) (hn : op.copyAssignThrows = true → ∀ k, n.move k = true → n.copy k = true) :
    step cfg env (rep st) op = .ok (rep (stdStep cfg n env st op).1, (stdStep cfg n env st op).2) := by
  cases op with
  | new d k x v thr =>
    simp only [step, rep_at, stdStep]
    cases hd : st d with
    | some y => rfl
    | none =>
      have hm : k.made env x v = v := by cases k <;> simp [Kind.made, hf.1, hf.2]
      have hg : ¬ (k = .move ∧ thr = true ∧ cfg.nothrowCopy x = true) := by
        rintro ⟨h1, h2, h3⟩; have := hl h1 h2; rw [h3] at this; cases this
      simp only [Option.map_none, hg, if_false, newVar_eq, hm, Except.bind]
      cases thr with
      | true => rfl
      | false => simp [← rep_upd_some]
  | copyCtor d i thr =>
    simp only [step, rep_at, stdStep]
    cases hd : st d with
    | some y => rfl
    | none =>
      rcases hi : st i with _ | _ | y
      · rfl
      · simp [copyCtor_std hf, Except.bind, ← rep_upd_some]
      · simp only [Option.map_none, Option.map_some, copyCtor_std hf, Except.bind]
        cases thr && !cfg.trivCopyCtor <;> simp [← rep_upd_some]
  | moveCtor d i thr =>
    simp only [step, rep_at, stdStep]
    cases hd : st d with
    | some y => rfl
    | none =>
      rcases hi : st i with _ | _ | y
      · rfl
      · simp only [Option.map_none, Option.map_some, moveCtor_std hf hT, Except.bind]
        rw [← rep_upd_some]
        congr 3
        funext j; simp only [upd, rep]; split
        · rename_i h; rw [h, hi]; rfl
        · rfl
      · simp only [Option.map_none, Option.map_some, moveCtor_std hf hT, Except.bind]
        cases thr && !cfg.trivMoveCtor <;> simp [← rep_upd_some]
  | copyAssign i j thr =>
    simp only [step, rep_at, stdStep]
    cases hi : st i with
    | none => rfl
    | some x =>
      cases hj : st j with
      | none => rfl
      | some y =>
        by_cases hij : i = j
        · simp [hij]
        · simp only [Option.map_some, hij, if_false, copyAssign_std hc hf x y thr hn, Except.bind, rep_upd_some]
  | moveAssign i j thr =>
    simp only [step, rep_at, stdStep]
    cases hi : st i with
    | none => rfl
    | some x =>
      cases hj : st j with
      | none => rfl
      | some y =>
        by_cases hij : i = j
        · simp [hij, hl hij]
        · simp only [Option.map_some, hij, if_false, moveAssign_std hc hf hT x y thr, Except.bind, rep_upd_some]
  | set i k x v thr =>
    simp only [step, rep_at, stdStep]
    cases hi : st i with
    | none => rfl
    | some y =>
      have hm : k.made env x v = v := by cases k <;> simp [Kind.made, hf.1, hf.2]
      have := assignValue_std (n := n) (env := env) (decide (k = .copy)) y x v thr (by
        intro h1 h2; have h1 : k = .copy := by simpa using h1
        subst h1; exact hn h2)
      simp only [Option.map_some, hm, this, Except.bind, rep_upd_some]
  | emplace i x v thr =>
    simp only [step, rep_at, stdStep]
    cases hi : st i with
    | none => rfl
    | some y =>
      simp only [Option.map_some, emplace_ok, Except.bind]
      cases thr <;> simp [stdEmplace, rep_upd_some]
  | swap i j t1 t2 t3 =>
    obtain ⟨st', t, e, hsp, ht⟩ := step_ok hc hf st (op := .swap i j t1 t2 t3) hl
    have : t = false := by
      cases t with
      | false => rfl
      | true => have := ht rfl; simp only [Op.throws, Op.swapThrows] at this hs; rw [hs] at this; cases this
    subst this
    rw [e]
    simp only [Spec, Bool.false_eq_true, if_false] at hsp
    simp only [stdStep]
    cases hi : st i with
    | none => simp only [hi] at hsp; simp [hsp]
    | some x =>
      cases hj : st j with
      | none => simp only [hi, hj] at hsp; simp [hsp]
      | some y => simp only [hi, hj] at hsp; simp [hsp]
  | destroy i =>
    simp only [step, rep_at, stdStep]
    cases hi : st i with
    | none =>
      have : upd st i none = st := by rw [← hi, upd_same]
      simp [this]
    | some x =>
      simp only [Option.map_some, dtor_ok, Except.bind]; rw [← Option.map_none (f := mkVar), rep_upd]

/-! ### C71 -/

/-- **C71, partial.** A program using `variant2` behaves like the same program using `std::variant`: the same operations throw, and all
variants hold the same alternatives and values, also those left by exceptions and moves. Missing: a copy assignment (or an assignment of
an lvalue) that throws, if some alternative can throw when copied but not when moved (refuted below); swaps that throw (not specified
for `std::variant`); and the cases excluded in `history_partial`. -/
theorem like_std_partial {cfg : Cfg} (hc : LegalCfg cfg) {n : Nothrow} {env : Env V} (hf : Faithful env)
    (hT : cfg.trivMoveCtor = true → ∀ x v, env.movedFrom x v = v) {ops : List (Op V)} (hl : ∀ op ∈ ops, Legal cfg op)
    (hs : ∀ op ∈ ops, op.swapThrows = false)
    (hn : ∀ op ∈ ops, op.copyAssignThrows = true → ∀ k, n.move k = true → n.copy k = true) :
    runLog cfg env (fun _ => none) ops =
      .ok (rep (stdRun cfg n env (fun _ => none) ops).1, (stdRun cfg n env (fun _ => none) ops).2) := by
  have key : ∀ (ops : List (Op V)) (st : Vals V), (∀ op ∈ ops, Legal cfg op) → (∀ op ∈ ops, op.swapThrows = false) →
      (∀ op ∈ ops, op.copyAssignThrows = true → ∀ k, n.move k = true → n.copy k = true) →
      runLog cfg env (rep st) ops = .ok (rep (stdRun cfg n env st ops).1, (stdRun cfg n env st ops).2) := by
    intro ops
    induction ops with
    | nil => intro st _ _ _; rfl
    | cons op ops ih =>
      intro st h1 h2 h3
      simp only [runLog, step_std hc hf hT st (h1 op (by simp)) (h2 op (by simp)) (h3 op (by simp)), Except.bind,
        ih _ (fun o ho => h1 o (by simp [ho])) (fun o ho => h2 o (by simp [ho])) (fun o ho => h3 o (by simp [ho])), stdRun]
  exact key ops (fun _ => none) hl hs hn

/-- A program with assignments across alternatives, a throwing emplace and a throwing move that meets the hypotheses. -/
example : runLog plainCfg plainEnv (fun _ => none)
      [.new 0 .copy .a 1 false, .new 1 .move .b 2 false, .copyAssign 0 1 false, .emplace 1 .a 5 true, .moveAssign 1 0 false,
       .moveAssign 0 1 true, .swap 0 1 false false false, .destroy 0] =
    .ok (rep (stdRun plainCfg ⟨fun _ => false, fun _ => true⟩ plainEnv (fun _ => none)
      [.new 0 .copy .a 1 false, .new 1 .move .b 2 false, .copyAssign 0 1 false, .emplace 1 .a 5 true, .moveAssign 1 0 false,
       .moveAssign 0 1 true, .swap 0 1 false false false, .destroy 0]).1,
      [false, false, false, true, false, true, false, false]) :=
  like_std_partial (by simp [LegalCfg, plainCfg]) (by simp [Faithful, plainEnv]) (by simp [plainCfg]) (by simp [Legal])
    (by simp [Op.swapThrows]) (by simp [Op.copyAssignThrows])

/-- **C71, refuted.** Elements that may throw when copied but not when moved: after a copy assignment that throws, a `std::variant` still
holds its old value, a `variant2` has lost it. -/
theorem like_std_refuted : ∃ σ,
    runLog plainCfg plainEnv (fun _ => none) [.new 0 .copy .a 1 false, .new 1 .copy .b 2 false, .copyAssign 0 1 true] =
      .ok (σ, [false, false, true]) ∧
    (σ 0).map valuelessByException = some true ∧
    (stdRun plainCfg ⟨fun _ => false, fun _ => true⟩ plainEnv (fun _ => none)
      [.new 0 .copy .a 1 false, .new 1 .copy .b 2 false, .copyAssign 0 1 true]).2 = [false, false, true] ∧
    (stdRun plainCfg ⟨fun _ => false, fun _ => true⟩ plainEnv (fun _ => none)
      [.new 0 .copy .a 1 false, .new 1 .copy .b 2 false, .copyAssign 0 1 true]).1 0 = some (some (.a, 1)) :=
  ⟨_, rfl, rfl, rfl, rfl⟩

/-- **C71, refuted.** The same for the assignment of an lvalue of the other alternative. -/
theorem like_std_set_refuted : ∃ σ,
    runLog plainCfg plainEnv (fun _ => none) [.new 0 .copy .a 1 false, .set 0 .copy .b 2 true] = .ok (σ, [false, true]) ∧
    (σ 0).map valuelessByException = some true ∧
    (stdRun plainCfg ⟨fun _ => false, fun _ => true⟩ plainEnv (fun _ => none)
      [.new 0 .copy .a 1 false, .set 0 .copy .b 2 true]).1 0 = some (some (.a, 1)) :=
  ⟨_, rfl, rfl, rfl⟩

end Verif.Variant2
