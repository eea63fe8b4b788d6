import Verif.Variant2.AliasModel

/-! Property C91: assigning a variant from something inside of it; destructors that throw. -/
namespace Verif.Variant2

variable {V : Type}

/-! ### Specification

A variant inside of a variant is a strict descendant. -/

/-- `o` is a descendant of `t` (at depth at least one). -/
inductive Inside : Tree V → Tree V → Prop where
  | kid {x : Alt} {v : V} {ks : List (Tree V)} {o : Tree V} : o ∈ ks → Inside o (.node x v ks)
  | deep {x : Alt} {v : V} {ks : List (Tree V)} {o k : Tree V} : k ∈ ks → Inside o k → Inside o (.node x v ks)

/-- The positions lead exactly to the variants inside. -/
theorem at_inside (t o : Tree V) : (∃ i p, t.at (i :: p) = some o) ↔ Inside o t := by
  constructor
  · rintro ⟨i, p, h⟩
    induction p generalizing t i with
    | nil =>
      cases t with
      | valueless => simp [Tree.at, Tree.kids] at h
      | node x v ks =>
        simp only [Tree.at, Tree.kids] at h
        cases hk : ks[i]? with
        | none => simp [hk] at h
        | some k =>
          simp only [hk] at h
          obtain rfl : k = o := by simpa using h
          exact .kid (List.mem_of_getElem? hk)
    | cons j p ih =>
      cases t with
      | valueless => simp [Tree.at, Tree.kids] at h
      | node x v ks =>
        rw [Tree.at] at h
        simp only [Tree.kids] at h
        cases hk : ks[i]? with
        | none => simp [hk] at h
        | some k =>
          simp only [hk] at h
          exact .deep (List.mem_of_getElem? hk) (ih k j h)
  · intro h
    induction h with
    | kid hm =>
      obtain ⟨i, hi⟩ := List.getElem?_of_mem hm
      exact ⟨i, [], by simp [Tree.at, Tree.kids, hi]⟩
    | deep hm _ ih =>
      obtain ⟨i, hi⟩ := List.getElem?_of_mem hm
      obtain ⟨j, p, hp⟩ := ih
      exact ⟨i, j :: p, by rw [Tree.at]; simp only [Tree.kids, hi]; exact hp⟩

/-- The alternative of a variant. -/
def Tree.alt : Tree V → Option Alt
  | .valueless => none
  | .node x _ _ => some x

/-- Copy and move assignment from a variant that is not inside gives that variant's alternative and value, whatever either of
them holds. -/
theorem assign_outside (keeps : Alt → Bool) (t o : Tree V) : assignOutside keeps t o = .ok o.var := by
  cases t with
  | valueless => cases o with
    | valueless => rfl
    | node y w ls => cases y <;> rfl
  | node x v ks => cases o with
    | valueless => cases x <;> rfl
    | node y w ls => cases x <;> cases y <;> simp [assignOutside, Run.assign, Run.srcDisc, Run.body, Tree.var, Alt.disc, Run.assignFrom,
        Run.srcMember, readAs, Except.bind, Run.destroyOwn, destroyAs, Run.constructFrom, constructAs]

private theorem assign_inside_aux (keeps : Alt → Bool) (x : Alt) (v : V) (ks : List (Tree V)) (o : Tree V) :
    Run.assign keeps ⟨(Tree.node x v ks).var, some o.var, true⟩ =
      if o.alt = some x ∧ keeps x = true then .ok o.var else .error .readDead := by
  cases o with
  | valueless => cases x <;> simp [Run.assign, Run.srcDisc, Run.body, Tree.var, Alt.disc, Tree.alt, Except.bind, Run.destroyOwn,
      destroyAs]
  | node y w ls =>
    cases x <;> cases y <;> simp [Run.assign, Run.srcDisc, Run.body, Tree.var, Alt.disc, Run.assignFrom, Run.srcMember, readAs,
      Except.bind, Run.destroyOwn, destroyAs, Run.constructFrom, Tree.alt]
    · cases hk : keeps .a <;> simp
    · cases hk : keeps .b <;> simp

/-- Assigning from a variant inside works exactly if that holds the same alternative and the assignment of the elements does not
destroy the variants the element owned; then it gives that variant. Otherwise the code reads an object that it has
destroyed. -/
theorem assign_inside (keeps : Alt → Bool) (t o : Tree V) (p : List Nat) (hp : p ≠ []) (ho : t.at p = some o) :
    assignInside keeps t p =
      some (if o.alt = t.alt ∧ (∀ x, t.alt = some x → keeps x = true) then .ok o.var else .error .readDead) := by
  cases t with
  | valueless => cases p with
    | nil => exact absurd rfl hp
    | cons i p => simp [Tree.at, Tree.kids] at ho
  | node x v ks =>
    simp only [assignInside, ho, Option.map_some, assign_inside_aux]
    have ht : (Tree.node x v ks).alt = some x := rfl
    rw [ht]
    by_cases h1 : o.alt = some x <;> by_cases h2 : keeps x = true <;> simp [h1, h2]

/-- A list of two nodes of the same alternative, whose second node is assigned to the list. -/
example : Tree.at (V := Nat) (.node .b 1 [.node .b 2 []]) [0] = some (.node .b 2 []) ∧
    Tree.alt (V := Nat) (.node .b 1 [.node .b 2 []]) = some .b := ⟨rfl, rfl⟩

/-- "Assigning to a variant from a variant inside of it gives the value that had" is false: dropping the first node of a list with
`list = std::move(*get<Node>(list).next)` reads the discriminant of the second node after it has been destroyed, however long
the list, whenever the assignment of nodes destroys the variants the node owned (as that of a `std::unique_ptr` does). -/
theorem assign_inside_refuted (keeps : Alt → Bool) (x : Alt) (hk : keeps x = false) (v : V) (o : Tree V) :
    Inside o (.node x v [o]) ∧ assignInside keeps (.node x v [o]) [0] = some (.error .readDead) := by
  refine ⟨.kid (by simp), ?_⟩
  rw [assign_inside keeps _ o [0] (by simp) rfl]
  simp [Tree.alt, hk]

example : (fun _ => false : Alt → Bool) .b = false := rfl

/-- `std::variant` gives the value in exactly the case the list needs: the same alternative, whatever the elements do. -/
theorem std_assign_inside (keeps : Alt → Bool) (t o : Tree V) (p : List Nat) (hp : p ≠ []) (ho : t.at p = some o)
    (h : o.alt = t.alt) : stdAssignInside keeps t p = some (.ok o.var) := by
  cases t with
  | valueless => cases p with
    | nil => exact absurd rfl hp
    | cons i p => simp [Tree.at, Tree.kids] at ho
  | node x v ks =>
    simp only [stdAssignInside, ho, Option.map_some]
    cases o with
    | valueless => simp [Tree.alt] at h
    | node y w ls =>
      obtain rfl : y = x := by simpa [Tree.alt] using h
      cases y <;> simp [Run.stdAssign, Run.srcDisc, Run.body, Tree.var, Alt.disc, Run.assignFrom, Run.srcMember, readAs, Except.bind]

example : Tree.at (V := Nat) (.node .b 1 [.node .b 2 []]) [0] = some (.node .b 2 []) ∧
    Tree.alt (V := Nat) (.node .b 2 []) = Tree.alt (V := Nat) (.node .b 1 [.node .b 2 []]) := ⟨rfl, rfl⟩

/-- What `std::variant` does in all cases: it gives the value, also if the variant inside is valueless; only with a different alternative it reads what it has
destroyed. -/
theorem std_assign_inside_exact (keeps : Alt → Bool) (t o : Tree V) (p : List Nat) (hp : p ≠ []) (ho : t.at p = some o) :
    stdAssignInside keeps t p = some (if o.alt = none ∨ o.alt = t.alt then .ok o.var else .error .readDead) := by
  cases t with
  | valueless => cases p with
    | nil => exact absurd rfl hp
    | cons i p => simp [Tree.at, Tree.kids] at ho
  | node x v ks =>
    simp only [stdAssignInside, ho, Option.map_some]
    cases o with
    | valueless =>
      cases x <;> simp [Run.stdAssign, Run.srcDisc, Run.body, Tree.var, Tree.alt, Alt.disc, Run.destroyOwn, destroyAs, Except.bind]
    | node y w ls =>
      cases x <;> cases y <;>
        simp [Run.stdAssign, Run.srcDisc, Run.body, Tree.var, Tree.alt, Alt.disc, Run.assignFrom, Run.srcMember, Run.destroyOwn, destroyAs, Run.constructFrom,
          readAs, Except.bind]

example : Tree.at (V := Nat) (.node .b 1 [.valueless]) [0] = some .valueless := rfl

/-- And with a different alternative, whatever the elements do. -/
theorem assign_inside_alt_refuted (keeps : Alt → Bool) (t o : Tree V) (p : List Nat) (hp : p ≠ []) (ho : t.at p = some o)
    (h : o.alt ≠ t.alt) : assignInside keeps t p = some (.error .readDead) := by
  rw [assign_inside keeps t o p hp ho]; simp [h]

example : Tree.at (V := Nat) (.node .b 1 [.node .a 2 []]) [0] = some (.node .a 2 []) ∧
    Tree.alt (V := Nat) (.node .a 2 []) ≠ Tree.alt (V := Nat) (.node .b 1 [.node .a 2 []]) := ⟨rfl, by decide⟩

/-- Value assignment with a value that is not inside. -/
theorem assign_value_outside (t : Tree V) (x : Alt) (e : Elem V) :
    (Run.outside t e).assignValue x = .ok (Tree.node x e.1 e.2).var := by
  cases t with
  | valueless => cases x <;> rfl
  | node y v ks => cases x <;> cases y <;> simp [Run.outside, Run.assignValue, Tree.var, Alt.disc, Run.srcValue, readAs, Except.bind,
      Run.destroyOwn, destroyAs, Run.constructValue, constructAs]

/-- Value assignment with an element inside (or the element of the variant itself) works exactly if the variant holds the
alternative of the element; then it gives the value that had. Otherwise the code reads an object that it has destroyed. -/
theorem assign_value_within (t o : Tree V) (p : List Nat) (ho : t.at p = some o) (x : Alt) (v : V) (ks : List (Tree V))
    (he : o = .node x v ks) :
    ∃ r, Run.within t p = some (x, r) ∧
      r.assignValue x = if t.alt = some x then .ok o.var else .error .readDead := by
  subst he
  refine ⟨⟨t.var, some (v, ks), true⟩, by simp [Run.within, ho, Tree.elem], ?_⟩
  cases t with
  | valueless => cases p with
    | nil => simp [Tree.at] at ho
    | cons i p => simp [Tree.at, Tree.kids] at ho
  | node y w ls => cases x <;> cases y <;> simp [Run.assignValue, Tree.var, Alt.disc, Run.srcValue, readAs, Except.bind,
      Run.destroyOwn, destroyAs, Run.constructValue, Tree.alt]

example : ∃ (t o : Tree Nat) (p : List Nat), t.at p = some o ∧ o = .node .a 2 [] ∧ t.alt = some .b :=
  ⟨.node .b 1 [.node .a 2 []], .node .a 2 [], [0], rfl, rfl, rfl⟩

/-- `emplace` with arguments that are not inside. -/
theorem emplace_outside (t : Tree V) (x : Alt) (e : Elem V) :
    (Run.outside t e).emplace x = .ok (Tree.node x e.1 e.2).var := by
  cases t with
  | valueless => cases x <;> rfl
  | node y v ks => cases x <;> cases y <;> simp [Run.outside, Run.emplace, Tree.var, Alt.disc, Run.srcValue, Except.bind,
      Run.destroyOwn, destroyAs, Run.constructValue, constructAs]

/-- `emplace` with an element inside, or with the element of the variant itself, always reads an object that the code has
destroyed, also if the alternative does not change. -/
theorem emplace_within_refuted (t : Tree V) (p : List Nat) (x y : Alt) (r : Run V (Elem V)) (h : Run.within t p = some (y, r)) :
    r.emplace x = .error .readDead := by
  cases ho : t.at p with
  | none => simp [Run.within, ho] at h
  | some o =>
    cases o with
    | valueless => simp [Run.within, ho, Tree.elem] at h
    | node z v ks =>
      have hr : r = ⟨t.var, some (v, ks), true⟩ := by
        simp only [Run.within, ho, Tree.elem, Option.map_some, Option.some.injEq, Prod.mk.injEq] at h
        exact h.2.symm
      subst hr
      cases t with
      | valueless => cases p with
        | nil => simp [Tree.at] at ho
        | cons i p => simp [Tree.at, Tree.kids] at ho
      | node w u ls => cases x <;> cases w <;> simp [Run.emplace, Tree.var, Alt.disc, Run.srcValue, Except.bind,
          Run.destroyOwn, destroyAs, Run.constructValue]

example : ∃ r, Run.within (V := Nat) (.node .a 1 []) [] = some (.a, r) := ⟨_, rfl⟩

/-! ### Destructors that throw -/

variable {W : Type}

/-- The discriminant tells what lives in the storage. -/
def Sound (s : Var W) : Prop :=
  match s.disc with
  | .first => ∃ w, s.store = some (.a, w)
  | .second => ∃ w, s.store = some (.b, w)
  | .valueless => s.store = none

/-- If a destructor throws during `emplace`, the variant is valueless and can be used and destroyed. -/
theorem emplace_dtor_threw (s : Var W) (hs : Sound s) (x : Alt) (w : W) (dthr : Bool) :
    emplaceDtor s x w dthr =
      .ok (if dthr ∧ s.disc ≠ .valueless then (⟨.valueless, none⟩, true) else (⟨x.disc, some (x, w)⟩, false)) := by
  obtain ⟨d, st⟩ := s
  cases d with
  | valueless =>
    simp only [Sound] at hs; subst hs
    simp [emplaceDtor, tryConstruct, constructAs, Except.bind]
  | first =>
    simp only [Sound] at hs; obtain ⟨u, rfl⟩ := hs
    cases dthr <;> simp [emplaceDtor, tryConstruct, constructAs, Except.bind, destroyAs]
  | second =>
    simp only [Sound] at hs; obtain ⟨u, rfl⟩ := hs
    cases dthr <;> simp [emplaceDtor, tryConstruct, constructAs, Except.bind, destroyAs]

example : Sound (W := Nat) ⟨.second, some (.b, 3)⟩ := ⟨3, rfl⟩

/-- "The discriminant always tells what lives in the storage" is false if destructors throw: after an assignment of another
alternative whose destructor call threw, the destructor of the variant destroys the dead object again. -/
theorem assign_dtor_threw_refuted (cfg : Cfg) (hc : cfg.trivDtor = false) (s : Var W) (hs : Sound s) (hv : s.disc ≠ .valueless)
    (y : Option (Alt × W)) :
    ∃ s', assignDtor s y true = .ok (s', true) ∧ ¬ Sound s' ∧ dtor cfg s' = .error .destroyDead := by
  obtain ⟨d, st⟩ := s
  cases d with
  | valueless => exact absurd rfl hv
  | first =>
    simp only [Sound] at hs; obtain ⟨u, rfl⟩ := hs
    exact ⟨⟨.first, none⟩, by simp [assignDtor, destroyAs, Except.bind], by simp [Sound], by simp [dtor, hc, destroyAs, Except.bind]⟩
  | second =>
    simp only [Sound] at hs; obtain ⟨u, rfl⟩ := hs
    exact ⟨⟨.second, none⟩, by simp [assignDtor, destroyAs, Except.bind], by simp [Sound], by simp [dtor, hc, destroyAs, Except.bind]⟩

example : Sound (W := Nat) ⟨.first, some (.a, 3)⟩ ∧ (⟨.first, some (.a, 3)⟩ : Var Nat).disc ≠ .valueless := ⟨⟨3, rfl⟩, by decide⟩

/-- If no destructor throws, it gives the assigned variant. -/
theorem assign_dtor_ok (s : Var W) (hs : Sound s) (y : Option (Alt × W)) :
    ∃ s', assignDtor s y false = .ok (s', false) ∧ Sound s' ∧ s'.store = y := by
  obtain ⟨d, st⟩ := s
  cases d with
  | valueless =>
    simp only [Sound] at hs; subst hs
    cases y with
    | none => exact ⟨_, rfl, rfl, rfl⟩
    | some q => obtain ⟨x, w⟩ := q; cases x <;> exact ⟨_, rfl, ⟨w, rfl⟩, rfl⟩
  | first =>
    simp only [Sound] at hs; obtain ⟨u, rfl⟩ := hs
    cases y with
    | none => exact ⟨_, rfl, rfl, rfl⟩
    | some q => obtain ⟨x, w⟩ := q; cases x <;> exact ⟨_, rfl, ⟨w, rfl⟩, rfl⟩
  | second =>
    simp only [Sound] at hs; obtain ⟨u, rfl⟩ := hs
    cases y with
    | none => exact ⟨_, rfl, rfl, rfl⟩
    | some q => obtain ⟨x, w⟩ := q; cases x <;> exact ⟨_, rfl, ⟨w, rfl⟩, rfl⟩

end Verif.Variant2
