import Verif.Inplace.AliasModel

/-! Property C91, for `inplace_polymorphic`: assigning from something inside. -/
namespace Verif.Inplace

variable {V : Type}

/-- Assignment from an object that is not inside transfers dynamic type and value; with classes that are all trivially
destructible this needs a source with a value (C32). -/
theorem tree_assign_outside (cfg : Cfg) (hn : cfg.ndebug = true) (t o : Tree V)
    (h : cfg.trivDtor = false ∨ o.obj.valueless = false) : assignTree cfg t o false = .ok o.obj := by
  cases ht : cfg.trivDtor <;> cases t <;> cases o <;>
    simp_all [assignTree, dropWith, Tree.obj, drop, Except.bind, copyFrom, assert, tryNew, placeNew]

example : (Tree.node (V := Nat) 1 5 [.node 0 2 []]).obj.valueless = false := rfl

/-- Assignment from an object inside (reached by nonempty positions) always reads an object the code has destroyed, if the
classes are not all trivially destructible. -/
theorem tree_assign_inside_refuted (cfg : Cfg) (hd : cfg.trivDtor = false) (t o : Tree V) (p : List Nat) (hp : p ≠ [])
    (ho : t.at p = some o) : assignTree cfg t o true = .error .deadAccess := by
  cases t with
  | valueless => cases p with
    | nil => exact absurd rfl hp
    | cons i p => simp [Tree.at, Tree.kids] at ho
  | node k v ks => simp [assignTree, dropWith, Tree.obj, drop, hd, Except.bind]

example : Tree.at (V := Nat) (.node 0 1 [.node 0 2 []]) [0] = some (.node 0 2 []) := rfl

/-- `emplace` with arguments that are not inside. -/
theorem tree_emplace_outside (cfg : Cfg) (t : Tree V) (k : Nat) (arg : V × List (Tree V)) :
    emplaceFrom cfg t k arg false = .ok (Tree.node k arg.1 arg.2).obj := by
  cases ht : cfg.trivDtor <;> cases t <;>
    simp_all [emplaceFrom, dropWith, Tree.obj, drop, Except.bind, tryNew, placeNew]

/-- `emplace` with an argument inside, for instance a member of the object held, always reads an object whose lifetime is
over. -/
theorem tree_emplace_inside_refuted (cfg : Cfg) (t : Tree V) (k : Nat) (arg : V × List (Tree V)) :
    emplaceFrom cfg t k arg true = .error .deadAccess := by
  cases ht : cfg.trivDtor <;> cases t <;> simp_all [emplaceFrom, dropWith, Tree.obj, drop, Except.bind]

end Verif.Inplace
