import Verif.Inplace.Model

/-!
Model of the assignments and of `emplace` of `inplace_polymorphic` when the argument lives inside the object it is assigned to
(inplace_polymorphic.hpp:78-119, 180-207, 222-231). As in `Verif.Inplace.Model`, without exceptions and without assertions
(`NDEBUG`); the objects of the derived classes own further `inplace_polymorphic`s, which are destroyed with them.
-/
namespace Verif.Inplace

/-- An `inplace_polymorphic` with everything it owns (inplace_polymorphic.hpp:75-76). -/
inductive Tree (V : Type) where
  | valueless
  | node (k : Nat) (v : V) (kids : List (Tree V))

variable {V : Type}

/-- The object as the code sees it (inplace_polymorphic.hpp:75-76). -/
def Tree.obj : Tree V → Obj (V × List (Tree V))
  | .valueless => ⟨none, true⟩
  | .node k v ks => ⟨some (k, v, ks), false⟩

/-- The `inplace_polymorphic`s owned by the held object (inplace_polymorphic.hpp:75). -/
def Tree.kids : Tree V → List (Tree V)
  | .valueless => []
  | .node _ _ ks => ks

/-- The one one gets to by following, from child to child, the given positions (inplace_polymorphic.hpp:75). -/
def Tree.at (t : Tree V) : List Nat → Option (Tree V)
  | [] => some t
  | i :: p => match t.kids[i]? with
    | none => none
    | some k => k.at p

/-- `drop()` with what the argument refers to: if that is owned by the object dropped, it is destroyed with it
(inplace_polymorphic.hpp:78-87). -/
def dropWith {S : Type} (cfg : Cfg) (o : Obj (V × List (Tree V))) (src : S) (inside : Bool) :
    Except Err (Obj (V × List (Tree V)) × Option S) :=
  (drop cfg o).bind fun o' => .ok (o', if inside && !cfg.trivDtor then none else some src)

/-- Copy and move assignment from a different object: `drop()`, then `copy_from(other)` / `move_from(std::move(other))`, which
reads `other.valueless_` (inplace_polymorphic.hpp:97-119, 185-187, 204-206). -/
def assignTree (cfg : Cfg) (t o : Tree V) (inside : Bool) : Except Err (Obj (V × List (Tree V))) :=
  (dropWith cfg t.obj o inside).bind fun p => match p.2 with
    | none => .error .deadAccess
    | some o => (copyFrom cfg p.1 o.obj false).bind fun q => .ok q.1

/-- `emplace<T>(arg)` with a `T` that takes over the value of the object `arg` refers to (inplace_polymorphic.hpp:222-231). If all
classes are trivially destructible `drop()` does nothing, but the new object is created in the storage of the old one, which ends
its lifetime before the constructor reads `arg`. -/
def emplaceFrom (cfg : Cfg) (t : Tree V) (k : Nat) (arg : V × List (Tree V)) (inside : Bool) :
    Except Err (Obj (V × List (Tree V))) :=
  (dropWith cfg t.obj arg inside).bind fun p => match p.2 with
    | none => .error .deadAccess
    | some a => if inside then .error .deadAccess
      else (tryNew cfg (cfg.noexceptCtor k) p.1 k a false).bind fun q => .ok q.1

end Verif.Inplace
